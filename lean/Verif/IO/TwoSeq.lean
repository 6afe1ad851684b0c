import Verif.IO.Props

set_option linter.unusedSectionVars false
set_option linter.unusedVariables false

/-!
`write2SeqToFile` of `include/pargeo/IO.h` (property C39): two sequences in one file.
-/

namespace Verif.IO

/-- `include/pargeo/IO.h:212-226` (`write2SeqToFile`): the file. The header line is written even if it is empty, and nothing
is read from the sequences beforehand. -/
def write2SeqToFile {A B : Type} (p : Printer A) (q : Printer B) (b : ℕ) (schedA : List A → List (ℕ × (ℕ × Char)))
    (schedB : List B → List (ℕ × (ℕ × Char))) (header : List Char) (L : List A) (M : List B) : Except Err (List Char) :=
  (writeSeq p (fun _ => '\n') schedA (chunks b L.length L)).bind fun R =>
    (writeSeq q (fun _ => '\n') schedB (chunks b M.length M)).map fun S => header ++ ['\n'] ++ R ++ S

/-- The text of a sequence, empty or not. -/
theorem writeSeq_text {A : Type} (p : Printer A) {b : ℕ} (hb : 0 < b) (L : List A) {T : A → List Char}
    (hp : ∀ a ∈ L, Prints p a (T a)) {sched : List A → List (ℕ × (ℕ × Char))}
    (hW : ∀ c, IsShuffle (task p (fun _ => '\n') c) (c.length - 1) (sched c)) :
    writeSeq p (fun _ => '\n') sched (chunks b L.length L) = .ok (L.flatMap fun a => T a ++ ['\n']) := by
  obtain ⟨h1, h2⟩ := chunks_ok hb L.length L (le_refl _)
  rw [writeSeq_lines p _ h2 (T := T) _ hW, h1]
  intro c hc a ha
  apply hp
  rw [← h1]
  exact List.mem_flatten.mpr ⟨c, hc, ha⟩

/-- C39: the words of a file of two sequences are the header and the texts of the elements of the first and the second
sequence, in order, for every pair of sequences (empty or not) whose elements are printed as words, every chunk size and
every execution of the parallel loops. -/
theorem c39_two_words {A B : Type} (p : Printer A) (q : Printer B) {b : ℕ} (hb : 0 < b) {header : List Char}
    (hh : Word header) (L : List A) (M : List B) {T : A → List Char} {U : B → List Char}
    (hp : ∀ a ∈ L, Prints p a (T a)) (hq : ∀ a ∈ M, Prints q a (U a)) (hT : ∀ a ∈ L, Word (T a)) (hU : ∀ a ∈ M, Word (U a))
    {schedA : List A → List (ℕ × (ℕ × Char))} {schedB : List B → List (ℕ × (ℕ × Char))}
    (hA : ∀ c, IsShuffle (task p (fun _ => '\n') c) (c.length - 1) (schedA c))
    (hB : ∀ c, IsShuffle (task q (fun _ => '\n') c) (c.length - 1) (schedB c)) :
    ∃ S, write2SeqToFile p q b schedA schedB header L M = .ok S ∧ readWords S = header :: (L.map T ++ M.map U) := by
  unfold write2SeqToFile
  rw [writeSeq_text p hb L hp hA, writeSeq_text q hb M hq hB]
  refine ⟨_, rfl, ?_⟩
  unfold readWords
  rw [stringToWords_words]
  show wordsOf (header ++ ['\n'] ++ _ ++ _) = _
  rw [List.append_assoc, List.append_assoc, List.singleton_append,
    wordsOf_append_cons _ _ (by decide), wordsOf_word hh.1 hh.2]
  have e : (L.flatMap fun a => T a ++ ['\n']) ++ (M.flatMap fun a => U a ++ ['\n']) =
      (L.map T ++ M.map U).flatMap fun w => w ++ ['\n'] := by
    rw [List.flatMap_append, List.flatMap_map, List.flatMap_map]
  rw [e, wordsOf_lines, wordsOf_words]
  · rfl
  · intro w hw
    rcases List.mem_append.1 hw with hw | hw
    · obtain ⟨a, ha, rfl⟩ := List.mem_map.1 hw
      exact hT a ha
    · obtain ⟨a, ha, rfl⟩ := List.mem_map.1 hw
      exact hU a ha

/-- C39: two integer sequences under the header of an integer file are read back as one, the second behind the first: the
file does not tell where the first one ends. -/
theorem c39_two_ints (L M : List ℤ) (hL : ∀ z ∈ L ++ M, -2 ^ 63 ≤ z ∧ z < 2 ^ 63) {b : ℕ} (hb : 0 < b)
    {schedA schedB : List ℤ → List (ℕ × (ℕ × Char))}
    (hA : ∀ c, IsShuffle (task longP (fun _ => '\n') c) (c.length - 1) (schedA c))
    (hB : ∀ c, IsShuffle (task longP (fun _ => '\n') c) (c.length - 1) (schedB c)) :
    (write2SeqToFile longP longP b schedA schedB intHeader L M).bind readIntSeq = .ok (L ++ M) := by
  have hp : ∀ z ∈ L ++ M, Prints longP z (intText z) := fun z hz => by
    apply scalar_prints
    · have h1 := hL z hz
      have := intText_length (z := z) (k := 19) (by omega) (by omega)
      omega
    · exact (intText_ok z).2
  obtain ⟨S, h1, h2⟩ := c39_two_words longP longP hb (header := intHeader) ⟨by decide, by decide⟩ L M
    (fun a ha => hp a (List.mem_append_left _ ha)) (fun a ha => hp a (List.mem_append_right _ ha))
    (fun a _ => intText_ok a) (fun a _ => intText_ok a) hA hB
  rw [h1]
  simp only [Except.bind]
  unfold readWords at h2
  rw [stringToWords_words] at h2
  unfold readIntSeq
  rw [h2]
  simp only [if_true]
  apply congrArg Except.ok
  rw [← List.map_append, List.map_map]
  conv_rhs => rw [← List.map_id (L ++ M)]
  apply List.map_congr_left
  intro z _
  exact charsToLong_intText z

/-- A concrete file, in chunks of two, and one whose first sequence is empty. -/
example : (write2SeqToFile longP longP 2 (fun c => seqTasks (task longP (fun _ => '\n') c) (c.length - 1))
      (fun c => seqTasks (task longP (fun _ => '\n') c) (c.length - 1)) intHeader [5, -120, 0] [7]) =
        .ok "sequenceInt\n5\n-120\n0\n7\n".toList ∧
    (write2SeqToFile longP longP 2 (fun c => seqTasks (task longP (fun _ => '\n') c) (c.length - 1))
      (fun c => seqTasks (task longP (fun _ => '\n') c) (c.length - 1)) intHeader [] [7]) =
        .ok "sequenceInt\n7\n".toList := by decide +kernel

end Verif.IO
