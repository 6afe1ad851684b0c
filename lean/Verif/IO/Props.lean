import Verif.IO.Lemmas

set_option linter.unusedSectionVars false
set_option linter.unusedVariables false

/-!
C39 and C52: text files. Words of a text, printing and reading back, the dimension in a point file.
-/

namespace Verif.IO

/-! ### Specification -/

/-- `ws` are the maximal runs of characters that are not separators, in order: separators, a first word that
ends at the end of the text or before a separator, and the words of the rest. -/
def IsWords : List Char → List (List Char) → Prop
  | S, [] => ∀ c ∈ S, isSpace c = true
  | S, w :: ws => ∃ s T, S = s ++ w ++ T ∧ (∀ c ∈ s, isSpace c = true) ∧ w ≠ [] ∧ (∀ c ∈ w, isSpace c = false) ∧
      (T = [] ∨ ∃ c T', T = c :: T' ∧ isSpace c = true) ∧ IsWords T ws

/-- A word: not empty and without separators. -/
def Word (w : List Char) : Prop := w ≠ [] ∧ ∀ c ∈ w, isSpace c = false

/-- What a reader of a text gets: the C strings at the offsets that `stringToWords` returns. -/
def readWords (S : List Char) : List (List Char) := (stringToWords S).2.map (textAt (stringToWords S).1)

theorem takeWhile_all (p : Char → Bool) (S : List Char) : ∀ c ∈ S.takeWhile p, p c = true := by
  induction S with
  | nil => simp
  | cons x S ih =>
    intro c hc
    rw [List.takeWhile_cons] at hc
    split at hc
    · rename_i hx
      rw [List.mem_cons] at hc
      rcases hc with rfl | hc
      · exact hx
      · exact ih c hc
    · simp at hc

theorem isWords_wordsOf (S : List Char) : IsWords S (wordsOf S) := by
  induction hn : S.length using Nat.strong_induction_on generalizing S with
  | _ n ih =>
    set s := S.takeWhile isSpace with hs
    set R := S.dropWhile isSpace with hR
    have hSR : S = s ++ R := (List.takeWhile_append_dropWhile).symm
    have hsp : ∀ c ∈ s, isSpace c = true := fun c hc => by
      have := takeWhile_all _ _ c hc
      exact this
    have hdrop : ∀ (s : List Char), (∀ c ∈ s, isSpace c = true) → ∀ R, wordsOf (s ++ R) = wordsOf R := by
      intro s
      induction s with
      | nil => intro _ R; rfl
      | cons c s ih =>
        intro h R
        rw [List.cons_append, wordsOf_cons (h c (by simp)), ih (fun c hc => h c (by simp [hc]))]
    have hwS : wordsOf S = wordsOf R := by
      conv_lhs => rw [hSR]
      exact hdrop s hsp R
    cases hRc : R with
    | nil =>
      rw [hwS, hRc]
      show ∀ c ∈ S, isSpace c = true
      rw [hSR, hRc, List.append_nil]
      exact hsp
    | cons x R' =>
      have hx : isSpace x = false := by
        have := List.head_dropWhile_not isSpace (l := S) (by rw [← hR, hRc]; simp)
        simp only [← hR, hRc, List.head_cons] at this
        simpa using this
      set w := R.takeWhile (fun c => !isSpace c) with hw
      set T := R.dropWhile (fun c => !isSpace c) with hT
      have hRw : R = w ++ T := (List.takeWhile_append_dropWhile).symm
      have hw0 : w ≠ [] := by
        rw [hw, hRc, List.takeWhile_cons, hx]
        simp
      have hwc : ∀ c ∈ w, isSpace c = false := fun c hc => by
        have := takeWhile_all _ _ c hc
        simpa using this
      have hTc : T = [] ∨ ∃ c T', T = c :: T' ∧ isSpace c = true := by
        cases hTc : T with
        | nil => exact Or.inl rfl
        | cons c T' =>
          right
          refine ⟨c, T', rfl, ?_⟩
          have := List.head_dropWhile_not (fun c => !isSpace c) (l := R) (by rw [← hT, hTc]; simp)
          simp only [← hT, hTc, List.head_cons] at this
          simpa using this
      have hwR : wordsOf R = w :: wordsOf T := by
        rcases hTc with h0 | ⟨c, T', h0, hc⟩
        · rw [hRw, h0, List.append_nil, wordsOf_word hw0 hwc, wordsOf_nil]
        · rw [hRw, h0, wordsOf_append_cons _ _ hc, wordsOf_word hw0 hwc, wordsOf_cons hc]
          rfl
      rw [hwS, hwR]
      refine ⟨s, T, ?_, hsp, hw0, hwc, hTc, ih T.length ?_ T rfl⟩
      · rw [List.append_assoc, ← hRw]
        exact hSR
      · have : 0 < w.length := List.length_pos_iff.mpr hw0
        rw [← hn, hSR, hRw]
        simp only [List.length_append]
        omega

/-! ### C39: words -/

/-- C39: for every text, the C strings at the offsets that `stringToWords` returns are the maximal runs of
characters that are not separators, in order. -/
theorem c39_words (S : List Char) : IsWords S (readWords S) := by
  unfold readWords
  rw [stringToWords_words]
  exact isWords_wordsOf S

/-- Runs of separators of different kinds, at the ends and between the words. -/
example : readWords " \tab,;c\n\n-1.5e3\r\n".toList = ["ab".toList, "c".toList, "-1.5e3".toList] := by
  decide +kernel

/-- C39: there is only one list of maximal runs. -/
theorem c39_words_unique (S : List Char) (ws vs : List (List Char)) (hw : IsWords S ws) (hv : IsWords S vs) :
    ws = vs := by
  have aux : ∀ (ws : List (List Char)) (S : List Char), IsWords S ws → ws = wordsOf S := by
    intro ws
    induction ws with
    | nil =>
      intro S h
      have : ∀ (S : List Char), (∀ c ∈ S, isSpace c = true) → wordsOf S = [] := by
        intro S
        induction S with
        | nil => intro _; rfl
        | cons c S ih => intro h; rw [wordsOf_cons (h c (by simp)), ih fun c hc => h c (by simp [hc])]
      exact (this S h).symm
    | cons w ws ih =>
      rintro S ⟨s, T, rfl, h2, h3, h4, h5, h6⟩
      have hdrop : ∀ (s : List Char), (∀ c ∈ s, isSpace c = true) → ∀ R, wordsOf (s ++ R) = wordsOf R := by
        intro s
        induction s with
        | nil => intro _ R; rfl
        | cons c s ih =>
          intro h R
          rw [List.cons_append, wordsOf_cons (h c (by simp)), ih (fun c hc => h c (by simp [hc]))]
      rw [List.append_assoc, hdrop s h2]
      rw [ih T h6]
      rcases h5 with rfl | ⟨c, T', rfl, hc⟩
      · rw [List.append_nil, wordsOf_word h3 h4, wordsOf_nil]
      · rw [wordsOf_append_cons _ _ hc, wordsOf_word h3 h4, wordsOf_cons hc]
        rfl
  rw [aux ws S hw, aux vs S hv]

/-- Both lists exist: the hypotheses are met by the words of a text. -/
example : IsWords "a b".toList ["a".toList, "b".toList] :=
  ⟨[], " b".toList, rfl, by simp, by simp, by decide, Or.inr ⟨' ', ['b'], rfl, rfl⟩,
    [' '], [], rfl, by decide, by simp, by decide, Or.inl rfl, by simp [IsWords]⟩

/-- C39: in a text that ends with a separator every word is terminated inside the array, so that reading
it as a C string is defined. -/
theorem c39_terminated (S : List Char) {c : Char} (hc : isSpace c = true) :
    (stringToWords (S ++ [c])).2.mapM (readText (stringToWords (S ++ [c])).1) = .ok (readWords (S ++ [c])) := by
  have h : ∀ o ∈ (stringToWords (S ++ [c])).2, o ≤ S.length := by
    intro o ho
    unfold stringToWords offsets at ho
    rw [List.mem_filter, List.mem_range] at ho
    have := ho.1
    simp [zeroSpaces] at this
    omega
  unfold readWords
  generalize (stringToWords (S ++ [c])).2 = l at h
  have hz : (stringToWords (S ++ [c])).1 = zeroSpaces (S ++ [c]) := rfl
  rw [hz]
  induction l with
  | nil => rfl
  | cons o l ih =>
    rw [List.mapM_cons, readText_ok hc (h o (by simp)), ih fun o ho => h o (by simp [ho])]
    rfl

/-- C39 (the other case): the last word of a text without a separator at the end is not terminated. Reading
it as a C string, as `readPointsFromFile` does, runs past the array. -/
theorem c39_unterminated_ub :
    readWords "1 2".toList = ["1".toList, "2".toList] ∧
    readText (stringToWords "1 2".toList).1 2 = .error .ub ∧
    readPoints (fun w => w) 2 "1 2".toList = .error .ub := by decide +kernel

/-! ### C39: printing -/

/-- Printing of C strings: `include/pargeo/IO.h:121-122`. -/
def stringP : Printer (List Char) := scalar id fun w => w.length + 1

/-- C39: printing a sequence of words and splitting the text gives the words back, whatever the execution of the
parallel loop. -/
theorem c39_strings (L : List (List Char)) (hL : L ≠ []) (hw : ∀ w ∈ L, Word w) {W : List (ℕ × (ℕ × Char))}
    (hW : IsShuffle (task stringP (fun _ => '\n') L) (L.length - 1) W) :
    ∃ T, seqToString stringP (fun _ => '\n') L W = .ok (T ++ [nul]) ∧ readWords T = L := by
  have hp : ∀ w ∈ L, Prints stringP w w := fun w hw' =>
    scalar_prints id (fun w => w.length + 1) w (Nat.le_succ _) (hw w hw').2
  refine ⟨_, seqToString_lines stringP L hL hp hW, ?_⟩
  unfold readWords
  rw [stringToWords_words, wordsOf_lines]
  exact wordsOf_words fun w hw' => hw w hw'

/-- A sequence and an execution. -/
example : ∀ w ∈ ["ab".toList, "c".toList, "-1".toList], Word w := by
  intro w hw
  simp only [List.mem_cons, List.not_mem_nil, or_false] at hw
  rcases hw with rfl | rfl | rfl <;> exact ⟨by simp, by decide⟩

/-- Executions always exist: one task after the other. -/
example (L : List (List Char)) :
    IsShuffle (task stringP (fun _ => '\n') L) (L.length - 1)
      (seqTasks (task stringP (fun _ => '\n') L) (L.length - 1)) :=
  seqTasks_shuffle _ _

/-- The text of a short sequence. -/
example : seqToString stringP (fun _ => '\n') ["ab".toList, "c".toList, "-1".toList]
    (seqTasks (task stringP (fun _ => '\n') ["ab".toList, "c".toList, "-1".toList]) 2) =
    .ok ("ab\nc\n-1\n".toList ++ [nul]) := by decide +kernel

/-- An execution that interleaves two tasks character by character gives the same text. -/
example : IsShuffle (task stringP (fun _ => '\n') ["a".toList, "b".toList, "c".toList]) 2
    [(1, (3, 'b')), (0, (0, 'a')), (1, (4, nul)), (0, (1, nul)), (0, (2, '\n')), (1, (5, '\n'))] ∧
    seqToString stringP (fun _ => '\n') ["a".toList, "b".toList, "c".toList]
      [(1, (3, 'b')), (0, (0, 'a')), (1, (4, nul)), (0, (1, nul)), (0, (2, '\n')), (1, (5, '\n'))] =
      .ok ("a\nb\nc\n".toList ++ [nul]) := by
  constructor
  · constructor
    · decide
    · intro t ht
      rcases t with _ | _ | t
      · decide +kernel
      · decide +kernel
      · omega
  · decide +kernel

/-- C39: an empty sequence is not printable: the loop bound wraps around. -/
theorem c39_empty_ub (W : List (ℕ × (ℕ × Char))) (p : Printer ℤ) :
    seqToString p (fun _ => '\n') [] W = .error .ub := rfl

/-! ### C39: integer files -/

/-- C39: `readIntSeqFromFile` reads back what `writeIntSeqToFile` wrote, for every sequence of 64 bit integers,
every chunk size, and every execution of the parallel loops. -/
theorem c39_int_file (A : List ℤ) (hA : A ≠ []) (hr : ∀ z ∈ A, -2 ^ 63 ≤ z ∧ z < 2 ^ 63) {b : ℕ} (hb : 0 < b)
    {sched : List ℤ → List (ℕ × (ℕ × Char))}
    (hW : ∀ c, IsShuffle (task longP (fun _ => '\n') c) (c.length - 1) (sched c)) :
    (writeSeqToFile longP b sched intHeader A).bind readIntSeq = .ok A := by
  have hp : ∀ z ∈ A, Prints longP z (intText z) := fun z hz => by
    apply scalar_prints
    · have h1 := hr z hz
      have := intText_length (z := z) (k := 19) (by omega) (by omega)
      omega
    · exact (intText_ok z).2
  rw [writeSeqToFile_text longP hb intHeader A hA hp hW]
  simp only [Except.bind]
  rw [if_neg (by decide)]
  unfold readIntSeq
  have hwords : wordsOf (intHeader ++ ['\n'] ++ A.flatMap fun z => intText z ++ ['\n']) =
      intHeader :: A.map intText := by
    rw [List.append_assoc, List.singleton_append, wordsOf_append_cons _ _ (by decide), wordsOf_lines,
      wordsOf_word (by decide) (by decide)]
    have : (A.flatMap fun z => wordsOf (intText z)) = (A.map intText).flatMap wordsOf := by
      rw [List.flatMap_map]
    rw [this, wordsOf_words]
    · rfl
    · intro w hw
      rw [List.mem_map] at hw
      obtain ⟨z, _, rfl⟩ := hw
      exact intText_ok z
  rw [hwords]
  simp only [if_true]
  apply congrArg Except.ok
  rw [List.map_map]
  conv_rhs => rw [← List.map_id A]
  apply List.map_congr_left
  intro z _
  exact charsToLong_intText z

/-- A concrete file, in chunks of two. -/
example : (writeSeqToFile longP 2 (fun c => seqTasks (task longP (fun _ => '\n') c) (c.length - 1)) intHeader
    [5, -120, 0, 9223372036854775807, -9223372036854775808]) =
    .ok "sequenceInt\n5\n-120\n0\n9223372036854775807\n-9223372036854775808\n".toList := by decide +kernel

/-! ### C39: edge files -/

/-- `unsigned long` in a slot of 21: `include/pargeo/IO.h:109-110`. -/
def ulongP : Printer ℕ := scalar natText fun _ => 21

/-- C39: the words of an unweighted edge file (`edgeSeqToString`) are the end points in order, for all 64 bit
numbers and all executions. -/
theorem c39_edges (E : List (ℕ × ℕ)) (hE : E ≠ []) (hr : ∀ e ∈ E, e.1 < 2 ^ 64 ∧ e.2 < 2 ^ 64)
    {W : List (ℕ × (ℕ × Char))}
    (hW : IsShuffle (task ulongP (fun i => if i % 2 = 1 then '\n' else ' ') (E.flatMap fun e => [e.1, e.2]))
      (2 * E.length - 1) W) :
    ∃ T, seqToString ulongP (fun i => if i % 2 = 1 then '\n' else ' ') (E.flatMap fun e => [e.1, e.2]) W =
      .ok (T ++ [nul]) ∧ (readWords T).map natVal = E.flatMap fun e => [e.1, e.2] := by
  set L := E.flatMap fun e => [e.1, e.2] with hL
  have hlen : L.length = 2 * E.length := by
    rw [hL]
    clear hL hr hE hW
    induction E with
    | nil => rfl
    | cons e E ih => rw [List.flatMap_cons, List.length_append, ih]; simp; omega
  have hrL : ∀ x ∈ L, x < 2 ^ 64 := by
    intro x hx
    rw [hL, List.mem_flatMap] at hx
    obtain ⟨e, he, hx⟩ := hx
    simp only [List.mem_cons, List.not_mem_nil, or_false] at hx
    rcases hx with rfl | rfl
    · exact (hr e he).1
    · exact (hr e he).2
  have hL0 : L ≠ [] := by
    intro h
    rw [h] at hlen
    have : 0 < E.length := List.length_pos_iff.mpr hE
    rw [List.length_nil] at hlen
    omega
  have hsp : ∀ n, ∀ c ∈ natText n, isSpace c = false := by
    intro n c hc
    obtain ⟨x, hx, rfl⟩ := natText_digits _ c hc
    exact (digitChar_ok x hx).1
  have hp : ∀ x ∈ L, Prints ulongP x (natText x) := fun x hx => by
    apply scalar_prints
    · have := natText_length (n := x) (k := 20) (by have := hrL x hx; omega) (by omega)
      omega
    · exact hsp x
  rw [← hlen] at hW
  refine ⟨_, seqToString_text ulongP _ L hL0 hp (fun i => by split <;> decide) hW, ?_⟩
  unfold readWords
  rw [stringToWords_words]
  have aux : ∀ (l : List ℕ) (k : ℕ) (s : ℕ → Char), (∀ i, isSpace (s i) = true) →
      wordsOf ((l.zipIdx k).flatMap fun x => natText x.1 ++ [s x.2]) = l.map natText := by
    intro l
    induction l with
    | nil => intro k s hs; rfl
    | cons x l ih =>
      intro k s hs
      rw [List.zipIdx_cons, List.flatMap_cons, List.append_assoc, List.singleton_append,
        wordsOf_append_cons _ _ (hs k), ih _ _ hs, wordsOf_word (natText_ne x) (hsp x)]
      rfl
  rw [aux L 0 (fun i => if i = L.length - 1 then '\n' else if i % 2 = 1 then '\n' else ' ')
    (fun i => by split <;> [decide; (split <;> decide)]), List.map_map]
  conv_rhs => rw [← List.map_id L]
  apply List.map_congr_left
  intro x _
  exact natVal_natText x

/-- Two edges. -/
example : seqToString ulongP (fun i => if i % 2 = 1 then '\n' else ' ') [0, 17, 3, 18446744073709551615]
    (seqTasks (task ulongP (fun i => if i % 2 = 1 then '\n' else ' ') [0, 17, 3, 18446744073709551615]) 3) =
    .ok ("0 17\n3 18446744073709551615\n".toList ++ [nul]) := by decide +kernel

/-- The words of a weighted edge. -/
def edgeWords (e : (ℕ × ℕ) × Sci) : List (List Char) := [natText e.1.1, natText e.1.2, e.2.text]

/-- A number that `%.11le` prints in at most 18 characters: it is not negative or its exponent has two digits. -/
def FitsSci (s : Sci) : Prop := s.Ok ∧ (s.neg = false ∨ s.exp.length = 2)

/-- C39: the words of a weighted edge file (`wghEdgeSeqToString`) are end points and weights in order. -/
theorem c39_weighted_edges (E : List ((ℕ × ℕ) × Sci)) (hE : E ≠ [])
    (hr : ∀ e ∈ E, e.1.1 < 2 ^ 64 ∧ e.1.2 < 2 ^ 64 ∧ FitsSci e.2) {W : List (ℕ × (ℕ × Char))}
    (hW : IsShuffle (task (pairP (pairP ulongP ulongP) doubleP) (fun _ => '\n') E) (E.length - 1) W) :
    ∃ T, seqToString (pairP (pairP ulongP ulongP) doubleP) (fun _ => '\n') E W = .ok (T ++ [nul]) ∧
      readWords T = E.flatMap edgeWords := by
  have hsp : ∀ n, ∀ c ∈ natText n, isSpace c = false := by
    intro n c hc
    obtain ⟨x, hx, rfl⟩ := natText_digits _ c hc
    exact (digitChar_ok x hx).1
  have hn : ∀ x < 2 ^ 64, Prints ulongP x (natText x) := fun x hx => by
    apply scalar_prints
    · have := natText_length (n := x) (k := 20) (by omega) (by omega)
      omega
    · exact hsp x
  have hp : ∀ e ∈ E, Prints (pairP (pairP ulongP ulongP) doubleP) e
      ((natText e.1.1 ++ ' ' :: natText e.1.2) ++ ' ' :: e.2.text) := fun e he => by
    obtain ⟨h1, h2, h3, h4⟩ := hr e he
    exact pair_prints (a := e.1) (pair_prints (a := e.1.1) (hn _ h1) (hn _ h2))
      (scalar_prints _ _ _ (sci_length h3 h4) fun c hc => (sci_chars h3 c hc).1)
  refine ⟨_, seqToString_lines _ E hE hp hW, ?_⟩
  unfold readWords
  rw [stringToWords_words, wordsOf_lines, List.flatMap_def, List.flatMap_def]
  congr 1
  apply List.map_congr_left
  intro e he
  rw [wordsOf_append_cons _ _ (by decide), wordsOf_append_cons _ _ (by decide), wordsOf_word (natText_ne _) (hsp _),
    wordsOf_word (natText_ne _) (hsp _),
    wordsOf_word (sci_ne _) fun c hc => (sci_chars (hr e he).2.2.1 c hc).1]
  rfl

/-- The number 1. -/
def one : Sci := ⟨false, 1, List.replicate 11 0, false, [0, 0]⟩

/-- The number −2.5. -/
def minus25 : Sci := ⟨true, 2, 5 :: List.replicate 10 0, false, [0, 0]⟩

theorem fits_one : FitsSci one :=
  ⟨⟨by decide, rfl, by decide, by decide, Or.inl rfl⟩, Or.inl rfl⟩

theorem fits_minus25 : FitsSci minus25 :=
  ⟨⟨by decide, rfl, by decide, by decide, Or.inl rfl⟩, Or.inr rfl⟩

example : seqToString (pairP (pairP ulongP ulongP) doubleP) (fun _ => '\n') [((0, 17), one), ((3, 4), minus25)]
    (seqTasks (task (pairP (pairP ulongP ulongP) doubleP) (fun _ => '\n')
      [((0, 17), one), ((3, 4), minus25)]) 1) =
    .ok ("0 17 1.00000000000e+00\n3 4 -2.50000000000e+00\n".toList ++ [nul]) := by decide +kernel

/-! ### C39: point files -/

/-- Text of a point. -/
def pointText (r : List Sci) : List Char := joinWith ' ' (r.map Sci.text)

theorem point_prints {r : List Sci} (hr : r ≠ []) (h : ∀ s ∈ r, FitsSci s) :
    Prints (pointP doubleP ' ') r (pointText r) :=
  coords_prints (by decide) r hr fun s hs =>
    scalar_prints _ _ _ (sci_length (h s hs).1 (h s hs).2) fun c hc => (sci_chars (h s hs).1 c hc).1

theorem point_words {r : List Sci} (h : ∀ s ∈ r, FitsSci s) : wordsOf (pointText r) = r.map Sci.text := by
  unfold pointText
  rw [wordsOf_joinWith (by decide), wordsOf_words]
  intro w hw
  rw [List.mem_map] at hw
  obtain ⟨s, hs, rfl⟩ := hw
  exact ⟨sci_ne s, fun c hc => (sci_chars (h s hs).1 c hc).1⟩

theorem points_words {P : List (List Sci)} (h : ∀ r ∈ P, ∀ s ∈ r, FitsSci s) :
    wordsOf (P.flatMap fun r => pointText r ++ ['\n']) = (P.map fun r => r.map Sci.text).flatten := by
  rw [wordsOf_lines, List.flatMap_def]
  congr 1
  apply List.map_congr_left
  intro r hr
  exact point_words (h r hr)

theorem lines_ne {P : List (List Sci)} (hP : P ≠ []) :
    ∃ S, (P.flatMap fun r => pointText r ++ ['\n']) = S ++ ['\n'] := by
  refine ⟨(P.dropLast.flatMap fun r => pointText r ++ ['\n']) ++ pointText (P.getLast hP), ?_⟩
  conv_lhs => rw [← List.dropLast_append_getLast hP]
  simp

theorem parse_rows {F : Type} (atof : List Char → F) {d : ℕ} (hd : 0 < d) (P : List (List Sci))
    (h : ∀ r ∈ P, r.length = d) :
    parsePoints atof d (P.map fun r => r.map Sci.text).flatten = P.map fun r => r.map fun s => atof s.text := by
  have hlen : (P.map fun r => r.map Sci.text).flatten.length = P.length * d := by
    rw [List.length_flatten, List.map_map]
    clear hd
    induction P with
    | nil => simp
    | cons r P ih =>
      rw [List.map_cons, List.sum_cons, ih fun r hr => h r (by simp [hr])]
      simp only [Function.comp_apply, List.length_map, List.length_cons, h r (by simp)]
      ring
  unfold parsePoints
  rw [hlen, Nat.mul_div_cancel _ hd, List.map_flatten, List.map_map]
  have := groups_flatten d (P.map (List.map atof ∘ fun r => r.map Sci.text)) (by
    intro r hr
    rw [List.mem_map] at hr
    obtain ⟨r', hr', rfl⟩ := hr
    simp [h r' hr'])
  rw [List.length_map] at this
  rw [this]
  apply List.map_congr_left
  intro r _
  simp

theorem readPoints_ok {F : Type} (atof : List Char → F) (d : ℕ) (S : List Char) {w : List Char}
    {W : List (List Char)} (h : wordsOf (S ++ ['\n']) = w :: W) :
    readPoints atof d (S ++ ['\n']) =
      .ok (if isGenericHeader w then parsePoints atof d W else parsePoints atof d (w :: W)) := by
  have h1 := c39_terminated S (c := '\n') (by decide)
  have h2 : readWords (S ++ ['\n']) = w :: W := by
    unfold readWords
    rw [stringToWords_words, h]
  rw [h2] at h1
  unfold readPoints
  simp only
  rw [h1]
  cases hz : (stringToWords (S ++ ['\n'])).2 with
  | nil =>
    unfold readWords at h2
    rw [hz] at h2
    simp at h2
  | cons o l => rfl

/-- C39: `readPointsFromFile` reads back what `writePointsToFile` wrote: as many points, and each coordinate is
what `atof` makes of its printed text. For all sequences of points whose coordinates fit, all chunk sizes, all
executions. -/
theorem c39_point_file {F : Type} (atof : List Char → F) {d : ℕ} (hd : 0 < d) (P : List (List Sci)) (hP : P ≠ [])
    (hr : ∀ r ∈ P, r.length = d ∧ ∀ s ∈ r, FitsSci s) {b : ℕ} (hb : 0 < b)
    {sched : List (List Sci) → List (ℕ × (ℕ × Char))}
    (hW : ∀ c, IsShuffle (task (pointP doubleP ' ') (fun _ => '\n') c) (c.length - 1) (sched c)) :
    (writeSeqToFile (pointP doubleP ' ') b sched [] P).bind (readPoints atof d) =
      .ok (P.map fun r => r.map fun s => atof s.text) := by
  have hne : ∀ r ∈ P, r ≠ [] := fun r hr' h0 => by
    have := (hr r hr').1
    rw [h0] at this
    simp at this
    omega
  rw [writeSeqToFile_text _ hb [] P hP (fun r hr' => point_prints (hne r hr') (hr r hr').2) hW]
  simp only [Except.bind, if_true, List.nil_append]
  obtain ⟨S, hS⟩ := lines_ne hP
  have hw := points_words fun r hr' => (hr r hr').2
  cases hPc : P with
  | nil => exact absurd hPc hP
  | cons r P' =>
    obtain ⟨s, r', hrc⟩ : ∃ s r', r = s :: r' := List.exists_cons_of_ne_nil (hne r (by simp [hPc]))
    have hs : FitsSci s := (hr r (by simp [hPc])).2 s (by simp [hrc])
    have hw' : wordsOf (S ++ ['\n']) = s.text :: (r'.map Sci.text ++ (P'.map fun r => r.map Sci.text).flatten) := by
      rw [← hS, hw, hPc, hrc]
      rfl
    rw [← hPc, hS, readPoints_ok atof d S hw']
    have hg : isGenericHeader s.text = false := by
      unfold isGenericHeader
      rw [List.any_eq_false]
      intro c hc
      simp [(sci_chars hs.1 c hc).2.2.1]
    rw [hg, if_neg (by simp), ← hw', ← hS, hw, parse_rows atof hd P fun r hr' => (hr r hr').1]

/-- C39: for the dimensions 2 to 9 there is a header, and a header names the dimension in decimal; for others nothing is written. -/
theorem c39_pbbs_header (d : ℕ) : (2 ≤ d ∧ d ≤ 9 ↔ ∃ h, pbbsHeader d = .ok h) ∧
    ∀ h, pbbsHeader d = .ok h → h = "pbbs_sequencePoint".toList ++ Nat.toDigits 10 d ++ ['d'] := by
  unfold pbbsHeader
  constructor
  · split
    · simp; omega
    · simp; omega
  · intro h hh
    split at hh
    · simp at hh
    · rename_i hd
      obtain rfl := Except.ok.inj hh
      have h1 : 2 ≤ d := by omega
      have h2 : d ≤ 9 := by omega
      interval_cases d <;> decide +kernel

/-- C39: the same with the header that `writePointsToFilePbbs` writes (dimensions 2 to 9). -/
theorem c39_point_file_pbbs {F : Type} (atof : List Char → F) {d : ℕ} (hd : 2 ≤ d ∧ d ≤ 9) (P : List (List Sci))
    (hP : P ≠ []) (hr : ∀ r ∈ P, r.length = d ∧ ∀ s ∈ r, FitsSci s) {b : ℕ} (hb : 0 < b)
    {sched : List (List Sci) → List (ℕ × (ℕ × Char))}
    (hW : ∀ c, IsShuffle (task (pointP doubleP ' ') (fun _ => '\n') c) (c.length - 1) (sched c)) :
    ((pbbsHeader d).bind fun h => writeSeqToFile (pointP doubleP ' ') b sched h P).bind (readPoints atof d) =
      .ok (P.map fun r => r.map fun s => atof s.text) := by
  have hne : ∀ r ∈ P, r ≠ [] := fun r hr' h0 => by
    have := (hr r hr').1
    rw [h0] at this
    simp at this
    omega
  unfold pbbsHeader
  rw [if_neg (by omega)]
  simp only [Except.bind]
  set h := "pbbs_sequencePoint".toList ++ [digitChar d] ++ ['d'] with hh
  have hh0 : h ≠ [] := by rw [hh]; simp
  have hhs : ∀ c ∈ h, isSpace c = false := by
    intro c hc
    rw [hh, List.mem_append, List.mem_append, List.mem_singleton, List.mem_singleton] at hc
    rcases hc with (hc | rfl) | rfl
    · revert c
      decide
    · exact (digitChar_ok d (by omega)).1
    · decide
  rw [writeSeqToFile_text _ hb h P hP (fun r hr' => point_prints (hne r hr') (hr r hr').2) hW, if_neg hh0]
  simp only
  obtain ⟨S, hS⟩ := lines_ne hP
  have hw := points_words fun r hr' => (hr r hr').2
  rw [hS, ← List.append_assoc, readPoints_ok atof d (h ++ ['\n'] ++ S) (w := h)
    (W := (P.map fun r => r.map Sci.text).flatten)]
  · have hg : isGenericHeader h = true := by
      rw [hh]
      unfold isGenericHeader
      rw [List.append_assoc, List.any_append]
      rw [show ("pbbs_sequencePoint".toList.any fun c => !isNumber c && !isDelim c) = true by decide, Bool.true_or]
    rw [hg, if_pos rfl, parse_rows atof (by omega) P fun r hr' => (hr r hr').1]
  · rw [List.append_assoc, List.append_assoc, ← hS, List.singleton_append, wordsOf_append_cons _ _ (by decide), hw,
      wordsOf_word hh0 hhs]
    rfl

/-- Points that meet the hypotheses, and their files. -/
example : ∀ r ∈ [[one, minus25], [minus25, minus25], [one, one]], r.length = 2 ∧ ∀ s ∈ r, FitsSci s := by
  intro r hr
  simp only [List.mem_cons, List.not_mem_nil, or_false] at hr
  rcases hr with rfl | rfl | rfl <;> refine ⟨rfl, ?_⟩ <;> intro s hs <;>
    simp only [List.mem_cons, List.not_mem_nil, or_false] at hs <;> rcases hs with rfl | rfl <;>
    first | exact fits_one | exact fits_minus25

example : writeSeqToFile (pointP doubleP ' ') 2
    (fun c => seqTasks (task (pointP doubleP ' ') (fun _ => '\n') c) (c.length - 1)) []
    [[one, minus25], [minus25, minus25], [one, one]] =
    .ok ("1.00000000000e+00 -2.50000000000e+00\n-2.50000000000e+00 -2.50000000000e+00\n" ++
      "1.00000000000e+00 1.00000000000e+00\n").toList := by decide +kernel

/-- C39 (false for numbers that do not fit): −1e100 is printed in 19 characters into a slot of 18. The text that
results is that of −1e10. -/
theorem c39_double_overflow_false :
    ∃ s : Sci, s.Ok ∧ s.text = "-1.00000000000e+100".toList ∧
      ∃ T, seqToString doubleP (fun _ => '\n') [s] [] = .ok (T ++ [nul]) ∧
        readWords T = ["-1.00000000000e+10".toList] :=
  ⟨⟨true, 1, List.replicate 11 0, false, [1, 0, 0]⟩, ⟨by decide, rfl, by decide, by decide, Or.inr rfl⟩,
    by decide, "-1.00000000000e+10\n".toList, by decide +kernel, by decide +kernel⟩

/-- C39 (false for numbers that do not fit, in parallel): the final 0 that `sprintf` writes after −1e100 falls into
the slot of the next number; two executions give different texts, in one of which the next number has lost its
first digit. -/
theorem c39_double_race_false :
    ∃ (L : List Sci) (W W' : List (ℕ × (ℕ × Char))), (∀ s ∈ L, s.Ok) ∧
      IsShuffle (task doubleP (fun _ => '\n') L) (L.length - 1) W ∧
      IsShuffle (task doubleP (fun _ => '\n') L) (L.length - 1) W' ∧
      seqToString doubleP (fun _ => '\n') L W =
        .ok ("-1.00000000000e+10\n1.00000000000e+00\n1.00000000000e+00\n".toList ++ [nul]) ∧
      seqToString doubleP (fun _ => '\n') L W' =
        .ok ("-1.00000000000e+10\n.00000000000e+00\n1.00000000000e+00\n".toList ++ [nul]) := by
  refine ⟨[⟨true, 1, List.replicate 11 0, false, [1, 0, 0]⟩, one, one],
    seqTasks (task doubleP (fun _ => '\n') [⟨true, 1, List.replicate 11 0, false, [1, 0, 0]⟩, one, one]) 2,
    (((task doubleP (fun _ => '\n') [⟨true, 1, List.replicate 11 0, false, [1, 0, 0]⟩, one, one]) 1).map
      fun w => (1, w)) ++
    (((task doubleP (fun _ => '\n') [⟨true, 1, List.replicate 11 0, false, [1, 0, 0]⟩, one, one]) 0).map
      fun w => (0, w)), ?_, seqTasks_shuffle _ _, ⟨by decide +kernel, ?_⟩, by decide +kernel, by decide +kernel⟩
  · intro s hs
    simp only [List.mem_cons, List.not_mem_nil, or_false] at hs
    rcases hs with rfl | rfl | rfl
    · exact ⟨by decide, rfl, by decide, by decide, Or.inr rfl⟩
    · exact fits_one.1
    · exact fits_one.1
  · intro t ht
    have ht2 : t < 2 := ht
    rcases t with _ | _ | t
    · decide +kernel
    · decide +kernel
    · omega

/-! ### C52: the dimension of a point file -/

theorem countEntry_pointText {r : List Sci} (hr : r ≠ []) (h : ∀ s ∈ r, FitsSci s) :
    countEntry (pointText r) = .ok r.length := by
  have hw : ∀ w ∈ r.map Sci.text, w ≠ [] ∧ ∀ c ∈ w, isSpace c = false ∧ isDelim c = false := by
    intro w hw
    rw [List.mem_map] at hw
    obtain ⟨s, hs, rfl⟩ := hw
    exact ⟨sci_ne s, fun c hc => ⟨(sci_chars (h s hs).1 c hc).1, (sci_chars (h s hs).1 c hc).2.1⟩⟩
  have hne : r.map Sci.text ≠ [] := by simpa using hr
  obtain ⟨T, c, h1, w, h2, h3⟩ := getLast_joinWith (sep := ' ') _ hne fun w hw' => (hw w hw').1
  have hc := (hw w h2).2 c h3
  have hnl : isNewline c = false := by
    have := hc.1
    unfold isSpace at this
    cases hn : isNewline c
    · rfl
    · rw [hn] at this
      simp at this
  unfold countEntry pointText
  simp only
  have hd : ((joinWith ' ' (r.map Sci.text)).reverse.dropWhile
      fun c => isDelim c || isSpace c || isNewline c).reverse = joinWith ' ' (r.map Sci.text) := by
    rw [h1, List.reverse_append, List.reverse_singleton, List.singleton_append, List.dropWhile_cons,
      hc.1, hc.2, hnl]
    simp
  rw [hd, if_neg (by rw [h1]; simp), countP_joinWith (by decide) _ hne fun w hw' c hc' => ((hw w hw').2 c hc').2]
  simp

theorem pointText_line {r : List Sci} (h : ∀ s ∈ r, FitsSci s) :
    ∀ c ∈ pointText r, c ≠ '\n' ∧ (!isNumber c && !isDelim c) = false := by
  intro c hc
  rcases mem_joinWith hc with rfl | ⟨w, hw, hcw⟩
  · decide
  · rw [List.mem_map] at hw
    obtain ⟨s, hs, rfl⟩ := hw
    have := sci_chars (h s hs).1 c hcw
    exact ⟨this.2.2.2, by simp [this.2.2.1]⟩

/-- C52: `readHeader` returns the dimension of the points in a file that `writePointsToFile` wrote. -/
theorem c52_dimension {d : ℕ} (hd : 0 < d) (P : List (List Sci)) (hP : P ≠ [])
    (hr : ∀ r ∈ P, r.length = d ∧ ∀ s ∈ r, FitsSci s) {b : ℕ} (hb : 0 < b)
    {sched : List (List Sci) → List (ℕ × (ℕ × Char))}
    (hW : ∀ c, IsShuffle (task (pointP doubleP ' ') (fun _ => '\n') c) (c.length - 1) (sched c)) :
    (writeSeqToFile (pointP doubleP ' ') b sched [] P).bind readHeader = .ok d := by
  have hne : ∀ r ∈ P, r ≠ [] := fun r hr' h0 => by
    have := (hr r hr').1
    rw [h0] at this
    simp at this
    omega
  rw [writeSeqToFile_text _ hb [] P hP (fun r hr' => point_prints (hne r hr') (hr r hr').2) hW]
  simp only [Except.bind, if_true, List.nil_append]
  cases hPc : P with
  | nil => exact absurd hPc hP
  | cons r P' =>
    have hrP : r ∈ P := by simp [hPc]
    have hl := pointText_line (hr r hrP).2
    rw [List.flatMap_cons, List.append_assoc, List.singleton_append]
    unfold readHeader
    rw [lineAt_zero fun c hc => (hl c hc).1]
    have hg : isGenericHeader (pointText r) = false := by
      unfold isGenericHeader
      rw [List.any_eq_false]
      intro c hc
      simpa using (hl c hc).2
    rw [hg, if_neg (by simp), countEntry_pointText (hne r hrP) (hr r hrP).2, (hr r hrP).1]

/-- C52: the same for a file with the header of `writePointsToFilePbbs`. -/
theorem c52_dimension_pbbs {d : ℕ} (hd : 2 ≤ d ∧ d ≤ 9) (P : List (List Sci)) (hP : P ≠ [])
    (hr : ∀ r ∈ P, r.length = d ∧ ∀ s ∈ r, FitsSci s) {b : ℕ} (hb : 0 < b)
    {sched : List (List Sci) → List (ℕ × (ℕ × Char))}
    (hW : ∀ c, IsShuffle (task (pointP doubleP ' ') (fun _ => '\n') c) (c.length - 1) (sched c)) :
    ((pbbsHeader d).bind fun h => writeSeqToFile (pointP doubleP ' ') b sched h P).bind readHeader = .ok d := by
  have hne : ∀ r ∈ P, r ≠ [] := fun r hr' h0 => by
    have := (hr r hr').1
    rw [h0] at this
    simp at this
    omega
  unfold pbbsHeader
  rw [if_neg (by omega)]
  simp only [Except.bind]
  set h := "pbbs_sequencePoint".toList ++ [digitChar d] ++ ['d'] with hh
  have hh0 : h ≠ [] := by rw [hh]; simp
  have hhs : ∀ c ∈ h, c ≠ '\n' := by
    intro c hc
    rw [hh, List.mem_append, List.mem_append, List.mem_singleton, List.mem_singleton] at hc
    rcases hc with (hc | rfl) | rfl
    · revert c
      decide
    · exact (digitChar_ok d (by omega)).2.2.2.2.2
    · decide
  have hg : isGenericHeader h = true := by
    rw [hh]
    unfold isGenericHeader
    rw [List.append_assoc, List.any_append]
    rw [show ("pbbs_sequencePoint".toList.any fun c => !isNumber c && !isDelim c) = true by decide, Bool.true_or]
  rw [writeSeqToFile_text _ hb h P hP (fun r hr' => point_prints (hne r hr') (hr r hr').2) hW, if_neg hh0]
  simp only
  cases hPc : P with
  | nil => exact absurd hPc hP
  | cons r P' =>
    have hrP : r ∈ P := by simp [hPc]
    have hl := pointText_line (hr r hrP).2
    rw [List.append_assoc, List.singleton_append]
    unfold readHeader
    rw [lineAt_zero hhs, hg, if_pos rfl, show (1 : ℕ) = 0 + 1 from rfl, lineAt_succ hhs, List.flatMap_cons,
      List.append_assoc, List.singleton_append, lineAt_zero fun c hc => (hl c hc).1,
      countEntry_pointText (hne r hrP) (hr r hrP).2, (hr r hrP).1]

/-- C52 (other files): two separators between two numbers make `readHeader` count three entries though the line
has two words; a blank first line is undefined. -/
theorem c52_double_separator_false :
    readHeader "1.5,  2\n".toList = .ok 4 ∧ readWords "1.5,  2\n".toList = ["1.5".toList, "2".toList] ∧
    readHeader "\n1 2\n".toList = .error .ub := by decide +kernel

end Verif.IO
