import Verif.IO.EdgeModel
import Verif.IO.Props

set_option linter.unusedSectionVars false
set_option linter.unusedVariables false

/-!
C89: edge-list files.
-/

namespace Verif.IO

theorem writeChunks_ok {A : Type} {str : List A → Except Err (List Char)} {line : A → List Char} (cs : List (List A))
    (h : ∀ c ∈ cs, str c = .ok (c.flatMap line ++ [nul])) :
    writeChunks str cs = .ok (cs.flatten.flatMap line) := by
  induction cs with
  | nil => rfl
  | cons c cs ih =>
    rw [writeChunks, h c (by simp), ih fun c hc => h c (by simp [hc])]
    simp [Except.bind, Except.map]

theorem noSpace_natText (n : ℕ) : ∀ c ∈ natText n, isSpace c = false := by
  intro c hc
  obtain ⟨x, hx, rfl⟩ := natText_digits _ c hc
  exact (digitChar_ok x hx).1

theorem vertex_prints {x : ℕ} (hx : x < 2 ^ 64) : Prints vertexP x (natText x) := by
  apply scalar_prints
  · have := natText_length (n := x) (k := 20) (by omega) (by omega)
    omega
  · exact noSpace_natText x

/-- Specification: the line of an edge. -/
def edgeLine (e : ℕ × ℕ) : List Char := natText e.1 ++ ' ' :: natText e.2 ++ ['\n']

/-- Specification: the line of a weighted edge. -/
def wghEdgeLine (e : (ℕ × ℕ) × Sci) : List Char := natText e.1.1 ++ ' ' :: natText e.1.2 ++ ' ' :: e.2.text ++ ['\n']

theorem endPoints_length (E : List (ℕ × ℕ)) : (endPoints E).length = 2 * E.length := by
  induction E with
  | nil => rfl
  | cons e E ih =>
    rw [endPoints, List.flatMap_cons, List.length_append]
    rw [endPoints] at ih
    rw [ih]
    simp
    omega

theorem edge_text (n : ℕ) (hn : n % 2 = 1) (E : List (ℕ × ℕ)) (k : ℕ) (hk : k % 2 = 0) :
    ((endPoints E).zipIdx k).flatMap (fun x => natText x.1 ++ [if x.2 = n then '\n' else edgeSep x.2]) =
      E.flatMap edgeLine := by
  induction E generalizing k with
  | nil => rfl
  | cons e E ih =>
    have h1 : endPoints (e :: E) = e.1 :: e.2 :: endPoints E := rfl
    rw [h1, List.zipIdx_cons, List.zipIdx_cons, List.flatMap_cons, List.flatMap_cons, ih (k + 1 + 1) (by omega),
      List.flatMap_cons]
    have h2 : ¬ k = n := by omega
    have h3 : edgeSep k = ' ' := by rw [edgeSep, if_neg (by omega)]
    have h4 : (if k + 1 = n then '\n' else edgeSep (k + 1)) = '\n' := by
      split
      · rfl
      · rw [edgeSep, if_pos (by omega)]
    simp only [h2, if_false, h3, h4, edgeLine, List.append_assoc, List.cons_append, List.nil_append]

theorem edgeSeqToString_text (E : List (ℕ × ℕ)) (hE : E ≠ []) (hr : ∀ e ∈ E, e.1 < 2 ^ 64 ∧ e.2 < 2 ^ 64)
    {W : List (ℕ × (ℕ × Char))} (hW : IsShuffle (task vertexP edgeSep (endPoints E)) ((endPoints E).length - 1) W) :
    edgeSeqToString E W = .ok (E.flatMap edgeLine ++ [nul]) := by
  have hlen := endPoints_length E
  have hpos : 0 < E.length := List.length_pos_iff.mpr hE
  have hne : endPoints E ≠ [] := by
    rw [← List.length_pos_iff]
    omega
  have hp : ∀ x ∈ endPoints E, Prints vertexP x (natText x) := by
    intro x hx
    rw [endPoints, List.mem_flatMap] at hx
    obtain ⟨e, he, hx⟩ := hx
    simp only [List.mem_cons, List.not_mem_nil, or_false] at hx
    rcases hx with rfl | rfl
    · exact vertex_prints (hr e he).1
    · exact vertex_prints (hr e he).2
  unfold edgeSeqToString
  rw [seqToString_text vertexP _ _ hne hp (fun i => by unfold edgeSep; split <;> decide) hW]
  apply congrArg Except.ok
  congr 1
  exact edge_text ((endPoints E).length - 1) (by omega) E 0 rfl

/-- **C89, unweighted.** For every non-empty list of edges with 64 bit end points, every chunk size and every execution of the
parallel loops, the file has one line per edge, in order, each with the two end points in decimal. Without edges the
function is undefined. -/
theorem c89_edge_file {b : ℕ} (hb : 0 < b) (sched : List (ℕ × ℕ) → List (ℕ × (ℕ × Char)))
    (hW : ∀ c, IsShuffle (task vertexP edgeSep (endPoints c)) ((endPoints c).length - 1) (sched c)) (E : List (ℕ × ℕ))
    (hr : ∀ e ∈ E, e.1 < 2 ^ 64 ∧ e.2 < 2 ^ 64) :
    (E ≠ [] → writeEdges b sched E = .ok (E.flatMap edgeLine)) ∧ (E = [] → writeEdges b sched E = .error .ub) := by
  refine ⟨fun hE => ?_, fun hE => by rw [writeEdges, if_pos hE]⟩
  obtain ⟨h1, h2⟩ := chunks_ok hb E.length E (le_refl _)
  rw [writeEdges, if_neg hE, writeChunks_ok (line := edgeLine) (chunks b E.length E), h1]
  intro c hc
  refine edgeSeqToString_text c (h2 c hc) (fun e he => hr e ?_) (hW c)
  rw [← h1]
  exact List.mem_flatten.mpr ⟨c, hc, he⟩

/-- **C89, weighted.** The same for weighted edges whose weights print in at most 18 characters, which all non-negative weights
do. -/
theorem c89_weighted_file_partial {b : ℕ} (hb : 0 < b) (sched : List ((ℕ × ℕ) × Sci) → List (ℕ × (ℕ × Char)))
    (hW : ∀ c, IsShuffle (task wghEdgeP (fun _ => '\n') c) (c.length - 1) (sched c)) (E : List ((ℕ × ℕ) × Sci))
    (hr : ∀ e ∈ E, e.1.1 < 2 ^ 64 ∧ e.1.2 < 2 ^ 64 ∧ FitsSci e.2) :
    (E ≠ [] → writeWghEdges b sched E = .ok (E.flatMap wghEdgeLine)) ∧
      (E = [] → writeWghEdges b sched E = .error .ub) := by
  refine ⟨fun hE => ?_, fun hE => by rw [writeWghEdges, if_pos hE]⟩
  obtain ⟨h1, h2⟩ := chunks_ok hb E.length E (le_refl _)
  rw [writeWghEdges, if_neg hE, writeChunks_ok (line := wghEdgeLine) (chunks b E.length E), h1]
  intro c hc
  have hp : ∀ e ∈ c, Prints wghEdgeP e ((natText e.1.1 ++ ' ' :: natText e.1.2) ++ ' ' :: e.2.text) := fun e he => by
    obtain ⟨g1, g2, g3, g4⟩ := hr e (by rw [← h1]; exact List.mem_flatten.mpr ⟨c, hc, he⟩)
    exact pair_prints (a := e.1) (pair_prints (a := e.1.1) (vertex_prints g1) (vertex_prints g2))
      (scalar_prints _ _ _ (sci_length g3 g4) fun c hc => (sci_chars g3 c hc).1)
  unfold wghEdgeSeqToString
  rw [seqToString_lines wghEdgeP c (h2 c hc) hp (hW c)]
  rfl

/-- Lines are read back: the words of the file are the end points, edge after edge. -/
theorem c89_edge_words (E : List (ℕ × ℕ)) :
    (readWords (E.flatMap edgeLine)).map natVal = E.flatMap fun e => [e.1, e.2] := by
  unfold readWords
  rw [stringToWords_words]
  induction E with
  | nil => rfl
  | cons e E ih =>
    rw [List.flatMap_cons, List.flatMap_cons, edgeLine, List.append_assoc, List.append_assoc, List.cons_append,
      wordsOf_append_cons _ _ (by decide), List.singleton_append, wordsOf_append_cons _ _ (by decide), List.map_append,
      List.map_append, ih, wordsOf_word (natText_ne _) (noSpace_natText _), wordsOf_word (natText_ne _) (noSpace_natText _)]
    simp [natVal_natText]

/-- The executions assumed exist: the sequential one. -/
example (c : List (ℕ × ℕ)) : IsShuffle (task vertexP edgeSep (endPoints c)) ((endPoints c).length - 1)
    (seqTasks (task vertexP edgeSep (endPoints c)) ((endPoints c).length - 1)) := seqTasks_shuffle _ _

example (c : List ((ℕ × ℕ) × Sci)) : IsShuffle (task wghEdgeP (fun _ => '\n') c) (c.length - 1)
    (seqTasks (task wghEdgeP (fun _ => '\n') c) (c.length - 1)) := seqTasks_shuffle _ _

/-- Three edges in chunks of two. -/
example : writeEdges 2 (fun c => seqTasks (task vertexP edgeSep (endPoints c)) ((endPoints c).length - 1))
    [(0, 17), (3, 18446744073709551615), (5, 5)] = .ok "0 17\n3 18446744073709551615\n5 5\n".toList := by decide +kernel

example : writeWghEdges 1 (fun c => seqTasks (task wghEdgeP (fun _ => '\n') c) (c.length - 1))
    [((0, 17), one), ((3, 4), minus25)] = .ok "0 17 1.00000000000e+00\n3 4 -2.50000000000e+00\n".toList := by
  decide +kernel

/-- **C89 fails for a negative weight whose exponent needs three digits**: the text has 19 characters, the newline of the edge falls
on the last one, and `-1e-100` is in the file as `-1e-10`. -/
theorem c89_weighted_false : ∃ W, IsShuffle (task wghEdgeP (fun _ => '\n')
      [((1, 2), ⟨true, 1, List.replicate 11 0, true, [1, 0, 0]⟩), ((3, 4), one)]) 1 W ∧
    wghEdgeSeqToString [((1, 2), ⟨true, 1, List.replicate 11 0, true, [1, 0, 0]⟩), ((3, 4), one)] W =
      .ok ("1 2 -1.00000000000e-10\n3 4 1.00000000000e+00\n".toList ++ [nul]) := by
  refine ⟨seqTasks (task wghEdgeP (fun _ => '\n') [((1, 2), ⟨true, 1, List.replicate 11 0, true, [1, 0, 0]⟩), ((3, 4), one)]) 1,
    ?_, by decide +kernel⟩
  constructor
  · decide +kernel
  · decide +kernel

end Verif.IO
