import Verif.SpatialGraph.KnnGraphModel
import Verif.KdTree.KnnProps
import Verif.Par.SplitLemmas

set_option linter.unusedSectionVars false
set_option linter.unusedVariables false

/-!
Property C18: the k-nearest-neighbour graph.
-/

namespace Verif.SpatialGraph

open Verif.KdTree Verif.KnnBuf Verif.Par

variable {K : Type} {d : ℕ}

theorem chunks_zipIdx {T : Type} (k : ℕ) (cs : List (List T)) (hk : ∀ c ∈ cs, c.length = k) (s : ℕ) :
    ((cs.zipIdx s).flatMap fun c => c.1.zipIdx.map fun e => (c.2 * k + e.2, e.1)) =
      (cs.flatten.zipIdx (s * k)).map fun e => (e.2, e.1) := by
  induction cs generalizing s with
  | nil => rfl
  | cons c cs ih =>
    have hc : c.length = k := hk c (by simp)
    rw [List.zipIdx_cons, List.flatMap_cons, ih (fun c hc => hk c (by simp [hc])), List.flatten_cons,
      List.zipIdx_append, List.map_append, hc]
    congr 1
    · rw [List.zipIdx_eq_map_add (l := c) (i := s * k)]
      rw [List.map_map]
      apply List.map_congr_left
      intro e _
      simp [add_comm]
    · rw [Nat.succ_mul]

theorem writes_of_zipIdx {T : Type} (l : List T) : Writes (l.zipIdx.map fun e => (e.2, e.1)) l := by
  constructor
  · rw [List.map_map]
    have : (Prod.fst ∘ fun e : T × ℕ => (e.2, e.1)) = Prod.snd := rfl
    rw [this, List.zipIdx_map_snd, ← List.range_eq_range']
    exact List.nodup_range
  · intro p v
    rw [List.mem_map]
    constructor
    · rintro ⟨e, he, heq⟩
      rw [List.mem_zipIdx_iff_getElem?] at he
      rw [Prod.mk.injEq] at heq
      rw [← heq.1, ← heq.2]
      exact he
    · intro h
      exact ⟨(v, p), List.mem_zipIdx_iff_getElem?.mpr h, rfl⟩

/-- The edge list when every row contains its own query once. -/
theorem allWrites_ok (k : ℕ) (rows : List (List ℕ))
    (hr : ∀ (i : ℕ) (row : List ℕ), rows[i]? = some row → (row.filter (· ≠ i)).length = k) :
    Writes (allWrites k rows)
      (rows.zipIdx.map fun r => (r.1.filter (· ≠ r.2)).map fun x => (r.2, x)).flatten := by
  have h1 : allWrites k rows =
      ((rows.zipIdx.map fun r => (r.1.filter (· ≠ r.2)).map fun x => (r.2, x)).zipIdx.flatMap
        fun c => c.1.zipIdx.map fun e => (c.2 * k + e.2, e.1)) := by
    unfold allWrites
    rw [List.zipIdx_map, List.flatMap_map]
    have h2 : ∀ (l : List (List ℕ)) (s : ℕ), ((l.zipIdx s).flatMap fun r => edgeWrites k r.2 r.1) =
        ((l.zipIdx s).zipIdx s).flatMap (fun a =>
          List.map (fun e => ((Prod.map (fun r : List ℕ × ℕ => (r.1.filter (· ≠ r.2)).map
            fun x => (r.2, x)) id a).2 * k + e.2, e.1))
            (Prod.map (fun r : List ℕ × ℕ => (r.1.filter (· ≠ r.2)).map fun x => (r.2, x)) id a).1.zipIdx) := by
      intro l
      induction l with
      | nil => intro s; rfl
      | cons a l ih =>
        intro s
        rw [List.zipIdx_cons, List.zipIdx_cons, List.flatMap_cons, List.flatMap_cons, ih]
        congr 1
        simp only [Prod.map, id, edgeWrites]
        rw [List.zipIdx_map, List.map_map]
        rfl
    exact h2 rows 0
  rw [h1, chunks_zipIdx]
  · simpa using writes_of_zipIdx _
  · intro c hc
    obtain ⟨r, hr1, rfl⟩ := List.mem_map.mp hc
    rw [List.length_map]
    exact hr r.2 r.1 (List.mem_zipIdx_iff_getElem?.mp hr1)

theorem filter_ne_length {l : List ℕ} (h : l.Nodup) {i : ℕ} (hi : i ∈ l) :
    (l.filter (· ≠ i)).length + 1 = l.length := by
  have h1 : (l.filter (· ≠ i)) = l.erase i := by
    rw [h.erase_eq_filter]
    congr 1
    funext x
    by_cases h : x = i <;> simp [h]
  rw [h1, List.length_erase_of_mem hi]
  have := List.length_pos_of_mem hi
  omega

theorem flatten_chunk {T : Type} (k : ℕ) (cs : List (List T)) (hk : ∀ c ∈ cs, c.length = k) (i : ℕ)
    (c : List T) (hc : cs[i]? = some c) : (cs.flatten.drop (i * k)).take k = c := by
  induction cs generalizing i with
  | nil => simp at hc
  | cons a cs ih =>
    have ha : a.length = k := hk a (by simp)
    cases i with
    | zero =>
      simp only [List.getElem?_cons_zero, Option.some.injEq] at hc
      subst hc
      simp [ha]
    | succ i =>
      simp only [List.getElem?_cons_succ] at hc
      rw [List.flatten_cons, Nat.succ_mul, Nat.add_comm, ← List.drop_drop]
      have : List.drop k (a ++ cs.flatten) = cs.flatten := by
        rw [← ha]; simp
      rw [this]
      exact ih (fun c hc => hk c (by simp [hc])) i hc

/-- Specification of C18 for one point: `es` are edges from `i` to `k` different other points such that
no point left out is strictly closer. -/
def IsKnnEdges {n : ℕ} (P : Fin n → Point ℝ d) (k : ℕ) (i : Fin n) (es : List (ℕ × ℕ)) : Prop :=
  ∃ nb : List (Fin n), es = nb.map (fun x => (i.val, x.val)) ∧ nb.length = k ∧ nb.Nodup ∧ i ∉ nb ∧
    ∀ x ∈ nb, ∀ y, y ∉ nb → y ≠ i → eucl (P i) (P x) ≤ eucl (P i) (P y)

/-- **C18**, restricted to inputs where no position occurs more than `min 16 (k + 1)` times: for
`1 ≤ k < n`, any order of the parallel writes, any partial sorting and any sorting routine allowed
by their contracts, `knnGraph` returns `n * k` edges, `k` consecutive ones for every point, to its `k`
nearest other points. Missing for the full property: inputs with more copies of a position; there the
statement is false (`c18_duplicates_false`). -/
theorem c18_knnGraph_partial {n : ℕ} (w bs : ℕ) (hw : 0 < w) (hb : 0 < bs) (hd : 0 < d)
    (P : Fin n → Point ℝ d) (nth : Nth (Fin n) ℝ) (hn : NthSpec nth)
    (srt : List (Slot (Fin n) ℝ) → List (Slot (Fin n) ℝ)) (hsrt : SortSpec srt) (sorted : Bool)
    (ord : List (ℕ × (ℕ × ℕ)) → List (ℕ × (ℕ × ℕ))) (hord : ∀ l, (ord l).Perm l)
    (k : ℕ) (hk : 1 ≤ k) (hkn : k < n)
    (hm : ∀ p, ((List.finRange n).countP fun i => P i = p) ≤ min 16 (k + 1)) :
    ∃ out : List (ℕ × ℕ), knnGraph w bs nth srt sorted eucl ord P k = .ok (out.map some) ∧
      out.length = n * k ∧
      ∀ i : Fin n, IsKnnEdges P k i ((out.drop (i.val * k)).take k) := by
  obtain ⟨t, ht, -⟩ := c01_build w bs hw hb hd P 16 (by norm_num) true (List.finRange n) (by
    intro h
    have := congrArg List.length h
    simp at this
    omega)
  obtain ⟨rows, h1, h2⟩ := c06_batchKnn_partial w bs hw hb hd P 16 (by norm_num) true t ht
    (fun p => (hm p).trans (min_le_left _ _)) nth hn srt hsrt (k + 1) (by omega) (by omega) sorted
  have hlen : rows.length = n := by have := h2.length_eq; simpa using this.symm
  have hrow : ∀ (i : Fin n) (row : List (Fin n)), rows[i.val]? = some row → row.length = k + 1 ∧
      row.Nodup ∧ (∀ x ∈ row, ∀ y, y ∉ row → eucl (P i) (P x) ≤ eucl (P i) (P y)) ∧ i ∈ row := by
    intro i row hr
    obtain ⟨hil, hir⟩ := List.getElem?_eq_some_iff.mp hr
    have := (List.forall₂_iff_get.mp h2).2 i.val (by simp) hil
    simp only [List.get_eq_getElem, List.getElem_finRange, hir] at this
    obtain ⟨g1, g2, g3, -⟩ := this
    have g3' : ∀ x ∈ row, ∀ y, y ∉ row → eucl (P i) (P x) ≤ eucl (P i) (P y) := by
      simpa using g3
    refine ⟨g1, g2, g3', ?_⟩
    by_contra hni
    have hall : ∀ x ∈ row, P x = P i := by
      intro x hx
      have h5 := g3' x hx i hni
      rw [eucl_self] at h5
      have h6 := le_antisymm h5 (eucl_nonneg _ _)
      exact (eucl_eq_zero.mp h6).symm
    have hsub : (i :: row).Nodup := List.nodup_cons.mpr ⟨hni, g2⟩
    have hle : (i :: row).length ≤ (List.finRange n).countP fun j => P j = P i := by
      rw [List.countP_eq_length_filter]
      apply List.Subperm.length_le
      apply List.subperm_of_subset hsub
      intro x hx
      rw [List.mem_filter]
      refine ⟨List.mem_finRange x, ?_⟩
      rcases List.mem_cons.mp hx with rfl | hx
      · simp
      · simpa using hall x hx
    have := (hm (P i)).trans (min_le_right _ _)
    simp at hle
    omega
  have hrowN : ∀ (i : ℕ) (row : List ℕ), (rows.map fun r => r.map fun x => x.val)[i]? = some row →
      ∃ (hi : i < n) (r : List (Fin n)), rows[i]? = some r ∧ row = r.map (fun x => x.val) ∧
        (row.filter (· ≠ i)).length = k ∧
        row.filter (· ≠ i) = (r.filter (· ≠ ⟨i, hi⟩)).map fun x => x.val := by
    intro i row hr
    rw [List.getElem?_map, Option.map_eq_some_iff] at hr
    obtain ⟨r, hr1, rfl⟩ := hr
    have hi : i < n := by
      have := (List.getElem?_eq_some_iff.mp hr1).1
      omega
    obtain ⟨g1, g2, g3, g4⟩ := hrow ⟨i, hi⟩ r hr1
    refine ⟨hi, r, hr1, rfl, ?_, ?_⟩
    · have hnd : (r.map fun x => x.val).Nodup := g2.map Fin.val_injective
      have := filter_ne_length hnd (i := i) (List.mem_map.mpr ⟨⟨i, hi⟩, g4, rfl⟩)
      rw [List.length_map, g1] at this
      omega
    · rw [List.filter_map]
      congr 1
      apply List.filter_congr
      intro x _
      simp [Fin.ext_iff]
  have hW := allWrites_ok k (rows.map fun r => r.map fun x => x.val)
    (fun i row hr => by obtain ⟨_, _, _, _, h, _⟩ := hrowN i row hr; exact h)
  generalize hcs : ((rows.map fun r => r.map fun x => x.val).zipIdx.map fun r =>
    (r.1.filter (· ≠ r.2)).map fun x => (r.2, x)) = cs at hW
  have hcsk : ∀ c ∈ cs, c.length = k := by
    intro c hc
    rw [← hcs] at hc
    obtain ⟨r, hr1, rfl⟩ := List.mem_map.mp hc
    rw [List.length_map]
    obtain ⟨_, _, _, _, h, _⟩ := hrowN r.2 r.1 (List.mem_zipIdx_iff_getElem?.mp hr1)
    exact h
  have hcsl : cs.length = n := by rw [← hcs]; simp [hlen]
  have hflen : cs.flatten.length = n * k := by
    rw [List.length_flatten, List.eq_replicate_of_mem (l := cs.map List.length) (a := k)]
    · simp [hcsl]
    · intro x hx
      obtain ⟨c, hc, rfl⟩ := List.mem_map.mp hx
      exact hcsk c hc
  have hrun := (hW.perm (hord (allWrites k (rows.map fun r => r.map fun x => x.val)))).run
  rw [hflen] at hrun
  refine ⟨cs.flatten, ?_, hflen, ?_⟩
  · unfold knnGraph
    rw [if_neg (by omega)]
    simp only [ht, Except.bind, h1, runEdges]
    rw [Nat.mul_comm k n, hrun]
  · intro i
    have hri : i.val < rows.length := by rw [hlen]; exact i.2
    have hr := List.getElem?_eq_getElem hri
    obtain ⟨g1, g2, g3, g4⟩ := hrow i _ hr
    obtain ⟨hi, r', hr', hr'', hl, heq⟩ := hrowN i.val (rows[i.val].map fun x => x.val) (by simp [hr])
    rw [hr] at hr'
    obtain rfl := Option.some.inj hr'
    have hc : cs[i.val]? = some ((rows[i.val].filter (· ≠ i)).map fun x => (i.val, x.val)) := by
      rw [← hcs, List.getElem?_map, List.getElem?_zipIdx, List.getElem?_map, hr]
      simp only [Option.map_some, Option.some.injEq, Nat.zero_add]
      rw [heq, List.map_map]
      rfl
    rw [flatten_chunk k cs hcsk i.val _ hc]
    refine ⟨rows[i.val].filter (· ≠ i), rfl, ?_, g2.filter _, by simp, ?_⟩
    · rw [heq] at hl
      simpa using hl
    · intro x hx y hy hyi
      rw [List.mem_filter] at hx
      refine g3 x hx.1 y fun h => hy ?_
      rw [List.mem_filter]
      exact ⟨h, by simpa using hyi⟩

/-- `knnGraph` throws for `k` outside `1 .. n-1` on a non-empty input. -/
theorem c18_knnGraph_throws [Field K] [LinearOrder K] {n : ℕ} (w bs : ℕ) (nth : Nth (Fin n) K)
    (srt : List (Slot (Fin n) K) → List (Slot (Fin n) K)) (sorted : Bool)
    (dist : Point K d → Point K d → K) (ord : List (ℕ × (ℕ × ℕ)) → List (ℕ × (ℕ × ℕ)))
    (P : Fin n → Point K d) (k : ℕ) (hn : 1 ≤ n) (hk : k = 0 ∨ n ≤ k) :
    knnGraph w bs nth srt sorted dist ord P k = .error .throws := by
  unfold knnGraph
  rw [if_pos (by omega)]

/-- C18 is false for repeated points: for three equal points and `k = 1` the neighbour rows need not
contain their own query, and the loop then writes outside `edges`. -/
theorem c18_duplicates_false : ∃ (P : Fin 3 → Point ℚ 1) (nth : Nth (Fin 3) ℚ), NthSpec nth ∧
    knnGraph 1 1 nth sortSlots false dist1 id P 1 = .error .ub := by
  refine ⟨![![0], ![0], ![0]], fun _ l => sortSlots l, nthSpec_sort, ?_⟩
  decide +kernel

/-- Also without leaving the array: with four points, of which the first three are equal, the order of
the parallel writes can replace the only edge of the last point by an edge of another one. -/
theorem c18_overwrite_false : ∃ (P : Fin 4 → Point ℚ 1) (nth : Nth (Fin 4) ℚ)
    (out : List (Option (ℕ × ℕ))), NthSpec nth ∧
    knnGraph 1 1 nth sortSlots false dist1 List.reverse P 1 = .ok out ∧
    ∀ x, some (3, x) ∉ out := by
  refine ⟨![![0], ![0], ![0], ![7]], fun _ l => sortSlots l,
    [some (0, 1), some (1, 0), some (2, 0), some (2, 1)], nthSpec_sort, ?_, ?_⟩
  · decide +kernel
  · intro x; simp

/-- The hypotheses of `c18_knnGraph_partial` hold for five points on a line, two of them equal, with
`k = 2`. -/
example : ∃ (P : Fin 5 → Point ℝ 1) (nth : Nth (Fin 5) ℝ)
    (srt : List (Slot (Fin 5) ℝ) → List (Slot (Fin 5) ℝ)), NthSpec nth ∧ SortSpec srt ∧
    P 0 = P 1 ∧ P 0 ≠ P 2 ∧
    ∀ p, ((List.finRange 5).countP fun i => P i = p) ≤ min 16 (2 + 1) := by
  refine ⟨fun i => ![if i = 0 then 1 else (i.val : ℝ)], fun _ l => sortSlots l, sortSlots,
    nthSpec_sort, sortSpec_sort, ?_, ?_, ?_⟩
  · simp
  · intro h
    have := congrFun h 0
    norm_num at this
    exact absurd this (by decide)
  · intro p
    rw [show List.finRange 5 = [0, 1, 2, 3, 4] from rfl]
    simp only [List.countP_cons, List.countP_nil]
    have e : ∀ (x : ℝ), (![x] = p ↔ p 0 = x) := fun x => by
      constructor
      · rintro rfl; rfl
      · intro h; funext i; fin_cases i; simpa using h.symm
    simp only [e, decide_eq_true_eq]
    norm_num
    by_cases h1 : p 0 = 1
    · simp [h1]
    · split_ifs <;> simp_all

/-- A run of `knnGraph` on four rational points on a line. -/
example : knnGraph 1 1 (fun _ l => sortSlots l) sortSlots false dist1 List.reverse
    (![![0], ![1], ![3], ![7]] : Fin 4 → Point ℚ 1) 2 =
    .ok [some (0, 1), some (0, 2), some (1, 0), some (1, 2), some (2, 1), some (2, 0), some (3, 2),
      some (3, 1)] := by
  decide +kernel

end Verif.SpatialGraph
