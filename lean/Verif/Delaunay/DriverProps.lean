import Verif.Delaunay.DriverModel
import Verif.Delaunay.DelaunayProps
import Verif.Delaunay.CheckProps

set_option linter.unusedSectionVars false
set_option linter.unusedVariables false

/-!
C97: `delaunay` with the self-check switched on.
-/

namespace Verif.Delaunay

open Verif.Par Verif.Reserve Real

/-- The number of edges without neighbour, if the outline is the polygon of ten vertices. -/
theorem outlineSize_ten {pos : ℕ → P2 ℝ} {N n : ℕ} {vs : Finset ℕ} {m : Mesh} (h : IsTriangulated pos (Finset.range N) vs m)
    (ho : ∀ a d, OutlineEdge (Finset.range N) m a d ↔
      (∃ k, k + 1 < 10 ∧ a = k + n ∧ d = k + 1 + n) ∨ (a = 9 + n ∧ d = n)) : outlineSize m N = 10 := by
  have hp := h.planar
  unfold outlineSize
  have hT : ((Finset.range 10).image fun k => k + n).card = 10 := by
    rw [Finset.card_image_of_injective _ (fun a b e => by simpa using e), Finset.card_range]
  rw [← hT]
  refine Finset.card_bij (fun e _ => m.vtx e.1 (e.2 + 2)) ?_ ?_ ?_
  · rintro ⟨x, i⟩ he
    simp only [Finset.mem_filter, Finset.mem_product, Finset.mem_univ, and_true] at he
    rcases (ho _ _).mp ⟨x, he.1, i, he.2, rfl, rfl⟩ with ⟨k, hk, e1, -⟩ | ⟨e1, -⟩
    · exact Finset.mem_image.mpr ⟨k, Finset.mem_range.mpr (by omega), e1.symm⟩
    · exact Finset.mem_image.mpr ⟨9, by simp, e1.symm⟩
  · rintro ⟨x, i⟩ he ⟨y, j⟩ hf e
    simp only [Finset.mem_filter, Finset.mem_product, Finset.mem_univ, and_true] at he hf e
    have e2 : m.vtx x i = m.vtx y j := by
      rcases (ho _ _).mp ⟨x, he.1, i, he.2, rfl, rfl⟩ with ⟨k, hk, a1, a2⟩ | ⟨a1, a2⟩ <;>
        rcases (ho _ _).mp ⟨y, hf.1, j, hf.2, rfl, rfl⟩ with ⟨l, hl, b1, b2⟩ | ⟨b1, b2⟩ <;>
        rw [a2, b2] <;> rw [a1, b1] at e <;> omega
    obtain rfl := hp.own he.1 hf.1 e e2
    have := hp.wf.inj x he.1 _ _ e2
    subst this
    rfl
  · intro b hb
    obtain ⟨k, hk, rfl⟩ := Finset.mem_image.mp hb
    rw [Finset.mem_range] at hk
    have : OutlineEdge (Finset.range N) m (k + n) (if k = 9 then n else k + 1 + n) := by
      rw [ho]
      by_cases h9 : k = 9
      · right
        subst h9
        simp
      · left
        exact ⟨k, by omega, rfl, by rw [if_neg h9]⟩
    obtain ⟨x, hx, i, hi, e1, -⟩ := this
    exact ⟨(x, i), by simpa using ⟨Finset.mem_range.mp hx, hi⟩, e1⟩


/-! ### The race of the counters -/

theorem bumpRun_seq_todo : ∀ (l : List (List (Fin 3))) (k : ℕ) (c : Fin 3 → ℕ) (b : ℕ → Bump),
    (∀ i (hi : i < l.length), b (k + i) = ⟨l[i], none⟩) →
    (∀ i < l.length, (bumpRun ((l.zipIdx k).flatMap fun x => List.replicate (2 * x.1.length) x.2) c b).2 (k + i) = ⟨[], none⟩) ∧
    (∀ j < k, (bumpRun ((l.zipIdx k).flatMap fun x => List.replicate (2 * x.1.length) x.2) c b).2 j = b j) := by
  intro l
  induction l with
  | nil =>
    intro k c b h
    simp [bumpRun]
  | cons a l ih =>
    intro k c b h
    rw [List.zipIdx_cons, List.flatMap_cons, bumpRun_append]
    simp only
    rw [bumpRun_alone k a c b (h 0 (by simp))]
    simp only
    obtain ⟨i1, i2⟩ := ih (k + 1) (fun o => c o + a.count o) (Function.update b k ⟨[], none⟩) (by
      intro i hi
      rw [Function.update_of_ne (by omega)]
      have := h (i + 1) (by simpa using hi)
      rw [show k + 1 + i = k + (i + 1) by omega, this]
      simp)
    constructor
    · intro i hi
      rcases i with _ | i
      · have := i2 k (by omega)
        rw [Function.update_self] at this
        exact this
      · rw [show k + (i + 1) = k + 1 + i by omega]
        exact i1 i (by simpa using hi)
    · intro j hj
      rw [i2 j (by omega), Function.update_of_ne (by omega)]

theorem length_flatten_set : ∀ (l : List (List (Fin 3))) (x : ℕ) (hx : x < l.length),
    (l.set x []).flatten.length + l[x].length = l.flatten.length := by
  intro l
  induction l with
  | nil => intro x hx; simp at hx
  | cons a l ih =>
    intro x hx
    rcases x with _ | x
    · simp
      omega
    · have := ih x (by simpa using hx)
      simp only [List.set_cons_succ, List.flatten_cons, List.length_append, List.getElem_cons_succ]
      omega

/-- Two iterations that increment the same counter: an execution that runs all iterations to the end and loses an increment. -/
theorem bump_lost (l : List (List (Fin 3))) {x y : ℕ} (hxy : x ≠ y) (hx : x < l.length) (hy : y < l.length) {o : Fin 3}
    (hox : o ∈ l[x]) (hoy : o ∈ l[y]) :
    ∃ s : List ℕ, (∀ i ∈ s, i < l.length) ∧
      (∀ i < l.length, ((bumpRun s (fun _ => 0) (bumpStart l)).2 i).todo = []) ∧
      bumpSum (bumpRun s (fun _ => 0) (bumpStart l)).1 < l.flatten.length := by
  obtain ⟨l1, l2, e⟩ := List.append_of_mem hox
  set b0 := bumpStart l with hb0
  have hbx : b0 x = ⟨l1 ++ o :: l2, none⟩ := by
    rw [hb0]
    unfold bumpStart
    rw [List.getD_eq_getElem _ _ hx, e]
  have hby : b0 y = ⟨l[y], none⟩ := by
    rw [hb0]
    unfold bumpStart
    rw [List.getD_eq_getElem _ _ hy]
  set l' := (l.set x []).set y [] with hl'
  have hlen' : l'.length = l.length := by simp [hl']
  -- the first part of `x`
  have part : ∀ (l1 l2 : List (Fin 3)) (c : Fin 3 → ℕ) (b : ℕ → Bump), b x = ⟨l1 ++ l2, none⟩ →
      bumpRun (List.replicate (2 * l1.length) x) c b = (fun o => c o + l1.count o, Function.update b x ⟨l2, none⟩) := by
    intro l1
    induction l1 with
    | nil =>
      intro l2 c b h
      simp only [List.length_nil, Nat.mul_zero, List.replicate_zero, bumpRun, List.count_nil, Nat.add_zero]
      rw [List.nil_append] at h
      rw [← h, Function.update_eq_self]
    | cons p l1 ih =>
      intro l2 c b h
      rw [List.length_cons, Nat.mul_add, Nat.mul_one, List.replicate_succ, List.replicate_succ, bumpRun, bumpRun]
      have e1 : (b x).step c = (c, ⟨p :: (l1 ++ l2), some (c p)⟩) := by
        rw [h]
        rfl
      rw [e1]
      simp only [Function.update_self]
      have e2 : (⟨p :: (l1 ++ l2), some (c p)⟩ : Bump).step c = (Function.update c p (c p + 1), ⟨l1 ++ l2, none⟩) := rfl
      rw [e2]
      simp only [Function.update_idem]
      rw [ih l2 _ _ (by rw [Function.update_self])]
      rw [Function.update_idem]
      congr 1
      funext q
      rw [List.count_cons]
      by_cases hp : q = p
      · subst hp
        rw [Function.update_self]
        simp
        omega
      · rw [Function.update_of_ne hp]
        have : (p == q) = false := by simpa using Ne.symm hp
        simp [this]
  refine ⟨List.replicate (2 * l1.length) x ++ ([x] ++ (List.replicate (2 * l[y].length) y ++ ([x] ++
    (List.replicate (2 * l2.length) x ++ oneByOne l')))), ?_, ?_⟩
  · intro i hi
    simp only [List.mem_append, List.mem_replicate, List.mem_singleton, oneByOne, List.mem_flatMap] at hi
    rcases hi with ⟨-, rfl⟩ | rfl | ⟨-, rfl⟩ | rfl | ⟨-, rfl⟩ | ⟨⟨a, k⟩, hk, hi⟩
    · exact hx
    · exact hx
    · exact hy
    · exact hx
    · exact hx
    · obtain ⟨h1, h2⟩ := List.mem_zipIdx' hk
      simp only at hi
      rw [hi.2]
      omega
  · set c1 : Fin 3 → ℕ := fun o => 0 + l1.count o with hc1
    set c2 : Fin 3 → ℕ := fun o => c1 o + l[y].count o with hc2
    set c3 : Fin 3 → ℕ := Function.update c2 o (c1 o + 1) with hc3
    set c4 : Fin 3 → ℕ := fun o => c3 o + l2.count o with hc4
    set b4 : ℕ → Bump := Function.update (Function.update b0 y ⟨[], none⟩) x ⟨[], none⟩ with hb4
    have run : bumpRun (List.replicate (2 * l1.length) x ++ ([x] ++ (List.replicate (2 * l[y].length) y ++ ([x] ++
        (List.replicate (2 * l2.length) x ++ oneByOne l'))))) (fun _ => 0) b0 = bumpRun (oneByOne l') c4 b4 := by
      rw [bumpRun_append, part l1 (o :: l2) (fun _ => 0) b0 hbx]
      simp only
      rw [bumpRun_append]
      have e1 : bumpRun [x] c1 (Function.update b0 x ⟨o :: l2, none⟩) =
          (c1, Function.update b0 x ⟨o :: l2, some (c1 o)⟩) := by
        simp [bumpRun, Bump.step]
      rw [← hc1, e1]
      simp only
      rw [bumpRun_append, bumpRun_alone y l[y] c1 _ (by rw [Function.update_of_ne (Ne.symm hxy), hby])]
      simp only
      rw [← hc2, bumpRun_append]
      have e2 : bumpRun [x] c2 (Function.update (Function.update b0 x ⟨o :: l2, some (c1 o)⟩) y ⟨[], none⟩) =
          (c3, Function.update (Function.update b0 y ⟨[], none⟩) x ⟨l2, none⟩) := by
        rw [Function.update_comm hxy]
        simp [bumpRun, Bump.step, hc3]
      rw [e2]
      simp only
      rw [bumpRun_append, bumpRun_alone x l2 c3 _ (by rw [Function.update_self])]
      simp only
      rw [Function.update_idem]
    rw [run]
    have hrest : ∀ i (hi : i < l'.length), b4 (0 + i) = ⟨l'[i], none⟩ := by
      intro i hi
      rw [Nat.zero_add]
      have hil : i < l.length := by omega
      by_cases h1 : i = x
      · subst h1
        rw [hb4, Function.update_self]
        simp [hl', List.getElem_set]
      · by_cases h2 : i = y
        · subst h2
          rw [hb4, Function.update_of_ne h1, Function.update_self]
          simp [hl', List.getElem_set]
        · rw [hb4, Function.update_of_ne h1, Function.update_of_ne h2, hb0]
          unfold bumpStart
          rw [List.getD_eq_getElem _ _ hil]
          simp [hl', List.getElem_set, Ne.symm h1, Ne.symm h2]
    constructor
    · intro i hi
      have := (bumpRun_seq_todo l' 0 c4 b4 hrest).1 i (by omega)
      rw [Nat.zero_add] at this
      unfold oneByOne
      rw [this]
    · unfold oneByOne
      rw [bumpRun_seq l' 0 c4 b4 hrest]
      have s1 := sum_count l1
      have s2 := sum_count l2
      have sy := sum_count l[y]
      have s' := sum_count l'.flatten
      have f1 := length_flatten_set l x hx
      have f2 := length_flatten_set (l.set x []) y (by simpa using hy)
      rw [List.getElem_set_ne hxy] at f2
      rw [← hl'] at f2
      rw [e, List.length_append, List.length_cons] at f1
      have hpos : 0 < l[y].count o := List.count_pos_iff.mpr hoy
      have h3 : c3 0 + c3 1 + c3 2 + l[y].count o = l1.length + l[y].length + 1 := by
        rw [hc3]
        rcases fin3_cases 0 o with rfl | rfl | rfl <;> simp [Function.update, hc2, hc1] <;> omega
      unfold bumpSum
      simp only [hc4]
      omega

/-- Specification: the execution `s` of the check runs all its iterations to the end. -/
def Complete (m : Mesh) (N : ℕ) (s : List ℕ) : Prop :=
  (∀ i ∈ s, i < N) ∧
    ∀ i < N, ((bumpRun s (fun _ => 0) (bumpStart ((List.range N).map (openEdges m)))).2 i).todo = []

theorem oneByOne_complete (m : Mesh) (N : ℕ) : Complete m N (oneByOne ((List.range N).map (openEdges m))) := by
  constructor
  · intro i hi
    simp only [oneByOne, List.mem_flatMap] at hi
    obtain ⟨⟨a, k⟩, hk, hi⟩ := hi
    have := List.mem_replicate.mp hi
    obtain ⟨h1, h2⟩ := List.mem_zipIdx' hk
    simp only [List.length_map, List.length_range] at this h1
    rw [this.2]
    omega
  · intro i hi
    have := (bumpRun_seq_todo ((List.range N).map (openEdges m)) 0 (fun _ => 0) (bumpStart ((List.range N).map (openEdges m)))
      (by
        intro i hi
        rw [Nat.zero_add]
        unfold bumpStart
        rw [List.getD_eq_getElem _ _ hi])).1 i (by simpa using hi)
    rw [Nat.zero_add] at this
    unfold oneByOne
    rw [this]

/-- With at least four edges without neighbour there is a complete execution that counts too few. -/
theorem exists_lost (m : Mesh) (N : ℕ) (h : 4 ≤ outlineSize m N) : ∃ s, Complete m N s ∧
    bumpSum (bumpRun s (fun _ => 0) (bumpStart ((List.range N).map (openEdges m)))).1 < outlineSize m N := by
  have h4 : (Finset.univ : Finset (Fin 3)).card <
      ((Finset.range N ×ˢ (Finset.univ : Finset (Fin 3))).filter fun e => m.ngh e.1 e.2 = none).card := by
    have : (Finset.univ : Finset (Fin 3)).card = 3 := by decide
    rw [this]
    exact h
  obtain ⟨⟨x, i⟩, hx, ⟨y, j⟩, hy, hne, e⟩ := Finset.exists_ne_map_eq_of_card_lt_of_maps_to h4
    (f := fun e => e.2) (fun e _ => Finset.mem_univ _)
  simp only at e
  subst e
  simp only [Finset.mem_filter, Finset.mem_product, Finset.mem_univ, and_true, Finset.mem_range] at hx hy
  have hxy : x ≠ y := by
    rintro rfl
    exact hne rfl
  have hmem : ∀ z, m.ngh z i = none → i ∈ openEdges m z := by
    intro z hz
    unfold openEdges
    rw [List.mem_filter]
    have hall : ∀ i : Fin 3, i ∈ [(0 : Fin 3), 1, 2] := by decide
    exact ⟨hall i, by simpa using hz⟩
  obtain ⟨s, s1, s2, s3⟩ := bump_lost ((List.range N).map (openEdges m)) hxy (by simpa using hx.1) (by simpa using hy.1)
    (o := i) (by simpa using hmem x hx.2) (by simpa using hmem y hy.2)
  simp only [List.length_map, List.length_range] at s1 s2
  rw [← outlineSize_eq] at s3
  exact ⟨s, ⟨s1, s2⟩, s3⟩

/-- What both parts of C97 use. -/
theorem checked_core {P : List (P2 ℝ)} (hP : P.Nodup) (h2 : 2 ≤ P.length) {perm : List ℕ}
    (hperm : perm.Perm (List.range P.length)) {near : List ℕ → ℕ → ℕ}
    (hnear : ∀ (pool : List ℕ) u, pool ≠ [] → u ∉ pool → near pool u ∈ pool) {fuel : ℕ} (hf : 6 * P.length + 26 ≤ fuel)
    (m0 : Mesh) (p0 : ℕ → P2 ℝ) (i0 : ℕ → ℕ) :
    ∃ (bd : List (P2 ℝ)) (tris : List (ℕ × ℕ × ℕ)) (m : Mesh), bd.length = 10 ∧ Triangulation (P ++ bd) P.length tris ∧
      outlineSize m (2 * P.length + 8) = 10 ∧
      ∀ (sched : ℕ → List ℕ × List ℕ × List ℕ) (cs : Mesh → List ℕ),
        (delaunayChecked perm near fuel sched cs m0 p0 i0 P = .error .fuel ∨
          delaunayChecked perm near fuel sched cs m0 p0 i0 P = .ok ((P ++ bd, tris), [], decide (10 ≠
            bumpSum (bumpRun (cs m) (fun _ => 0) (bumpStart ((List.range (2 * P.length + 8)).map (openEdges m)))).1))) ∧
        ((∀ k, ∀ t < P.length,
            roundBound P.length (P.length + 10) (2 * P.length + 8) ≤ (sched k).1.count t ∧
            roundBound P.length (P.length + 10) (2 * P.length + 8) ≤ (sched k).2.1.count t ∧
            roundBound P.length (P.length + 10) (2 * P.length + 8) ≤ (sched k).2.2.count t) →
          delaunayChecked perm near fuel sched cs m0 p0 i0 P = .ok ((P ++ bd, tris), [], decide (10 ≠
            bumpSum (bumpRun (cs m) (fun _ => 0) (bumpStart ((List.range (2 * P.length + 8)).map (openEdges m)))).1))) := by
  obtain ⟨bd, tris, m, s, h1, h3, h4, h5, hbd, hm, hD, hO, hres, hrun⟩ := delaunay_core hP h2 hperm hnear hf m0 p0 i0
  have hT := hD.tri
  refine ⟨bd, tris, s.mesh, h1, h5, outlineSize_ten hT hO, fun sched cs => ?_⟩
  obtain ⟨r1, r2⟩ := hrun sched _ rfl
  have hlen : 2 * P.length + (bd.length - 2) = 2 * P.length + 8 := by rw [h1]
  set pos := scatter (perm ++ (List.range bd.length).map fun i => i + P.length) (P ++ bd) p0 with hpos
  have hchk : checkDelaunay pos s.mesh (2 * P.length + (bd.length - 2)) bd.length (cs s.mesh) = .ok ([], decide (10 ≠
      bumpSum (bumpRun (cs s.mesh) (fun _ => 0) (bumpStart ((List.range (2 * P.length + 8)).map (openEdges s.mesh)))).1)) := by
    rw [hlen, h1]
    obtain ⟨r, e1, e2⟩ := c90_edges (by omega) hT 10 (cs s.mesh)
    rw [e2.mpr hD] at e1
    obtain ⟨r', a, -⟩ := checkTris_ok (n := 2 * P.length + 8) hT (by omega) (List.range (2 * P.length + 8)) (by simp)
    unfold checkDelaunay at e1 ⊢
    rw [a] at e1 ⊢
    simp only [Except.map, Except.ok.injEq] at e1 ⊢
    rw [e1]
  unfold delaunayChecked
  rw [hbd]
  simp only [Except.bind]
  unfold delaunayCheckedWith
  simp only
  rw [hm]
  simp only [Except.bind]
  rw [← hpos]
  refine ⟨?_, fun hfair => ?_⟩
  · rcases r1 with h | h
    · left
      rw [h]
    · right
      rw [h]
      simp only
      rw [hchk]
      exact congrArg Except.ok (Prod.ext hres rfl)
  · rw [r2 hfair]
    simp only
    rw [hchk]
    exact congrArg Except.ok (Prod.ext hres rfl)

/-- **C97.** For at least two pairwise different points, any permutation, any correct nearest neighbour search and any interleavings of
the rounds and of the check: `delaunay` with the self-check returns the Delaunay triangulation of C61, the check is defined and prints no
line about an edge; if the iterations of the check run one after the other it does not print the line about the boundary either. -/
theorem c97_checked_partial {P : List (P2 ℝ)} (hP : P.Nodup) (h2 : 2 ≤ P.length) {perm : List ℕ}
    (hperm : perm.Perm (List.range P.length)) {near : List ℕ → ℕ → ℕ}
    (hnear : ∀ (pool : List ℕ) u, pool ≠ [] → u ∉ pool → near pool u ∈ pool) {fuel : ℕ} (hf : 6 * P.length + 26 ≤ fuel)
    (m0 : Mesh) (p0 : ℕ → P2 ℝ) (i0 : ℕ → ℕ) :
    ∃ (bd : List (P2 ℝ)) (tris : List (ℕ × ℕ × ℕ)), bd.length = 10 ∧ Triangulation (P ++ bd) P.length tris ∧
      ∀ (sched : ℕ → List ℕ × List ℕ × List ℕ) (cs : Mesh → List ℕ),
        (delaunayChecked perm near fuel sched cs m0 p0 i0 P = .error .fuel ∨
          ∃ b, delaunayChecked perm near fuel sched cs m0 p0 i0 P = .ok ((P ++ bd, tris), [], b) ∧
            ((∀ m, cs m = oneByOne ((List.range (2 * P.length + 8)).map (openEdges m))) → b = false)) ∧
        ((∀ k, ∀ t < P.length,
            roundBound P.length (P.length + 10) (2 * P.length + 8) ≤ (sched k).1.count t ∧
            roundBound P.length (P.length + 10) (2 * P.length + 8) ≤ (sched k).2.1.count t ∧
            roundBound P.length (P.length + 10) (2 * P.length + 8) ≤ (sched k).2.2.count t) →
          ∃ b, delaunayChecked perm near fuel sched cs m0 p0 i0 P = .ok ((P ++ bd, tris), [], b)) := by
  obtain ⟨bd, tris, m, h1, h5, hsz, hall⟩ := checked_core hP h2 hperm hnear hf m0 p0 i0
  refine ⟨bd, tris, h1, h5, fun sched cs => ⟨?_, fun hfair => ⟨_, (hall sched cs).2 hfair⟩⟩⟩
  rcases (hall sched cs).1 with h | h
  · exact Or.inl h
  · refine Or.inr ⟨_, h, fun hs => ?_⟩
    have e : bumpSum (bumpRun (cs m) (fun _ => 0) (bumpStart ((List.range (2 * P.length + 8)).map (openEdges m)))).1 = 10 := by
      rw [hs]
      unfold oneByOne
      rw [bumpRun_seq _ 0]
      · simp only [bumpSum, Nat.zero_add]
        rw [sum_count, ← outlineSize_eq, hsz]
      · intro i hi
        rw [Nat.zero_add]
        unfold bumpStart
        rw [List.getD_eq_getElem _ _ hi]
    rw [e]
    simp

/-- **C97 fails on every input: the counters of the check race.** Whatever the (at least two, different) points, there are executions of
the check, with all iterations run to the end, after which the line about the boundary is printed although the triangulation is right. -/
theorem c97_race_false {P : List (P2 ℝ)} (hP : P.Nodup) (h2 : 2 ≤ P.length) {perm : List ℕ}
    (hperm : perm.Perm (List.range P.length)) {near : List ℕ → ℕ → ℕ}
    (hnear : ∀ (pool : List ℕ) u, pool ≠ [] → u ∉ pool → near pool u ∈ pool) {fuel : ℕ} (hf : 6 * P.length + 26 ≤ fuel)
    (m0 : Mesh) (p0 : ℕ → P2 ℝ) (i0 : ℕ → ℕ) :
    ∃ (Q : List (P2 ℝ)) (tris : List (ℕ × ℕ × ℕ)) (cs : Mesh → List ℕ), Triangulation Q P.length tris ∧
      (∀ m, Complete m (2 * P.length + 8) (cs m)) ∧
      ∀ sched : ℕ → List ℕ × List ℕ × List ℕ,
        (∀ k, ∀ t < P.length,
            roundBound P.length (P.length + 10) (2 * P.length + 8) ≤ (sched k).1.count t ∧
            roundBound P.length (P.length + 10) (2 * P.length + 8) ≤ (sched k).2.1.count t ∧
            roundBound P.length (P.length + 10) (2 * P.length + 8) ≤ (sched k).2.2.count t) →
          delaunayChecked perm near fuel sched cs m0 p0 i0 P = .ok ((Q, tris), [], true) := by
  obtain ⟨bd, tris, m, h1, h5, hsz, hall⟩ := checked_core hP h2 hperm hnear hf m0 p0 i0
  have hcs : ∀ m' : Mesh, ∃ s, Complete m' (2 * P.length + 8) s ∧ (4 ≤ outlineSize m' (2 * P.length + 8) →
      bumpSum (bumpRun s (fun _ => 0) (bumpStart ((List.range (2 * P.length + 8)).map (openEdges m')))).1 <
        outlineSize m' (2 * P.length + 8)) := by
    intro m'
    by_cases h4 : 4 ≤ outlineSize m' (2 * P.length + 8)
    · obtain ⟨s, s1, s2⟩ := exists_lost m' _ h4
      exact ⟨s, s1, fun _ => s2⟩
    · exact ⟨_, oneByOne_complete m' _, fun h => absurd h h4⟩
  choose cs c1 c2 using hcs
  refine ⟨P ++ bd, tris, cs, h5, c1, fun sched hfair => ?_⟩
  rw [(hall sched cs).2 hfair]
  have := c2 m (by omega)
  rw [hsz] at this
  have e : decide (10 ≠ bumpSum (bumpRun (cs m) (fun _ => 0)
      (bumpStart ((List.range (2 * P.length + 8)).map (openEdges m)))).1) = true := by
    simp only [decide_eq_true_eq]
    omega
  rw [e]

attribute [local irreducible] roundBound in
/-- The hypotheses of `c97_checked_partial` and `c97_race_false` hold for five points; with enough turns for each thread the result is
the triangulation, and nothing printed about edges. -/
example : ∃ (Q : List (P2 ℝ)) (tris : List (ℕ × ℕ × ℕ)), Triangulation Q 5 tris ∧ ∃ b,
    delaunayChecked [3, 1, 4, 0, 2] (fun pool _ => pool.getD 0 0) 100
      (fun _ => (roundRobin 5 (roundBound 5 15 18), roundRobin 5 (roundBound 5 15 18), roundRobin 5 (roundBound 5 15 18)))
      (fun m => oneByOne ((List.range 18).map (openEdges m))) ⟨fun _ => ⟨fun _ => none, fun _ => 0⟩, fun _ => 0⟩
      (fun _ => ⟨0, 0⟩) (fun _ => 0) [⟨0, 0⟩, ⟨2, 0⟩, ⟨2, 2⟩, ⟨0, 2⟩, ⟨1, 0⟩] = .ok ((Q, tris), [], b) := by
  obtain ⟨bd, tris, h1, h2, h3⟩ := c97_checked_partial
    (P := [⟨0, 0⟩, ⟨2, 0⟩, ⟨2, 2⟩, ⟨0, 2⟩, ⟨1, 0⟩]) (by simp) (by simp) (perm := [3, 1, 4, 0, 2]) (by decide)
    (near := fun pool _ => pool.getD 0 0) (by
      intro pool u h _
      cases pool with
      | nil => exact absurd rfl h
      | cons a l => simp) (fuel := 100) (by simp) ⟨fun _ => ⟨fun _ => none, fun _ => 0⟩, fun _ => 0⟩
    (fun _ => ⟨0, 0⟩) (fun _ => 0)
  refine ⟨_, tris, h2, (h3 _ _).2 ?_⟩
  have hc : ∀ n k t, t < n → k ≤ (roundRobin n k).count t := by
    intro n k t ht
    induction k with
    | zero => simp
    | succ k ih =>
      unfold roundRobin at ih ⊢
      rw [List.range_succ, List.flatMap_append, List.count_append]
      have : 1 ≤ (List.range n).count t := List.count_pos_iff.mpr (List.mem_range.mpr ht)
      simp only [List.flatMap_cons, List.flatMap_nil, List.append_nil]
      omega
  intro k t ht
  exact ⟨hc _ _ t ht, hc _ _ t ht, hc _ _ t ht⟩

end Verif.Delaunay
