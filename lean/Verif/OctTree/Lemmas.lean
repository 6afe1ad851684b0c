import Verif.OctTree.Model

set_option linter.unusedSectionVars false
set_option linter.unusedVariables false

/-! Lemmas on the oct-tree: the search keeps the nearest vertices of those seen or pruned. -/

namespace Verif.OctTree

variable {V : Type} {d : ℕ} {pos : V → Fin d → ℝ} {v : V}

/-! ### Distances -/

theorem sum_nonneg_sq (a b : Fin d → ℝ) : 0 ≤ ∑ i, (a i - b i) * (a i - b i) :=
  Finset.sum_nonneg fun i _ => mul_self_nonneg _

theorem len_le_iff (a b c : Fin d → ℝ) :
    len a b ≤ len a c ↔ ∑ i, (a i - b i) * (a i - b i) ≤ ∑ i, (a i - c i) * (a i - c i) := by
  unfold len
  exact Real.sqrt_le_sqrt_iff (sum_nonneg_sq a c)

theorem abs_le_len (a b : Fin d → ℝ) (i : Fin d) : |a i - b i| ≤ len a b := by
  unfold len
  apply Real.le_sqrt_of_sq_le
  rw [sq_abs, pow_two]
  exact Finset.single_le_sum (f := fun i => (a i - b i) * (a i - b i)) (fun i _ => mul_self_nonneg _) (Finset.mem_univ i)

/-! ### The buffer -/

theorem bubble_perm (x : WithTop ℝ × Option V) : ∀ l : Buf V, (bubble x l).Perm (x :: l)
  | [] => List.Perm.refl _
  | y :: l => by
    unfold bubble
    split
    · exact ((bubble_perm x l).cons y).trans (List.Perm.swap x y l)
    · exact List.Perm.refl _

theorem bubble_desc (x : WithTop ℝ × Option V) : ∀ l : Buf V, l.Pairwise (fun a b => b.1 ≤ a.1) →
    (bubble x l).Pairwise (fun a b => b.1 ≤ a.1)
  | [], _ => List.pairwise_singleton _ _
  | y :: l, h => by
    rw [List.pairwise_cons] at h
    unfold bubble
    split
    · rename_i hlt
      rw [List.pairwise_cons]
      refine ⟨fun a ha => ?_, bubble_desc x l h.2⟩
      rcases List.mem_cons.mp ((bubble_perm x l).mem_iff.mp ha) with rfl | ha
      · exact hlt.le
      · exact h.1 a ha
    · rename_i hge
      rw [not_lt] at hge
      rw [List.pairwise_cons]
      refine ⟨fun a ha => ?_, List.pairwise_cons.mpr h⟩
      rcases List.mem_cons.mp ha with rfl | ha
      · exact hge
      · exact (h.1 a ha).trans hge

/-- The state of a search which has seen or pruned `S`. -/
structure BInv (pos : V → Fin d → ℝ) (v : V) (k : ℕ) (S : List V) (b : Buf V) : Prop where
  length : b.length = k
  desc : b.Pairwise fun x y => y.1 ≤ x.1
  entry : ∀ x ∈ b, x = (⊤, none) ∨ ∃ u, x = (((len (pos v) (pos u) : ℝ) : WithTop ℝ), some u)
  content : ∃ rest, S.Perm (b.filterMap Prod.snd ++ rest) ∧ ∀ u ∈ rest, b.dist0 ≤ (len (pos v) (pos u) : ℝ)

theorem BInv.init (k : ℕ) : BInv pos v k [] (List.replicate k (⊤, none)) := by
  refine ⟨by simp, ?_, ?_, ⟨[], ?_, by simp⟩⟩
  · rw [List.pairwise_replicate]
    right
    exact le_rfl
  · intro x hx
    left
    exact List.eq_of_mem_replicate hx
  · rw [List.append_nil, List.filterMap_replicate_of_none rfl]

theorem BInv.perm {k : ℕ} {S S' : List V} {b : Buf V} (h : BInv pos v k S b) (hp : S'.Perm S) : BInv pos v k S' b := by
  obtain ⟨rest, h1, h2⟩ := h.content
  exact ⟨h.length, h.desc, h.entry, rest, hp.trans h1, h2⟩

/-- Vertices not nearer than `distances[0]` can be left out. -/
theorem BInv.skip {k : ℕ} {S U : List V} {b : Buf V} (h : BInv pos v k S b)
    (hU : ∀ u ∈ U, b.dist0 ≤ (len (pos v) (pos u) : ℝ)) : BInv pos v k (S ++ U) b := by
  obtain ⟨rest, h1, h2⟩ := h.content
  refine ⟨h.length, h.desc, h.entry, rest ++ U, ?_, ?_⟩
  · rw [← List.append_assoc]
    exact h1.append_right U
  · intro u hu
    rcases List.mem_append.mp hu with hu | hu
    · exact h2 u hu
    · exact hU u hu

theorem dist0_le {b : Buf V} {x : WithTop ℝ × Option V} {l : Buf V} (hb : b.Perm (x :: l)) (c : WithTop ℝ)
    (h : ∀ y ∈ x :: l, y.1 ≤ c) : b.dist0 ≤ c := by
  cases b with
  | nil => simp at hb
  | cons y b =>
    simp only [Buf.dist0, List.head?_cons, Option.map_some, Option.getD_some]
    exact h y (hb.mem_iff.mp (by simp))

theorem BInv.update {k : ℕ} (hk : 0 < k) {S : List V} {b : Buf V} (h : BInv pos v k S b) (u : V) :
    BInv pos v k (S ++ [u]) (updateNearest pos v u b) := by
  cases b with
  | nil =>
    have := h.length
    simp at this
    omega
  | cons x l =>
    unfold updateNearest
    simp only
    have hd := List.pairwise_cons.mp h.desc
    split
    · rename_i hlt
      obtain ⟨rest, h1, h2⟩ := h.content
      have hp := bubble_perm (((len (pos v) (pos u) : ℝ) : WithTop ℝ), some u) l
      have h0 : (bubble (((len (pos v) (pos u) : ℝ) : WithTop ℝ), some u) l).dist0 ≤ x.1 := by
        refine dist0_le hp _ fun y hy => ?_
        rcases List.mem_cons.mp hy with rfl | hy
        · exact hlt.le
        · exact hd.1 y hy
      refine ⟨?_, bubble_desc _ _ hd.2, ?_, ?_⟩
      · rw [hp.length_eq, ← h.length]
        simp
      · intro y hy
        rcases List.mem_cons.mp (hp.mem_iff.mp hy) with rfl | hy
        · right
          exact ⟨u, rfl⟩
        · exact h.entry y (by simp [hy])
      · have hfm : ((bubble (((len (pos v) (pos u) : ℝ) : WithTop ℝ), some u) l).filterMap Prod.snd).Perm
            (u :: l.filterMap Prod.snd) := by
          refine (hp.filterMap _).trans ?_
          rw [List.filterMap_cons_some (f := Prod.snd) (b := u) rfl]
        rcases h.entry x (by simp) with hx | ⟨w, hx⟩
        · refine ⟨rest, ?_, ?_⟩
          · rw [List.filterMap_cons_none (by rw [hx])] at h1
            refine (h1.append_right [u]).trans ?_
            refine List.perm_append_comm.trans ?_
            exact (hfm.append_right rest).symm
          · intro y hy
            refine h0.trans ?_
            simpa [Buf.dist0] using h2 y hy
        · refine ⟨w :: rest, ?_, ?_⟩
          · rw [List.filterMap_cons_some (b := w) (by rw [hx])] at h1
            refine (h1.append_right [u]).trans ?_
            refine List.perm_append_comm.trans ?_
            refine List.Perm.trans ?_ (hfm.append_right _).symm
            rw [List.singleton_append, List.cons_append, List.cons_append]
            refine List.Perm.cons _ ?_
            exact List.perm_middle.symm
          · intro y hy
            refine h0.trans ?_
            rcases List.mem_cons.mp hy with rfl | hy
            · rw [hx]
            · simpa [Buf.dist0] using h2 y hy
    · rename_i hge
      rw [not_lt] at hge
      refine h.skip fun w hw => ?_
      rw [List.mem_singleton] at hw
      subst hw
      simpa [Buf.dist0] using hge

variable [DecidableEq V]

theorem BInv.scan {k : ℕ} (hk : 0 < k) : ∀ (P : List V) {S : List V} {b : Buf V}, BInv pos v k S b →
    BInv pos v k (S ++ P.filter (fun u => decide (u ≠ v))) (scanLeaf pos v P b)
  | [], S, b, h => by
    rw [List.filter_nil, List.append_nil]
    exact h
  | u :: P, S, b, h => by
    unfold scanLeaf
    rw [List.foldl_cons]
    by_cases hu : u ≠ v
    · rw [if_pos hu, List.filter_cons_of_pos (by simpa using hu)]
      have := BInv.scan hk P (h.update hk u)
      rw [List.append_assoc] at this
      exact this
    · rw [if_neg hu, List.filter_cons_of_neg (by simpa using hu)]
      exact BInv.scan hk P h

/-! ### The tree -/

/-- The box of each node contains its vertices. -/
def BoxOk (pos : V → Fin d → ℝ) : OT V d → Prop
  | .leaf P lo hi => ∀ u ∈ P, ∀ i, lo i ≤ pos u i ∧ pos u i ≤ hi i
  | .node L R lo hi => BoxOk pos L ∧ BoxOk pos R ∧
      ∀ u ∈ L.flatten ++ R.flatten, ∀ i, lo i ≤ pos u i ∧ pos u i ≤ hi i

theorem BoxOk.mem {T : OT V d} (h : BoxOk pos T) : ∀ u ∈ T.flatten, ∀ i, T.lo i ≤ pos u i ∧ pos u i ≤ T.hi i := by
  cases T with
  | leaf P lo hi => exact h
  | node L R lo hi => exact h.2.2

/-- A box which is not within epsilon has no vertex nearer than epsilon. -/
theorem far_of_not_within {T : OT V d} (h : BoxOk pos T) {e : WithTop ℝ} (hw : withinBox (pos v) T e = false) :
    ∀ u ∈ T.flatten, e ≤ (len (pos v) (pos u) : ℝ) := by
  intro u hu
  cases e with
  | top => simp [withinBox] at hw
  | coe e =>
    simp only [withinBox, decide_eq_false_iff_not, not_forall] at hw
    obtain ⟨i, hi⟩ := hw
    obtain ⟨h1, h2⟩ := h.mem u hu i
    have hl := abs_le_len (pos v) (pos u) i
    rw [WithTop.coe_le_coe]
    by_contra hcon
    rw [not_le] at hcon
    apply hi
    have := abs_lt.mp (lt_of_le_of_lt hl hcon)
    constructor
    · linarith [this.1]
    · linarith [this.2]

theorem nearestRec_inv {k : ℕ} (hk : 0 < k) : ∀ (T : OT V d), BoxOk pos T → ∀ {S : List V} {b : Buf V},
    BInv pos v k S b → BInv pos v k (S ++ T.flatten.filter (fun u => decide (u ≠ v))) (nearestRec pos v T b)
  | .leaf P lo hi, hT, S, b, h => by
    unfold nearestRec
    rcases hw : withinBox (pos v) (OT.leaf P lo hi) b.dist0 with _ | _
    · rw [if_neg (by simp)]
      exact h.skip fun u hu => far_of_not_within hT hw u (List.mem_of_mem_filter hu)
    · rw [if_pos rfl]
      exact h.scan hk P
  | .node L R lo hi, hT, S, b, h => by
    unfold nearestRec
    rcases hw : withinBox (pos v) (OT.node L R lo hi) b.dist0 with _ | _
    · rw [if_neg (by simp)]
      exact h.skip fun u hu => far_of_not_within hT hw u (List.mem_of_mem_filter hu)
    · rw [if_pos rfl]
      have e : (OT.node L R lo hi).flatten = L.flatten ++ R.flatten := rfl
      rw [e, List.filter_append]
      split
      · have := nearestRec_inv hk R hT.2.1 (nearestRec_inv hk L hT.1 h)
        rwa [List.append_assoc] at this
      · have := nearestRec_inv hk L hT.1 (nearestRec_inv hk R hT.2.1 h)
        rw [List.append_assoc] at this
        exact this.perm (List.Perm.append_left S List.perm_append_comm)

/-- The leaf `near_rec` goes to. -/
noncomputable def nearLeaf (pos : V → Fin d → ℝ) (v : V) : OT V d → List V
  | .leaf P lo hi => P
  | .node L R lo hi => if len L.center (pos v) < len R.center (pos v) then nearLeaf pos v L else nearLeaf pos v R

theorem nearLeaf_sub : ∀ (T : OT V d), ∀ u ∈ nearLeaf pos v T, u ∈ T.flatten
  | .leaf P lo hi, u, hu => hu
  | .node L R lo hi, u, hu => by
    unfold nearLeaf at hu
    have e : (OT.node L R lo hi).flatten = L.flatten ++ R.flatten := rfl
    rw [e, List.mem_append]
    split at hu
    · exact Or.inl (nearLeaf_sub L u hu)
    · exact Or.inr (nearLeaf_sub R u hu)

theorem nearRec_eq : ∀ (T : OT V d) (b : Buf V), nearRec pos v T b = scanLeaf pos v (nearLeaf pos v T) b
  | .leaf P lo hi, b => rfl
  | .node L R lo hi, b => by
    unfold nearRec nearLeaf
    split
    · exact nearRec_eq L b
    · exact nearRec_eq R b

/-- The shape of the buffer. -/
theorem BInv.shape {b : Buf V} (hd : b.Pairwise fun x y => y.1 ≤ x.1)
    (he : ∀ x ∈ b, x = (⊤, none) ∨ ∃ u, x = (((len (pos v) (pos u) : ℝ) : WithTop ℝ), some u)) :
    ∃ (j : ℕ) (us : List V), b = List.replicate j (⊤, none) ++
      us.map (fun u => (((len (pos v) (pos u) : ℝ) : WithTop ℝ), some u)) := by
  induction b with
  | nil => exact ⟨0, [], rfl⟩
  | cons x b ih =>
    rw [List.pairwise_cons] at hd
    obtain ⟨j, us, rfl⟩ := ih hd.2 fun y hy => he y (by simp [hy])
    rcases he x (by simp) with rfl | ⟨u, rfl⟩
    · exact ⟨j + 1, us, by simp [List.replicate_succ]⟩
    · cases j with
      | zero => exact ⟨0, u :: us, by simp⟩
      | succ j =>
        have := hd.1 (⊤, none) (by simp [List.replicate_succ])
        simp at this

end Verif.OctTree
