import Verif.OctTree.FloatModel
import Verif.OctTree.Props
import Verif.KdTree.FloatLemmas
import Verif.Float.Sqrt
import Verif.BatchKd.KnnFloatLemmas

set_option linter.unusedSectionVars false
set_option linter.unusedVariables false

namespace Verif.OctTree

open Verif.KdTree Verif.Float

variable {V : Type} {d : ℕ} {pos : V → Fin d → ℝ} {v : V} {fl : ℝ → ℝ} {u : ℝ}

/-- What is demanded of the relation between `distances[0]` and the vertices left out: it may only get truer when
`distances[0]` becomes smaller, and it holds for vertices which are not nearer. -/
structure FarOk (c : V → ℝ) (Far : WithTop ℝ → V → Prop) : Prop where
  anti : ∀ e e' b, e ≤ e' → Far e' b → Far e b
  le : ∀ e b, e ≤ (c b : WithTop ℝ) → Far e b
  top : ∀ b, ¬ Far ⊤ b

/-- The state of a search which has seen or pruned `S`; `c` is the computed distance. -/
structure BInvFl (c : V → ℝ) (Far : WithTop ℝ → V → Prop) (k : ℕ) (S : List V) (b : Buf V) : Prop where
  length : b.length = k
  desc : b.Pairwise fun x y => y.1 ≤ x.1
  entry : ∀ x ∈ b, x = (⊤, none) ∨ ∃ u, x = ((c u : WithTop ℝ), some u)
  content : ∃ rest, S.Perm (b.filterMap Prod.snd ++ rest) ∧ ∀ u ∈ rest, Far b.dist0 u

variable {c : V → ℝ} {Far : WithTop ℝ → V → Prop}

theorem BInvFl.init (k : ℕ) : BInvFl c Far k [] (List.replicate k (⊤, none)) := by
  refine ⟨by simp, ?_, ?_, ⟨[], ?_, by simp⟩⟩
  · rw [List.pairwise_replicate]
    right
    exact le_rfl
  · intro x hx
    left
    exact List.eq_of_mem_replicate hx
  · rw [List.append_nil, List.filterMap_replicate_of_none rfl]

theorem BInvFl.perm {k : ℕ} {S S' : List V} {b : Buf V} (h : BInvFl c Far k S b) (hp : S'.Perm S) : BInvFl c Far k S' b := by
  obtain ⟨rest, h1, h2⟩ := h.content
  exact ⟨h.length, h.desc, h.entry, rest, hp.trans h1, h2⟩

theorem BInvFl.skip {k : ℕ} {S U : List V} {b : Buf V} (h : BInvFl c Far k S b)
    (hU : ∀ u ∈ U, Far b.dist0 u) : BInvFl c Far k (S ++ U) b := by
  obtain ⟨rest, h1, h2⟩ := h.content
  refine ⟨h.length, h.desc, h.entry, rest ++ U, ?_, ?_⟩
  · rw [← List.append_assoc]
    exact h1.append_right U
  · intro u hu
    rcases List.mem_append.mp hu with hu | hu
    · exact h2 u hu
    · exact hU u hu

theorem BInvFl.update (hF : FarOk (fun u => distFl fl (pos v) (pos u)) Far) {k : ℕ} (hk : 0 < k) {S : List V} {b : Buf V}
    (h : BInvFl (fun u => distFl fl (pos v) (pos u)) Far k S b) (u : V) :
    BInvFl (fun u => distFl fl (pos v) (pos u)) Far k (S ++ [u]) (updateNearestFl fl pos v u b) := by
  cases b with
  | nil =>
    have := h.length
    simp at this
    omega
  | cons x l =>
    unfold updateNearestFl
    simp only
    have hd := List.pairwise_cons.mp h.desc
    split
    · rename_i hlt
      obtain ⟨rest, h1, h2⟩ := h.content
      have hp := bubble_perm (((distFl fl (pos v) (pos u) : ℝ) : WithTop ℝ), some u) l
      have h0 : (bubble (((distFl fl (pos v) (pos u) : ℝ) : WithTop ℝ), some u) l).dist0 ≤ x.1 := by
        refine dist0_le hp _ fun y hy => ?_
        rcases List.mem_cons.mp hy with rfl | hy
        · exact hlt.le
        · exact hd.1 y hy
      refine ⟨?_, bubble_desc _ _ hd.2, ?_, ?_⟩
      · rw [hp.length_eq, ← h.length]
        simp
      · intro y hy
        rcases List.mem_cons.mp (hp.mem_iff.mp hy) with rfl | hy
        · right
          exact ⟨u, rfl⟩
        · exact h.entry y (by simp [hy])
      · have hfm : ((bubble (((distFl fl (pos v) (pos u) : ℝ) : WithTop ℝ), some u) l).filterMap Prod.snd).Perm
            (u :: l.filterMap Prod.snd) := by
          refine (hp.filterMap _).trans ?_
          rw [List.filterMap_cons_some (f := Prod.snd) (b := u) rfl]
        rcases h.entry x (by simp) with hx | ⟨w, hx⟩
        · refine ⟨rest, ?_, ?_⟩
          · rw [List.filterMap_cons_none (by rw [hx])] at h1
            refine (h1.append_right [u]).trans ?_
            refine List.perm_append_comm.trans ?_
            exact (hfm.append_right rest).symm
          · intro y hy
            refine hF.anti _ _ _ h0 ?_
            simpa [Buf.dist0] using h2 y hy
        · refine ⟨w :: rest, ?_, ?_⟩
          · rw [List.filterMap_cons_some (b := w) (by rw [hx])] at h1
            refine (h1.append_right [u]).trans ?_
            refine List.perm_append_comm.trans ?_
            refine List.Perm.trans ?_ (hfm.append_right _).symm
            rw [List.singleton_append, List.cons_append, List.cons_append]
            refine List.Perm.cons _ ?_
            exact List.perm_middle.symm
          · intro y hy
            refine hF.anti _ _ _ h0 ?_
            rcases List.mem_cons.mp hy with rfl | hy
            · rw [hx]
              exact hF.le _ _ le_rfl
            · simpa [Buf.dist0] using h2 y hy
    · rename_i hge
      rw [not_lt] at hge
      refine h.skip fun w hw => ?_
      rw [List.mem_singleton] at hw
      subst hw
      exact hF.le _ _ (by simpa [Buf.dist0] using hge)

variable [DecidableEq V]

theorem BInvFl.scan (hF : FarOk (fun u => distFl fl (pos v) (pos u)) Far) {k : ℕ} (hk : 0 < k) :
    ∀ (P : List V) {S : List V} {b : Buf V}, BInvFl (fun u => distFl fl (pos v) (pos u)) Far k S b →
    BInvFl (fun u => distFl fl (pos v) (pos u)) Far k (S ++ P.filter (fun u => decide (u ≠ v))) (scanLeafFl fl pos v P b)
  | [], S, b, h => by
    rw [List.filter_nil, List.append_nil]
    exact h
  | u :: P, S, b, h => by
    unfold scanLeafFl
    rw [List.foldl_cons]
    by_cases hu : u ≠ v
    · rw [if_pos hu, List.filter_cons_of_pos (by simpa using hu)]
      have := BInvFl.scan hF hk P (h.update hF hk u)
      rw [List.append_assoc] at this
      exact this
    · rw [if_neg hu, List.filter_cons_of_neg (by simpa using hu)]
      exact BInvFl.scan hF hk P h

/-- `e` is not larger than the computed distance of `b`, or, up to the unit roundoff, not larger than the exact distance
along one axis. -/
def FarFl (fl : ℝ → ℝ) (u : ℝ) (pos : V → Fin d → ℝ) (v : V) (e : WithTop ℝ) (b : V) : Prop :=
  e ≤ (distFl fl (pos v) (pos b) : ℝ) ∨
    ∃ (e' : ℝ) (i : Fin d), e = e' ∧ (1 - u) * e' ≤ |pos v i - pos b i| + u * |pos b i|

theorem farFl_ok (hu : u ≤ 1) : FarOk (fun w => distFl fl (pos v) (pos w)) (FarFl fl u pos v) := by
  refine ⟨?_, fun e b h => Or.inl h, ?_⟩
  · rintro e e' b hle (h | ⟨x, i, rfl, h⟩)
    · exact Or.inl (hle.trans h)
    · right
      cases e with
      | top => simp at hle
      | coe e =>
        rw [WithTop.coe_le_coe] at hle
        refine ⟨e, i, rfl, le_trans ?_ h⟩
        exact mul_le_mul_of_nonneg_left hle (by linarith)
  · rintro b (h | ⟨x, i, h, -⟩)
    · simp at h
    · simp at h

theorem far_of_not_withinFl (hf : IsRounding u fl) {T : OT V d} (h : BoxOk pos T) {e : WithTop ℝ} (he : 0 ≤ e)
    (hw : withinBoxFl fl (pos v) T e = false) : ∀ w ∈ T.flatten, FarFl fl u pos v e w := by
  intro w hw'
  cases e with
  | top => simp [withinBoxFl] at hw
  | coe e =>
    simp only [withinBoxFl, decide_eq_false_iff_not, not_forall] at hw
    obtain ⟨i, hi⟩ := hw
    obtain ⟨h1, h2⟩ := h.mem w hw' i
    have he' : 0 ≤ e := by simpa using he
    right
    refine ⟨e, i, rfl, ?_⟩
    have hu0 : 0 ≤ u := u_nonneg hf
    rw [not_and_or, not_lt, not_lt] at hi
    rcases hi with hi | hi
    · have g1 := hf.mono (show T.lo i - e ≤ pos w i - e by linarith)
      have g2 := (abs_le.mp (hf.err (pos w i - e))).2
      have g3 : |pos w i - e| ≤ |pos w i| + e := by
        refine (abs_sub _ _).trans ?_
        rw [abs_of_nonneg he']
      have g4 := mul_le_mul_of_nonneg_left g3 hu0
      have g5 := neg_abs_le (pos v i - pos w i)
      nlinarith
    · have g1 := hf.mono (show pos w i + e ≤ T.hi i + e by linarith)
      have g2 := (abs_le.mp (hf.err (pos w i + e))).1
      have g3 : |pos w i + e| ≤ |pos w i| + e := by
        refine (abs_add_le _ _).trans ?_
        rw [abs_of_nonneg he']
      have g4 := mul_le_mul_of_nonneg_left g3 hu0
      have g5 := le_abs_self (pos v i - pos w i)
      nlinarith

theorem BInvFl.dist0_eq {k : ℕ} {S : List V} {b : Buf V} (h : BInvFl c Far k S b) : b.dist0 = ⊤ ∨ ∃ w, b.dist0 = (c w : ℝ) := by
  cases b with
  | nil => exact Or.inl rfl
  | cons x b =>
    rcases h.entry x (by simp) with rfl | ⟨w, rfl⟩
    · exact Or.inl rfl
    · exact Or.inr ⟨w, rfl⟩

/-- The search keeps the invariant if the relation holds for the vertices of boxes that are skipped. -/
theorem nearestRecFl_inv (hF : FarOk (fun w => distFl fl (pos v) (pos w)) Far) {G : V → Prop}
    (hskip : ∀ (T : OT V d) (a : V), BoxOk pos T → (∀ w ∈ T.flatten, G w) →
      withinBoxFl fl (pos v) T (distFl fl (pos v) (pos a) : ℝ) = false →
      ∀ w ∈ T.flatten, Far (distFl fl (pos v) (pos a) : ℝ) w) {k : ℕ} (hk : 0 < k) : ∀ (T : OT V d), BoxOk pos T →
    (∀ w ∈ T.flatten, G w) → ∀ {S : List V} {b : Buf V}, BInvFl (fun w => distFl fl (pos v) (pos w)) Far k S b →
    BInvFl (fun w => distFl fl (pos v) (pos w)) Far k (S ++ T.flatten.filter (fun u => decide (u ≠ v)))
      (nearestRecFl fl pos v T b)
  | .leaf P lo hi, hT, hG, S, b, h => by
    unfold nearestRecFl
    rcases hw : withinBoxFl fl (pos v) (OT.leaf P lo hi) b.dist0 with _ | _
    · rw [if_neg (by simp)]
      rcases h.dist0_eq with e | ⟨a, e⟩
      · rw [e] at hw
        simp [withinBoxFl] at hw
      · rw [e] at hw
        refine h.skip fun u hu => ?_
        rw [e]
        exact hskip _ a hT hG hw u (List.mem_of_mem_filter hu)
    · rw [if_pos rfl]
      exact h.scan hF hk P
  | .node L R lo hi, hT, hG, S, b, h => by
    unfold nearestRecFl
    have e : (OT.node L R lo hi).flatten = L.flatten ++ R.flatten := rfl
    have gL : ∀ w ∈ L.flatten, G w := fun w hw => hG w (by rw [e]; simp [hw])
    have gR : ∀ w ∈ R.flatten, G w := fun w hw => hG w (by rw [e]; simp [hw])
    rcases hw : withinBoxFl fl (pos v) (OT.node L R lo hi) b.dist0 with _ | _
    · rw [if_neg (by simp)]
      rcases h.dist0_eq with e | ⟨a, e⟩
      · rw [e] at hw
        simp [withinBoxFl] at hw
      · rw [e] at hw
        refine h.skip fun u hu => ?_
        rw [e]
        exact hskip _ a hT hG hw u (List.mem_of_mem_filter hu)
    · rw [if_pos rfl]
      rw [e, List.filter_append]
      split
      · have := nearestRecFl_inv hF hskip hk R hT.2.1 gR (nearestRecFl_inv hF hskip hk L hT.1 gL h)
        rwa [List.append_assoc] at this
      · have := nearestRecFl_inv hF hskip hk L hT.1 gL (nearestRecFl_inv hF hskip hk R hT.2.1 gR h)
        rw [List.append_assoc] at this
        exact this.perm (List.Perm.append_left S List.perm_append_comm)

/-! ### Which vertices can be missed -/

/-- `e` is not larger than the computed distance of `b`, or some number from `e` on, added to or subtracted from a
coordinate of `b`, is rounded to the coordinate of `v`. -/
def FarTie (fl : ℝ → ℝ) (pos : V → Fin d → ℝ) (v : V) (e : WithTop ℝ) (b : V) : Prop :=
  e ≤ (distFl fl (pos v) (pos b) : ℝ) ∨
    ∃ (e' : ℝ) (i : Fin d), e ≤ e' ∧ (pos v i = fl (pos b i - e') ∨ pos v i = fl (pos b i + e'))

theorem farTie_ok : FarOk (fun w => distFl fl (pos v) (pos w)) (FarTie fl pos v) := by
  refine ⟨?_, fun e b h => Or.inl h, ?_⟩
  · rintro e e' b hle (h | ⟨x, i, h1, h2⟩)
    · exact Or.inl (hle.trans h)
    · exact Or.inr ⟨x, i, hle.trans h1, h2⟩
  · rintro b (h | ⟨x, i, h, -⟩)
    · simp at h
    · simp at h

theorem distFl_repr (hf : IsRootRounding fl) (p q : Fin d → ℝ) : fl (distFl fl p q) = distFl fl p q := hf.idem _

/-- A representable number not larger than the exact difference of a coordinate is not larger than the computed
distance. -/
theorem le_distFl_of_le (hf : IsRootRounding fl) {p q : Fin d → ℝ} {e : ℝ} (h0 : 0 ≤ e) (he : fl e = e) {i : Fin d}
    (h : e ≤ |p i - q i|) : e ≤ distFl fl p q := by
  refine Verif.BatchKd.le_distFl hf h0 he (i := i) ?_
  rcases le_total 0 (p i - q i) with g | g
  · rw [abs_of_nonneg g] at h
    have := hf.mono h
    rw [he] at this
    exact this.trans (le_abs_self _)
  · rw [abs_of_nonpos g] at h
    have := hf.mono h
    rw [he, hf.odd] at this
    exact this.trans (neg_le_abs _)

theorem farTie_of_not_within (hf : IsRootRounding fl) (hv : ∀ i, fl (pos v i) = pos v i) {T : OT V d} (h : BoxOk pos T) (a : V)
    (hw : withinBoxFl fl (pos v) T (distFl fl (pos v) (pos a) : ℝ) = false) :
    ∀ w ∈ T.flatten, FarTie fl pos v (distFl fl (pos v) (pos a) : ℝ) w := by
  intro w hw'
  have he0 : 0 ≤ distFl fl (pos v) (pos a) := distFl_nonneg hf.toIsMonoRounding _ _
  have her := distFl_repr hf (pos v) (pos a)
  set e := distFl fl (pos v) (pos a) with hed
  simp only [withinBoxFl, decide_eq_false_iff_not, not_forall] at hw
  obtain ⟨i, hi⟩ := hw
  obtain ⟨h1, h2⟩ := h.mem w hw' i
  rw [not_and_or, not_lt, not_lt] at hi
  by_cases hd : e ≤ |pos v i - pos w i|
  · exact Or.inl (WithTop.coe_le_coe.mpr (le_distFl_of_le hf he0 her hd))
  · right
    rw [not_le, abs_lt] at hd
    refine ⟨e, i, le_rfl, ?_⟩
    rcases hi with hi | hi
    · left
      refine le_antisymm (hi.trans (hf.mono (by linarith))) ?_
      have := hf.mono (show pos w i - e ≤ pos v i by linarith [hd.1])
      rwa [hv i] at this
    · right
      refine le_antisymm ?_ (le_trans (hf.mono (by linarith)) hi)
      have := hf.mono (show pos v i ≤ pos w i + e by linarith [hd.2])
      rwa [hv i] at this

/-- A vertex of the second kind which is nearer: the distance itself is lost in the coordinate. -/
theorem tie_of_farTie (hf : IsRootRounding fl) (hv : ∀ i, fl (pos v i) = pos v i) {a b : V}
    (h : FarTie fl pos v (distFl fl (pos v) (pos a) : ℝ) b) :
    distFl fl (pos v) (pos a) ≤ distFl fl (pos v) (pos b) ∨ ∃ i, pos v i = fl (pos b i - distFl fl (pos v) (pos a)) ∨
      pos v i = fl (pos b i + distFl fl (pos v) (pos a)) := by
  have he0 : 0 ≤ distFl fl (pos v) (pos a) := distFl_nonneg hf.toIsMonoRounding _ _
  have her := distFl_repr hf (pos v) (pos a)
  rcases h with h | ⟨e', i, h1, h2⟩
  · exact Or.inl (WithTop.coe_le_coe.mp h)
  · rw [WithTop.coe_le_coe] at h1
    set e := distFl fl (pos v) (pos a) with hed
    by_cases hd : e ≤ |pos v i - pos b i|
    · exact Or.inl (le_distFl_of_le hf he0 her hd)
    · right
      rw [not_le, abs_lt] at hd
      refine ⟨i, ?_⟩
      rcases h2 with h2 | h2
      · left
        refine le_antisymm ?_ ?_
        · rw [h2]
          exact hf.mono (by linarith)
        · have := hf.mono (show pos b i - e ≤ pos v i by linarith [hd.1])
          rwa [hv i] at this
      · right
        refine le_antisymm ?_ ?_
        · have := hf.mono (show pos v i ≤ pos b i + e by linarith [hd.2])
          rwa [hv i] at this
        · rw [h2]
          exact hf.mono (by linarith)

/-- The shape of the buffer. -/
theorem BInvFl.shape {b : Buf V} (hd : b.Pairwise fun x y => y.1 ≤ x.1)
    (he : ∀ x ∈ b, x = (⊤, none) ∨ ∃ u, x = ((c u : WithTop ℝ), some u)) :
    ∃ (j : ℕ) (us : List V), b = List.replicate j (⊤, none) ++ us.map (fun u => ((c u : WithTop ℝ), some u)) := by
  induction b with
  | nil => exact ⟨0, [], rfl⟩
  | cons x b ih =>
    rw [List.pairwise_cons] at hd
    obtain ⟨j, us, rfl⟩ := ih hd.2 fun y hy => he y (by simp [hy])
    rcases he x (by simp) with rfl | ⟨u, rfl⟩
    · exact ⟨j + 1, us, by simp [List.replicate_succ]⟩
    · cases j with
      | zero => exact ⟨0, u :: us, by simp⟩
      | succ j =>
        have := hd.1 (⊤, none) (by simp [List.replicate_succ])
        simp at this

theorem BInvFl.result (hF : FarOk c Far) {k : ℕ} (hk : 0 < k) {S : List V} {b : Buf V} (h : BInvFl c Far k S b) :
    ∃ res rest : List V, (b.map Prod.snd).reverse = res.map some ++ List.replicate (k - S.length) none ∧
      res.length = min k S.length ∧ S.Perm (res ++ rest) ∧ res.Pairwise (fun a b => c a ≤ c b) ∧
      ∀ a ∈ res, ∀ b ∈ rest, Far (c a) b := by
  obtain ⟨j, us, e⟩ := BInvFl.shape (c := c) h.desc h.entry
  obtain ⟨rest, h1, h2⟩ := h.content
  have hlen := h.length
  have hfm : b.filterMap Prod.snd = us := by
    rw [e, List.filterMap_append, List.filterMap_replicate_of_none rfl, List.nil_append, List.filterMap_map]
    have : ((Prod.snd : WithTop ℝ × Option V → Option V) ∘ fun u => ((c u : WithTop ℝ), some u)) = some := rfl
    rw [this, List.filterMap_some]
  rw [hfm] at h1
  have hdesc := h.desc
  rw [e, List.pairwise_append, List.pairwise_map] at hdesc
  have hjl : j + us.length = k := by
    rw [← hlen, e]
    simp
  have hrest : 0 < j → rest = [] := by
    intro hj
    by_contra hne
    obtain ⟨u, hu⟩ := List.exists_mem_of_ne_nil _ hne
    have := h2 u hu
    rw [e] at this
    obtain ⟨j, rfl⟩ := Nat.exists_eq_succ_of_ne_zero hj.ne'
    have := hF.top u (by simpa [Buf.dist0, List.replicate_succ] using this)
    exact this
  have hSl : S.length = us.length + rest.length := by rw [h1.length_eq, List.length_append]
  refine ⟨us.reverse, rest, ?_, ?_, ?_, ?_, ?_⟩
  · rw [e, List.map_append, List.reverse_append, List.map_replicate, List.reverse_replicate, List.map_map,
      List.map_reverse]
    congr 2
    rcases Nat.eq_zero_or_pos j with hj | hj
    · omega
    · rw [hrest hj] at hSl
      simp at hSl
      omega
  · rw [List.length_reverse]
    rcases Nat.eq_zero_or_pos j with hj | hj
    · omega
    · rw [hrest hj] at hSl
      simp at hSl
      omega
  · exact h1.trans ((List.reverse_perm us).symm.append_right rest)
  · rw [List.pairwise_reverse]
    refine hdesc.2.1.imp fun {a c} hac => ?_
    simpa only [WithTop.coe_le_coe] using hac
  · intro a ha w hw
    rw [List.mem_reverse] at ha
    rcases Nat.eq_zero_or_pos j with hj | hj
    · subst hj
      have h0 := h2 w hw
      rw [e] at h0
      cases us with
      | nil => simp at ha
      | cons w' us =>
        simp only [Buf.dist0, List.replicate_zero, List.nil_append, List.map_cons, List.head?_cons, Option.map_some,
          Option.getD_some] at h0
        refine hF.anti _ _ _ ?_ h0
        rcases List.mem_cons.mp ha with rfl | ha
        · exact le_rfl
        · exact (List.pairwise_cons.mp hdesc.2.1).1 a ha
    · rw [hrest hj] at hw
      simp at hw

/-! ### The build -/

theorem fl_pos (hf : IsRounding u fl) (hu : u < 1) {x : ℝ} (hx : 0 < x) : 0 < fl x := by
  have := (abs_le.mp (hf.err x)).1
  rw [abs_of_pos hx] at this
  nlinarith

theorem tagsFl_ok (hf : IsRounding u fl) (hu : u < 1) {P : List V} (h : ∃ u ∈ P, ∃ w ∈ P, pos u ≠ pos w) :
    ∃ pts : List (ℕ × V), tagsFl fl pos P = .ok pts ∧ pts.map Prod.snd = P := by
  obtain ⟨x, hx, w, hw, huw⟩ := h
  have hne : P ≠ [] := fun e => by simp [e] at hx
  obtain ⟨lo, hi, hb, hbox, hatt⟩ := getBox_ok (pos := pos) hne
  set delta := (List.finRange d).foldl (fun x i => max x (fl (hi i - lo i))) 0 with hdelta
  have hmax := foldl_max_fin (fun i => fl (hi i - lo i)) (List.finRange d) 0
  have hpos : 0 < delta := by
    obtain ⟨i, hi'⟩ := Function.ne_iff.mp huw
    have h1 := hbox x hx i
    have h2 := hbox w hw i
    have h3 := hmax.2 i (by simp)
    have : 0 < hi i - lo i := by
      rcases lt_or_gt_of_ne hi' with g | g <;> linarith [h1.1, h1.2, h2.1, h2.2]
    exact lt_of_lt_of_le (fl_pos hf hu this) h3
  refine ⟨P.map fun v => ((List.range (64 / d)).foldl (fun r i => (List.finRange d).foldl
      (fun r k => r ||| (((⌊fl (fl (((2 ^ (64 / d) - 1 : ℕ) : ℝ) * fl (pos v k - lo k)) / delta)⌋₊ >>> i) &&& 1) <<<
        (i * d + k.val))) r) 0, v), ?_, ?_⟩
  · unfold tagsFl
    rw [hb]
    simp only [Except.bind]
    rw [← hdelta]
    refine mapM_map_ok _ _ P fun v _ => ?_
    unfold interleaveBitsFl
    simp only
    rw [if_neg hpos.ne']
    rfl
  · rw [List.map_map]
    exact List.map_id'' (fun v => rfl) P

theorem buildFl_ok (hf : IsRounding u fl) (hu : u < 1) {search : (ℕ × V → Bool) → List (ℕ × V) → ℕ} (hs : BinSearch search)
    {sort : List (ℕ × V) → List (ℕ × V)} (hsort : SortsTags sort) {P : List V} (hP : ∃ u ∈ P, ∃ w ∈ P, pos u ≠ pos w) :
    ∃ T, buildFl fl search sort pos P = .ok T ∧ T.flatten.Perm P ∧ BoxOk pos T := by
  obtain ⟨pts, h1, h2⟩ := tagsFl_ok hf hu hP
  have hpne : sort pts ≠ [] := by
    intro e
    have := (hsort.perm pts).length_eq
    rw [e] at this
    have h0 : pts = [] := List.length_eq_zero_iff.mp this.symm
    rw [h0] at h2
    obtain ⟨u, hu, -⟩ := hP
    rw [← h2] at hu
    simp at hu
  obtain ⟨T, t1, t2, t3, t4⟩ := buildRec_ok (pos := pos) hs.le (d * (64 / d)) (sort pts) hpne
  refine ⟨T, ?_, ?_, t2⟩
  · unfold buildFl
    rw [h1]
    exact t1
  · rw [t3, ← h2]
    exact (hsort.perm pts).map _

end Verif.OctTree
