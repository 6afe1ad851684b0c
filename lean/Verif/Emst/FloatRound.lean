import Verif.Emst.FloatLemmas
import Verif.Emst.Round

set_option linter.unusedSectionVars false
set_option linter.unusedVariables false

/-! Lemmas for C95: the rounds of the Euclidean minimum spanning tree in rounded arithmetic. -/

namespace Verif.Emst

open Verif.KdTree Verif.UF Verif.Mst Verif.SpatialGraph Verif.Float

variable {d : ℕ} {fl : ℝ → ℝ}

/-- Assumptions on a schedule (as `Sched.Ok`, for the traversal in rounded arithmetic). -/
structure Sched.OkFl (fl : ℝ → ℝ) (s : Sched d) : Prop where
  ord : ∀ l, (s.ord l).Perm l
  buf : ∀ l, (s.buf l).Perm l
  kr : s.kr.Ok
  seen : ∀ beta t r, rhoPassFl fl s beta t = .ok r → ∀ u v, r ≤ s.obs beta t u v ∧ r ≤ s.obsS beta t u v

theorem Sched.OkFl.ordOk {s : Sched d} (h : s.OkFl fl) : s.OrdOk := ⟨h.ord, h.buf⟩

/-- What the rounds need of the value `r` of `rho`: every pair of the decomposition is at least that far apart, or the
traversal had a reason to stop at or above it. -/
structure RhoOkFl (fl : ℝ → ℝ) (beta : ℕ) (t : NTree ℕ ℝ d) (r : WithTop ℝ) : Prop where
  top : t.size ≤ beta → r = ⊤
  cov : ∀ out0, wspdSerialFl fl (geomWellSeparatedFl fl 2) t.tree = .ok out0 → ∀ P ∈ out0,
    r ≤ (nodeDistFl fl P.1.box P.2.box : WithTop ℝ) ∨
    (∃ u' v', NBelow u' t ∧ NBelow v' t ∧ (sameId u' v' = true ∨ u'.size + v'.size ≤ beta ∨
      r ≤ (nodeDistFl fl u'.box v'.box : WithTop ℝ)) ∧ TPair P u'.tree v'.tree) ∨
    ∃ t', NBelow t' t ∧ t'.size ≤ beta ∧ Below P.1 t'.tree ∧ Below P.2 t'.tree

theorem rhoPassFl_top (fl : ℝ → ℝ) (s : Sched d) (beta : ℕ) (t : NTree ℕ ℝ d) (h : t.size ≤ beta) :
    rhoPassFl fl s beta t = .ok ⊤ := by
  have hs : rhoStart beta t = false := by simp [rhoStart, h]
  unfold rhoPassFl
  cases t with
  | leaf i b items =>
    unfold wspdParallelFFl
    split <;> rfl
  | node i b l r =>
    unfold wspdParallelFFl
    split
    · unfold wspdSerialFFl
      rw [if_neg (by simp [hs])]
      rfl
    · rw [if_neg (by simp [hs])]
      rfl

/-- The function model of the traversal meets the requirement. -/
theorem rhoPassFl_ok {s : Sched d} (hsch : s.OkFl fl) (beta : ℕ) (t : NTree ℕ ℝ d)
    (h0 : ∃ out0, wspdSerialFl fl (geomWellSeparatedFl fl 2) t.tree = .ok out0) :
    ∃ r, rhoPassFl fl s beta t = .ok r ∧ RhoOkFl fl beta t r := by
  obtain ⟨out0, h1⟩ := h0
  obtain ⟨L1, r1, r2, r3⟩ := wspdParallelFFl_spec fl (rhoStart beta) (rhoMoveonFl fl beta (s.obs beta t))
    (rhoMoveonFl fl beta (s.obsS beta t)) (geomWellSeparatedFl fl 2) t out0 h1
  have hrho : rhoPassFl fl s beta t = .ok (rhoOfFl fl L1) := by unfold rhoPassFl; rw [r1]; rfl
  refine ⟨_, hrho, fun h => ?_, fun out0' h1' P hP => ?_⟩
  · have := rhoPassFl_top fl s beta t h
    rw [hrho] at this
    exact Except.ok.inj this
  rw [h1] at h1'
  cases h1'
  have hcut : ∀ u' v' (obs : NTree ℕ ℝ d → NTree ℕ ℝ d → WithTop ℝ), rhoOfFl fl L1 ≤ obs u' v' →
      rhoMoveonFl fl beta obs u' v' = false → sameId u' v' = true ∨ u'.size + v'.size ≤ beta ∨
        rhoOfFl fl L1 ≤ (nodeDistFl fl u'.box v'.box : WithTop ℝ) := by
    intro u' v' obs hobs hcut
    unfold rhoMoveonFl at hcut
    rw [Bool.and_eq_false_iff, Bool.and_eq_false_iff] at hcut
    rcases hcut with (hcut | hcut) | hcut
    · exact Or.inl (by simpa using hcut)
    · exact Or.inr (Or.inl (by simpa using hcut))
    · exact Or.inr (Or.inr (hobs.trans (by simpa using hcut)))
  rcases r3 P hP with k | ⟨u', v', k1, k2, k3, k4⟩ | ⟨t', k1, k2, b, l, r, k3, k4⟩
  · left
    obtain ⟨p2, hp2, rfl⟩ := List.mem_map.mp k
    exact rhoOfFl_le fl L1 p2 hp2
  · right; left
    have hobs := hsch.seen beta t _ hrho u' v'
    exact ⟨u', v', k1, k2, k3.elim (hcut u' v' _ hobs.1) (hcut u' v' _ hobs.2), k4⟩
  · right; right
    refine ⟨t', k1, by simpa [rhoStart] using k2, ?_⟩
    rw [k3]
    rcases k4 with h | h | h | h
    · exact ⟨.left h.1, .right h.2⟩
    · exact ⟨.right h.1, .left h.2⟩
    · exact ⟨.left h.1, .left h.2⟩
    · exact ⟨.right h.1, .right h.2⟩

/-- One round finds enough edges: for any family of equivalences containing the short distances,
the known components and the edges found, all pairs of the decomposition are connected at every distance
below the new `rho` between their sides. -/
theorem round_okFl (hf : IsMonoRounding fl) (pos : ℕ → Point ℝ d) (n : ℕ) (T : Tree ℕ ℝ d) (hs : Sound pos 1 T)
    (hp : T.items.Perm (List.range n)) (out0 : List (Tree ℕ ℝ d × Tree ℕ ℝ d))
    (hout : wspdSerialFl fl (geomWellSeparatedFl fl 2) T = .ok out0) (s : Sched d) (hsch : s.OrdOk) (beta : ℕ) (rhoLo rhoHi M : WithTop ℝ)
    (hM : rhoLo ≤ M) (t : NTree ℕ ℝ d) (htree : t.tree = T) (hrho : RhoOkFl fl beta t rhoHi) (rt : ℕ → ℕ)
    (hids : ∀ u v, NBelow u t → NBelow v t → sameId u v = true → ∀ x ∈ u.tree.items, ∀ y ∈ v.tree.items,
      rt x = rt y) :
    ∃ edges, (n ≤ beta → rhoHi = ⊤) ∧
      getPassFl fl pos s beta rhoLo rhoHi t = .ok edges ∧ edges.length ≤ n * n ∧
      (∀ e ∈ edges, e.u < n ∧ e.v < n ∧ e.w = distFl fl (pos e.u) (pos e.v) ∧ (e.w : WithTop ℝ) < rhoHi) ∧
      ∀ C : ℝ → ℕ → ℕ → Prop, (∀ D, Equivalence (C D)) → (∀ D D' a b, D ≤ D' → C D a b → C D' a b) →
        (∀ P ∈ out0, ∀ p ∈ P.1.items, ∀ q ∈ P.2.items, ((distFl fl (pos p) (pos q) : ℝ) : WithTop ℝ) < M →
          ∃ a ∈ P.1.items, ∃ b ∈ P.2.items, C (distFl fl (pos p) (pos q)) a b) →
        (∀ D p q, M ≤ ((D : ℝ) : WithTop ℝ) → rt p = rt q → C D p q) →
        (∀ e ∈ edges, M ≤ (e.w : WithTop ℝ) → C e.w e.u e.v) →
        ∀ P ∈ out0, ∀ p ∈ P.1.items, ∀ q ∈ P.2.items,
          ((distFl fl (pos p) (pos q) : ℝ) : WithTop ℝ) < rhoHi →
          ∃ a ∈ P.1.items, ∃ b ∈ P.2.items, C (distFl fl (pos p) (pos q)) a b := by
  classical
  have hnd : T.items.Nodup := hp.nodup_iff.mpr List.nodup_range
  have hmem : ∀ x, x ∈ T.items ↔ x < n := fun x => by rw [hp.mem_iff, List.mem_range]
  obtain ⟨out0', h1, h2, h3⟩ := wspdSerialFl_ok fl (geomWellSeparatedFl fl 2) T
    (fun bu iu bv iv hu hv => geomWellSeparatedFl_leaf hf (hs.below hu) (hs.below hv)) hs.singleLeaves hnd
  rw [hout] at h1
  cases h1
  have h1 := hout
  obtain ⟨L2, g1, g2, g3⟩ := wspdParallelFFl_spec fl (getStartFl fl rhoLo) (getMoveonFl fl rhoLo rhoHi)
    (getMoveonFl fl rhoLo rhoHi) (geomWellSeparatedFl fl 2) t out0 (htree ▸ h1)
  have hL2 : ∀ p ∈ L2, treePair p ∈ out0 := fun p hp => g2.subset (List.mem_map_of_mem hp)
  have hbel : ∀ u, NBelow u t → Below u.tree T := fun u hu => htree ▸ hu.tree
  have hsound : ∀ p ∈ L2, Sound pos 1 p.1.tree ∧ Sound pos 1 p.2.tree := fun p hp =>
    ⟨hs.below (h2 _ (hL2 p hp)).2.1, hs.below (h2 _ (hL2 p hp)).2.2.1⟩
  have hrun : ∀ p : NTree ℕ ℝ d × NTree ℕ ℝ d, ∃ y, p ∈ L2 → getRunFl fl pos s.ord beta rhoLo rhoHi p = .ok y := by
    intro p
    by_cases hp : p ∈ L2
    · obtain ⟨a, -, b, -, -, h | h⟩ := getRunFl_ok hf pos s.ord hsch.ord beta rhoLo rhoHi p (hsound p hp).1
        (hsound p hp).2
      · exact ⟨_, fun _ => h.2.2.2⟩
      · exact ⟨_, fun _ => h.2⟩
    · exact ⟨none, fun h => absurd h hp⟩
  choose g hg using hrun
  have hget : getPassFl fl pos s beta rhoLo rhoHi t = .ok (s.buf ((L2.map g).filterMap fun e => e)) := by
    unfold getPassFl
    rw [g1]
    simp only [Except.bind]
    rw [mapM_map _ g L2 fun x hx => hg x hx]
    rfl
  have hmemE : ∀ e, e ∈ s.buf ((L2.map g).filterMap fun e => e) ↔ ∃ p ∈ L2, g p = some e := by
    intro e
    rw [(hsch.buf _).mem_iff, List.mem_filterMap]
    constructor
    · rintro ⟨o, ho, rfl⟩
      obtain ⟨p, hp, hpo⟩ := List.mem_map.mp ho
      exact ⟨p, hp, hpo⟩
    · rintro ⟨p, hp, hpo⟩
      exact ⟨_, List.mem_map_of_mem hp, hpo⟩
  refine ⟨_, ?_, hget, ?_, ?_, ?_⟩
  · intro hn
    refine hrho.top ?_
    unfold NTree.size
    rw [htree, size_eq, hp.length_eq, List.length_range]
    exact hn
  · rw [(hsch.buf _).length_eq]
    refine (List.length_filterMap_le _ _).trans ?_
    rw [List.length_map]
    have h4 := g2.length_le
    rw [List.length_map] at h4
    exact h4.trans (out_lengthFl hf pos T hs n hp out0 h1)
  · intro e he
    obtain ⟨p, hpL, hpe⟩ := (hmemE e).mp he
    obtain ⟨a, ha, b, hb, hmin, h | h⟩ := getRunFl_ok hf pos s.ord hsch.ord beta rhoLo rhoHi p (hsound p hpL).1
        (hsound p hpL).2
    · have := hg p hpL
      rw [h.2.2.2, hpe] at this
      obtain rfl := Option.some.inj (Except.ok.inj this)
      exact ⟨(hmem a).mp (Below.items_sub (h2 _ (hL2 p hpL)).2.1 a ha),
        (hmem b).mp (Below.items_sub (h2 _ (hL2 p hpL)).2.2.1 b hb), rfl, h.2.2.1⟩
    · have := hg p hpL
      rw [h.2, hpe] at this
      cases this
  · intro C hC hmono hshort hid hedge
    intro P hP p hpP q hqP hlt
    set D := distFl fl (pos p) (pos q) with hD
    obtain ⟨hws, b1, b2, hdis⟩ := h2 P hP
    have hpn : p < n := (hmem p).mp (Below.items_sub b1 p hpP)
    have hqn : q < n := (hmem q).mp (Below.items_sub b2 q hqP)
    by_cases hDM : ((D : ℝ) : WithTop ℝ) < M
    · exact hshort P hP p hpP q hqP hDM
    have hDM : M ≤ ((D : ℝ) : WithTop ℝ) := not_lt.mp hDM
    -- the points of a pair below `u'`, `v'`
    have hcov : ∀ u' v' : NTree ℕ ℝ d, TPair P u'.tree v'.tree →
        (p ∈ u'.tree.items ∧ q ∈ v'.tree.items) ∨ (q ∈ u'.tree.items ∧ p ∈ v'.tree.items) := by
      intro u' v' h
      rcases h with h | h
      · exact Or.inl ⟨Below.items_sub h.1 p hpP, Below.items_sub h.2 q hqP⟩
      · exact Or.inr ⟨Below.items_sub h.2 q hqP, Below.items_sub h.1 p hpP⟩
    have hsame : ∀ u' v', NBelow u' t → NBelow v' t → TPair P u'.tree v'.tree → sameId u' v' = true →
        C D p q := by
      intro u' v' hu hv hT hsi
      rcases hcov u' v' hT with h | h
      · exact hid D p q hDM (hids u' v' hu hv hsi p h.1 q h.2)
      · exact hid D p q hDM (hids u' v' hu hv hsi q h.1 p h.2).symm
    have hnear : ∀ u' v', NBelow u' t → NBelow v' t → TPair P u'.tree v'.tree →
        nodeDistFl fl u'.box v'.box ≤ D ∧ D ≤ nodeFarDistFl fl u'.box v'.box := by
      intro u' v' hu hv hT
      have mu := (hs.below (hbel u' hu)).mem_box
      have mv := (hs.below (hbel v' hv)).mem_box
      rcases hcov u' v' hT with h | h
      · exact ⟨nodeDistFl_le hf (mu p h.1) (mv q h.2), nodeFarDistFl_ge hf (mu p h.1) (mv q h.2)⟩
      · rw [hD, distFl_comm hf]
        exact ⟨nodeDistFl_le hf (mu q h.1) (mv p h.2), nodeFarDistFl_ge hf (mu q h.1) (mv p h.2)⟩
    have hstart : ∀ t' : NTree ℕ ℝ d, NBelow t' t → (∃ b l r, t'.tree = .node b l r ∧
        ((Below P.1 l ∧ Below P.2 r) ∨ (Below P.1 r ∧ Below P.2 l) ∨
          (Below P.1 l ∧ Below P.2 l) ∨ (Below P.1 r ∧ Below P.2 r))) →
        Below P.1 t'.tree ∧ Below P.2 t'.tree := by
      rintro t' _ ⟨b, l, r, h, h'⟩
      rw [h]
      rcases h' with h | h | h | h
      · exact ⟨.left h.1, .right h.2⟩
      · exact ⟨.right h.1, .left h.2⟩
      · exact ⟨.left h.1, .left h.2⟩
      · exact ⟨.right h.1, .right h.2⟩
    rcases g3 P hP with h | ⟨u', v', c1, c2, c3, c4⟩ | ⟨t', c1, c2, c3⟩
    · obtain ⟨pp, hpp, rfl⟩ := List.mem_map.mp h
      obtain ⟨a, ha, b, hb, hmin, h | h⟩ := getRunFl_ok hf pos s.ord hsch.ord beta rhoLo rhoHi pp
        (hsound pp hpp).1 (hsound pp hpp).2
      · -- the edge is found
        have hge := hg pp hpp
        rw [h.2.2.2] at hge
        have hab := hmin p hpP q hqP
        have han : a < n := (hmem a).mp (Below.items_sub b1 a ha)
        have hbn : b < n := (hmem b).mp (Below.items_sub b2 b hb)
        by_cases hlt' : ((distFl fl (pos a) (pos b) : ℝ) : WithTop ℝ) < M
        · obtain ⟨a', ha', b', hb', hc⟩ := hshort _ hP a ha b hb hlt'
          exact ⟨a', ha', b', hb', hmono _ _ _ _ hab hc⟩
        · refine ⟨a, ha, b, hb, hmono _ _ _ _ hab ?_⟩
          exact hedge _ ((hmemE _).mpr ⟨pp, hpp, (Except.ok.inj hge).symm⟩) (not_lt.mp hlt')
      · -- not recorded
        have hab := hmin p hpP q hqP
        have han : a < n := (hmem a).mp (Below.items_sub b1 a ha)
        have hbn : b < n := (hmem b).mp (Below.items_sub b2 b hb)
        have hhi : ((distFl fl (pos a) (pos b) : ℝ) : WithTop ℝ) < rhoHi :=
          lt_of_le_of_lt (WithTop.coe_le_coe.mpr hab) hlt
        by_cases hlo : ((distFl fl (pos a) (pos b) : ℝ) : WithTop ℝ) ≥ rhoLo
        · -- too many points: the rho traversal saw the pair
          have hsz : ¬ (pp.1.size + pp.2.size ≤ beta) := fun h' => h.1 ⟨h', hlo, hhi⟩
          rcases hrho.cov out0 (htree ▸ h1) (treePair pp) hP with k | ⟨u', v', k1, k2, k3, k4⟩ | ⟨t', k1, k2, k3⟩
          · exfalso
            have h6 : nodeDistFl fl pp.1.tree.box pp.2.tree.box ≤ D :=
              nodeDistFl_le hf ((hsound pp hpp).1.mem_box p hpP) ((hsound pp hpp).2.mem_box q hqP)
            exact absurd (lt_of_lt_of_le hlt k) (not_lt.mpr (WithTop.coe_le_coe.mpr h6))
          · -- cut at (u', v')
            rcases k3 with hcut | hcut | hcut
            · exact ⟨p, hpP, q, hqP, hsame u' v' k1 k2 k4 hcut⟩
            · exfalso
              apply hsz
              refine le_trans ?_ hcut
              unfold NTree.size
              have nu := below_nodup (hbel u' k1) hnd
              have nv := below_nodup (hbel v' k2) hnd
              rcases k4 with k4 | k4
              · exact add_le_add (size_le k4.1 nu) (size_le k4.2 nv)
              · rw [add_comm u'.tree.size]
                exact add_le_add (size_le k4.1 nv) (size_le k4.2 nu)
            · exfalso
              have h6 := (hnear u' v' k1 k2 k4).1
              exact absurd (lt_of_lt_of_le hlt hcut) (not_lt.mpr (WithTop.coe_le_coe.mpr h6))
          · exfalso
            exact hsz ((size_add_le k3.1 k3.2 (below_nodup (hbel t' k1) hnd) hdis).trans k2)
        · obtain ⟨a', ha', b', hb', hc⟩ := hshort _ hP a ha b hb (lt_of_lt_of_le (not_le.mp hlo) hM)
          exact ⟨a', ha', b', hb', hmono _ _ _ _ hab hc⟩
    · have cutcase : getMoveonFl fl rhoLo rhoHi u' v' = false → C D p q := by
        intro hcut
        unfold getMoveonFl at hcut
        rw [Bool.and_eq_false_iff, Bool.and_eq_false_iff] at hcut
        have hn := hnear u' v' c1 c2 c4
        rcases hcut with (hcut | hcut) | hcut
        · exact hsame u' v' c1 c2 c4 (by simpa using hcut)
        · exfalso
          have h5 : rhoHi ≤ (nodeDistFl fl u'.box v'.box : WithTop ℝ) := by simpa using hcut
          exact absurd (lt_of_lt_of_le hlt h5) (not_lt.mpr (WithTop.coe_le_coe.mpr hn.1))
        · exfalso
          have h5 : (nodeFarDistFl fl u'.box v'.box : WithTop ℝ) < rhoLo := by simpa using hcut
          have h6 : ((D : ℝ) : WithTop ℝ) < M :=
            lt_of_le_of_lt (WithTop.coe_le_coe.mpr hn.2) (lt_of_lt_of_le h5 hM)
          exact absurd hDM (not_le.mpr h6)
      exact ⟨p, hpP, q, hqP, c3.elim cutcase cutcase⟩
    · exfalso
      obtain ⟨c5, c6⟩ := hstart t' c1 c3
      have h5 : (boxDiamFl fl t'.box : WithTop ℝ) < rhoLo := by simpa [getStartFl] using c2
      have mt := (hs.below (hbel t' c1)).mem_box
      have h6 : D ≤ boxDiamFl fl t'.box :=
        boxDiamFl_ge hf (mt p (Below.items_sub c5 p hpP)) (mt q (Below.items_sub c6 q hqP))
      exact absurd hDM (not_le.mpr (lt_of_le_of_lt (WithTop.coe_le_coe.mpr h6) (lt_of_lt_of_le h5 hM)))

end Verif.Emst
