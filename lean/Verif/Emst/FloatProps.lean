import Verif.Emst.FloatRound
import Verif.Emst.Props
import Verif.KdTree.FloatProps

set_option linter.unusedSectionVars false
set_option linter.unusedVariables false

/-!
Property C95: `euclideanMst` in rounded arithmetic.
-/

namespace Verif.Emst

open Verif.KdTree Verif.UF Verif.Mst Verif.SpatialGraph Verif.Float

variable {d : ℕ} {fl : ℝ → ℝ}

/-- Invariant of the main loop: `M` is the largest `rho` so far. -/
structure InvFl (fl : ℝ → ℝ) (out0 : List (Tree ℕ ℝ d × Tree ℕ ℝ d)) (pos : ℕ → Point ℝ d) (n : ℕ) (T : Tree ℕ ℝ d) (t : NTree ℕ ℝ d) (uf : EdgeUF ℝ)
    (rt dep : ℕ → ℕ) (M : WithTop ℝ) : Prop where
  tree : t.tree = T
  forest : Forest uf.P n rt dep
  len : uf.edges.length = n
  cells : ∀ x < n, uf.edges[x]? = some none ↔ rt x = x
  conn : ∀ a b, rt a = rt b ↔ ConnL uf.getEdge a b
  ac : AcyclicL uf.getEdge
  nonempty : NonEmpty t
  stale : Stale rt t
  ids : ∀ u v, NBelow u t → NBelow v t → sameId u v = true → ∀ x ∈ u.tree.items, ∀ y ∈ v.tree.items,
    rt x = rt y
  edge : ∀ e ∈ uf.getEdge, e.u < n ∧ e.v < n ∧ e.w = distFl fl (pos e.u) (pos e.v) ∧ (e.w : WithTop ℝ) < M
  short : ∀ P ∈ out0, ∀ p ∈ P.1.items, ∀ q ∈ P.2.items, ((distFl fl (pos p) (pos q) : ℝ) : WithTop ℝ) < M →
    ∃ a ∈ P.1.items, ∃ b ∈ P.2.items,
      ConnL (uf.getEdge.filter fun e => decide (e.w ≤ distFl fl (pos p) (pos q))) a b

/-- Without new edges the invariant holds for the larger `rho`. -/
theorem inv_skipFl {out0 : List (Tree ℕ ℝ d × Tree ℕ ℝ d)} {pos : ℕ → Point ℝ d} {n : ℕ} {T : Tree ℕ ℝ d} {t : NTree ℕ ℝ d} {uf : EdgeUF ℝ}
    {rt dep : ℕ → ℕ} {M rho : WithTop ℝ} (h : InvFl fl out0 pos n T t uf rt dep M)
    (hc : ∀ C : ℝ → ℕ → ℕ → Prop, (∀ D, Equivalence (C D)) → (∀ D D' a b, D ≤ D' → C D a b → C D' a b) →
        (∀ P ∈ out0, ∀ p ∈ P.1.items, ∀ q ∈ P.2.items, ((distFl fl (pos p) (pos q) : ℝ) : WithTop ℝ) < M →
          ∃ a ∈ P.1.items, ∃ b ∈ P.2.items, C (distFl fl (pos p) (pos q)) a b) →
        (∀ D p q, M ≤ ((D : ℝ) : WithTop ℝ) → rt p = rt q → C D p q) →
        (∀ e ∈ ([] : List (WEdge ℝ)), M ≤ (e.w : WithTop ℝ) → C e.w e.u e.v) →
        ∀ P ∈ out0, ∀ p ∈ P.1.items, ∀ q ∈ P.2.items, ((distFl fl (pos p) (pos q) : ℝ) : WithTop ℝ) < rho →
          ∃ a ∈ P.1.items, ∃ b ∈ P.2.items, C (distFl fl (pos p) (pos q)) a b) :
    InvFl fl out0 pos n T t uf rt dep (max M rho) := by
  refine { h with edge := ?_, short := ?_ }
  · intro e he
    obtain ⟨h1, h2, h3, h4⟩ := h.edge e he
    exact ⟨h1, h2, h3, lt_of_lt_of_le h4 (le_max_left _ _)⟩
  · intro P hP p hp q hq hlt
    rcases lt_max_iff.mp hlt with hlt | hlt
    · exact h.short P hP p hp q hq hlt
    · refine hc (fun D => ConnL (uf.getEdge.filter fun e => decide (e.w ≤ D)))
        (fun D => connL_equiv _) (fun D D' a b hD hc => ConnL.filter_mono hD hc) h.short ?_ (by simp)
        P hP p hp q hq hlt
      intro D p q hD hr
      refine Mst.ConnL.mono (fun e he => ?_) ((h.conn p q).mp hr)
      refine List.mem_filter.mpr ⟨he, ?_⟩
      have := (h.edge e he).2.2.2.le.trans hD
      simpa using WithTop.coe_le_coe.mp this

/-- Specification of the routines of a round. -/
structure RoutinesOkFl (fl : ℝ → ℝ) (pos : ℕ → Point ℝ d) (n : ℕ) (rou : Routines d) (bad : Err → ℕ → Prop) : Prop where
  rho : ∀ (beta : ℕ) (t : NTree ℕ ℝ d), Sound pos 1 t.tree → t.tree.items.Perm (List.range n) →
    ∃ r, rou.rho beta t = .ok r ∧ RhoOkFl fl beta t r
  get : ∀ (beta : ℕ) (rhoLo rhoHi : WithTop ℝ) (t : NTree ℕ ℝ d), Sound pos 1 t.tree → t.tree.items.Perm (List.range n) →
    ∃ s : Sched d, s.OrdOk ∧ rou.get pos beta rhoLo rhoHi t = getPassFl fl pos s beta rhoLo rhoHi t
  kr : KrOk n rou.kr bad
  mark : ∀ (t : NTree ℕ ℝ d) (P : List ℤ) (rt dep : ℕ → ℕ), Forest P n rt dep → (∀ x ∈ t.tree.items, x < n) →
    NonEmpty t → Stale rt t →
    ∃ t' P', rou.mark t P = .ok (t', P') ∧ Forest P' n rt dep ∧ t'.tree = t.tree ∧ Marked rt t'

/-- The decomposition of a sound tree exists. -/
theorem wspd_existsFl (hf : IsMonoRounding fl) {pos : ℕ → Point ℝ d} {n : ℕ} {T : Tree ℕ ℝ d} (hs : Sound pos 1 T)
    (hp : T.items.Perm (List.range n)) : ∃ out0, wspdSerialFl fl (geomWellSeparatedFl fl 2) T = .ok out0 := by
  obtain ⟨out0, h1, h2, h3⟩ := wspdSerialFl_ok fl (geomWellSeparatedFl fl 2) T
    (fun bu iu bv iv hu hv => geomWellSeparatedFl_leaf hf (hs.below hu) (hs.below hv)) hs.singleLeaves
    (hp.nodup_iff.mpr List.nodup_range)
  exact ⟨out0, h1⟩

/-- The function models of the rho traversal and of `mark` meet their specifications. -/
theorem routinesOk_seqFl (hf : IsMonoRounding fl) {pos : ℕ → Point ℝ d} {n : ℕ} {s : Sched d} (hsch : s.OkFl fl)
    {kr : List (WEdge ℝ) → ℕ → EdgeUF ℝ → Except Err (EdgeUF ℝ)} {bad : Err → ℕ → Prop} (hkr : KrOk n kr bad) :
    RoutinesOkFl fl pos n ⟨rhoPassFl fl s, fun pos => getPassFl fl pos s, kr, mark⟩ bad :=
  ⟨fun beta t hs hp => rhoPassFl_ok hsch beta t (wspd_existsFl hf hs hp), fun _ _ _ _ _ _ => ⟨s, hsch.ordOk, rfl⟩, hkr,
    fun t P rt dep h1 h2 h3 h4 => c46_mark t P h1 h2 h3 h4⟩

/-- One round of the main loop. -/
theorem inv_stepFl (hmr : IsMonoRounding fl) {out0 : List (Tree ℕ ℝ d × Tree ℕ ℝ d)} {rou : Routines d} {bad : Err → ℕ → Prop}
    {pos : ℕ → Point ℝ d} {n : ℕ} {T : Tree ℕ ℝ d} (hs : Sound pos 1 T)
    (hp : T.items.Perm (List.range n)) (hout : wspdSerialFl fl (geomWellSeparatedFl fl 2) T = .ok out0)
    (hrou : RoutinesOkFl fl pos n rou bad) (beta : ℕ) {rhoLo M : WithTop ℝ}
    (hM : rhoLo ≤ M) {t : NTree ℕ ℝ d} {uf : EdgeUF ℝ} {rt dep : ℕ → ℕ} (h : InvFl fl out0 pos n T t uf rt dep M) :
    ∃ rhoHi edges, rou.rho beta t = .ok rhoHi ∧ (n ≤ beta → rhoHi = ⊤) ∧
      rou.get pos beta rhoLo rhoHi t = .ok edges ∧
      ((edges.length ≤ 0 ∧ InvFl fl out0 pos n T t uf rt dep (max M rhoHi)) ∨
        (¬ edges.length ≤ 0 ∧
          ((∃ e m, rou.kr edges n uf = .error e ∧ m ≤ n * n ∧ bad e m) ∨
            ∃ uf' t' P' rt' dep', rou.kr edges n uf = .ok uf' ∧ rou.mark t uf'.P = .ok (t', P') ∧
              InvFl fl out0 pos n T t' { uf' with P := P' } rt' dep' (max M rhoHi)))) := by
  obtain ⟨rhoHi, h1, hrho⟩ := hrou.rho beta t (h.tree.symm ▸ hs) (h.tree.symm ▸ hp)
  obtain ⟨s, hsch, hget⟩ := hrou.get beta rhoLo rhoHi t (h.tree.symm ▸ hs) (h.tree.symm ▸ hp)
  obtain ⟨edges, h2, h3, h4, h5, h6⟩ := round_okFl hmr pos n T hs hp out0 hout s hsch beta rhoLo rhoHi M hM t h.tree hrho rt
    h.ids
  refine ⟨rhoHi, edges, h1, h2, hget.trans h3, ?_⟩
  by_cases he : edges.length ≤ 0
  · left
    have : edges = [] := List.length_eq_zero_iff.mp (by omega)
    subst this
    exact ⟨he, inv_skipFl h h6⟩
  right
  refine ⟨he, ?_⟩
  rcases hrou.kr edges (fun e he => ⟨(h5 e he).1, (h5 e he).2.1⟩) uf rt dep h.forest h.len h.cells
    h.conn h.ac with ⟨err, g1, g2⟩ | ⟨uf', rt', dep', g1, g2, g3, g4, g5, g6, g7, g8, g9⟩
  · left
    exact ⟨err, edges.length, g1, by omega, g2⟩
  right
  have hjoin : ∀ a b, rt a = rt b → rt' a = rt' b := fun a b hab =>
    (g5 a b).mpr (((h.conn a b).mp hab).mono g8)
  obtain ⟨t', P', k1, k2, k3, k4⟩ := hrou.mark t uf'.P rt' dep' g2 (by
    intro x hx
    rw [h.tree, hp.mem_iff, List.mem_range] at hx
    exact hx) h.nonempty (stale_coarser hjoin t h.stale)
  refine ⟨uf', t', P', rt', dep', g1, k1, ?_⟩
  have hle : ∀ D : ℝ, M ≤ (D : WithTop ℝ) → ∀ e ∈ uf.getEdge, e.w ≤ D := fun D hD e he =>
    WithTop.coe_le_coe.mp ((h.edge e he).2.2.2.le.trans hD)
  refine ⟨k3.trans h.tree, k2, g3, g4, g5, g6, nonEmpty_of_tree k3.symm h.nonempty,
    c46_ready (fun a b h => h) t' k4, marked_ids k4, ?_, ?_⟩
  · intro e he
    rcases g7 e he with he | ⟨f, hf, rfl⟩
    · obtain ⟨q1, q2, q3, q4⟩ := h.edge e he
      exact ⟨q1, q2, q3, lt_of_lt_of_le q4 (le_max_left _ _)⟩
    · obtain ⟨q1, q2, q3, q4⟩ := h5 f hf
      obtain ⟨o1, o2⟩ := orient_uv f.u f.v f.w
      rw [o2]
      rcases o1 with ⟨o1, o3⟩ | ⟨o1, o3⟩
      · rw [o1, o3]
        exact ⟨q1, q2, q3, lt_of_lt_of_le q4 (le_max_right _ _)⟩
      · rw [o1, o3, distFl_comm hmr]
        exact ⟨q2, q1, q3, lt_of_lt_of_le q4 (le_max_right _ _)⟩
  · have hshort : ∀ P ∈ out0, ∀ p ∈ P.1.items, ∀ q ∈ P.2.items,
        ((distFl fl (pos p) (pos q) : ℝ) : WithTop ℝ) < M → ∃ a ∈ P.1.items, ∃ b ∈ P.2.items,
        ConnL (uf'.getEdge.filter fun e => decide (e.w ≤ distFl fl (pos p) (pos q))) a b := by
      intro P hP p hp q hq hlt
      obtain ⟨a, ha, b, hb, hc⟩ := h.short P hP p hp q hq hlt
      refine ⟨a, ha, b, hb, hc.mono fun e he => ?_⟩
      obtain ⟨q1, q2⟩ := List.mem_filter.mp he
      exact List.mem_filter.mpr ⟨g8 e q1, q2⟩
    intro P hP p hp q hq hlt
    rcases lt_max_iff.mp hlt with hlt | hlt
    · exact hshort P hP p hp q hq hlt
    · refine h6 (fun D => ConnL (uf'.getEdge.filter fun e => decide (e.w ≤ D)))
        (fun D => connL_equiv _) (fun D D' a b hD hc => ConnL.filter_mono hD hc) hshort ?_ ?_
        P hP p hp q hq hlt
      · intro D p q hD hr
        refine Mst.ConnL.mono (fun e he => ?_) ((h.conn p q).mp hr)
        exact List.mem_filter.mpr ⟨g8 e he, by simpa using hle D hD e he⟩
      · intro f hf hMf
        exact g9 f hf f.w le_rfl (hle f.w hMf)

/-- The main loop. -/
theorem loop_okFl (hmr : IsMonoRounding fl) {out0 : List (Tree ℕ ℝ d × Tree ℕ ℝ d)} {rou : ℕ → Routines d} {bad : ℕ → Err → ℕ → Prop}
    {pos : ℕ → Point ℝ d} {n : ℕ} (hrou : ∀ k, RoutinesOkFl fl pos n (rou k) (bad k)) (hn : 0 < n) {T : Tree ℕ ℝ d} (hs : Sound pos 1 T)
    (hp : T.items.Perm (List.range n)) (hout : wspdSerialFl fl (geomWellSeparatedFl fl 2) T = .ok out0) (fuel k beta : ℕ)
    (rhoLo M : WithTop ℝ) (hM : rhoLo ≤ M) (t : NTree ℕ ℝ d) (uf : EdgeUF ℝ) (rt dep : ℕ → ℕ)
    (h : InvFl fl out0 pos n T t uf rt dep M) (hf : M = ⊤ ∨ ∃ f, fuel = f + 1 ∧ n ≤ beta * 2 ^ f) :
    (∃ e k' m, emstLoopK rou pos n fuel k beta rhoLo t uf = .error e ∧ m ≤ n * n ∧ bad k' e m) ∨
      ∃ uf' t' rt' dep' M', emstLoopK rou pos n fuel k beta rhoLo t uf = .ok uf' ∧
        InvFl fl out0 pos n T t' uf' rt' dep' M' ∧ ∀ a < n, ∀ b < n, rt' a = rt' b := by
  have htop : ∀ {M t uf rt dep}, M = ⊤ → InvFl fl out0 pos n T t uf rt dep M → n - 1 ≤ uf.numEdge := by
    intro M t uf rt dep hM h
    refine (numEdge_full h.forest hn h.len h.cells).1.mpr fun a ha b hb => (h.conn a b).mpr ?_
    have hmem : ∀ x, x < n → x ∈ T.items := fun x hx => by rw [hp.mem_iff, List.mem_range]; exact hx
    have hnd : T.items.Nodup := hp.nodup_iff.mpr List.nodup_range
    refine conn_level hmr pos T hs hnd out0 hout (fun _ => ConnL uf.getEdge) (fun _ => connL_equiv _)
      (fun _ _ _ _ _ h => h) ?_ T (.refl _) (boxDiamFl fl T.box)
      (fun x hx y hy => boxDiamFl_ge hmr (hs.mem_box x hx) (hs.mem_box y hy)) a (hmem a ha) b (hmem b hb)
    intro P hP p hpP q hqP
    obtain ⟨a, ha, b, hb, hc⟩ := h.short P hP p hpP q hqP (by rw [hM]; exact WithTop.coe_lt_top _)
    exact ⟨a, ha, b, hb, hc.mono fun e he => (List.mem_filter.mp he).1⟩
  induction fuel generalizing k beta rhoLo M t uf rt dep with
  | zero =>
    have hMt : M = ⊤ := by
      rcases hf with h | ⟨f, h, -⟩
      · exact h
      · omega
    have hne := htop hMt h
    right
    refine ⟨uf, t, rt, dep, M, ?_, h, (numEdge_full h.forest hn h.len h.cells).1.mp hne⟩
    unfold emstLoopK
    rw [if_neg (by omega)]
  | succ fuel ih =>
    unfold emstLoopK
    by_cases hlt : uf.numEdge < n - 1
    · rw [if_pos hlt]
      obtain ⟨rhoHi, edges, h1, h2, h3, h4⟩ := inv_stepFl hmr hs hp hout (hrou k) beta hM h
      simp only [h1, h3, Except.bind]
      have hf' : max M rhoHi = ⊤ ∨ ∃ f, fuel = f + 1 ∧ n ≤ beta * 2 * 2 ^ f := by
        rcases hf with hM | ⟨f, hf1, hf2⟩
        · exact absurd (htop hM h) (by omega)
        · have hff : fuel = f := by omega
          subst hff
          cases fuel with
          | zero =>
            left
            rw [h2 (by simpa using hf2)]
            exact max_top_right _
          | succ f =>
            right
            refine ⟨f, rfl, ?_⟩
            rw [pow_succ] at hf2
            calc n ≤ beta * (2 ^ f * 2) := hf2
              _ = beta * 2 * 2 ^ f := by ring
      rcases h4 with ⟨he, hI⟩ | ⟨he, hb⟩
      · rw [if_pos he]
        exact ih (k + 1) (beta * 2) rhoHi (max M rhoHi) (le_max_right _ _) t uf rt dep hI hf'
      · rw [if_neg he]
        rcases hb with ⟨err, m, hb, hb', hb''⟩ | ⟨uf', t', P', rt', dep', hb1, hb2, hI⟩
        · left
          rw [hb]
          exact ⟨err, k, m, rfl, hb', hb''⟩
        · simp only [hb1, hb2]
          exact ih (k + 1) (beta * 2) rhoHi (max M rhoHi) (le_max_right _ _) t' _ rt' dep' hI hf'
    · rw [if_neg hlt]
      right
      exact ⟨uf, t, rt, dep, M, rfl, h, (numEdge_full h.forest hn h.len h.cells).1.mp (by omega)⟩

theorem inv_initFl (hf : IsMonoRounding fl) (out0 : List (Tree ℕ ℝ d × Tree ℕ ℝ d)) (pos : ℕ → Point ℝ d) (n : ℕ) (T : Tree ℕ ℝ d) (hs : Sound pos 1 T) :
    InvFl fl out0 pos n T (NTree.ofTree T) (EdgeUF.new n) id (fun _ => 0) (fl (-0.1) : WithTop ℝ) := by
  have hg : (EdgeUF.new n : EdgeUF ℝ).getEdge = [] := by
    simp [EdgeUF.getEdge, EdgeUF.new]
  refine ⟨ofTree_tree T, forest_init n, by simp [EdgeUF.new], ?_, ?_, by rw [hg]; exact acyclicL_nil,
    nonEmpty_ofTree hs, c46_fresh _ T, ?_, by rw [hg]; simp, ?_⟩
  · intro x hx
    simp [EdgeUF.new, hx]
  · intro a b
    rw [hg]
    constructor
    · intro h
      rw [show a = b from h]
      exact .refl _
    · intro h
      exact h.lift ⟨fun _ => rfl, fun h => h.symm, fun h h' => h.trans h'⟩ (by simp)
  · intro u v hu hv hsame
    simp [sameId, nbelow_none hu] at hsame
  · intro P hP p hp q hq hlt
    have := WithTop.coe_lt_coe.mp hlt
    have h0 := distFl_nonneg hf (pos p) (pos q)
    have h1 := hf.mono (show (-0.1 : ℝ) ≤ 0 by norm_num)
    rw [hf.zero] at h1
    linarith

/-- The algorithm in rounded arithmetic: a spanning tree; its edges of weight at most `D` connect any two
points covered by a pair of the decomposition with all distances at most `D`. -/
theorem emst_fl (hf : IsMonoRounding fl) (w bs : ℕ) (hw : 0 < w) (hb : 0 < bs) (hd : 0 < d)
    (sch : ℕ → Sched d) (hsch : ∀ k, (sch k).OkFl fl) (S : List (Point ℝ d)) (hS : 2 ≤ S.length) :
    (euclideanMstFl fl w bs sch S = .error .throws ∧ 4101 < S.length * S.length) ∨
      ∃ out T out0, euclideanMstFl fl w bs sch S = .ok out ∧ out.length = S.length - 1 ∧
        (∀ e ∈ out, e.u ≠ e.v ∧ e.w = distFl fl (ptAt S e.u) (ptAt S e.v)) ∧
        Spans S.length (out.map fun e => (e.u, e.v)) ∧ AcyclicL out ∧
        buildFl fl w bs (ptAt S) 1 true (List.range S.length) = .ok T ∧
        wspdSerialFl fl (geomWellSeparatedFl fl 2) T = .ok out0 ∧
        ∀ P ∈ out0, ∀ D : ℝ, (∀ x ∈ P.1.items, ∀ y ∈ P.1.items, distFl fl (ptAt S x) (ptAt S y) ≤ D) →
          (∀ x ∈ P.2.items, ∀ y ∈ P.2.items, distFl fl (ptAt S x) (ptAt S y) ≤ D) →
          ∀ p ∈ P.1.items, ∀ q ∈ P.2.items, distFl fl (ptAt S p) (ptAt S q) ≤ D →
          ConnL (out.filter fun e => decide (e.w ≤ D)) p q := by
  obtain ⟨T, h1, h2, h3⟩ := c91_build hf w bs hw hb hd (ptAt S) 1 (le_refl _) true
    (List.range S.length) (by simp; intro h; rw [h] at hS; simp at hS)
  obtain ⟨out0, hout⟩ := wspd_existsFl hf h3 h2
  unfold euclideanMstFl
  rw [if_neg (by omega)]
  simp only [h1, Except.bind]
  have hfuel : S.length ≤ 2 * 2 ^ S.length := by
    have := Nat.lt_two_pow_self (n := S.length)
    omega
  rcases loop_okFl hf (rou := fun k => ⟨rhoPassFl fl (sch k), fun pos => getPassFl fl pos (sch k),
      batchKruskal (sch k).kr, mark⟩) (bad := fun _ e m => e = .throws ∧ 4101 < m)
      (fun k => routinesOk_seqFl hf (hsch k) <| by
      intro E hE uf rt dep h1 h2 h3 h4 h5
      rcases batch_step (sch k).kr (hsch k).kr E S.length hE uf h1 h2 h3 h4 h5 with ⟨g1, g2⟩ | g
      · exact Or.inl ⟨_, g1, rfl, g2⟩
      · exact Or.inr g) (by omega) h3 h2 hout (S.length + 1) 0 2 (fl (-0.1) : WithTop ℝ) _ (le_refl _) _ _ _ _
    (inv_initFl hf out0 (ptAt S) S.length T h3) (Or.inr ⟨S.length, rfl, hfuel⟩) with
      ⟨err, k', m, g1, g2, rfl, g3⟩ | ⟨uf, t, rt, dep, M, g1, g2, g3⟩
  · left
    rw [g1]
    exact ⟨rfl, by omega⟩
  right
  have hnum := numEdge_full g2.forest (by omega) g2.len g2.cells
  have hlen : uf.getEdge.length = S.length - 1 := by
    have : uf.getEdge.length = uf.numEdge := by
      unfold EdgeUF.getEdge EdgeUF.numEdge
      rw [List.length_filterMap_eq_countP]
      rfl
    rw [this]
    have := hnum.1.mpr g3
    omega
  have hconn : ∀ a < S.length, ∀ b < S.length, ConnL uf.getEdge a b := fun a ha b hb =>
    (g2.conn a b).mp (g3 a ha b hb)
  have hnd : T.items.Nodup := h2.nodup_iff.mpr List.nodup_range
  have hbelow : ∀ P ∈ out0, Below P.1 T ∧ Below P.2 T := wspdSerialFl_below fl _ _ _ hout
  have hlt : ∀ {A}, Below A T → ∀ x ∈ A.items, x < S.length := fun {A} hA x hx => by
    have := h2.mem_iff.mp (Below.items_sub hA x hx)
    rwa [List.mem_range] at this
  refine ⟨uf.getEdge, T, out0, by rw [g1]; rfl, hlen, fun e he => ⟨?_, (g2.edge e he).2.2.1⟩, ?_, g2.ac, rfl,
    hout, ?_⟩
  · intro h
    obtain ⟨l1, l2, hl⟩ := List.append_of_mem he
    refine g2.ac e (l1 ++ l2) (by rw [hl]; exact List.perm_middle) ?_
    rw [h]
    exact .refl _
  · constructor
    · intro e he
      obtain ⟨f, hf, rfl⟩ := List.mem_map.mp he
      exact ⟨(g2.edge f hf).1, (g2.edge f hf).2.1⟩
    · intro a ha b hb
      refine (hconn a ha b hb).lift ⟨fun x => .refl x, fun h => .symm _ _ h, fun h h' => .trans _ _ _ h h'⟩ ?_
      intro e he
      exact .rel _ _ (List.mem_map.mpr ⟨e, he, rfl⟩)
  · have hshort : ∀ P ∈ out0, ∀ p ∈ P.1.items, ∀ q ∈ P.2.items, ∃ a ∈ P.1.items, ∃ b ∈ P.2.items,
        ConnL (uf.getEdge.filter fun e => decide (e.w ≤ distFl fl (ptAt S p) (ptAt S q))) a b := by
      intro P hP p hp q hq
      by_cases hlt' : ((distFl fl (ptAt S p) (ptAt S q) : ℝ) : WithTop ℝ) < M
      · exact g2.short P hP p hp q hq hlt'
      · refine ⟨p, hp, q, hq, (hconn p (hlt (hbelow P hP).1 p hp) q (hlt (hbelow P hP).2 q hq)).mono
          fun e he => List.mem_filter.mpr ⟨he, ?_⟩⟩
        have := (g2.edge e he).2.2.2.le.trans (not_lt.mp hlt')
        simpa using WithTop.coe_le_coe.mp this
    have lev := conn_level hf (ptAt S) T h3 hnd out0 hout
      (fun D => ConnL (uf.getEdge.filter fun e => decide (e.w ≤ D))) (fun D => connL_equiv _)
      (fun D D' a b hD hc => ConnL.filter_mono hD hc) hshort
    intro P hP D hA hB p hp q hq hD
    obtain ⟨a, ha, b, hb, hc⟩ := hshort P hP p hp q hq
    exact ((lev P.1 (hbelow P hP).1 D hA p hp a ha).trans (ConnL.filter_mono hD hc)).trans
      (lev P.2 (hbelow P hP).2 D hB b hb q hq)

/-- **C95, a spanning tree.** With any monotone odd rounding, for every list of at least two points, every
schedule and every tie breaking, `euclideanMst` returns `n - 1` edges between different input indices, each
with the computed distance of its ends as weight, that connect all points. The only other outcome is the
exception of `speculative_for`, which needs a batch of more than 4101 edges. -/
theorem c95_spanning (hf : IsMonoRounding fl) (w bs : ℕ) (hw : 0 < w) (hb : 0 < bs) (hd : 0 < d)
    (sch : ℕ → Sched d) (hsch : ∀ k, (sch k).OkFl fl) (S : List (Point ℝ d)) (hS : 2 ≤ S.length) :
    (euclideanMstFl fl w bs sch S = .error .throws ∧ 4101 < S.length * S.length) ∨
      ∃ out, euclideanMstFl fl w bs sch S = .ok out ∧ out.length = S.length - 1 ∧
        (∀ e ∈ out, e.u ≠ e.v ∧ e.w = distFl fl (ptAt S e.u) (ptAt S e.v)) ∧
        Spans S.length (out.map fun e => (e.u, e.v)) := by
  rcases emst_fl hf w bs hw hb hd sch hsch S hS with h | ⟨out, T, out0, h1, h2, h3, h4, -⟩
  · exact Or.inl h
  · exact Or.inr ⟨out, h1, h2, h3, h4⟩

/-- The radius of the balls of a pair is bounded by the distance of any two points in them. -/
theorem radius_bound {a b e E rA rB D : ℝ} (hab : a ≤ b) (h0 : 0 ≤ rA) (h1 : 0 ≤ rB) (hb : 0 ≤ b)
    (hD : D ≤ rA + e + rB) (h : a * (2 * max rA rB + rA + rB) ≤ b * (D + E)) :
    (2 * a - b) * (2 * max rA rB) ≤ b * (e + E) := by
  have hm : rA + rB ≤ 2 * max rA rB := by
    have := le_max_left rA rB
    have := le_max_right rA rB
    linarith
  have g1 : b * (D + E) ≤ b * (rA + e + rB + E) := mul_le_mul_of_nonneg_left (by linarith) hb
  have g2 : (b - a) * (rA + rB) ≤ (b - a) * (2 * max rA rB) := mul_le_mul_of_nonneg_left hm (by linarith)
  nlinarith

/-- **C95, nearly minimal.** With a rounding of relative error `u`, where `d + 7` roundings change a number
by less than a factor of two, and points with coordinates of size at most `M`: the sum of the weights is at
most `b² / (2a - b)` times the length of any list of edges that connects all points, plus an error for the
box centres; `a = (1-u)^(d+7)` and `b = (1+u)^(d+7)` are close to 1. The weights themselves are accurate. -/
theorem c95_near_minimal {u : ℝ} (hf : IsRounding u fl) (hu : u < 1)
    (hab : (1 + u) ^ (d + 7) < 2 * (1 - u) ^ (d + 7)) (w bs : ℕ) (hw : 0 < w) (hb : 0 < bs) (hd : 0 < d)
    (sch : ℕ → Sched d) (hsch : ∀ k, (sch k).OkFl fl) (S : List (Point ℝ d)) (hS : 2 ≤ S.length)
    (M : ℝ) (hM : ∀ p ∈ S, ∀ i, |p i| ≤ M) :
    (euclideanMstFl fl w bs sch S = .error .throws ∧ 4101 < S.length * S.length) ∨
      ∃ out, euclideanMstFl fl w bs sch S = .ok out ∧
        (1 - u) ^ (d + 5) * totalLength S (out.map fun e => (e.u, e.v)) ≤ (out.map (·.w)).sum ∧
        ∀ F, Spans S.length F → (2 * (1 - u) ^ (d + 7) - (1 + u) ^ (d + 7)) * (out.map (·.w)).sum ≤
          ((1 + u) ^ (d + 7)) ^ 2 * (totalLength S F + F.length * (6 * Real.sqrt d * u * M)) := by
  have hm := hf.toIsMonoRounding
  have hu0 := u_nonneg hf
  rcases emst_fl hm w bs hw hb hd sch hsch S hS with h | ⟨out, T, out0, h1, h2, h3, h4, h5, h6, h7, h8⟩
  · exact Or.inl h
  right
  refine ⟨out, h1, ?_, ?_⟩
  · have : ∀ l : List (WEdge ℝ), (∀ e ∈ l, e.w = distFl fl (ptAt S e.u) (ptAt S e.v)) →
        (1 - u) ^ (d + 5) * totalLength S (l.map fun e => (e.u, e.v)) ≤ (l.map (·.w)).sum := by
      intro l
      induction l with
      | nil => intro _; simp [totalLength]
      | cons e l ih =>
        intro h
        have g1 := ih fun e he => h e (List.mem_cons_of_mem _ he)
        have g2 := distFl_ge hf hu.le (ptAt S e.u) (ptAt S e.v)
        rw [← h e (by simp)] at g2
        simp only [totalLength, List.map_cons, List.sum_cons] at g1 ⊢
        linarith
    exact this out fun e he => (h3 e he).2
  intro F hF
  set a := (1 - u) ^ (d + 7) with ha
  set b := (1 + u) ^ (d + 7) with hbdef
  set E := 6 * Real.sqrt d * u * M with hE
  have ha0 : 0 ≤ a := pow_nonneg (by linarith) _
  have ha1 : a ≤ 1 := pow_le_one₀ (by linarith) (by linarith)
  have hb1 : 1 ≤ b := one_le_pow₀ (by linarith)
  have hk : 0 < 2 * a - b := by linarith
  have hM' : ∀ x ∈ List.range S.length, ∀ i, |ptAt S x i| ≤ M := by
    intro x hx i
    rw [List.mem_range] at hx
    unfold ptAt
    rw [List.getElem?_eq_getElem hx]
    exact hM _ (List.getElem_mem hx) i
  have hne : List.range S.length ≠ [] := by
    intro h
    have := congrArg List.length h
    simp at this
    rw [this] at hS
    simp at hS
  have hM0 : 0 ≤ M := (abs_nonneg _).trans (hM' 0 (List.mem_range.mpr (by omega)) ⟨0, hd⟩)
  have hE0 : 0 ≤ E := by positivity
  obtain ⟨o1, q1, -, q2, -⟩ := c94_cover hm w bs hw hb hd (ptAt S) true (List.range S.length) hne
    List.nodup_range T h6 2
  obtain ⟨o2, q3, q4⟩ := c94_separated hf hu w bs hw hb hd (ptAt S) true (List.range S.length) hne
    List.nodup_range M hM' T h6 2 (by norm_num)
  rw [h7] at q1 q3
  cases q1
  cases q3
  let F' : List (WEdge ℝ) := F.map fun e => ⟨e.1, e.2, b ^ 2 / (2 * a - b) *
    (eucl (ptAt S e.1) (ptAt S e.2) + E)⟩
  have hF' : (F'.map (·.w)).sum = b ^ 2 / (2 * a - b) * (totalLength S F + F.length * E) := by
    have : ∀ l : List (ℕ × ℕ), (l.map fun e => b ^ 2 / (2 * a - b) *
        (eucl (ptAt S e.1) (ptAt S e.2) + E)).sum = b ^ 2 / (2 * a - b) * (totalLength S l + l.length * E) := by
      intro l
      induction l with
      | nil => simp [totalLength]
      | cons e l ih =>
        simp only [totalLength, List.map_cons, List.sum_cons, List.length_cons, Nat.cast_add, Nat.cast_one] at ih ⊢
        rw [ih]
        ring
    rw [← this F]
    simp [F', List.map_map, Function.comp_def]
  -- two points of a pair of the decomposition are connected at the level of the bound
  have key : ∀ P ∈ out0, ∀ p ∈ P.1.items, ∀ q ∈ P.2.items,
      ConnL (out.filter fun e => decide (e.w ≤ b ^ 2 / (2 * a - b) * (eucl (ptAt S p) (ptAt S q) + E))) p q := by
    intro P hP p hp q hq
    obtain ⟨cA, cB, rA, rB, r1, r2, r3, r4, r5⟩ := q4 P hP
    set e := eucl (ptAt S p) (ptAt S q) with he
    have he0 : 0 ≤ e := eucl_nonneg _ _
    have tri : eucl cA cB ≤ rA + e + rB := by
      have t1 := eucl_triangle cA (ptAt S p) cB
      have t2 := eucl_triangle (ptAt S p) (ptAt S q) cB
      have t3 := r3 p hp
      have t4 := r4 q hq
      rw [eucl_comm] at t3
      linarith
    have rb := radius_bound (a := a) (b := b) (E := E) (by linarith) r1 r2 (by linarith) tri r5
    have lev : ∀ x y : Point ℝ d, ∀ D, eucl x y ≤ D → (2 * a - b) * D ≤ b * (e + E) →
        distFl fl x y ≤ b ^ 2 / (2 * a - b) * (e + E) := by
      intro x y D hxy hD
      have g1 := distFl_le hf hu.le x y
      have g2 : (1 + u) ^ (d + 5) * eucl x y ≤ b * eucl x y :=
        mul_le_mul_of_nonneg_right (pow_le_pow_right₀ (by linarith) (by omega)) (eucl_nonneg _ _)
      have g3 : b * eucl x y ≤ b * D := mul_le_mul_of_nonneg_left hxy (by linarith)
      rw [div_mul_eq_mul_div, le_div_iff₀ hk]
      have g4 := mul_le_mul_of_nonneg_left (g1.trans (g2.trans g3)) hk.le
      have g5 := mul_le_mul_of_nonneg_left hD (by linarith : 0 ≤ b)
      linarith
    have ball : ∀ (c : Point ℝ d) (r : ℝ) (x y : ℕ), r ≤ max rA rB → eucl (ptAt S x) c ≤ r →
        eucl (ptAt S y) c ≤ r → distFl fl (ptAt S x) (ptAt S y) ≤ b ^ 2 / (2 * a - b) * (e + E) := by
      intro c r x y hr hx hy
      refine lev _ _ (2 * max rA rB) ?_ rb
      have := eucl_triangle (ptAt S x) c (ptAt S y)
      rw [eucl_comm c] at this
      linarith
    refine h8 P hP _ (fun x hx y hy => ball cA rA x y (le_max_left _ _) (r3 x hx) (r3 y hy))
      (fun x hx y hy => ball cB rB x y (le_max_right _ _) (r4 x hx) (r4 y hy)) p hp q hq ?_
    refine lev _ _ e (le_refl _) ?_
    have g1 : (2 * a - b) * e ≤ b * e := mul_le_mul_of_nonneg_right (by linarith) he0
    have g2 : 0 ≤ b * E := mul_nonneg (by linarith) hE0
    linarith
  have hmain : (out.map (·.w)).sum ≤ (F'.map (·.w)).sum := by
    refine bottleneck_min out F' h5 ?_ ?_ ?_
    · intro e he
      obtain ⟨f, hfm, rfl⟩ := List.mem_map.mp he
      obtain ⟨f1, f2⟩ := hF.1 f hfm
      by_cases hne : f.1 = f.2
      · simp only [hne]
        exact .refl _
      · classical
        have hc := q2 f.1 (List.mem_range.mpr f1) f.2 (List.mem_range.mpr f2) hne
        have hpos : 0 < out0.countP (fun P => decide (Covers f.1 f.2 P)) := by
          convert (show 0 < 1 by omega)
        obtain ⟨P, hP, hcov⟩ := List.countP_pos_iff.mp hpos
        have hcov : Covers f.1 f.2 P := by simpa using hcov
        rcases hcov with ⟨c1, c2⟩ | ⟨c1, c2⟩
        · exact key P hP f.1 c1 f.2 c2
        · have := key P hP f.2 c1 f.1 c2
          rw [eucl_comm] at this
          exact this.symm
    · intro e he
      have hlt := h4.1 (e.u, e.v) (List.mem_map.mpr ⟨e, he, rfl⟩)
      have hc := hF.2 e.u hlt.1 e.v hlt.2
      generalize e.u = a at hc
      generalize e.v = b at hc
      induction hc with
      | rel x y hxy => exact .edge (e := ⟨x, y, _⟩) (List.mem_map.mpr ⟨(x, y), hxy, rfl⟩)
      | refl x => exact .refl x
      | symm x y _ ih => exact ih.symm
      | trans x y z _ _ ih1 ih2 => exact ih1.trans ih2
    · intro e he
      obtain ⟨f, hfm, rfl⟩ := List.mem_map.mp he
      exact mul_nonneg (div_nonneg (by positivity) hk.le) (add_nonneg (eucl_nonneg _ _) hE0)
  rw [hF', div_mul_eq_mul_div, le_div_iff₀ hk] at hmain
  linarith

/-- `euclideanMst` aborts for fewer than two points. -/
theorem c95_small (fl : ℝ → ℝ) (w bs : ℕ) (sch : ℕ → Sched d) (S : List (Point ℝ d)) (hS : S.length < 2) :
    euclideanMstFl fl w bs sch S = .error .throws := by
  unfold euclideanMstFl; rw [if_pos hS]

theorem exSched_okFl (fl : ℝ → ℝ) : exSched.OkFl fl :=
  ⟨List.reverse_perm, List.reverse_perm, ⟨fun _ l => List.reverse_perm l, fun _ l => .refl l⟩,
    fun _ _ _ _ _ _ => ⟨le_top, le_top⟩⟩

/-- Non-vacuity of `c95_spanning` and `c95_near_minimal`: five points in `double`, two of them equal. -/
example : ∃ out, euclideanMstFl (rne 53) 4 100 (fun _ => exSched)
      ([![0, 0], ![0, 0], ![10, 0], ![10, 3], ![4, 1]] : List (Point ℝ 2)) = .ok out ∧ out.length = 4 ∧
    ∀ F, Spans 5 F → (2 * (1 - (2 : ℝ)⁻¹ ^ 53) ^ 9 - (1 + (2 : ℝ)⁻¹ ^ 53) ^ 9) * (out.map (·.w)).sum ≤
      ((1 + (2 : ℝ)⁻¹ ^ 53) ^ 9) ^ 2 * (totalLength ([![0, 0], ![0, 0], ![10, 0], ![10, 3], ![4, 1]] :
        List (Point ℝ 2)) F + F.length * (6 * Real.sqrt 2 * (2 : ℝ)⁻¹ ^ 53 * 10)) := by
  have hf := isRounding_rne (p := 53) (by norm_num)
  rcases c95_spanning hf.toIsMonoRounding 4 100 (by norm_num) (by norm_num) (by norm_num) (fun _ => exSched)
    (fun _ => exSched_okFl _) ([![0, 0], ![0, 0], ![10, 0], ![10, 3], ![4, 1]] : List (Point ℝ 2))
    (by simp) with ⟨-, h⟩ | ⟨out, h1, h2, -, -⟩
  · norm_num at h
  rcases c95_near_minimal hf (by norm_num) (by norm_num) 4 100 (by norm_num) (by norm_num) (by norm_num)
    (fun _ => exSched) (fun _ => exSched_okFl _)
    ([![0, 0], ![0, 0], ![10, 0], ![10, 3], ![4, 1]] : List (Point ℝ 2)) (by simp) 10 (by
      intro p hp i
      simp only [List.mem_cons, List.not_mem_nil, or_false] at hp
      rcases hp with rfl | rfl | rfl | rfl | rfl <;> fin_cases i <;> norm_num [abs_of_nonneg]) with
      ⟨-, h⟩ | ⟨out', h3, -, h4⟩
  · norm_num at h
  rw [h1] at h3
  cases h3
  exact ⟨out, h1, by simpa using h2, fun F hF => by simpa using h4 F hF⟩

end Verif.Emst
