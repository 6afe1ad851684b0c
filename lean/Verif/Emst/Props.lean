import Verif.Emst.Round

set_option linter.unusedSectionVars false
set_option linter.unusedVariables false

/-!
Property C16: `euclideanMst` returns a minimum spanning tree of the complete graph of distances.
-/

namespace Verif.Emst

open Verif.KdTree Verif.UF Verif.Mst Verif.SpatialGraph

variable {d : ℕ}

/-- Invariant of the main loop: `M` is the largest `rho` so far. -/
structure Inv (pos : ℕ → Point ℝ d) (n : ℕ) (T : Tree ℕ ℝ d) (t : NTree ℕ ℝ d) (uf : EdgeUF ℝ)
    (rt dep : ℕ → ℕ) (M : WithTop ℝ) : Prop where
  tree : t.tree = T
  forest : Forest uf.P n rt dep
  len : uf.edges.length = n
  cells : ∀ x < n, uf.edges[x]? = some none ↔ rt x = x
  conn : ∀ a b, rt a = rt b ↔ ConnL uf.getEdge a b
  ac : AcyclicL uf.getEdge
  nonempty : NonEmpty t
  stale : Stale rt t
  ids : ∀ u v, NBelow u t → NBelow v t → sameId u v = true → ∀ x ∈ u.tree.items, ∀ y ∈ v.tree.items,
    rt x = rt y
  edge : ∀ e ∈ uf.getEdge, e.u < n ∧ e.v < n ∧ e.w = eucl (pos e.u) (pos e.v) ∧ (e.w : WithTop ℝ) < M
  short : ∀ p < n, ∀ q < n, ((eucl (pos p) (pos q) : ℝ) : WithTop ℝ) < M →
    ConnL (uf.getEdge.filter fun e => decide (e.w ≤ eucl (pos p) (pos q))) p q

theorem stale_coarser {rt rt' : ℕ → ℕ} (hjoin : ∀ a b, rt a = rt b → rt' a = rt' b) (t : NTree ℕ ℝ d)
    (h : Stale rt t) : Stale rt' t := by
  induction t with
  | leaf i b items => exact fun hi x hx y hy => hjoin _ _ (h hi x hx y hy)
  | node i b l r ihl ihr =>
    refine ⟨fun hi => ⟨fun x hx y hy => hjoin _ _ ((h.1 hi).1 x hx y hy), (h.1 hi).2⟩, ihl h.2.1, ihr h.2.2⟩

theorem nonEmpty_of_tree {t t' : NTree ℕ ℝ d} (h : t.tree = t'.tree) (hn : NonEmpty t) : NonEmpty t' := by
  induction t generalizing t' with
  | leaf i b items =>
    cases t' with
    | leaf i' b' items' => simp only [NTree.tree, Tree.leaf.injEq] at h; rw [← h.2] at *; exact h.2 ▸ hn
    | node i' b' l' r' => simp [NTree.tree] at h
  | node i b l r ihl ihr =>
    cases t' with
    | leaf i' b' items' => simp [NTree.tree] at h
    | node i' b' l' r' =>
      simp only [NTree.tree, Tree.node.injEq] at h
      exact ⟨ihl h.2.1 hn.1, ihr h.2.2 hn.2⟩

theorem marked_below {rt : ℕ → ℕ} {u t : NTree ℕ ℝ d} (h : NBelow u t) (hm : Marked rt t) : Marked rt u := by
  induction h with
  | refl => exact hm
  | left _ ih => exact ih hm.2.1
  | right _ ih => exact ih hm.2.2

theorem marked_ids {rt : ℕ → ℕ} {t : NTree ℕ ℝ d} (hm : Marked rt t) (u v : NTree ℕ ℝ d) (hu : NBelow u t)
    (hv : NBelow v t) (hs : sameId u v = true) : ∀ x ∈ u.tree.items, ∀ y ∈ v.tree.items, rt x = rt y := by
  unfold sameId at hs
  rw [Bool.and_eq_true] at hs
  obtain ⟨r, hr⟩ := Option.isSome_iff_exists.mp hs.1
  have hv' : v.id = some r := by rw [← hr]; exact (beq_iff_eq.mp hs.2).symm
  intro x hx y hy
  rw [((marked_below hu hm).id_iff r).mp hr x hx, ((marked_below hv hm).id_iff r).mp hv' y hy]

theorem ConnL.filter_mono {l : List (WEdge ℝ)} {τ τ' : ℝ} (h : τ ≤ τ') {a b : ℕ}
    (hc : ConnL (l.filter fun e => decide (e.w ≤ τ)) a b) :
    ConnL (l.filter fun e => decide (e.w ≤ τ')) a b := by
  refine Mst.ConnL.mono (fun e he => ?_) hc
  obtain ⟨h1, h2⟩ := List.mem_filter.mp he
  exact List.mem_filter.mpr ⟨h1, by simpa using (of_decide_eq_true h2).trans h⟩

/-- Without new edges the invariant holds for the larger `rho`. -/
theorem inv_skip {pos : ℕ → Point ℝ d} {n : ℕ} {T : Tree ℕ ℝ d} {t : NTree ℕ ℝ d} {uf : EdgeUF ℝ}
    {rt dep : ℕ → ℕ} {M rho : WithTop ℝ} (h : Inv pos n T t uf rt dep M)
    (hc : ∀ C : ℝ → ℕ → ℕ → Prop, (∀ D, Equivalence (C D)) → (∀ D D' a b, D ≤ D' → C D a b → C D' a b) →
        (∀ p < n, ∀ q < n, ((eucl (pos p) (pos q) : ℝ) : WithTop ℝ) < M → C (eucl (pos p) (pos q)) p q) →
        (∀ D p q, M ≤ ((D : ℝ) : WithTop ℝ) → rt p = rt q → C D p q) →
        (∀ e ∈ ([] : List (WEdge ℝ)), M ≤ (e.w : WithTop ℝ) → C e.w e.u e.v) →
        ∀ p < n, ∀ q < n, ((eucl (pos p) (pos q) : ℝ) : WithTop ℝ) < rho → C (eucl (pos p) (pos q)) p q) :
    Inv pos n T t uf rt dep (max M rho) := by
  refine { h with edge := ?_, short := ?_ }
  · intro e he
    obtain ⟨h1, h2, h3, h4⟩ := h.edge e he
    exact ⟨h1, h2, h3, lt_of_lt_of_le h4 (le_max_left _ _)⟩
  · intro p hp q hq hlt
    rcases lt_max_iff.mp hlt with hlt | hlt
    · exact h.short p hp q hq hlt
    · refine hc (fun D => ConnL (uf.getEdge.filter fun e => decide (e.w ≤ D)))
        (fun D => connL_equiv _) (fun D D' a b hD hc => ConnL.filter_mono hD hc) h.short ?_ (by simp)
        p hp q hq hlt
      intro D p q hD hr
      refine Mst.ConnL.mono (fun e he => ?_) ((h.conn p q).mp hr)
      refine List.mem_filter.mpr ⟨he, ?_⟩
      have := (h.edge e he).2.2.2.le.trans hD
      simpa using WithTop.coe_le_coe.mp this

theorem orient_uv (a b : ℕ) (w : ℝ) : ((orient a b w).u = a ∧ (orient a b w).v = b ∨
    (orient a b w).u = b ∧ (orient a b w).v = a) ∧ (orient a b w).w = w := by
  unfold orient
  split_ifs <;> simp

/-- Specification of the routine called for a batch: it achieves a batch step, or fails with an error `e` that `bad`
allows for a batch of this length. -/
def KrOk (n : ℕ) (kr : List (WEdge ℝ) → ℕ → EdgeUF ℝ → Except Err (EdgeUF ℝ)) (bad : Err → ℕ → Prop) : Prop :=
  ∀ (E : List (WEdge ℝ)), (∀ e ∈ E, e.u < n ∧ e.v < n) → ∀ (uf : EdgeUF ℝ) (rt dep : ℕ → ℕ),
    Forest uf.P n rt dep → uf.edges.length = n → (∀ x < n, uf.edges[x]? = some none ↔ rt x = x) →
    (∀ a b, rt a = rt b ↔ ConnL uf.getEdge a b) → AcyclicL uf.getEdge →
    (∃ e, kr E n uf = .error e ∧ bad e E.length) ∨
      ∃ (uf' : EdgeUF ℝ) (rt' dep' : ℕ → ℕ), kr E n uf = .ok uf' ∧ BatchOk E n uf uf' rt' dep'

/-- Specification of the routines of a round. -/
structure RoutinesOk (pos : ℕ → Point ℝ d) (n : ℕ) (rou : Routines d) (bad : Err → ℕ → Prop) : Prop where
  rho : ∀ (beta : ℕ) (t : NTree ℕ ℝ d), Sound pos 1 t.tree → t.tree.items.Perm (List.range n) →
    ∃ r, rou.rho beta t = .ok r ∧ RhoOk beta t r
  get : ∀ (beta : ℕ) (rhoLo rhoHi : WithTop ℝ) (t : NTree ℕ ℝ d), Sound pos 1 t.tree → t.tree.items.Perm (List.range n) →
    ∃ s : Sched d, s.OrdOk ∧ rou.get pos beta rhoLo rhoHi t = getPass pos s beta rhoLo rhoHi t
  kr : KrOk n rou.kr bad
  mark : ∀ (t : NTree ℕ ℝ d) (P : List ℤ) (rt dep : ℕ → ℕ), Forest P n rt dep → (∀ x ∈ t.tree.items, x < n) →
    NonEmpty t → Stale rt t →
    ∃ t' P', rou.mark t P = .ok (t', P') ∧ Forest P' n rt dep ∧ t'.tree = t.tree ∧ Marked rt t'

/-- The decomposition of a sound tree exists. -/
theorem wspd_exists {pos : ℕ → Point ℝ d} {n : ℕ} {T : Tree ℕ ℝ d} (hs : Sound pos 1 T)
    (hp : T.items.Perm (List.range n)) : ∃ out0, wspdSerial (geomWellSeparated 2) T = .ok out0 := by
  obtain ⟨out0, h1, h2, h3⟩ := wspdSerial_ok (geomWellSeparated 2) T
    (fun bu iu bv iv hu hv => geomWellSeparated_leaf (hs.below hu) (hs.below hv)) hs.singleLeaves
    (hp.nodup_iff.mpr List.nodup_range)
  exact ⟨out0, h1⟩

/-- The function models of the rho traversal and of `mark` meet their specifications. -/
theorem routinesOk_seq {pos : ℕ → Point ℝ d} {n : ℕ} {s : Sched d} (hsch : s.Ok)
    {kr : List (WEdge ℝ) → ℕ → EdgeUF ℝ → Except Err (EdgeUF ℝ)} {bad : Err → ℕ → Prop} (hkr : KrOk n kr bad) :
    RoutinesOk pos n ⟨rhoPass s, fun pos => getPass pos s, kr, mark⟩ bad :=
  ⟨fun beta t hs hp => rhoPass_ok hsch beta t (wspd_exists hs hp), fun _ _ _ _ _ _ => ⟨s, hsch.ordOk, rfl⟩, hkr,
    fun t P rt dep h1 h2 h3 h4 => c46_mark t P h1 h2 h3 h4⟩

/-- One round of the main loop. -/
theorem inv_step {rou : Routines d} {bad : Err → ℕ → Prop}
    {pos : ℕ → Point ℝ d} {n : ℕ} {T : Tree ℕ ℝ d} (hs : Sound pos 1 T)
    (hp : T.items.Perm (List.range n)) (hrou : RoutinesOk pos n rou bad) (beta : ℕ) {rhoLo M : WithTop ℝ}
    (hM : rhoLo ≤ M) {t : NTree ℕ ℝ d} {uf : EdgeUF ℝ} {rt dep : ℕ → ℕ} (h : Inv pos n T t uf rt dep M) :
    ∃ rhoHi edges, rou.rho beta t = .ok rhoHi ∧ (n ≤ beta → rhoHi = ⊤) ∧
      rou.get pos beta rhoLo rhoHi t = .ok edges ∧
      ((edges.length ≤ 0 ∧ Inv pos n T t uf rt dep (max M rhoHi)) ∨
        (¬ edges.length ≤ 0 ∧
          ((∃ e m, rou.kr edges n uf = .error e ∧ m ≤ n * n ∧ bad e m) ∨
            ∃ uf' t' P' rt' dep', rou.kr edges n uf = .ok uf' ∧ rou.mark t uf'.P = .ok (t', P') ∧
              Inv pos n T t' { uf' with P := P' } rt' dep' (max M rhoHi)))) := by
  obtain ⟨rhoHi, h1, hrho⟩ := hrou.rho beta t (h.tree.symm ▸ hs) (h.tree.symm ▸ hp)
  obtain ⟨s, hsch, hget⟩ := hrou.get beta rhoLo rhoHi t (h.tree.symm ▸ hs) (h.tree.symm ▸ hp)
  obtain ⟨edges, h2, h3, h4, h5, h6⟩ := round_ok pos n T hs hp s hsch beta rhoLo rhoHi M hM t h.tree hrho rt
    h.ids
  refine ⟨rhoHi, edges, h1, h2, hget.trans h3, ?_⟩
  by_cases he : edges.length ≤ 0
  · left
    have : edges = [] := List.length_eq_zero_iff.mp (by omega)
    subst this
    exact ⟨he, inv_skip h h6⟩
  right
  refine ⟨he, ?_⟩
  rcases hrou.kr edges (fun e he => ⟨(h5 e he).1, (h5 e he).2.1⟩) uf rt dep h.forest h.len h.cells
    h.conn h.ac with ⟨err, g1, g2⟩ | ⟨uf', rt', dep', g1, g2, g3, g4, g5, g6, g7, g8, g9⟩
  · left
    exact ⟨err, edges.length, g1, by omega, g2⟩
  right
  have hjoin : ∀ a b, rt a = rt b → rt' a = rt' b := fun a b hab =>
    (g5 a b).mpr (((h.conn a b).mp hab).mono g8)
  obtain ⟨t', P', k1, k2, k3, k4⟩ := hrou.mark t uf'.P rt' dep' g2 (by
    intro x hx
    rw [h.tree, hp.mem_iff, List.mem_range] at hx
    exact hx) h.nonempty (stale_coarser hjoin t h.stale)
  refine ⟨uf', t', P', rt', dep', g1, k1, ?_⟩
  have hle : ∀ D : ℝ, M ≤ (D : WithTop ℝ) → ∀ e ∈ uf.getEdge, e.w ≤ D := fun D hD e he =>
    WithTop.coe_le_coe.mp ((h.edge e he).2.2.2.le.trans hD)
  refine ⟨k3.trans h.tree, k2, g3, g4, g5, g6, nonEmpty_of_tree k3.symm h.nonempty,
    c46_ready (fun a b h => h) t' k4, marked_ids k4, ?_, ?_⟩
  · intro e he
    rcases g7 e he with he | ⟨f, hf, rfl⟩
    · obtain ⟨q1, q2, q3, q4⟩ := h.edge e he
      exact ⟨q1, q2, q3, lt_of_lt_of_le q4 (le_max_left _ _)⟩
    · obtain ⟨q1, q2, q3, q4⟩ := h5 f hf
      obtain ⟨o1, o2⟩ := orient_uv f.u f.v f.w
      rw [o2]
      rcases o1 with ⟨o1, o3⟩ | ⟨o1, o3⟩
      · rw [o1, o3]
        exact ⟨q1, q2, q3, lt_of_lt_of_le q4 (le_max_right _ _)⟩
      · rw [o1, o3, eucl_comm]
        exact ⟨q2, q1, q3, lt_of_lt_of_le q4 (le_max_right _ _)⟩
  · have hshort : ∀ p < n, ∀ q < n, ((eucl (pos p) (pos q) : ℝ) : WithTop ℝ) < M →
        ConnL (uf'.getEdge.filter fun e => decide (e.w ≤ eucl (pos p) (pos q))) p q := by
      intro p hp q hq hlt
      refine (h.short p hp q hq hlt).mono fun e he => ?_
      obtain ⟨q1, q2⟩ := List.mem_filter.mp he
      exact List.mem_filter.mpr ⟨g8 e q1, q2⟩
    intro p hp q hq hlt
    rcases lt_max_iff.mp hlt with hlt | hlt
    · exact hshort p hp q hq hlt
    · refine h6 (fun D => ConnL (uf'.getEdge.filter fun e => decide (e.w ≤ D)))
        (fun D => connL_equiv _) (fun D D' a b hD hc => ConnL.filter_mono hD hc) hshort ?_ ?_
        p hp q hq hlt
      · intro D p q hD hr
        refine Mst.ConnL.mono (fun e he => ?_) ((h.conn p q).mp hr)
        exact List.mem_filter.mpr ⟨g8 e he, by simpa using hle D hD e he⟩
      · intro f hf hMf
        exact g9 f hf f.w le_rfl (hle f.w hMf)

/-! Counting edges -/

theorem countP_eq_card {β : Type} (l : List β) (p : β → Bool) :
    l.countP p = ((Finset.range l.length).filter fun i => (l[i]?).any p = true).card := by
  have h1 : (List.range l.length).map (fun i => l[i]?) = l.map some := by
    apply List.ext_getElem (by simp)
    intro i h1 h2
    simp at h1
    simp [h1]
  have h2 : l.countP p = (List.range l.length).countP fun i => (l[i]?).any p := by
    have := List.countP_map (p := fun o : Option β => o.any p) (f := fun i => l[i]?) (l := List.range l.length)
    rw [h1, List.countP_map] at this
    rw [show l.countP p = l.countP ((fun o : Option β => o.any p) ∘ some) from rfl, this]
    rfl
  rw [h2, List.countP_eq_length_filter]
  rw [← List.toFinset_card_of_nodup (List.nodup_range.filter _)]
  congr 1
  ext i
  simp

theorem numEdge_roots {n : ℕ} {rt : ℕ → ℕ} {uf : EdgeUF ℝ} (hl : uf.edges.length = n)
    (hc : ∀ x < n, uf.edges[x]? = some none ↔ rt x = x) :
    uf.numEdge + ((Finset.range n).filter fun x => rt x = x).card = n := by
  have h1 : uf.edges.countP (fun o => !o.isSome) = ((Finset.range n).filter fun x => rt x = x).card := by
    rw [countP_eq_card, hl]
    congr 1
    ext x
    simp only [Finset.mem_filter, Finset.mem_range]
    refine and_congr_right fun hx => ?_
    rw [← hc x hx, List.getElem?_eq_getElem (by omega)]
    simp
  have := List.length_eq_countP_add_countP Option.isSome (l := uf.edges)
  unfold EdgeUF.numEdge
  rw [← h1, ← hl, this]
  congr 2
  funext o
  cases o <;> rfl

theorem numEdge_full {n : ℕ} {rt dep : ℕ → ℕ} {uf : EdgeUF ℝ} (hF : Forest uf.P n rt dep)
    (hn : 0 < n) (hl : uf.edges.length = n) (hc : ∀ x < n, uf.edges[x]? = some none ↔ rt x = x) :
    (n - 1 ≤ uf.numEdge ↔ ∀ a < n, ∀ b < n, rt a = rt b) ∧ uf.numEdge ≤ n - 1 := by
  have h := numEdge_roots hl hc
  have h0 := hF.root 0 hn
  have hpos : 0 < ((Finset.range n).filter fun x => rt x = x).card :=
    Finset.card_pos.mpr ⟨rt 0, by simp [h0.1, h0.2.2]⟩
  refine ⟨?_, by omega⟩
  constructor
  · intro h1 a ha b hb
    have h2 : ((Finset.range n).filter fun x => rt x = x).card ≤ 1 := by omega
    have ra := hF.root a ha
    have rb := hF.root b hb
    exact Finset.card_le_one.mp h2 (rt a) (by simp [ra.1, ra.2.2]) (rt b) (by simp [rb.1, rb.2.2])
  · intro h1
    have h2 : ((Finset.range n).filter fun x => rt x = x).card ≤ 1 := by
      refine Finset.card_le_one.mpr fun a ha b hb => ?_
      simp only [Finset.mem_filter, Finset.mem_range] at ha hb
      rw [← ha.2, ← hb.2]
      exact h1 a ha.1 b hb.1
    omega

/-- The main loop. -/
theorem loop_ok {rou : ℕ → Routines d} {bad : ℕ → Err → ℕ → Prop}
    {pos : ℕ → Point ℝ d} {n : ℕ} (hrou : ∀ k, RoutinesOk pos n (rou k) (bad k)) (hn : 0 < n) {T : Tree ℕ ℝ d} (hs : Sound pos 1 T)
    (hp : T.items.Perm (List.range n)) (fuel k beta : ℕ)
    (rhoLo M : WithTop ℝ) (hM : rhoLo ≤ M) (t : NTree ℕ ℝ d) (uf : EdgeUF ℝ) (rt dep : ℕ → ℕ)
    (h : Inv pos n T t uf rt dep M) (hf : M = ⊤ ∨ ∃ f, fuel = f + 1 ∧ n ≤ beta * 2 ^ f) :
    (∃ e k' m, emstLoopK rou pos n fuel k beta rhoLo t uf = .error e ∧ m ≤ n * n ∧ bad k' e m) ∨
      ∃ uf' t' rt' dep' M', emstLoopK rou pos n fuel k beta rhoLo t uf = .ok uf' ∧
        Inv pos n T t' uf' rt' dep' M' ∧ ∀ a < n, ∀ b < n, rt' a = rt' b := by
  have htop : ∀ {M t uf rt dep}, M = ⊤ → Inv pos n T t uf rt dep M → n - 1 ≤ uf.numEdge := by
    intro M t uf rt dep hM h
    refine (numEdge_full h.forest hn h.len h.cells).1.mpr fun a ha b hb => (h.conn a b).mpr ?_
    refine (h.short a ha b hb (by rw [hM]; exact WithTop.coe_lt_top _)).mono fun e he => ?_
    exact (List.mem_filter.mp he).1
  induction fuel generalizing k beta rhoLo M t uf rt dep with
  | zero =>
    have hMt : M = ⊤ := by
      rcases hf with h | ⟨f, h, -⟩
      · exact h
      · omega
    have hne := htop hMt h
    right
    refine ⟨uf, t, rt, dep, M, ?_, h, (numEdge_full h.forest hn h.len h.cells).1.mp hne⟩
    unfold emstLoopK
    rw [if_neg (by omega)]
  | succ fuel ih =>
    unfold emstLoopK
    by_cases hlt : uf.numEdge < n - 1
    · rw [if_pos hlt]
      obtain ⟨rhoHi, edges, h1, h2, h3, h4⟩ := inv_step hs hp (hrou k) beta hM h
      simp only [h1, h3, Except.bind]
      have hf' : max M rhoHi = ⊤ ∨ ∃ f, fuel = f + 1 ∧ n ≤ beta * 2 * 2 ^ f := by
        rcases hf with hM | ⟨f, hf1, hf2⟩
        · exact absurd (htop hM h) (by omega)
        · have hff : fuel = f := by omega
          subst hff
          cases fuel with
          | zero =>
            left
            rw [h2 (by simpa using hf2)]
            exact max_top_right _
          | succ f =>
            right
            refine ⟨f, rfl, ?_⟩
            rw [pow_succ] at hf2
            calc n ≤ beta * (2 ^ f * 2) := hf2
              _ = beta * 2 * 2 ^ f := by ring
      rcases h4 with ⟨he, hI⟩ | ⟨he, hb⟩
      · rw [if_pos he]
        exact ih (k + 1) (beta * 2) rhoHi (max M rhoHi) (le_max_right _ _) t uf rt dep hI hf'
      · rw [if_neg he]
        rcases hb with ⟨err, m, hb, hb', hb''⟩ | ⟨uf', t', P', rt', dep', hb1, hb2, hI⟩
        · left
          rw [hb]
          exact ⟨err, k, m, rfl, hb', hb''⟩
        · simp only [hb1, hb2]
          exact ih (k + 1) (beta * 2) rhoHi (max M rhoHi) (le_max_right _ _) t' _ rt' dep' hI hf'
    · rw [if_neg hlt]
      right
      exact ⟨uf, t, rt, dep, M, rfl, h, (numEdge_full h.forest hn h.len h.cells).1.mp (by omega)⟩

/-! ## The specification -/

/-- Specification of C16: the undirected graph with the edges `F` connects all of `0, …, n - 1`. -/
def Spans (n : ℕ) (F : List (ℕ × ℕ)) : Prop :=
  (∀ e ∈ F, e.1 < n ∧ e.2 < n) ∧ ∀ a < n, ∀ b < n, Relation.EqvGen (fun x y => (x, y) ∈ F) a b

/-- Specification of C16: the total length of a list of edges. -/
noncomputable def totalLength (S : List (Point ℝ d)) (F : List (ℕ × ℕ)) : ℝ :=
  (F.map fun e => eucl (ptAt S e.1) (ptAt S e.2)).sum

theorem nbelow_none {T : Tree ℕ ℝ d} {u : NTree ℕ ℝ d} (h : NBelow u (NTree.ofTree T)) : u.id = none := by
  induction T with
  | leaf b items => cases h; rfl
  | node b l r ihl ihr =>
    cases h with
    | refl => rfl
    | left h => exact ihl h
    | right h => exact ihr h

theorem nonEmpty_ofTree {pos : ℕ → Point ℝ d} {T : Tree ℕ ℝ d} (h : Sound pos 1 T) :
    NonEmpty (NTree.ofTree T) := by
  induction T with
  | leaf b items => exact h.1
  | node b l r ihl ihr => exact ⟨ihl h.2.2.1, ihr h.2.2.2⟩

theorem inv_init (pos : ℕ → Point ℝ d) (n : ℕ) (T : Tree ℕ ℝ d) (hs : Sound pos 1 T) :
    Inv pos n T (NTree.ofTree T) (EdgeUF.new n) id (fun _ => 0) ((-0.1 : ℝ) : WithTop ℝ) := by
  have hg : (EdgeUF.new n : EdgeUF ℝ).getEdge = [] := by
    simp [EdgeUF.getEdge, EdgeUF.new]
  refine ⟨ofTree_tree T, forest_init n, by simp [EdgeUF.new], ?_, ?_, by rw [hg]; exact acyclicL_nil,
    nonEmpty_ofTree hs, c46_fresh _ T, ?_, by rw [hg]; simp, ?_⟩
  · intro x hx
    simp [EdgeUF.new, hx]
  · intro a b
    rw [hg]
    constructor
    · intro h
      rw [show a = b from h]
      exact .refl _
    · intro h
      exact h.lift ⟨fun _ => rfl, fun h => h.symm, fun h h' => h.trans h'⟩ (by simp)
  · intro u v hu hv hsame
    simp [sameId, nbelow_none hu] at hsame
  · intro p hp q hq hlt
    have := WithTop.coe_lt_coe.mp hlt
    have h0 := eucl_nonneg (pos p) (pos q)
    norm_num at this
    linarith

/-- The algorithm with any routines that meet their specifications. -/
theorem emst_any {rou : ℕ → Routines d} {bad : ℕ → Err → ℕ → Prop}
    (w bs : ℕ) (hw : 0 < w) (hb : 0 < bs) (hd : 0 < d) (S : List (Point ℝ d)) (hS : 2 ≤ S.length)
    (hrou : ∀ k, RoutinesOk (ptAt S) S.length (rou k) (bad k)) :
    (∃ e k m, euclideanMstK rou w bs S = .error e ∧ m ≤ S.length * S.length ∧ bad k e m) ∨
      ∃ out, euclideanMstK rou w bs S = .ok out ∧ out.length = S.length - 1 ∧
        (∀ e ∈ out, e.u ≠ e.v ∧ e.w = eucl (ptAt S e.u) (ptAt S e.v)) ∧
        Spans S.length (out.map fun e => (e.u, e.v)) ∧
        ∀ F, Spans S.length F → (out.map (·.w)).sum ≤ totalLength S F := by
  obtain ⟨T, h1, h2, h3, -⟩ := c01_build w bs hw hb hd (ptAt S) 1 (le_refl _) true
    (List.range S.length) (by simp; intro h; rw [h] at hS; simp at hS)
  unfold euclideanMstK
  rw [if_neg (by omega)]
  simp only [h1, Except.bind]
  have hfuel : S.length ≤ 2 * 2 ^ S.length := by
    have := Nat.lt_two_pow_self (n := S.length)
    omega
  rcases loop_ok hrou (by omega) h3 h2 (S.length + 1) 0 2 ((-0.1 : ℝ) : WithTop ℝ) _ (le_refl _) _ _ _ _
    (inv_init (ptAt S) S.length T h3) (Or.inr ⟨S.length, rfl, hfuel⟩) with
      ⟨err, k', m, g1, g2, g3⟩ | ⟨uf, t, rt, dep, M, g1, g2, g3⟩
  · left
    rw [g1]
    exact ⟨err, k', m, rfl, g2, g3⟩
  right
  have hnum := numEdge_full g2.forest (by omega) g2.len g2.cells
  have hlen : uf.getEdge.length = S.length - 1 := by
    have : uf.getEdge.length = uf.numEdge := by
      unfold EdgeUF.getEdge EdgeUF.numEdge
      rw [List.length_filterMap_eq_countP]
      rfl
    rw [this]
    have := hnum.1.mpr g3
    omega
  have hconn : ∀ a < S.length, ∀ b < S.length, ConnL uf.getEdge a b := fun a ha b hb =>
    (g2.conn a b).mp (g3 a ha b hb)
  refine ⟨uf.getEdge, by rw [g1]; rfl, hlen, fun e he => ⟨?_, (g2.edge e he).2.2.1⟩, ?_, ?_⟩
  · intro h
    obtain ⟨l1, l2, hl⟩ := List.append_of_mem he
    refine g2.ac e (l1 ++ l2) (by rw [hl]; exact List.perm_middle) ?_
    rw [h]
    exact .refl _
  · constructor
    · intro e he
      obtain ⟨f, hf, rfl⟩ := List.mem_map.mp he
      exact ⟨(g2.edge f hf).1, (g2.edge f hf).2.1⟩
    · intro a ha b hb
      refine (hconn a ha b hb).lift ⟨fun x => .refl x, fun h => .symm _ _ h, fun h h' => .trans _ _ _ h h'⟩ ?_
      intro e he
      exact .rel _ _ (List.mem_map.mpr ⟨e, he, rfl⟩)
  · intro F hF
    let F' : List (WEdge ℝ) := F.map fun e => ⟨e.1, e.2, eucl (ptAt S e.1) (ptAt S e.2)⟩
    have hF' : totalLength S F = (F'.map (·.w)).sum := by
      simp [totalLength, F', List.map_map, Function.comp_def]
    rw [hF']
    refine bottleneck_min uf.getEdge F' g2.ac ?_ ?_ ?_
    · intro e he
      obtain ⟨f, hf, rfl⟩ := List.mem_map.mp he
      obtain ⟨f1, f2⟩ := hF.1 f hf
      by_cases hlt : ((eucl (ptAt S f.1) (ptAt S f.2) : ℝ) : WithTop ℝ) < M
      · exact g2.short f.1 f1 f.2 f2 hlt
      · refine (hconn f.1 f1 f.2 f2).mono fun e he => List.mem_filter.mpr ⟨he, ?_⟩
        have := (g2.edge e he).2.2.2.le.trans (not_lt.mp hlt)
        simpa using WithTop.coe_le_coe.mp this
    · intro e he
      have hc := hF.2 e.u (g2.edge e he).1 e.v (g2.edge e he).2.1
      generalize e.u = a at hc
      generalize e.v = b at hc
      induction hc with
      | rel x y hxy => exact .edge (e := ⟨x, y, _⟩) (List.mem_map.mpr ⟨(x, y), hxy, rfl⟩)
      | refl x => exact .refl x
      | symm x y _ ih => exact ih.symm
      | trans x y z _ _ ih1 ih2 => exact ih1.trans ih2
    · intro e he
      obtain ⟨f, hf, rfl⟩ := List.mem_map.mp he
      exact eucl_nonneg _ _

/-- **C16.** For every list of at least two points (repetitions allowed), every schedule and every
tie breaking, `euclideanMst` returns `n - 1` edges between different input indices, each with the
distance of its ends as weight, that connect all points, and no list of edges that connects
all points has smaller total length. The only other outcome is the exception of `speculative_for`
about too many rounds, which needs a batch of more than 4101 edges. -/
theorem c16_emst (w bs : ℕ) (hw : 0 < w) (hb : 0 < bs) (hd : 0 < d) (sch : ℕ → Sched d)
    (hsch : ∀ k, (sch k).Ok) (S : List (Point ℝ d)) (hS : 2 ≤ S.length) :
    (euclideanMst w bs sch S = .error .throws ∧ 4101 < S.length * S.length) ∨
      ∃ out, euclideanMst w bs sch S = .ok out ∧ out.length = S.length - 1 ∧
        (∀ e ∈ out, e.u ≠ e.v ∧ e.w = eucl (ptAt S e.u) (ptAt S e.v)) ∧
        Spans S.length (out.map fun e => (e.u, e.v)) ∧
        ∀ F, Spans S.length F → (out.map (·.w)).sum ≤ totalLength S F := by
  rcases emst_any (rou := fun k => ⟨rhoPass (sch k), fun pos => getPass pos (sch k), batchKruskal (sch k).kr, mark⟩)
      (bad := fun _ e m => e = .throws ∧ 4101 < m) w bs hw hb hd S hS
      (fun k => routinesOk_seq (hsch k) <| by
      intro E hE uf rt dep h1 h2 h3 h4 h5
      rcases batch_step (sch k).kr (hsch k).kr E S.length hE uf h1 h2 h3 h4 h5 with ⟨g1, g2⟩ | g
      · exact Or.inl ⟨_, g1, rfl, g2⟩
      · exact Or.inr g) with ⟨e, k, m, g1, g2, rfl, g3⟩ | g
  · exact Or.inl ⟨g1, by omega⟩
  · exact Or.inr g

/-- `euclideanMst` aborts for fewer than two points. -/
theorem c16_emst_small (w bs : ℕ) (sch : ℕ → Sched d) (S : List (Point ℝ d)) (hS : S.length < 2) :
    euclideanMst w bs sch S = .error .throws := by
  unfold euclideanMst euclideanMstK; rw [if_pos hS]

/-- A schedule meeting the assumptions: the tests read the initial value of `rho`, buffers are
collected in reverse order. -/
def exSched : Sched 2 where
  obs := fun _ _ _ _ => ⊤
  obsS := fun _ _ _ _ => ⊤
  ord := List.reverse
  buf := List.reverse
  kr := ⟨fun _ l => l.reverse, fun _ l => l, fun _ _ _ => .same⟩

theorem exSched_ok : exSched.Ok :=
  ⟨List.reverse_perm, List.reverse_perm, ⟨fun _ l => List.reverse_perm l, fun _ l => .refl l⟩,
    fun _ _ _ _ _ _ => ⟨le_top, le_top⟩⟩

/-- Non-vacuity: five points, two of them equal. The tree has four edges, and is no longer than the
path through the points. -/
example : ∃ out, euclideanMst 4 100 (fun _ => exSched)
      ([![0, 0], ![0, 0], ![10, 0], ![10, 3], ![4, 1]] : List (Point ℝ 2)) = .ok out ∧ out.length = 4 ∧
    (out.map (·.w)).sum ≤ totalLength ([![0, 0], ![0, 0], ![10, 0], ![10, 3], ![4, 1]] : List (Point ℝ 2))
      [(0, 1), (1, 2), (2, 3), (3, 4)] := by
  rcases c16_emst 4 100 (by norm_num) (by norm_num) (by norm_num) (fun _ => exSched) (fun _ => exSched_ok)
    ([![0, 0], ![0, 0], ![10, 0], ![10, 3], ![4, 1]] : List (Point ℝ 2)) (by simp) with ⟨-, h⟩ | ⟨out, h1, h2, -, -, h3⟩
  · norm_num at h
  · refine ⟨out, h1, by simpa using h2, h3 _ ⟨by decide, ?_⟩⟩
    have e01 : Relation.EqvGen (fun x y => (x, y) ∈ [(0, 1), (1, 2), (2, 3), (3, 4)]) 0 1 := .rel _ _ (by decide)
    have e12 : Relation.EqvGen (fun x y => (x, y) ∈ [(0, 1), (1, 2), (2, 3), (3, 4)]) 1 2 := .rel _ _ (by decide)
    have e23 : Relation.EqvGen (fun x y => (x, y) ∈ [(0, 1), (1, 2), (2, 3), (3, 4)]) 2 3 := .rel _ _ (by decide)
    have e34 : Relation.EqvGen (fun x y => (x, y) ∈ [(0, 1), (1, 2), (2, 3), (3, 4)]) 3 4 := .rel _ _ (by decide)
    have h0 : ∀ a < 5, Relation.EqvGen (fun x y => (x, y) ∈ [(0, 1), (1, 2), (2, 3), (3, 4)]) 0 a := by
      intro a ha
      have e02 := e01.trans _ _ _ e12
      have e03 := e02.trans _ _ _ e23
      have e04 := e03.trans _ _ _ e34
      interval_cases a
      · exact .refl _
      · exact e01
      · exact e02
      · exact e03
      · exact e04
    intro a ha b hb
    exact .trans _ _ _ (.symm _ _ (h0 a ha)) (h0 b hb)

end Verif.Emst
