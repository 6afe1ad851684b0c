import Verif.Emst.BufLemmas

set_option linter.unusedSectionVars false
set_option linter.unusedVariables false

/-!
Property C87: the pair decomposition, the spanner and the Euclidean minimum spanning tree with the pairs collected in the
per-worker buffers, for every assignment of the pushes to workers and every interleaving. The buffers are created with room
for `n / P` elements, so everything is right for `n ≥ P`, and for `2 ≤ n < P` every execution writes outside a buffer.
-/

namespace Verif.Emst

open Verif.KdTree Verif.UF Verif.Mst Verif.ForkJoin Verif.Par Verif.SpatialGraph

variable {d : ℕ} {α : Type}

open Classical in
/-- **C87**, the decomposition. At least as many items as workers: whoever executes the pushes and however the branches and
the copy loops interleave, no push leaves its buffer, and the result consists of well-separated pairs of nodes of the tree
that cover every unordered pair of different items exactly once. Missing: fewer items than workers, see
`c87_wspd_false`. -/
theorem c87_wspd_partial (w bs : ℕ) (hw : 0 < w) (hb : 0 < bs) (hd : 0 < d) (pos : α → Point ℝ d) (parallel : Bool)
    (items : List α) (hne : items ≠ []) (hnd : items.Nodup) (t : Tree α ℝ d)
    (ht : build w bs pos 1 parallel items = .ok t) (s : ℝ) (hs : 0 ≤ s) (P : ℕ) (hP : P ≤ items.length)
    (env : BufEnv (Tree α ℝ d × Tree α ℝ d)) (hwho : ∀ i, env.who i < P) (hcopy : ∀ l, (env.copy l).Perm l) :
    ∃ out, wspdBuf env P s t = .ok out ∧
      (∀ p ∈ out, WellSeparated pos s p.1.items p.2.items) ∧
      (∀ x ∈ items, ∀ y ∈ items, x ≠ y → out.countP (fun p => Covers x y p) = 1) ∧
      (∀ p ∈ out, Below p.1 t ∧ Below p.2 t) := by
  obtain ⟨out0, -, h1, h2, h3, h4⟩ := c09_wspd w bs hw hb hd pos parallel items hne hnd t ht s hs
  obtain ⟨t', g1, g2, -⟩ := c01_build w bs hw hb hd pos 1 (le_refl _) parallel items hne
  rw [g1] at ht
  cases ht
  have hsz : t.size = items.length := by
    rw [← g2.length_eq]
    cases t <;> rfl
  obtain ⟨out, k1, k2⟩ := bufRun_ok env (n := t.size) (hsz.symm ▸ hP) (by norm_num) hwho hcopy
    (emits_wspdBuf env.who s t out0 h1)
  exact ⟨out, k1, fun p hp => h2 p (k2.mem_iff.mp hp), fun x hx y hy hxy => by rw [k2.countP_eq]; exact h3 x hx y hy hxy,
    fun p hp => h4 p (k2.mem_iff.mp hp)⟩

/-- **C87** fails for the decomposition of at least two items by more workers than items: every execution writes outside a
buffer. -/
theorem c87_wspd_false (w bs : ℕ) (hw : 0 < w) (hb : 0 < bs) (hd : 0 < d) (pos : α → Point ℝ d) (parallel : Bool)
    (items : List α) (h2 : 2 ≤ items.length) (hnd : items.Nodup) (t : Tree α ℝ d)
    (ht : build w bs pos 1 parallel items = .ok t) (s : ℝ) (hs : 0 ≤ s) (P : ℕ) (hP : items.length < P)
    (env : BufEnv (Tree α ℝ d × Tree α ℝ d)) : wspdBuf env P s t = .error .ub := by
  classical
  have hne : items ≠ [] := by intro h; simp [h] at h2
  obtain ⟨out0, -, h1, -, h3, -⟩ := c09_wspd w bs hw hb hd pos parallel items hne hnd t ht s hs
  obtain ⟨t', g1, g2, -⟩ := c01_build w bs hw hb hd pos 1 (le_refl _) parallel items hne
  rw [g1] at ht
  cases ht
  have hsz : t.size = items.length := by
    rw [← g2.length_eq]
    cases t <;> rfl
  have ho : out0 ≠ [] := by
    intro ho
    match items, h2, hnd with
    | a :: b :: l, _, hnd =>
      have := h3 a (by simp) b (by simp) (by intro h; subst h; simp at hnd)
      rw [ho] at this
      cases this
  exact bufRun_ub env (hsz.symm ▸ hP) (emits_wspdBuf env.who s t out0 h1) ho

/-- **C87**, the spanner: the statement of C17 for every execution with at least as many points as workers. Missing: fewer
points than workers, see `c87_spanner_false`. -/
theorem c87_spanner_partial (w bs : ℕ) (hw : 0 < w) (hb : 0 < bs) (hd : 0 < d) (S : List (Point ℝ d))
    (hS : 2 ≤ S.length) (t : ℝ) (ht : 1 < t) (P : ℕ) (hP : P ≤ S.length) (env : BufEnv (Tree ℕ ℝ d × Tree ℕ ℝ d))
    (hwho : ∀ i, env.who i < P) (hcopy : ∀ l, (env.copy l).Perm l) :
    ∃ E, spannerBuf env P w bs S t = .ok E ∧ (∀ e ∈ E, e.1 < e.2 ∧ e.2 < S.length) ∧
      ∀ i j p q, S[i]? = some p → S[j]? = some q →
        ∃ l, Walk E (fun a b => eucl (SpatialGraph.ptAt S a) (SpatialGraph.ptAt S b)) i j l ∧ l ≤ t * eucl p q := by
  obtain ⟨E0, h1, h2, h3⟩ := c17_spanner w bs hw hb hd S hS t ht
  obtain ⟨tree, g1, g2, g3, -⟩ := c01_build w bs hw hb hd (SpatialGraph.ptAt S) 1 (le_refl _) true
    (List.range S.length) (by simp; intro h; rw [h] at hS; simp at hS)
  have hnd : tree.items.Nodup := g2.nodup_iff.mpr List.nodup_range
  obtain ⟨out0, h4, h5, -⟩ := wspdSerial_ok (geomWellSeparated (4 * (t + 1) / (t - 1))) tree
    (fun bu iu bv iv hu hv => geomWellSeparated_leaf (g3.below hu) (g3.below hv)) g3.singleLeaves hnd
  have hok : ∀ p ∈ out0, ∃ y, pairEdge p = .ok y := by
    intro p hp
    obtain ⟨-, b1, b2, -⟩ := h5 p hp
    obtain ⟨a, la, ha⟩ := List.exists_cons_of_ne_nil (sound_items_ne (g3.below b1))
    obtain ⟨b, lb, hb⟩ := List.exists_cons_of_ne_nil (sound_items_ne (g3.below b2))
    exact ⟨_, by simp only [pairEdge, ha, hb]; rfl⟩
  obtain ⟨E1, k1, k2, k3⟩ := mapM_ok pairEdge out0 hok
  unfold spanner at h1
  rw [if_neg (by omega)] at h1
  simp only [g1, Except.bind, wspdParallel_eq, h4, k1] at h1
  cases h1
  have hsz : tree.size = S.length := by
    rw [size_eq, g2.length_eq, List.length_range]
  obtain ⟨out, o1, o2⟩ := bufRun_ok env (n := tree.size) (hsz.symm ▸ hP) (by norm_num) hwho hcopy
    (emits_wspdBuf env.who (4 * (t + 1) / (t - 1)) tree out0 (by rw [wspdParallel_eq, h4]))
  obtain ⟨E, m1, m2, m3⟩ := mapM_ok pairEdge out fun p hp => hok p (o2.mem_iff.mp hp)
  refine ⟨E, ?_, ?_, ?_⟩
  · unfold spannerBuf
    rw [if_neg (by omega)]
    have o1' : wspdBuf env P (4 * (t + 1) / (t - 1)) tree = .ok out := o1
    simp only [g1, Except.bind, o1', m1]
  · intro e he
    obtain ⟨p, hp, hpe⟩ := m3 e he
    exact h2 e (k2 p (o2.mem_iff.mp hp) e hpe)
  · intro i j p q hi hj
    obtain ⟨l, w1, w2⟩ := h3 i j p q hi hj
    refine ⟨l, w1.mono fun e he => ?_, w2⟩
    obtain ⟨p, hp, hpe⟩ := k3 e he
    exact m2 p (o2.mem_iff.mpr hp) e hpe

/-- **C87** fails for the spanner of at least two points with more workers than points. -/
theorem c87_spanner_false (w bs : ℕ) (hw : 0 < w) (hb : 0 < bs) (hd : 0 < d) (S : List (Point ℝ d))
    (hS : 2 ≤ S.length) (t : ℝ) (ht : 1 < t) (P : ℕ) (hP : S.length < P)
    (env : BufEnv (Tree ℕ ℝ d × Tree ℕ ℝ d)) : spannerBuf env P w bs S t = .error .ub := by
  obtain ⟨tree, g1, -⟩ := c01_build w bs hw hb hd (SpatialGraph.ptAt S) 1 (le_refl _) true
    (List.range S.length) (by simp; intro h; rw [h] at hS; simp at hS)
  unfold spannerBuf
  rw [if_neg (by omega)]
  have := c87_wspd_false w bs hw hb hd (SpatialGraph.ptAt S) true (List.range S.length) (by simpa using hS)
    List.nodup_range tree g1 (4 * (t + 1) / (t - 1)) (div_nonneg (by linarith) (by linarith)) P (by simpa using hP) env
  simp only [g1, Except.bind, this]

/-- The assumptions on what the scheduler decides in a round, for `P` workers. -/
structure RoundEnv.Ok (re : RoundEnv d) (P : ℕ) : Prop where
  who : ∀ i, re.buf.who i < P
  copy : ∀ l, (re.buf.copy l).Perm l
  ord : ∀ l, (re.ord l).Perm l

/-- **C87**, the Euclidean minimum spanning tree: C16 for every execution, with the rho traversals, the collection of the
edges, the reservation loops of Kruskal's algorithm and the `mark` traversals access by access, and at least as many points
as workers. The other outcomes are those of `c16_emst_conc`. Missing: fewer points than workers, see `c87_emst_false`. -/
theorem c87_emst_partial (w bs : ℕ) (hw : 0 < w) (hb : 0 < bs) (hd : 0 < d) (P : ℕ) (re : ℕ → RoundEnv d)
    (hre : ∀ k, (re k).Ok P) (g : ℕ) (S : List (Point ℝ d)) (hS : 2 ≤ S.length) (hP : P ≤ S.length)
    (hg : S.length * S.length + 2 ≤ g) :
    (euclideanMstBuf g P re w bs S = .error .fuel ∧
      ∃ k m, m ≤ S.length * S.length ∧ ¬ (re k).conc.kr.Fair m S.length) ∨
    (euclideanMstBuf g P re w bs S = .error .throws ∧ 4101 < S.length * S.length) ∨
      ∃ out, euclideanMstBuf g P re w bs S = .ok out ∧ out.length = S.length - 1 ∧
        (∀ e ∈ out, e.u ≠ e.v ∧ e.w = eucl (ptAt S e.u) (ptAt S e.v)) ∧
        Spans S.length (out.map fun e => (e.u, e.v)) ∧
        ∀ F, Spans S.length F → (out.map (·.w)).sum ≤ totalLength S F := by
  rcases emst_any (rou := fun k => ⟨rhoConc (re k).conc.rho g, getBuf (re k).buf P (re k).ord,
        batchKruskalF (re k).conc.kr 20, markConc (re k).conc.mark⟩)
      (bad := fun k e m => (e = .fuel ∧ ¬ (re k).conc.kr.Fair m S.length) ∨ (e = .throws ∧ 4101 < m))
      w bs hw hb hd S hS (fun k => ⟨fun beta t hs hp => by
          obtain ⟨out0, h1⟩ := wspd_exists hs hp
          exact rhoConc_ok (re k).conc.rho g beta t h1 (out_length (ptAt S) t.tree hs _ hp out0 h1) hg,
        fun beta lo hi t hs hp => getBuf_ok _ P (hre k).who (hre k).copy _ (hre k).ord _ _ hP t hs hp beta lo hi,
        krOkF (re k).conc.kr S.length, fun t P rt dep h1 h2 h3 h4 => markConc_ok (re k).conc.mark t P h1 h2 h3 h4⟩)
      with ⟨e, k, m, g1, g2, ⟨rfl, g3⟩ | ⟨rfl, g3⟩⟩ | g
  · exact Or.inl ⟨g1, k, m, g2, g3⟩
  · exact Or.inr (Or.inl ⟨g1, by omega⟩)
  · exact Or.inr (Or.inr g)

/-- A main loop whose second traversal fails as soon as there is an edge fails. -/
theorem loop_ub {rou rou' : ℕ → Routines d} {bad : ℕ → Err → ℕ → Prop} {pos : ℕ → Point ℝ d} {n : ℕ}
    (hrou : ∀ k, RoutinesOk pos n (rou' k) (bad k)) (hrho : ∀ k, (rou k).rho = (rou' k).rho)
    (hget : ∀ k beta lo hi t, Sound pos 1 t.tree → t.tree.items.Perm (List.range n) → ∀ edges,
      (rou' k).get pos beta lo hi t = .ok edges →
      (rou k).get pos beta lo hi t = if edges.length ≤ 0 then .ok [] else .error .ub)
    (hn : 0 < n) {T : Tree ℕ ℝ d} (hs : Sound pos 1 T) (hp : T.items.Perm (List.range n)) (fuel k beta : ℕ)
    (rhoLo M : WithTop ℝ) (hM : rhoLo ≤ M) (t : NTree ℕ ℝ d) (uf : EdgeUF ℝ) (rt dep : ℕ → ℕ)
    (h : Inv pos n T t uf rt dep M) (hf : M = ⊤ ∨ ∃ f, fuel = f + 1 ∧ n ≤ beta * 2 ^ f) (hlt : uf.numEdge < n - 1) :
    emstLoopK rou pos n fuel k beta rhoLo t uf = .error .ub := by
  have hMt : M ≠ ⊤ := by
    intro hM
    have : n - 1 ≤ uf.numEdge := by
      refine (numEdge_full h.forest hn h.len h.cells).1.mpr fun a ha b hb => (h.conn a b).mpr ?_
      refine (h.short a ha b hb (by rw [hM]; exact WithTop.coe_lt_top _)).mono fun e he => ?_
      exact (List.mem_filter.mp he).1
    omega
  induction fuel generalizing k beta rhoLo M with
  | zero =>
    rcases hf with h | ⟨f, h, -⟩
    · exact absurd h hMt
    · omega
  | succ fuel ih =>
    unfold emstLoopK
    rw [if_pos hlt]
    obtain ⟨rhoHi, edges, h1, h2, h3, h4⟩ := inv_step hs hp (hrou k) beta hM h
    rw [hrho k, h1]
    simp only [Except.bind]
    rw [hget k beta rhoLo rhoHi t (h.tree.symm ▸ hs) (h.tree.symm ▸ hp) edges h3]
    rcases h4 with ⟨he, hI⟩ | ⟨he, -⟩
    · rw [if_pos he]
      simp only [List.length_nil, le_refl, if_true]
      have hMt' : max M rhoHi ≠ ⊤ := by
        intro hM
        have : n - 1 ≤ uf.numEdge := by
          refine (numEdge_full hI.forest hn hI.len hI.cells).1.mpr fun a ha b hb => (hI.conn a b).mpr ?_
          refine (hI.short a ha b hb (by rw [hM]; exact WithTop.coe_lt_top _)).mono fun e he => ?_
          exact (List.mem_filter.mp he).1
        omega
      refine ih (k + 1) (beta * 2) rhoHi (max M rhoHi) (le_max_right _ _) hI ?_ hMt'
      rcases hf with hM | ⟨f, hf1, hf2⟩
      · exact absurd hM hMt
      · have hff : fuel = f := by omega
        subst hff
        cases fuel with
        | zero =>
          left
          rw [h2 (by simpa using hf2)]
          exact max_top_right _
        | succ f =>
          right
          refine ⟨f, rfl, ?_⟩
          rw [pow_succ] at hf2
          calc n ≤ beta * (2 ^ f * 2) := hf2
            _ = beta * 2 * 2 ^ f := by ring
    · rw [if_neg he]

/-- **C87** fails for the Euclidean minimum spanning tree of at least two points with more workers than points: every
execution writes outside a buffer. -/
theorem c87_emst_false (w bs : ℕ) (hw : 0 < w) (hb : 0 < bs) (hd : 0 < d) (P : ℕ) (re : ℕ → RoundEnv d)
    (hre : ∀ k, (re k).Ok P) (g : ℕ) (S : List (Point ℝ d)) (hS : 2 ≤ S.length) (hP : S.length < P)
    (hg : S.length * S.length + 2 ≤ g) : euclideanMstBuf g P re w bs S = .error .ub := by
  obtain ⟨T, h1, h2, h3, -⟩ := c01_build w bs hw hb hd (ptAt S) 1 (le_refl _) true
    (List.range S.length) (by simp; intro h; rw [h] at hS; simp at hS)
  unfold euclideanMstBuf euclideanMstK
  rw [if_neg (by omega)]
  simp only [h1, Except.bind]
  have hfuel : S.length ≤ 2 * 2 ^ S.length := by
    have := Nat.lt_two_pow_self (n := S.length)
    omega
  let s : ℕ → Sched d := fun k => ⟨fun _ _ _ _ => ⊤, fun _ _ _ _ => ⊤, (re k).ord, fun l => l,
    ⟨fun _ l => l, fun _ l => l, fun _ _ _ => .same⟩⟩
  rw [loop_ub (pos := ptAt S) (rou := fun k => ⟨rhoConc (re k).conc.rho g, getBuf (re k).buf P (re k).ord,
      batchKruskalF (re k).conc.kr 20, markConc (re k).conc.mark⟩)
    (rou' := fun k => ⟨rhoConc (re k).conc.rho g, fun pos => getPass pos (s k), batchKruskalF (re k).conc.kr 20,
      markConc (re k).conc.mark⟩)
    (bad := fun k e m => (e = .fuel ∧ ¬ (re k).conc.kr.Fair m S.length) ∨ (e = .throws ∧ 4101 < m))
    (fun k => ⟨fun beta t hs hp => by
          obtain ⟨out0, h1⟩ := wspd_exists hs hp
          exact rhoConc_ok (re k).conc.rho g beta t h1 (out_length (ptAt S) t.tree hs _ hp out0 h1) hg,
        fun _ _ _ _ _ _ => ⟨s k, ⟨(hre k).ord, fun l => .refl l⟩, rfl⟩,
        krOkF (re k).conc.kr S.length, fun t P rt dep h1 h2 h3 h4 => markConc_ok (re k).conc.mark t P h1 h2 h3 h4⟩)
    (fun k => rfl)
    (fun k beta lo hi t hs hp edges he => getBuf_small _ P (hre k).copy _ (hre k).ord _ _ hP t hs hp beta lo hi (s k) rfl
      (fun l => .refl l) edges he)
    (by omega) h3 h2 (S.length + 1) 0 2 ((-0.1 : ℝ) : WithTop ℝ) _ (le_refl _) _ _ _ _
    (inv_init (ptAt S) S.length T h3) (Or.inr ⟨S.length, rfl, hfuel⟩) (by
      have : (EdgeUF.new S.length : EdgeUF ℝ).numEdge = 0 := by simp [EdgeUF.numEdge, EdgeUF.new]
      omega)]
  rfl

/-! ### Examples -/

/-- Non-vacuity of `c87_wspd_partial` and `c87_wspd_false`: four points in the plane; with three workers, any interleaving
and the copies backwards, the pair of the first two points is covered; with five workers the result is undefined. -/
example (sched : ℕ → List Bool) : ∃ t, build 1 1 (![![0, 0], ![1, 0], ![10, 0], ![10, 3]] : Fin 4 → Point ℝ 2) 1 false
    (List.finRange 4) = .ok t ∧
    (∃ out, wspdBuf ⟨fun i => i % 3, sched, List.reverse⟩ 3 2 t = .ok out ∧ ∃ p ∈ out, Covers (0 : Fin 4) 1 p) ∧
    wspdBuf ⟨fun i => i % 5, sched, List.reverse⟩ 5 2 t = .error .ub := by
  obtain ⟨t, h1, -⟩ := c01_build 1 1 (by decide) (by decide) (by decide)
    (![![0, 0], ![1, 0], ![10, 0], ![10, 3]] : Fin 4 → Point ℝ 2) 1 (le_refl _) false
    (List.finRange 4) (by decide)
  refine ⟨t, h1, ?_, c87_wspd_false 1 1 (by decide) (by decide) (by decide) _ false _ (by decide) (List.nodup_finRange 4) t
    h1 2 (by norm_num) 5 (by decide) _⟩
  obtain ⟨out, h2, -, h5, -⟩ := c87_wspd_partial 1 1 (by decide) (by decide) (by decide)
    (![![0, 0], ![1, 0], ![10, 0], ![10, 3]] : Fin 4 → Point ℝ 2) false
    (List.finRange 4) (by decide) (List.nodup_finRange 4) t h1 2 (by norm_num) 3 (by decide)
    ⟨fun i => i % 3, sched, List.reverse⟩ (fun i => Nat.mod_lt _ (by decide)) List.reverse_perm
  refine ⟨out, h2, ?_⟩
  have := h5 0 (List.mem_finRange 0) 1 (List.mem_finRange 1) (by decide)
  have h6 : 0 < out.countP (fun p => @decide (Covers (0 : Fin 4) 1 p) (Classical.propDecidable _)) := by
    rw [this]; decide
  rw [List.countP_pos_iff] at h6
  obtain ⟨p, hp, hp'⟩ := h6
  exact ⟨p, hp, by simpa using hp'⟩

/-- Non-vacuity of `c87_spanner_partial` and `c87_spanner_false`: four points, two of them equal. -/
example (sched : ℕ → List Bool) :
    (∃ E, spannerBuf ⟨fun i => i % 4, sched, List.reverse⟩ 4 4 100
      ([![0, 0], ![0, 0], ![10, 0], ![10, 3]] : List (Point ℝ 2)) 2 = .ok E) ∧
    spannerBuf ⟨fun i => i % 8, sched, List.reverse⟩ 8 4 100
      ([![0, 0], ![0, 0], ![10, 0], ![10, 3]] : List (Point ℝ 2)) 2 = .error .ub := by
  constructor
  · obtain ⟨E, h, -⟩ := c87_spanner_partial 4 100 (by norm_num) (by norm_num) (by norm_num)
      ([![0, 0], ![0, 0], ![10, 0], ![10, 3]] : List (Point ℝ 2)) (by simp) 2 (by norm_num) 4 (by simp)
      ⟨fun i => i % 4, sched, List.reverse⟩ (fun i => Nat.mod_lt _ (by decide)) List.reverse_perm
    exact ⟨E, h⟩
  · exact c87_spanner_false 4 100 (by norm_num) (by norm_num) (by norm_num) _ (by simp) 2 (by norm_num) 8 (by simp) _

/-- Non-vacuity of `c87_emst_partial` and `c87_emst_false`: five points, two of them equal; arbitrary interleavings of the
traversals, four workers, or eight. -/
example (w1 w2 w3 : ℕ → ℕ → List Bool) :
    (∃ out, euclideanMstBuf 27 4 (fun k => ⟨⟨w1 k, rrEnv 5, w2 k⟩, ⟨fun i => i % 4, w3 k, List.reverse⟩, List.reverse⟩) 4 100
      ([![0, 0], ![0, 0], ![10, 0], ![10, 3], ![4, 1]] : List (Point ℝ 2)) = .ok out ∧ out.length = 4) ∧
    euclideanMstBuf 27 8 (fun k => ⟨⟨w1 k, rrEnv 5, w2 k⟩, ⟨fun i => i % 8, w3 k, List.reverse⟩, List.reverse⟩) 4 100
      ([![0, 0], ![0, 0], ![10, 0], ![10, 3], ![4, 1]] : List (Point ℝ 2)) = .error .ub := by
  constructor
  · rcases c87_emst_partial 4 100 (by norm_num) (by norm_num) (by norm_num) 4
      (fun k => ⟨⟨w1 k, rrEnv 5, w2 k⟩, ⟨fun i => i % 4, w3 k, List.reverse⟩, List.reverse⟩)
      (fun k => ⟨fun i => Nat.mod_lt _ (by decide), List.reverse_perm, List.reverse_perm⟩) 27
      ([![0, 0], ![0, 0], ![10, 0], ![10, 3], ![4, 1]] : List (Point ℝ 2)) (by simp) (by simp) (by simp) with
      ⟨-, k, m, -, h⟩ | ⟨-, h⟩ | ⟨out, h1, h2, -⟩
    · exact absurd (rrEnv_fair m 5) h
    · norm_num at h
    · exact ⟨out, h1, by simpa using h2⟩
  · exact c87_emst_false 4 100 (by norm_num) (by norm_num) (by norm_num) 8 _
      (fun k => ⟨fun i => Nat.mod_lt _ (by decide), List.reverse_perm, List.reverse_perm⟩) 27 _ (by simp) (by simp) (by simp)

end Verif.Emst
