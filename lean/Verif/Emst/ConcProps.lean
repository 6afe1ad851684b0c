import Verif.Emst.ConcLemmas
import Verif.Emst.Fine

set_option linter.unusedSectionVars false
set_option linter.unusedVariables false

/-!
C16 and C46 with every routine that shares variables modelled access by access.
-/

namespace Verif.Emst

open Verif.KdTree Verif.UF Verif.Mst Verif.SpatialGraph Verif.ForkJoin

variable {d : ℕ} {K : Type}

/-- **C46**, access by access: the statement of `c46_mark` for every interleaving of the branches of `parlay::par_do`. -/
theorem c46_mark_conc {n : ℕ} {rt dep : ℕ → ℕ} (w : ℕ → List Bool) (t : NTree ℕ K d) (P : List ℤ)
    (hF : Forest P n rt dep) (hx : ∀ x ∈ t.tree.items, x < n) (hne : NonEmpty t) (hs : Stale rt t) :
    ∃ t' P', markConc w t P = .ok (t', P') ∧ Forest P' n rt dep ∧ t'.tree = t.tree ∧ Marked rt t' :=
  markConc_ok w t P hF hx hne hs

/-- Non-vacuity of `c46_mark_conc`: a tree over four elements, three of them joined. -/
example (w : ℕ → List Bool) : ∃ t' P', markConc w exTree [1, -1, 1, -1] = .ok (t', P') ∧
    Marked (fun i => if i ≤ 2 then 1 else i) t' := by
  obtain ⟨t', P', h1, -, -, h2⟩ := c46_mark_conc (n := 4) (rt := fun i => if i ≤ 2 then 1 else i)
    (dep := fun i => if i = 1 then 0 else 1) w exTree [1, -1, 1, -1] ⟨rfl, fun i hi => if_neg (by omega), fun i hi => by
      interval_cases i
      · exact Or.inr ⟨1, by decide⟩
      · exact Or.inl (by decide)
      · exact Or.inr ⟨1, by decide⟩
      · exact Or.inl (by decide)⟩ (by decide) (by simp [NonEmpty, exTree]) (c46_fresh _ (exTree.tree))
  exact ⟨t', P', h1, h2⟩

/-- **C16**, the first traversal of a round access by access. For every tree over the input with any ids and every
interleaving of the branches, the traversal ends, no `write_min` needs more than `n * n + 2` attempts, and with the
value `r` it leaves in `rho` every pair `P` of the decomposition is at least `r` apart, or lies below two nodes
that carry the same id, have at most `beta` points or are at least `r` apart, or lies in a node of at most `beta` points. -/
theorem c16_rho_conc (pos : ℕ → Point ℝ d) (n : ℕ) (t : NTree ℕ ℝ d) (hs : Sound pos 1 t.tree)
    (hp : t.tree.items.Perm (List.range n)) (w : ℕ → List Bool) (g beta : ℕ) (hg : n * n + 2 ≤ g) :
    ∃ r, rhoConc w g beta t = .ok r ∧ (t.size ≤ beta → r = ⊤) ∧
      ∀ out0, wspdSerial (geomWellSeparated 2) t.tree = .ok out0 → ∀ P ∈ out0,
        r ≤ (nodeDist P.1.box P.2.box : WithTop ℝ) ∨
        (∃ u' v', NBelow u' t ∧ NBelow v' t ∧ (sameId u' v' = true ∨ u'.size + v'.size ≤ beta ∨
          r ≤ (nodeDist u'.box v'.box : WithTop ℝ)) ∧ TPair P u'.tree v'.tree) ∨
        ∃ t', NBelow t' t ∧ t'.size ≤ beta ∧ Below P.1 t'.tree ∧ Below P.2 t'.tree := by
  obtain ⟨out0, h1⟩ := wspd_exists hs hp
  obtain ⟨r, h2, h3⟩ := rhoConc_ok w g beta t h1 (out_length pos t.tree hs n hp out0 h1) hg
  exact ⟨r, h2, h3.top, h3.cov⟩

/-- **C16**, everything access by access. For every list of at least two points, every order of the buffers and of ties, and
every interleaving of the memory accesses of the rho traversals, of the reservation loops of Kruskal's algorithm and of the
`mark` traversals, `euclideanMst` returns a minimum spanning tree. The only other outcomes are that some thread of some
reservation round does not get enough turns, and the exception of `speculative_for` about too many rounds, which needs a
batch of more than 4101 edges. -/
theorem c16_emst_conc (w bs : ℕ) (hw : 0 < w) (hb : 0 < bs) (hd : 0 < d) (sch : ℕ → Sched d)
    (hord : ∀ k l, ((sch k).ord l).Perm l) (hbuf : ∀ k l, ((sch k).buf l).Perm l) (ce : ℕ → ConcEnv) (g : ℕ)
    (S : List (Point ℝ d)) (hS : 2 ≤ S.length) (hg : S.length * S.length + 2 ≤ g) :
    (euclideanMstC g ce w bs sch S = .error .fuel ∧
      ∃ k m, m ≤ S.length * S.length ∧ ¬ (ce k).kr.Fair m S.length) ∨
    (euclideanMstC g ce w bs sch S = .error .throws ∧ 4101 < S.length * S.length) ∨
      ∃ out, euclideanMstC g ce w bs sch S = .ok out ∧ out.length = S.length - 1 ∧
        (∀ e ∈ out, e.u ≠ e.v ∧ e.w = eucl (ptAt S e.u) (ptAt S e.v)) ∧
        Spans S.length (out.map fun e => (e.u, e.v)) ∧
        ∀ F, Spans S.length F → (out.map (·.w)).sum ≤ totalLength S F := by
  rcases emst_any (rou := fun k => ⟨rhoConc (ce k).rho g, fun pos => getPass pos (sch k), batchKruskalF (ce k).kr 20,
        markConc (ce k).mark⟩)
      (bad := fun k e m => (e = .fuel ∧ ¬ (ce k).kr.Fair m S.length) ∨ (e = .throws ∧ 4101 < m))
      w bs hw hb hd S hS (fun k => ⟨fun beta t hs hp => by
          obtain ⟨out0, h1⟩ := wspd_exists hs hp
          exact rhoConc_ok (ce k).rho g beta t h1 (out_length (ptAt S) t.tree hs _ hp out0 h1) hg,
        fun _ _ _ _ _ _ => ⟨sch k, ⟨hord k, hbuf k⟩, rfl⟩, krOkF (ce k).kr S.length, fun t P rt dep h1 h2 h3 h4 => markConc_ok (ce k).mark t P h1 h2 h3 h4⟩)
      with ⟨e, k, m, g1, g2, ⟨rfl, g3⟩ | ⟨rfl, g3⟩⟩ | g
  · exact Or.inl ⟨g1, k, m, g2, g3⟩
  · exact Or.inr (Or.inl ⟨g1, by omega⟩)
  · exact Or.inr (Or.inr g)

/-- **C16**, everything access by access: up to 64 points and with fair schedules of the reservation rounds it always
returns. -/
theorem c16_emst_conc_returns (w bs : ℕ) (hw : 0 < w) (hb : 0 < bs) (hd : 0 < d) (sch : ℕ → Sched d)
    (hord : ∀ k l, ((sch k).ord l).Perm l) (hbuf : ∀ k l, ((sch k).buf l).Perm l) (ce : ℕ → ConcEnv) (g : ℕ)
    (S : List (Point ℝ d)) (hS : 2 ≤ S.length) (hn : S.length ≤ 64) (hg : S.length * S.length + 2 ≤ g)
    (hfair : ∀ k m, (ce k).kr.Fair m S.length) : ∃ out, euclideanMstC g ce w bs sch S = .ok out := by
  rcases c16_emst_conc w bs hw hb hd sch hord hbuf ce g S hS hg with ⟨_, k, m, _, h⟩ | ⟨_, h⟩ | ⟨out, h, _⟩
  · exact absurd (hfair k m) h
  · have : S.length * S.length ≤ 64 * 64 := Nat.mul_le_mul hn hn
    omega
  · exact ⟨out, h⟩

/-- Non-vacuity: five points, two of them equal; the traversals under arbitrary schedules. -/
example (w1 w2 : ℕ → ℕ → List Bool) :
    ∃ out, euclideanMstC 27 (fun k => ⟨w1 k, rrEnv 5, w2 k⟩) 4 100 (fun _ => exSched)
      ([![0, 0], ![0, 0], ![10, 0], ![10, 3], ![4, 1]] : List (Point ℝ 2)) = .ok out :=
  c16_emst_conc_returns 4 100 (by norm_num) (by norm_num) (by norm_num) _ (fun _ => exSched_ok.ord)
    (fun _ => exSched_ok.buf) _ _ _ (by simp) (by simp) (by simp) (fun k m => rrEnv_fair m 5)

end Verif.Emst
