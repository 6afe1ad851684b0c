import Verif.Emst.Props
import Verif.Mst.FineProps

set_option linter.unusedSectionVars false
set_option linter.unusedVariables false

/-!
C16 with Kruskal's rounds modelled access by access (C75): the Euclidean minimum spanning tree under every
interleaving of the memory accesses of every batch.
-/

namespace Verif.Emst

open Verif.KdTree Verif.UF Verif.Mst Verif.SpatialGraph

variable {d : ℕ}

/-- A batch under every interleaving of memory accesses achieves the batch step. -/
theorem batch_stepF (env : FineEnv) (g : ℕ) (E : List (WEdge ℝ)) (n : ℕ)
    (hE : ∀ e ∈ E, e.u < n ∧ e.v < n) (uf : EdgeUF ℝ) {rt dep : ℕ → ℕ}
    (hF : Forest uf.P n rt dep) (hl : uf.edges.length = n) (hr : ∀ x < n, uf.edges[x]? = some none ↔ rt x = x)
    (hconn : ∀ a b, rt a = rt b ↔ ConnL uf.getEdge a b) (hac : AcyclicL uf.getEdge) :
    (batchKruskalF env g E n uf = .error .fuel ∧ ¬ env.Fair E.length n) ∨
    (batchKruskalF env g E n uf = .error .throws ∧ 101 + 200 * g < E.length) ∨
      ∃ (uf' : EdgeUF ℝ) (rt' dep' : ℕ → ℕ), batchKruskalF env g E n uf = .ok uf' ∧
        BatchOk E n uf uf' rt' dep' := by
  have hrec := edgeRec_ok (mkData E n hE rt) (sortEdges E) rfl uf.edges
  have hG : EdgesOk (sortEdges E) (mkData E n hE rt).n uf.edges rt ∅ uf.edges :=
    ⟨hl, hr, [], List.nodup_nil, by simp, by simp⟩
  have hm : (mkData E n hE rt).m = E.length := sortEdges_length E
  unfold batchKruskalF
  rcases run_specR g E n hE rt hF (fun a b => Iff.rfl) hG
      (fineRound (edgeRec (sortEdges E)) true env) env.adj (fun _ _ => ¬ env.Fair E.length n)
      (fun fuel its rt dep T s h1 h2 h3 h4 => by
        rcases fineRound_ok hrec true h1 h2 env fuel its h3 h4 with ⟨a, b⟩ | h
        · exact Or.inl ⟨a, fun hf => b (by rw [hm]; exact hf)⟩
        · exact Or.inr h) with
    ⟨h1, _, _, _, _, _, h2⟩ | ⟨h1, h2⟩ | ⟨s', rt', dep', h1, h2⟩
  · left
    simp only [h1]
    exact ⟨rfl, h2⟩
  · right; left
    simp only [h1]
    exact ⟨rfl, h2⟩
  right; right
  obtain ⟨l, h3, h4, h5, h6, h7, h8, h9⟩ := edges_out E n hE uf h2
  refine ⟨⟨s'.P, s'.out⟩, rt', dep', ?_, batch_core E n uf hF hconn hac h3 h4 h5 h6 h7 h8 h9⟩
  simp only [h1]
  rfl

theorem krOkF (env : FineEnv) (n : ℕ) : KrOk n (batchKruskalF env 20)
    (fun e m => (e = .fuel ∧ ¬ env.Fair m n) ∨ (e = .throws ∧ 4101 < m)) := by
  intro E hE uf rt dep h1 h2 h3 h4 h5
  rcases batch_stepF env 20 E n hE uf h1 h2 h3 h4 h5 with ⟨g1, g2⟩ | ⟨g1, g2⟩ | g
  · exact Or.inl ⟨_, g1, Or.inl ⟨rfl, g2⟩⟩
  · exact Or.inl ⟨_, g1, Or.inr ⟨rfl, g2⟩⟩
  · exact Or.inr g

/-- **C16**, access by access. For every list of at least two points, every schedule of the traversals and every
interleaving of the memory accesses of the concurrent union-find and reservation loops, `euclideanMst` returns a
minimum spanning tree. The only other outcomes are that some thread of some round does not get enough turns, and the
exception of `speculative_for` about too many rounds, which needs a batch of more than 4101 edges. -/
theorem c16_emst_fine (w bs : ℕ) (hw : 0 < w) (hb : 0 < bs) (hd : 0 < d) (sch : ℕ → Sched d)
    (hsch : ∀ k, (sch k).Ok) (fe : ℕ → FineEnv) (S : List (Point ℝ d)) (hS : 2 ≤ S.length) :
    (euclideanMstF fe w bs sch S = .error .fuel ∧
      ∃ k m, m ≤ S.length * S.length ∧ ¬ (fe k).Fair m S.length) ∨
    (euclideanMstF fe w bs sch S = .error .throws ∧ 4101 < S.length * S.length) ∨
      ∃ out, euclideanMstF fe w bs sch S = .ok out ∧ out.length = S.length - 1 ∧
        (∀ e ∈ out, e.u ≠ e.v ∧ e.w = eucl (ptAt S e.u) (ptAt S e.v)) ∧
        Spans S.length (out.map fun e => (e.u, e.v)) ∧
        ∀ F, Spans S.length F → (out.map (·.w)).sum ≤ totalLength S F := by
  rcases emst_any (rou := fun k => ⟨rhoPass (sch k), fun pos => getPass pos (sch k), batchKruskalF (fe k) 20, mark⟩)
      (bad := fun k e m => (e = .fuel ∧ ¬ (fe k).Fair m S.length) ∨ (e = .throws ∧ 4101 < m))
      w bs hw hb hd S hS (fun k => routinesOk_seq (hsch k) (krOkF (fe k) S.length))
      with ⟨e, k, m, g1, g2, ⟨rfl, g3⟩ | ⟨rfl, g3⟩⟩ | g
  · exact Or.inl ⟨g1, k, m, g2, g3⟩
  · exact Or.inr (Or.inl ⟨g1, by omega⟩)
  · exact Or.inr (Or.inr g)

/-- **C16**, access by access: up to 64 points and with fair schedules it always returns. -/
theorem c16_emst_fine_returns (w bs : ℕ) (hw : 0 < w) (hb : 0 < bs) (hd : 0 < d) (sch : ℕ → Sched d)
    (hsch : ∀ k, (sch k).Ok) (fe : ℕ → FineEnv) (S : List (Point ℝ d)) (hS : 2 ≤ S.length) (hn : S.length ≤ 64)
    (hfair : ∀ k m, (fe k).Fair m S.length) : ∃ out, euclideanMstF fe w bs sch S = .ok out := by
  rcases c16_emst_fine w bs hw hb hd sch hsch fe S hS with ⟨_, k, m, _, h⟩ | ⟨_, h⟩ | ⟨out, h, _⟩
  · exact absurd (hfair k m) h
  · have : S.length * S.length ≤ 64 * 64 := Nat.mul_le_mul hn hn
    omega
  · exact ⟨out, h⟩

/-- Non-vacuity: round-robin schedules are fair; five points, two of them equal. -/
example : ∃ out, euclideanMstF (fun _ => rrEnv 5) 4 100 (fun _ => exSched)
      ([![0, 0], ![0, 0], ![10, 0], ![10, 3], ![4, 1]] : List (Point ℝ 2)) = .ok out :=
  c16_emst_fine_returns 4 100 (by norm_num) (by norm_num) (by norm_num) _ (fun _ => exSched_ok) _ _ (by simp)
    (by simp) (fun k m => rrEnv_fair m 5)

end Verif.Emst
