import Verif.Mst.KruskalMain

set_option linter.unusedSectionVars false
set_option linter.unusedVariables false

/-! `batchKruskal`: Kruskal's steps on top of an existing forest, recording accepted edges. -/

namespace Verif.Mst

open Verif.UF

section

variable {K : Type} [LinearOrder K]

theorem orient_comm (u v : ℕ) (w : K) : orient u v w = orient v u w := by
  unfold orient
  split_ifs with h1 h2 h2
  · omega
  · rfl
  · rfl
  · have : u = v := by omega
    subst this; rfl

theorem filterMap_set {T : Type} : ∀ (l : List (Option T)) (x : ℕ) (e : T), l[x]? = some none →
    ((l.set x (some e)).filterMap id).Perm (e :: l.filterMap id)
  | [], x, e, h => by simp at h
  | a :: l, 0, e, h => by
    simp only [List.getElem?_cons_zero, Option.some.injEq] at h
    subst h
    simp
  | a :: l, x + 1, e, h => by
    simp only [List.getElem?_cons_succ] at h
    have ih := filterMap_set l x e h
    cases a with
    | none => simpa using ih
    | some a =>
      simp only [List.set_cons_succ, List.filterMap_cons, id_eq]
      exact (ih.cons a).trans (List.Perm.swap _ _ _)

/-- The stored form of the edge at a position of the sorted list. -/
def storedAt (L : List (WEdge K × ℕ)) (i : ℕ) : Option (WEdge K) :=
  (L[i]?).map fun e => orient e.1.u e.1.v e.1.w

/-- The records of `edgeUnionFind` are right: a cell is empty exactly at the roots, and the recorded
edges are the earlier ones and the accepted ones. -/
def EdgesOk (L : List (WEdge K × ℕ)) (n : ℕ) (es0 : List (Option (WEdge K))) (rt : ℕ → ℕ) (T : Set ℕ)
    (es : List (Option (WEdge K))) : Prop :=
  es.length = n ∧ (∀ x < n, es[x]? = some none ↔ rt x = x) ∧
    ∃ l : List ℕ, l.Nodup ∧ (∀ i, i ∈ l ↔ i ∈ T) ∧
      (es.filterMap id).Perm (l.filterMap (storedAt L) ++ es0.filterMap id)

theorem edgeRec_ok (D : Data) (L : List (WEdge K × ℕ)) (hL : L.length = D.m)
    (es0 : List (Option (WEdge K))) : RecOk D (edgeRec L) (EdgesOk L D.n es0) := by
  constructor
  rintro rt T es i x y side ⟨hl, hroot, l, hnd, hmem, hperm⟩ hi hiT hx hy hidem hrx hne _
  have hid := List.getElem?_eq_getElem (show i < L.length from hL ▸ hi)
  generalize L[i] = e at hid
  refine ⟨es.set x (some (orient e.1.u e.1.v e.1.w)), ?_, by simpa using hl, ?_, i :: l, ?_, ?_, ?_⟩
  · have : (if side then orient e.1.v e.1.u e.1.w else orient e.1.u e.1.v e.1.w) =
        orient e.1.u e.1.v e.1.w := by
      cases side
      · simp
      · simp [orient_comm e.1.v e.1.u]
    simp [edgeRec, rd_ok hid, Except.bind, wr_ok (l := es) (i := x) _ (show x < es.length by omega), this]
  · intro z hz
    rw [List.getElem?_set]
    by_cases hzx : x = z
    · subst hzx
      simp only [if_pos, show x < es.length by omega]
      simp [linkRt, hrx, hne]
    · rw [if_neg hzx, hroot z hz]
      unfold linkRt
      constructor
      · intro h
        rw [if_neg (by rw [h]; exact fun h => hzx h.symm), h]
      · intro h
        split_ifs at h with h1
        · have := hidem y hy
          rw [h, h1] at this
          exact absurd this hzx
        · exact h
  · exact List.nodup_cons.mpr ⟨fun h => hiT ((hmem i).mp h), hnd⟩
  · intro j
    simp [hmem]
  · have h1 : storedAt L i = some (orient e.1.u e.1.v e.1.w) := by simp [storedAt, hid]
    rw [List.filterMap_cons, h1]
    exact (filterMap_set es x _ ((hroot x hx).mpr hrx)).trans (hperm.cons _)

/-- The records at the end. -/
theorem edges_out (E : List (WEdge K)) (n : ℕ)
    (hE : ∀ e ∈ E, e.u < n ∧ e.v < n) (uf : EdgeUF K) {rt : ℕ → ℕ} {rt' dep' : ℕ → ℕ}
    {s' : KSt (List (Option (WEdge K)))}
    (h2 : Base (mkData E n hE rt) (EdgesOk (sortEdges E) (mkData E n hE rt).n uf.edges) rt' dep'
      {i | i < (sortEdges E).length ∧ i ∈ greedy (mkData E n hE rt).cu (mkData E n hE rt).cv} s') :
    ∃ l : List ℕ, Forest s'.P n rt' dep' ∧ s'.out.length = n ∧ (∀ x < n, s'.out[x]? = some none ↔ rt' x = x) ∧
        l.Nodup ∧
        (∀ i, i ∈ l ↔ i < E.length ∧ i ∈ greedy (fun j => rt (posU (sortEdges E) j))
          (fun j => rt (posV (sortEdges E) j))) ∧
        ((⟨s'.P, s'.out⟩ : EdgeUF K).getEdge).Perm (l.filterMap (storedAt (sortEdges E)) ++ uf.getEdge) ∧
        ∀ a b, rt' a = rt' b ↔ ConnS (fun j => rt (posU (sortEdges E) j))
          (fun j => rt (posV (sortEdges E) j)) {i | i ∈ l} (rt a) (rt b) := by
  obtain ⟨g1, g2, l, g3, g4, g5⟩ := h2.out
  refine ⟨l, h2.forest, g1, g2, g3, ?_, g5, ?_⟩
  · intro i
    rw [g4, sortEdges_length]
    rfl
  · have : {i | i ∈ l} = {i | i < (sortEdges E).length ∧
        i ∈ greedy (mkData E n hE rt).cu (mkData E n hE rt).cv} := Set.ext g4
    rw [this]
    exact h2.conn

/-- Outcome of `batchKruskal` on an existing forest. -/
theorem batchKruskal_spec (env : Env) (henv : env.Ok) (E : List (WEdge K)) (n : ℕ)
    (hE : ∀ e ∈ E, e.u < n ∧ e.v < n) (uf : EdgeUF K) {rt dep : ℕ → ℕ}
    (hF : Forest uf.P n rt dep) (hl : uf.edges.length = n)
    (hr : ∀ x < n, uf.edges[x]? = some none ↔ rt x = x) :
    (batchKruskal env E n uf = .error .throws ∧ 4101 < E.length) ∨
      ∃ (uf' : EdgeUF K) (rt' dep' : ℕ → ℕ) (l : List ℕ), batchKruskal env E n uf = .ok uf' ∧
        Forest uf'.P n rt' dep' ∧ uf'.edges.length = n ∧
        (∀ x < n, uf'.edges[x]? = some none ↔ rt' x = x) ∧
        l.Nodup ∧
        (∀ i, i ∈ l ↔ i < E.length ∧ i ∈ greedy (fun j => rt (posU (sortEdges E) j))
          (fun j => rt (posV (sortEdges E) j))) ∧
        (uf'.getEdge).Perm (l.filterMap (storedAt (sortEdges E)) ++ uf.getEdge) ∧
        ∀ a b, rt' a = rt' b ↔ ConnS (fun j => rt (posU (sortEdges E) j))
          (fun j => rt (posV (sortEdges E) j)) {i | i ∈ l} (rt a) (rt b) := by
  have hrec := edgeRec_ok (mkData E n hE rt) (sortEdges E) rfl uf.edges
  have hG : EdgesOk (sortEdges E) (mkData E n hE rt).n uf.edges rt ∅ uf.edges :=
    ⟨hl, hr, [], List.nodup_nil, by simp, by simp⟩
  unfold batchKruskal
  rcases run_spec env henv 20 E n hE rt hF (fun a b => Iff.rfl) hG hrec with
    ⟨h1, h2⟩ | ⟨s', rt', dep', h1, h2⟩
  · left
    refine ⟨?_, h2⟩
    simp only [h1]
    rfl
  · right
    obtain ⟨l, h3⟩ := edges_out E n hE uf h2
    refine ⟨⟨s'.P, s'.out⟩, rt', dep', l, ?_, h3⟩
    simp only [h1]
    rfl

end

end Verif.Mst
