import Verif.Mst.BatchKruskal
import Mathlib.Algebra.BigOperators.Fin
import Mathlib.Algebra.BigOperators.Intervals

set_option linter.unusedSectionVars false
set_option linter.unusedVariables false

/-! Connectivity by lists of weighted edges, forests, and minimality from bottleneck connections. -/

namespace Verif.Mst

open Verif.UF

variable {K : Type}

/-- Vertices connected by the edges of a list. -/
def ConnL (l : List (WEdge K)) : ℕ → ℕ → Prop :=
  Relation.EqvGen fun a b => ∃ e ∈ l, a = e.u ∧ b = e.v

variable {l l' : List (WEdge K)} {a b c : ℕ} {e : WEdge K}

theorem ConnL.refl (a : ℕ) : ConnL l a a := Relation.EqvGen.refl a
theorem ConnL.symm (h : ConnL l a b) : ConnL l b a := Relation.EqvGen.symm _ _ h
theorem ConnL.trans (h : ConnL l a b) (h' : ConnL l b c) : ConnL l a c :=
  Relation.EqvGen.trans _ _ _ h h'
theorem ConnL.edge (h : e ∈ l) : ConnL l e.u e.v := Relation.EqvGen.rel _ _ ⟨e, h, rfl, rfl⟩

theorem connL_equiv (l : List (WEdge K)) : Equivalence (ConnL l) := ⟨.refl, .symm, .trans⟩

theorem ConnL.lift {r : ℕ → ℕ → Prop} (hr : Equivalence r) (h : ∀ e ∈ l, r e.u e.v)
    (hc : ConnL l a b) : r a b := by
  induction hc with
  | rel x y hxy =>
    obtain ⟨e, he, rfl, rfl⟩ := hxy
    exact h e he
  | refl x => exact hr.refl x
  | symm x y _ ih => exact hr.symm ih
  | trans x y z _ _ ih1 ih2 => exact hr.trans ih1 ih2

theorem ConnL.of_sub (h : ∀ e ∈ l, ConnL l' e.u e.v) (hc : ConnL l a b) : ConnL l' a b :=
  hc.lift (connL_equiv l') h

theorem ConnL.mono (h : ∀ e ∈ l, e ∈ l') (hc : ConnL l a b) : ConnL l' a b :=
  hc.of_sub fun e he => .edge (h e he)

/-- Edges of the list by position. -/
def lu (l : List (WEdge K)) (i : ℕ) : ℕ := ((l[i]?).map (·.u)).getD 0
/-- Edges of the list by position. -/
def lv (l : List (WEdge K)) (i : ℕ) : ℕ := ((l[i]?).map (·.v)).getD 0

theorem connL_cons : ConnL (e :: l) a b ↔ ConnL l a b ∨ (ConnL l a e.u ∧ ConnL l e.v b) ∨
    (ConnL l a e.v ∧ ConnL l e.u b) := by
  constructor
  · intro h
    refine h.lift (r := fun a b => ConnL l a b ∨ (ConnL l a e.u ∧ ConnL l e.v b) ∨
      (ConnL l a e.v ∧ ConnL l e.u b)) ⟨fun x => Or.inl (.refl x), ?_, ?_⟩ ?_
    · rintro x y (h | ⟨h, h'⟩ | ⟨h, h'⟩)
      · exact Or.inl h.symm
      · exact Or.inr (Or.inr ⟨h'.symm, h.symm⟩)
      · exact Or.inr (Or.inl ⟨h'.symm, h.symm⟩)
    · rintro x y z (h | ⟨h, h'⟩ | ⟨h, h'⟩) (g | ⟨g, g'⟩ | ⟨g, g'⟩)
      · exact Or.inl (h.trans g)
      · exact Or.inr (Or.inl ⟨h.trans g, g'⟩)
      · exact Or.inr (Or.inr ⟨h.trans g, g'⟩)
      · exact Or.inr (Or.inl ⟨h, h'.trans g⟩)
      · exact Or.inr (Or.inl ⟨h, g'⟩)
      · exact Or.inl (h.trans g')
      · exact Or.inr (Or.inr ⟨h, h'.trans g⟩)
      · exact Or.inl (h.trans g')
      · exact Or.inr (Or.inr ⟨h, g'⟩)
    · intro f hf
      rcases List.mem_cons.mp hf with rfl | hf
      · exact Or.inr (Or.inl ⟨.refl _, .refl _⟩)
      · exact Or.inl (.edge hf)
  · have hm : ∀ {x y}, ConnL l x y → ConnL (e :: l) x y := fun h =>
      h.mono fun f hf => List.mem_cons_of_mem _ hf
    have he : ConnL (e :: l) e.u e.v := .edge (by simp)
    rintro (h | ⟨h, h'⟩ | ⟨h, h'⟩)
    · exact hm h
    · exact ((hm h).trans he).trans (hm h')
    · exact ((hm h).trans he.symm).trans (hm h')

/-- No edge of the list is connected by the others. -/
def AcyclicL (l : List (WEdge K)) : Prop := ∀ e l', l.Perm (e :: l') → ¬ ConnL l' e.u e.v

theorem AcyclicL.perm (h : AcyclicL l) (hp : l.Perm l') : AcyclicL l' :=
  fun e m hm => h e m (hp.trans hm)

theorem acyclicL_nil : AcyclicL ([] : List (WEdge K)) := by
  intro e l' h
  have := h.length_eq
  simp at this

theorem AcyclicL.cons (h : AcyclicL l) (he : ¬ ConnL l e.u e.v) : AcyclicL (e :: l) := by
  classical
  intro f m hp hc
  by_cases hfe : f = e
  · subst hfe
    have := (List.perm_cons f).mp hp
    exact he (hc.mono fun x hx => this.mem_iff.mpr hx)
  · have hem : e ∈ m := by
      have : e ∈ f :: m := hp.mem_iff.mp (by simp)
      rcases List.mem_cons.mp this with h | h
      · exact absurd h.symm hfe
      · exact h
    have hm := List.perm_cons_erase hem
    have hl : l.Perm (f :: m.erase e) := by
      have := hp.trans (hm.cons f)
      exact (List.perm_cons e).mp (this.trans (List.Perm.swap _ _ _))
    have hno := h f _ hl
    have hc' : ConnL (e :: m.erase e) f.u f.v := hc.mono fun x hx => hm.mem_iff.mp hx
    have hsub : ∀ {x y}, ConnL (m.erase e) x y → ConnL l x y := fun h =>
      h.mono fun x hx => hl.mem_iff.mpr (by simp [hx])
    have hfl : ConnL l f.u f.v := .edge (hl.mem_iff.mpr (by simp))
    rcases connL_cons.mp hc' with h1 | ⟨h1, h2⟩ | ⟨h1, h2⟩
    · exact hno h1
    · exact he (((hsub h1).symm.trans hfl).trans (hsub h2).symm)
    · exact he ((hsub h2).trans (hfl.symm.trans (hsub h1)))

section batch

variable [LinearOrder K]

theorem storedAt_spec (L : List (WEdge K × ℕ)) (i : ℕ) (hi : i < L.length) :
    ∃ f, storedAt L i = some f ∧ ((f.u = posU L i ∧ f.v = posV L i) ∨ (f.u = posV L i ∧ f.v = posU L i)) ∧
      f.w = L[i].1.w ∧ f = orient L[i].1.u L[i].1.v L[i].1.w := by
  refine ⟨orient L[i].1.u L[i].1.v L[i].1.w, by simp [storedAt, List.getElem?_eq_getElem hi], ?_, ?_, rfl⟩
  · have e1 : posU L i = L[i].1.u := by simp [posU, List.getElem?_eq_getElem hi]
    have e2 : posV L i = L[i].1.v := by simp [posV, List.getElem?_eq_getElem hi]
    rw [e1, e2]
    unfold orient
    split_ifs
    · exact Or.inr ⟨rfl, rfl⟩
    · exact Or.inl ⟨rfl, rfl⟩
  · unfold orient
    split_ifs <;> rfl

variable {rt : ℕ → ℕ} {E0 : List (WEdge K)} {L : List (WEdge K × ℕ)} {T : Set ℕ}

/-- Connections in the contracted graph, as connections by edges. -/
theorem connL_of_connS (hidem : ∀ z, rt (rt z) = rt z) (hconn : ∀ a b, rt a = rt b ↔ ConnL E0 a b)
    (hT : ∀ i ∈ T, i < L.length) (M : List (WEdge K)) (h0 : ∀ e ∈ E0, e ∈ M)
    (h1 : ∀ i ∈ T, ∀ f, storedAt L i = some f → f ∈ M)
    (h : ConnS (fun j => rt (posU L j)) (fun j => rt (posV L j)) T (rt a) (rt b)) : ConnL M a b := by
  have hr : ∀ x, ConnL M (rt x) x := fun x =>
    ((hconn (rt x) x).mp (hidem x)).mono h0
  have : ConnL M (rt a) (rt b) := by
    refine h.lift (connL_equiv M) fun i hi => ?_
    obtain ⟨f, g1, g2, -⟩ := storedAt_spec L i (hT i hi)
    have hf : ConnL M f.u f.v := .edge (h1 i hi f g1)
    rcases g2 with ⟨g2, g3⟩ | ⟨g2, g3⟩
    · rw [g2, g3] at hf
      exact ((hr _).trans hf).trans (hr _).symm
    · rw [g2, g3] at hf
      exact ((hr _).trans hf.symm).trans (hr _).symm
  exact ((hr a).symm.trans this).trans (hr b)

/-- Connections by edges, in the contracted graph. -/
theorem connS_of_connL (hconn : ∀ a b, rt a = rt b ↔ ConnL E0 a b) (hT : ∀ i ∈ T, i < L.length)
    (M : List (WEdge K)) (hM : ∀ e ∈ M, e ∈ E0 ∨ ∃ i ∈ T, storedAt L i = some e)
    (h : ConnL M a b) : ConnS (fun j => rt (posU L j)) (fun j => rt (posV L j)) T (rt a) (rt b) := by
  refine h.lift (r := fun a b => ConnS (fun j => rt (posU L j)) (fun j => rt (posV L j)) T (rt a) (rt b))
    ⟨fun x => .refl _, fun h => h.symm, fun h h' => h.trans h'⟩ ?_
  intro e he
  rcases hM e he with h | ⟨i, hi, hs⟩
  · rw [(hconn e.u e.v).mpr (.edge h)]
    exact .refl _
  · obtain ⟨f, g1, g2, -⟩ := storedAt_spec L i (hT i hi)
    rw [hs] at g1
    obtain rfl := Option.some.inj g1
    have hc : ConnS (fun j => rt (posU L j)) (fun j => rt (posV L j)) T (rt (posU L i)) (rt (posV L i)) :=
      .edge hi
    rcases g2 with ⟨g2, g3⟩ | ⟨g2, g3⟩
    · rw [g2, g3]; exact hc
    · rw [g2, g3]; exact hc.symm

/-- The accepted edges together with the earlier ones form a forest. -/
theorem acyclic_batch (hconn : ∀ a b, rt a = rt b ↔ ConnL E0 a b) (h0 : AcyclicL E0)
    (L : List (WEdge K × ℕ)) (k : ℕ) (hk : k ≤ L.length) :
    ∃ l : List ℕ, l.Nodup ∧ (∀ i, i ∈ l ↔ i < k ∧
        i ∈ greedy (fun j => rt (posU L j)) (fun j => rt (posV L j))) ∧
      AcyclicL (l.filterMap (storedAt L) ++ E0) := by
  induction k with
  | zero => exact ⟨[], List.nodup_nil, by simp, by simpa using h0⟩
  | succ k ih =>
    obtain ⟨l, h1, h2, h3⟩ := ih (by omega)
    by_cases hg : k ∈ greedy (fun j => rt (posU L j)) (fun j => rt (posV L j))
    · refine ⟨k :: l, List.nodup_cons.mpr ⟨fun h => by have := ((h2 k).mp h).1; omega, h1⟩, ?_, ?_⟩
      · intro i
        rw [List.mem_cons, h2]
        constructor
        · rintro (rfl | ⟨g1, g2⟩)
          · exact ⟨by omega, hg⟩
          · exact ⟨by omega, g2⟩
        · rintro ⟨g1, g2⟩
          rcases Nat.lt_succ_iff_lt_or_eq.mp g1 with h | h
          · exact Or.inr ⟨h, g2⟩
          · exact Or.inl h
      · obtain ⟨f, g1, g2, -⟩ := storedAt_spec L k (by omega)
        rw [List.filterMap_cons, g1]
        refine h3.cons ?_
        intro hc
        have := connS_of_connL (T := {j | j < k}) (L := L) hconn (fun i hi => by
          have : i < k := hi
          omega) _ (by
          intro e he
          rcases List.mem_append.mp he with he | he
          · obtain ⟨i, hi, hs⟩ := List.mem_filterMap.mp he
            exact Or.inr ⟨i, ((h2 i).mp hi).1, hs⟩
          · exact Or.inl he) hc
        apply hg
        rcases g2 with ⟨g2, g3⟩ | ⟨g2, g3⟩
        · rw [g2, g3] at this; exact this
        · rw [g2, g3] at this; exact this.symm
    · refine ⟨l, h1, ?_, h3⟩
      intro i
      rw [h2]
      constructor
      · rintro ⟨g1, g2⟩; exact ⟨by omega, g2⟩
      · rintro ⟨g1, g2⟩
        refine ⟨?_, g2⟩
        rcases Nat.lt_succ_iff_lt_or_eq.mp g1 with h | h
        · exact h
        · subst h; exact absurd g2 hg

/-- What a batch step achieves: `uf'` is the structure after the batch `E`. -/
def BatchOk (E : List (WEdge K)) (n : ℕ) (uf uf' : EdgeUF K) (rt' dep' : ℕ → ℕ) : Prop :=
  Forest uf'.P n rt' dep' ∧ uf'.edges.length = n ∧
    (∀ x < n, uf'.edges[x]? = some none ↔ rt' x = x) ∧
    (∀ a b, rt' a = rt' b ↔ ConnL uf'.getEdge a b) ∧ AcyclicL uf'.getEdge ∧
    (∀ e ∈ uf'.getEdge, e ∈ uf.getEdge ∨ ∃ f ∈ E, e = orient f.u f.v f.w) ∧
    (∀ e ∈ uf.getEdge, e ∈ uf'.getEdge) ∧
    ∀ f ∈ E, ∀ τ, f.w ≤ τ → (∀ e ∈ uf.getEdge, e.w ≤ τ) →
      ConnL (uf'.getEdge.filter fun e => decide (e.w ≤ τ)) f.u f.v

/-- The greedy choice, put into the forest, achieves the step. -/
theorem batch_core (E : List (WEdge K)) (n : ℕ)
    (uf : EdgeUF K) {rt dep : ℕ → ℕ} (hF : Forest uf.P n rt dep)
    (hconn : ∀ a b, rt a = rt b ↔ ConnL uf.getEdge a b) (hac : AcyclicL uf.getEdge)
    {uf' : EdgeUF K} {rt' dep' : ℕ → ℕ} {l : List ℕ} (h2 : Forest uf'.P n rt' dep') (h3 : uf'.edges.length = n)
    (h4 : ∀ x < n, uf'.edges[x]? = some none ↔ rt' x = x) (h5 : l.Nodup)
    (h6 : ∀ i, i ∈ l ↔ i < E.length ∧ i ∈ greedy (fun j => rt (posU (sortEdges E) j))
          (fun j => rt (posV (sortEdges E) j)))
    (h7 : (uf'.getEdge).Perm (l.filterMap (storedAt (sortEdges E)) ++ uf.getEdge))
    (h8 : ∀ a b, rt' a = rt' b ↔ ConnS (fun j => rt (posU (sortEdges E) j))
          (fun j => rt (posV (sortEdges E) j)) {i | i ∈ l} (rt a) (rt b)) : BatchOk E n uf uf' rt' dep' := by
  have hidem : ∀ z, rt (rt z) = rt z := by
    intro z
    by_cases hz : z < n
    · exact (hF.root z hz).2.2
    · rw [hF.out z (by omega), hF.out z (by omega)]
  have hlen := sortEdges_length E
  have hlT : ∀ i ∈ {i | i ∈ l}, i < (sortEdges E).length := fun i hi => by
    rw [hlen]; exact ((h6 i).mp hi).1
  have hmem : ∀ e, e ∈ uf'.getEdge ↔ (∃ i ∈ l, storedAt (sortEdges E) i = some e) ∨ e ∈ uf.getEdge := by
    intro e
    rw [h7.mem_iff, List.mem_append, List.mem_filterMap]
  have hsrc : ∀ i (hi : i < (sortEdges E).length), ((sortEdges E)[i]).1 ∈ E := fun i hi =>
    List.fst_mem_of_mem_zipIdx ((sortEdges_perm E).mem_iff.mp (List.getElem_mem hi))
  refine ⟨h2, h3, h4, ?_, ?_, ?_, ?_, ?_⟩
  · intro a b
    rw [h8]
    constructor
    · intro h
      exact connL_of_connS hidem hconn hlT _ (fun e he => (hmem e).mpr (Or.inr he))
        (fun i hi f hf => (hmem f).mpr (Or.inl ⟨i, hi, hf⟩)) h
    · intro h
      exact connS_of_connL hconn hlT _ (fun e he => ((hmem e).mp he).symm) h
  · obtain ⟨l', g1, g2, g3⟩ := acyclic_batch hconn hac (sortEdges E) E.length hlen.ge
    have hp : l'.Perm l := (List.perm_ext_iff_of_nodup g1 h5).mpr fun i => by rw [g2, h6]
    exact g3.perm (((hp.filterMap _).append_right _).trans h7.symm)
  · intro e he
    rcases (hmem e).mp he with ⟨i, hi, hs⟩ | h
    · obtain ⟨f, k1, -, -, k2⟩ := storedAt_spec (sortEdges E) i (hlT i hi)
      rw [hs] at k1
      obtain rfl := Option.some.inj k1
      exact Or.inr ⟨_, hsrc i (hlT i hi), k2⟩
    · exact Or.inl h
  · exact fun e he => (hmem e).mpr (Or.inr he)
  · intro f hf τ hτ h0
    have : f ∈ E.zipIdx.map (·.1) := by rw [List.zipIdx_map_fst]; exact hf
    obtain ⟨p, hp, hpf⟩ := List.mem_map.mp this
    obtain ⟨i, hi, hip⟩ := List.mem_iff_getElem.mp ((sortEdges_perm E).mem_iff.mpr hp)
    have hiE : i < E.length := hlen ▸ hi
    have e1 : posU (sortEdges E) i = f.u := by
      simp [posU, List.getElem?_eq_getElem hi, hip, ← hpf]
    have e2 : posV (sortEdges E) i = f.v := by
      simp [posV, List.getElem?_eq_getElem hi, hip, ← hpf]
    have hsp := greedy_spans (u := fun j => rt (posU (sortEdges E) j))
      (v := fun j => rt (posV (sortEdges E) j)) (i + 1) (Nat.lt_succ_self i)
    simp only [e1, e2] at hsp
    refine connL_of_connS (L := sortEdges E) hidem hconn ?_ _ ?_ ?_ hsp
    · intro j hj
      have : j < i + 1 := hj.1
      omega
    · intro e he
      exact List.mem_filter.mpr ⟨(hmem e).mpr (Or.inr he), by simpa using h0 e he⟩
    · intro j hj g hg
      have hji : j < i + 1 := hj.1
      have hjl : j < (sortEdges E).length := by omega
      refine List.mem_filter.mpr ⟨(hmem g).mpr (Or.inl ⟨j, (h6 j).mpr ⟨by omega, hj.2⟩, hg⟩), ?_⟩
      obtain ⟨g', k1, -, k2, -⟩ := storedAt_spec (sortEdges E) j hjl
      rw [hg] at k1
      obtain rfl := Option.some.inj k1
      have : (sortEdges E)[j].1.w ≤ f.w := by
        rcases Nat.lt_succ_iff_lt_or_eq.mp hji with h | h
        · have := List.pairwise_iff_getElem.mp (sortEdges_sorted E) j i hjl hi h
          rw [edgeLe_iff, hip] at this
          rw [← hpf]
          rcases this with h | h
          · exact h.le
          · exact h.1.le
        · subst h
          rw [hip, hpf]
      rw [k2]
      simpa using this.trans hτ

/-- What one call of `batchKruskal` does to the recorded forest. -/
theorem batch_step (env : Env) (henv : env.Ok) (E : List (WEdge K)) (n : ℕ)
    (hE : ∀ e ∈ E, e.u < n ∧ e.v < n) (uf : EdgeUF K) {rt dep : ℕ → ℕ}
    (hF : Forest uf.P n rt dep) (hl : uf.edges.length = n)
    (hr : ∀ x < n, uf.edges[x]? = some none ↔ rt x = x)
    (hconn : ∀ a b, rt a = rt b ↔ ConnL uf.getEdge a b) (hac : AcyclicL uf.getEdge) :
    (batchKruskal env E n uf = .error .throws ∧ 4101 < E.length) ∨
      ∃ (uf' : EdgeUF K) (rt' dep' : ℕ → ℕ), batchKruskal env E n uf = .ok uf' ∧ BatchOk E n uf uf' rt' dep' := by
  rcases batchKruskal_spec env henv E n hE uf hF hl hr with h | ⟨uf', rt', dep', l, h1, h2, h3, h4, h5,
      h6, h7, h8⟩
  · exact Or.inl h
  · exact Or.inr ⟨uf', rt', dep', h1, batch_core E n uf hF hconn hac h2 h3 h4 h5 h6 h7 h8⟩

end batch

section minimal

variable [AddCommGroup K] [LinearOrder K] [IsOrderedAddMonoid K]

theorem bottleneck_exchange {V : Type*} {u v : ℕ → V} (w : ℕ → K) (A F : Finset ℕ) (hA : Acyclic u v A)
    (hb : ∀ j ∈ F, ConnS u v {i | i ∈ A ∧ w i ≤ w j} (u j) (v j))
    (hsp : ∀ i ∈ A, ConnS u v F (u i) (v i)) (hw : ∀ j ∈ F, 0 ≤ w j) :
    (∑ i ∈ A, w i) ≤ ∑ i ∈ F, w i := by
  suffices h : ∀ k, ∀ F' : Finset ℕ, (A \ F').card = k → (∀ j ∈ F', j ∈ A ∨ j ∈ F) →
      (∀ i ∈ A, ConnS u v F' (u i) (v i)) → (∑ i ∈ A, w i) ≤ ∑ i ∈ F', w i from
    h _ F rfl (fun j hj => Or.inr hj) hsp
  intro k
  induction k with
  | zero =>
    intro F' hk hF' _
    rw [Finset.card_eq_zero, Finset.sdiff_eq_empty_iff_subset] at hk
    refine Finset.sum_le_sum_of_subset_of_nonneg hk fun j hj hjA => ?_
    rcases hF' j hj with h | h
    · exact absurd h hjA
    · exact hw j h
  | succ k ih =>
    intro F' hk hF' hc
    have : (A \ F').Nonempty := by rw [← Finset.card_pos]; omega
    obtain ⟨i, hi⟩ := this
    obtain ⟨hiA, hiF⟩ := Finset.mem_sdiff.mp hi
    have hG : ¬ ConnS u v {j | ConnS u v ((A : Set ℕ) \ {i}) (u j) (v j)} (u i) (v i) := by
      intro h
      exact hA i hiA (h.of_sub fun j hj => hj)
    obtain ⟨b, hbF, hbG, h1, -⟩ := exchange F' i hiF (hc i hiA) _ hG
    have hbi : b ≠ i := by rintro rfl; exact hiF hbF
    have hbA : b ∉ A := fun h => hbG (ConnS.edge (A := (A : Set ℕ) \ {i}) ⟨h, hbi⟩)
    have hbF0 : b ∈ F := (hF' b hbF).resolve_left hbA
    have hwib : w i ≤ w b := by
      by_contra hlt
      apply hbG
      refine (hb b hbF0).mono ?_
      intro j hj
      refine ⟨hj.1, ?_⟩
      rintro rfl
      exact hlt hj.2
    have hie : i ∉ F'.erase b := fun h => hiF (Finset.mem_of_mem_erase h)
    refine (ih (insert i (F'.erase b)) ?_ ?_ ?_).trans ?_
    · have hE : A \ insert i (F'.erase b) = (A \ F').erase i := by
        ext j
        simp only [Finset.mem_sdiff, Finset.mem_insert, Finset.mem_erase, not_or, not_and]
        constructor
        · rintro ⟨g1, g2, g3⟩
          refine ⟨g2, g1, ?_⟩
          by_cases hjb : j = b
          · subst hjb; exact absurd g1 hbA
          · exact g3 hjb
        · rintro ⟨g1, g2, g3⟩
          exact ⟨g2, g1, fun _ => g3⟩
      rw [hE, Finset.card_erase_of_mem hi, hk]
      rfl
    · intro j hj
      rcases Finset.mem_insert.mp hj with rfl | hj
      · exact Or.inl hiA
      · exact hF' j (Finset.mem_of_mem_erase hj)
    · exact fun j hj => h1 _ _ (hc j hj)
    · rw [Finset.sum_insert hie]
      have := Finset.add_sum_erase F' w hbF
      rw [← this]
      exact add_le_add hwib le_rfl

theorem lu_lt {M : List (WEdge K)} {i : ℕ} (h : i < M.length) : lu M i = M[i].u := by
  simp [lu, List.getElem?_eq_getElem h]
theorem lv_lt {M : List (WEdge K)} {i : ℕ} (h : i < M.length) : lv M i = M[i].v := by
  simp [lv, List.getElem?_eq_getElem h]

/-- A forest that connects the ends of every edge `e` of a competing list by edges no heavier than `e`
has minimum total weight. -/
theorem bottleneck_min (A F : List (WEdge K)) (hA : AcyclicL A)
    (hb : ∀ e ∈ F, ConnL (A.filter fun f => decide (f.w ≤ e.w)) e.u e.v)
    (hsp : ∀ e ∈ A, ConnL F e.u e.v) (hw : ∀ e ∈ F, 0 ≤ e.w) :
    (A.map (·.w)).sum ≤ (F.map (·.w)).sum := by
  classical
  set M := A ++ F with hM
  set m := A.length with hm
  have hlen : M.length = m + F.length := by simp [hM, hm]
  let w : ℕ → K := fun i => ((M[i]?).map (·.w)).getD 0
  have hwl : ∀ i (h : i < M.length), w i = M[i].w := fun i h => by
    simp [w, List.getElem?_eq_getElem h]
  let IA : Finset ℕ := Finset.range m
  let IF : Finset ℕ := Finset.Ico m (m + F.length)
  have hMA : ∀ i (h : i < m), M[i]'(by omega) = A[i] := fun i h => by simp [hM, hm ▸ h]
  have hMF : ∀ i (h : m ≤ i) (h' : i < m + F.length), M[i]'(by omega) = F[i - m] := fun i h h' => by
    rw [List.getElem_append_right (show A.length ≤ i from h)]
  have key : (∑ i ∈ IA, w i) ≤ ∑ i ∈ IF, w i := by
    refine bottleneck_exchange (u := lu M) (v := lv M) w IA IF ?_ ?_ ?_ ?_
    · intro i hi hc
      have hi : i < m := by simpa [IA] using hi
      have hp := List.getElem_cons_eraseIdx_perm (l := A) (n := i) hi
      apply hA _ _ hp.symm
      rw [lu_lt (by omega), lv_lt (by omega), hMA i hi] at hc
      refine hc.lift (connL_equiv _) ?_
      intro j hj
      have hj1 : j < m := by have := hj.1; simpa [IA] using this
      have hj2 : j ≠ i := fun h => hj.2 (by simp [h])
      rw [lu_lt (by omega), lv_lt (by omega), hMA j hj1]
      exact .edge (List.mem_eraseIdx_iff_getElem.mpr ⟨j, hj1, hj2, rfl⟩)
    · intro j hj
      have hj : m ≤ j ∧ j < m + F.length := by simpa [IF] using hj
      have := hb (F[j - m]'(by omega)) (List.getElem_mem _)
      rw [lu_lt (by omega), lv_lt (by omega), hMF j hj.1 hj.2]
      refine this.lift ⟨fun x => ConnS.refl x, fun h => h.symm, fun h h' => h.trans h'⟩ ?_
      intro e he
      obtain ⟨he1, he2⟩ := List.mem_filter.mp he
      obtain ⟨i, hi, rfl⟩ := List.mem_iff_getElem.mp he1
      have : ConnS (lu M) (lv M) {i | i ∈ IA ∧ w i ≤ w j} (lu M i) (lv M i) := by
        refine .edge ⟨by simp [IA, hm, hi], ?_⟩
        rw [hwl i (by omega), hwl j (by omega), hMA i hi, hMF j hj.1 hj.2]
        simpa using he2
      rwa [lu_lt (by omega), lv_lt (by omega), hMA i hi] at this
    · intro i hi
      have hi : i < m := by simpa [IA] using hi
      have := hsp A[i] (List.getElem_mem _)
      rw [lu_lt (by omega), lv_lt (by omega), hMA i hi]
      refine this.lift ⟨fun x => ConnS.refl x, fun h => h.symm, fun h h' => h.trans h'⟩ ?_
      intro e he
      obtain ⟨k, hk, rfl⟩ := List.mem_iff_getElem.mp he
      have : ConnS (lu M) (lv M) (IF : Set ℕ) (lu M (m + k)) (lv M (m + k)) :=
        .edge (by simp [IF, hk])
      rw [lu_lt (by omega), lv_lt (by omega), hMF (m + k) (by omega) (by omega)] at this
      simpa using this
    · intro j hj
      have hj : m ≤ j ∧ j < m + F.length := by simpa [IF] using hj
      rw [hwl j (by omega), hMF j hj.1 hj.2]
      exact hw _ (List.getElem_mem _)
  have eA : (A.map (·.w)).sum = ∑ i ∈ IA, w i := by
    rw [← Fin.sum_univ_getElem, Finset.sum_range]
    simp only [List.getElem_map]
    have : (A.map (·.w)).length = m := by simp [hm]
    refine Fintype.sum_equiv (finCongr this) _ _ ?_
    rintro ⟨i, hi⟩
    have hi' : i < m := by simpa [hm] using hi
    simp [hwl i (by omega), hMA i hi']
  have eF : (F.map (·.w)).sum = ∑ i ∈ IF, w i := by
    rw [← Fin.sum_univ_getElem, Finset.sum_Ico_eq_sum_range, Finset.sum_range]
    have : (F.map (·.w)).length = m + F.length - m := by simp
    refine Fintype.sum_equiv (finCongr this) _ _ ?_
    rintro ⟨i, hi⟩
    have hi' : i < F.length := by simpa using hi
    simp [hwl (m + i) (by omega), hMF (m + i) (by omega) (by omega)]
  rw [eA, eF]
  exact key

end minimal

end Verif.Mst
