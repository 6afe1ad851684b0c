import Verif.Delaunay.ProgModel
import Verif.Delaunay.RoundLemmas

set_option linter.unusedSectionVars false
set_option linter.unusedVariables false

/-!
The programs compute the functions of `MeshModel.lean` and stay in their footprint.
-/

namespace Verif.Delaunay

open Verif.Par

theorem toMem_setNgh (m : Mesh) (t : ℕ) (i : Fin 3) (x : Option ℕ) :
    toMem (m.setNgh t i x) = Function.update (toMem m) (.ngh t i) x := by
  funext c
  cases c with
  | ngh t' i' =>
    by_cases e : t' = t
    · subst e
      by_cases e' : i' = i
      · subst e'
        simp [toMem, Mesh.setNgh, Mesh.ngh]
      · rw [Function.update_of_ne (by simp [e'])]
        simp [toMem, Mesh.setNgh, Mesh.ngh, e']
    · rw [Function.update_of_ne (by simp [e])]
      simp [toMem, Mesh.setNgh, Mesh.ngh, e]
  | vtx t' i' =>
    rw [Function.update_of_ne (by simp)]
    by_cases e : t' = t
    · subst e
      simp [toMem, Mesh.setNgh, Mesh.vtx]
    · simp [toMem, Mesh.setNgh, Mesh.vtx, e]
  | vt v =>
    rw [Function.update_of_ne (by simp)]
    rfl

theorem toMem_setVtx (m : Mesh) (t : ℕ) (i : Fin 3) (x : ℕ) :
    toMem (m.setVtx t i x) = Function.update (toMem m) (.vtx t i) (some x) := by
  funext c
  cases c with
  | vtx t' i' =>
    by_cases e : t' = t
    · subst e
      by_cases e' : i' = i
      · subst e'
        simp [toMem, Mesh.setVtx, Mesh.vtx]
      · rw [Function.update_of_ne (by simp [e'])]
        simp [toMem, Mesh.setVtx, Mesh.vtx, e']
    · rw [Function.update_of_ne (by simp [e])]
      simp [toMem, Mesh.setVtx, Mesh.vtx, e]
  | ngh t' i' =>
    rw [Function.update_of_ne (by simp)]
    by_cases e : t' = t
    · subst e
      simp [toMem, Mesh.setVtx, Mesh.ngh]
    · simp [toMem, Mesh.setVtx, Mesh.ngh, e]
  | vt v =>
    rw [Function.update_of_ne (by simp)]
    rfl

theorem toMem_setVt (m : Mesh) (v t : ℕ) : toMem (m.setVt v t) = Function.update (toMem m) (.vt v) (some t) := by
  funext c
  cases c with
  | vt v' =>
    by_cases e : v' = v
    · subst e
      simp [toMem, Mesh.setVt]
    · rw [Function.update_of_ne (by simp [e])]
      simp [toMem, Mesh.setVt, e]
  | ngh t' i' =>
    rw [Function.update_of_ne (by simp)]
    rfl
  | vtx t' i' =>
    rw [Function.update_of_ne (by simp)]
    rfl

theorem toMem_inj {m m' : Mesh} (h : toMem m = toMem m') : m = m' := by
  obtain ⟨tri, vt⟩ := m
  obtain ⟨tri', vt'⟩ := m'
  have h1 : tri = tri' := by
    funext x
    have a : (tri x).ngh = (tri' x).ngh := by
      funext i
      have := congrFun h (.ngh x i)
      simpa [toMem, Mesh.ngh] using this
    have b : (tri x).vtx = (tri' x).vtx := by
      funext i
      have := congrFun h (.vtx x i)
      simpa [toMem, Mesh.vtx] using this
    rcases e : tri x with ⟨n, w⟩
    rcases e' : tri' x with ⟨n', w'⟩
    rw [e, e'] at a b
    simp only at a b
    rw [a, b]
  have h2 : vt = vt' := by
    funext v
    have := congrFun h (.vt v)
    simpa [toMem] using this
  rw [h1, h2]

/-- From a memory that is a mesh, `p` makes at most `N` accesses, to own cells only, and leaves `M`. -/
def Good (own : Cell → Prop) (N : ℕ) (m : Mesh) (p : MProg) (M : Cell → Option ℕ) : Prop :=
  ∃ n, n ≤ N ∧ Safe own n (toMem m) p M

section
variable {own : Cell → Prop} {N : ℕ} {m : Mesh} {M : Cell → Option ℕ}

theorem Good.mono {N' : ℕ} {p : MProg} (h : Good own N m p M) (hle : N ≤ N') : Good own N' m p M := by
  obtain ⟨n, hn, h⟩ := h
  exact ⟨n, by omega, h⟩

theorem Good.rNgh {t : ℕ} {i : Fin 3} {k : Option ℕ → MProg} (hc : own (.ngh t i)) (h : Good own N m (k (m.ngh t i)) M) :
    Good own (N + 1) m (.read (.ngh t i) k) M := by
  obtain ⟨n, hn, h⟩ := h
  exact ⟨n + 1, by omega, .read hc h⟩

theorem Good.rVtx {t : ℕ} {i : Fin 3} {k : ℕ → MProg} (hc : own (.vtx t i)) (h : Good own N m (k (m.vtx t i)) M) :
    Good own (N + 1) m (readPtr (.vtx t i) k) M := by
  obtain ⟨n, hn, h⟩ := h
  exact ⟨n + 1, by omega, .read hc h⟩

theorem Good.rVt {v : ℕ} {k : ℕ → MProg} (hc : own (.vt v)) (h : Good own N m (k (m.vt v)) M) :
    Good own (N + 1) m (readPtr (.vt v) k) M := by
  obtain ⟨n, hn, h⟩ := h
  exact ⟨n + 1, by omega, .read hc h⟩

theorem Good.wNgh {t : ℕ} {i : Fin 3} {x : Option ℕ} {k : MProg} (hc : own (.ngh t i))
    (h : Good own N (m.setNgh t i x) k M) : Good own (N + 1) m (.write (.ngh t i) x k) M := by
  obtain ⟨n, hn, h⟩ := h
  rw [toMem_setNgh] at h
  exact ⟨n + 1, by omega, .write hc h⟩

theorem Good.wVtx {t : ℕ} {i : Fin 3} {x : ℕ} {k : MProg} (hc : own (.vtx t i))
    (h : Good own N (m.setVtx t i x) k M) : Good own (N + 1) m (.write (.vtx t i) (some x) k) M := by
  obtain ⟨n, hn, h⟩ := h
  rw [toMem_setVtx] at h
  exact ⟨n + 1, by omega, .write hc h⟩

theorem Good.wVt {v t : ℕ} {k : MProg} (hc : own (.vt v)) (h : Good own N (m.setVt v t) k M) :
    Good own (N + 1) m (.write (.vt v) (some t) k) M := by
  obtain ⟨n, hn, h⟩ := h
  rw [toMem_setVt] at h
  exact ⟨n + 1, by omega, .write hc h⟩

theorem Good.locate {a b : ℕ} {i : Fin 3} {k : Fin 3 → MProg} (hc : ∀ i, own (.ngh a i)) (hl : m.locate a b = .ok i)
    (h : Good own N m (k i) M) : Good own (N + 3) m (locateP a b k) M := by
  unfold Mesh.locate at hl
  unfold locateP
  refine Good.rNgh (hc 0) ?_
  by_cases h0 : m.ngh a 0 = some b
  · rw [if_pos h0] at hl ⊢
    cases hl
    exact h.mono (by omega)
  rw [if_neg h0] at hl ⊢
  refine Good.rNgh (hc 1) ?_
  by_cases h1 : m.ngh a 1 = some b
  · rw [if_pos h1] at hl ⊢
    cases hl
    exact h.mono (by omega)
  rw [if_neg h1] at hl ⊢
  refine Good.rNgh (hc 2) ?_
  by_cases h2 : m.ngh a 2 = some b
  · rw [if_pos h2] at hl ⊢
    cases hl
    exact h.mono (by omega)
  rw [if_neg h2] at hl
  cases hl

theorem Good.updateIf {a : Option ℕ} {b c : ℕ} {m' : Mesh} {k : MProg} (hc : ∀ x, a = some x → ∀ i, own (.ngh x i))
    (hl : m.updateIf a b c = .ok m') (h : Good own N m' k M) : Good own (N + 4) m (updateIfP a b c k) M := by
  cases a with
  | none =>
    cases hl
    exact h.mono (by omega)
  | some a =>
    unfold Mesh.updateIf Mesh.update at hl
    simp only at hl
    rcases e : m.locate a b with er | i
    · rw [e] at hl
      cases hl
    · rw [e] at hl
      cases hl
      unfold updateIfP updateP
      exact Good.locate (k := fun i => .write (.ngh a i) (some c) k) (hc a rfl) e (Good.wNgh (hc a rfl i) h)

theorem Good.across {s a : Simplex} {k : Simplex → MProg} (hs : ∀ i, own (.ngh s.t i)) (ha : ∀ i, own (.ngh a.t i))
    (hl : Delaunay.across m s = .ok a) (h : Good own N m (k a) M) : Good own (N + 4) m (acrossP s k) M := by
  unfold acrossP
  refine Good.rNgh (hs _) ?_
  unfold Delaunay.across at hl
  rcases e : m.ngh s.t s.o with _ | u
  · rw [e] at hl
    cases hl
    exact h.mono (by omega)
  · rw [e] at hl
    simp only at hl ⊢
    rcases e' : m.locate u s.t with er | j
    · rw [e'] at hl
      cases hl
    · rw [e'] at hl
      cases hl
      exact Good.locate ha e' h

theorem Good.flip {s a : Simplex} {m' : Mesh} {k : MProg} (hne : a.t ≠ s.t) (hs : Delaunay.across m s = .ok a)
    (hf : FlipFoot own m s a) (hl : Delaunay.flip m s = .ok m') (h : Good own N m' k M) : Good own (N + 26) m (flipP s k) M := by
  unfold flipP
  refine Good.across (fun i => (hf.here i).1) (fun i => (hf.there i).1) hs ?_
  unfold Delaunay.flip at hl
  rw [hs] at hl
  simp only [Except.bind] at hl
  refine Good.rNgh (hf.here _).1 <| Good.rNgh (hf.there _).1 <| Good.rVtx (hf.here _).2 <| Good.rVtx (hf.there _).2 <|
    Good.rVtx (hf.here _).2 <| Good.wVt hf.vt1 <| Good.wVtx (hf.here _).2 <| Good.wNgh (hf.here _).1 ?_
  generalize hm1 : (((m.setVt (m.vtx s.t s.o) a.t).setVtx s.t s.o (m.vtx a.t (a.o + 1))).setNgh s.t s.o
    (m.ngh a.t (a.o + 1))) = m1 at hl ⊢
  have hv1 : m1.vtx a.t a.o = m.vtx a.t a.o := by
    rw [← hm1]
    simp [Mesh.vtx, Mesh.setNgh, Mesh.setVtx, Mesh.setVt, hne]
  rcases e1 : m1.updateIf (m.ngh a.t (a.o + 1)) a.t s.t with er | m2
  · rw [e1] at hl
    cases hl
  rw [e1] at hl
  simp only at hl
  refine Good.updateIf hf.side2 e1 ?_
  have hv2 : m2.vtx a.t a.o = m1.vtx a.t a.o := by
    rcases hn : m.ngh a.t (a.o + 1) with _ | x
    · rw [hn] at e1
      cases e1
      rfl
    · rw [hn] at e1
      unfold Mesh.updateIf Mesh.update at e1
      simp only at e1
      rcases e : m1.locate x a.t with er | i
      · rw [e] at e1
        cases e1
      · rw [e] at e1
        cases e1
        unfold Mesh.vtx Mesh.setNgh
        by_cases hx : a.t = x
        · subst hx
          simp
        · simp [hx]
  refine Good.wNgh (hf.here _).1 <| Good.rVtx (hf.there _).2 <| Good.wVt ?_ <| Good.wVtx (hf.there _).2 <|
    Good.wNgh (hf.there _).1 ?_
  · have : (m2.setNgh s.t (s.o + 1) (some a.t)).vtx a.t a.o = m2.vtx a.t a.o := by
      simp [Mesh.vtx, Mesh.setNgh, hne]
    rw [this, hv2, hv1]
    exact hf.vt2
  rcases e3 : Mesh.updateIf ((((m2.setNgh s.t (s.o + 1) (some a.t)).setVt
      ((m2.setNgh s.t (s.o + 1) (some a.t)).vtx a.t a.o) s.t).setVtx a.t a.o (m.vtx s.t (s.o + 1))).setNgh a.t a.o
        (m.ngh s.t (s.o + 1))) (m.ngh s.t (s.o + 1)) s.t a.t with er | m3
  · rw [e3] at hl
    cases hl
  rw [e3] at hl
  cases hl
  exact Good.updateIf hf.side1 e3 (Good.wNgh (hf.there _).1 h)

theorem Good.setT {t : ℕ} {a b c : Option ℕ} {k : MProg} (ho : ∀ i, own (.ngh t i)) (h : Good own N (m.setT t a b c) k M) :
    Good own (N + 3) m (setTP t a b c k) M :=
  Good.wNgh (ho _) <| Good.wNgh (ho _) <| Good.wNgh (ho _) h

theorem Good.setV {t a b c : ℕ} {k : MProg} (ho : ∀ i, own (.vtx t i)) (h : Good own N (m.setV t a b c) k M) :
    Good own (N + 3) m (setVP t a b c k) M :=
  Good.wVtx (ho _) <| Good.wVtx (ho _) <| Good.wVtx (ho _) h

theorem Good.split {t v a b : ℕ} {m' : Mesh} {k : MProg} (hf : SplitFoot own m t v a b)
    (hl : Delaunay.split m t v a b = .ok m') (h : Good own N m' k M) : Good own (N + 31) m (splitP t v a b k) M := by
  have ht := fun i => hf.tri t (Or.inl rfl) i
  have ha := fun i => hf.tri a (Or.inr (Or.inl rfl)) i
  have hb := fun i => hf.tri b (Or.inr (Or.inr rfl)) i
  unfold splitP
  unfold Delaunay.split at hl
  simp only at hl
  refine Good.wVt hf.vtv <| Good.rNgh (ht _).1 <| Good.rNgh (ht _).1 <| Good.rNgh (ht _).1 <| Good.rVtx (ht _).2 <|
    Good.rVtx (ht _).2 <| Good.rVtx (ht _).2 <| Good.wNgh (ht _).1 <| Good.wNgh (ht _).1 <| Good.wVtx (ht _).2 <|
    Good.setT (fun i => (ha i).1) <| Good.setV (fun i => (ha i).2) <| Good.setT (fun i => (hb i).1) <|
    Good.setV (fun i => (hb i).2) ?_
  have n1 : ∀ i, (m.setVt v t).ngh t i = m.ngh t i := fun i => rfl
  have n2 : ∀ i, (m.setVt v t).vtx t i = m.vtx t i := fun i => rfl
  simp only [n1, n2] at hl ⊢
  generalize hm1 : ((((((((m.setVt v t).setNgh t 1 (some a)).setNgh t 2 (some b)).setVtx t 1 v).setT a (m.ngh t 1)
    (some b) (some t)).setV a (m.vtx t 1) v (m.vtx t 0)).setT b (m.ngh t 2) (some t) (some a)).setV b (m.vtx t 2) v
      (m.vtx t 1)) = m1 at hl ⊢
  rcases e1 : m1.updateIf (m.ngh t 1) t a with er | m2
  · rw [e1] at hl
    cases hl
  rw [e1] at hl
  simp only [Except.bind] at hl
  refine Good.updateIf (fun x hx => hf.side x 1 hx) e1 ?_
  rcases e2 : m2.updateIf (m.ngh t 2) t b with er | m3
  · rw [e2] at hl
    cases hl
  rw [e2] at hl
  cases hl
  exact Good.updateIf (fun x hx => hf.side x 2 hx) e2 (Good.wVt hf.vt2 h)

theorem Good.flips {q : List Simplex} {m' : Mesh} {k : MProg} (hr : FlipRun own m q m') (h : Good own N m' k M) :
    Good own (N + 26 * q.length) m (flipsP q k) M := by
  induction hr with
  | nil => exact h
  | cons h1 h2 h3 h4 _ ih =>
    refine (Good.flip h2 h1 h3 h4 (ih h)).mono ?_
    simp only [List.length_cons]
    omega

theorem Good.insert {v t : ℕ} {q : List Simplex} {m' : Mesh} (hi : InsertFoot own m t v (m.vt v) (m.vt v + 1) q m') :
    Good own (32 + 26 * q.length) m (insertP v t q) (toMem m') := by
  obtain ⟨cur0, h1, h2, h3⟩ := hi
  unfold insertP
  refine (Good.rVt (k := fun t1 => splitP t v t1 (t1 + 1) (flipsP q .done)) h2.vtv
    (Good.split h2 h1 (Good.flips h3 ⟨0, le_refl 0, .done _⟩))).mono ?_
  omega

/-- With no restriction on the cells, a run of the model is a run of the program. -/
theorem flipRun_any {P : Cell → Prop} {q : List Simplex} {m' : Mesh} (hr : FlipRun P m q m') :
    Delaunay.flips m q = .ok m' := by
  induction hr with
  | nil => rfl
  | cons h1 h2 h3 h4 _ ih =>
    simp only [Delaunay.flips, h4, Except.bind]
    exact ih

theorem insertFoot_run {v t : ℕ} {q : List Simplex} {m' : Mesh} (hi : InsertFoot own m t v (m.vt v) (m.vt v + 1) q m') :
    insertMesh m v t q = .ok m' := by
  obtain ⟨cur0, h1, h2, h3⟩ := hi
  unfold insertMesh
  rw [h1]
  exact flipRun_any h3

end

end Verif.Delaunay
