import Verif.Gift.Facets

set_option linter.unusedSectionVars false
set_option linter.unusedVariables false

/-!
The loop of gift wrapping: the facets found so far, the table of edges and the queue.
-/

namespace Verif.Gift

open Verif Verif.Hull3d Verif.QHull

variable {P : List (P3 ℝ)}

/-- The directed edges of a facet. -/
def darts (f : Fc) : List (ℕ × ℕ) := [(f.a, f.b), (f.b, f.c), (f.c, f.a)]

/-- The corners of a facet. -/
def corners (f : Fc) : Finset ℕ := {f.a, f.b, f.c}

/-- Different supporting triangles. -/
structure Valid (P : List (P3 ℝ)) (H : List Fc) : Prop where
  ok : ∀ f ∈ H, Ok3 P f.a f.b f.c
  dist : H.Pairwise fun f g => corners f ≠ corners g

theorem dart_third {f : Fc} (h : Ok3 P f.a f.b f.c) {x y : ℕ} (hd : (x, y) ∈ darts f) :
    ∃ w, Ok3 P x y w ∧ (y, w) ∈ darts f ∧ (w, x) ∈ darts f := by
  unfold darts at *
  simp only [List.mem_cons, Prod.mk.injEq, List.not_mem_nil, or_false] at hd
  rcases hd with ⟨rfl, rfl⟩ | ⟨rfl, rfl⟩ | ⟨rfl, rfl⟩
  · exact ⟨f.c, h, by simp, by simp⟩
  · exact ⟨f.a, h.cyc, by simp, by simp⟩
  · exact ⟨f.b, h.cyc.cyc, by simp, by simp⟩

theorem same_corners {f : Fc} (h : Ok3 P f.a f.b f.c) {x q y : ℕ} (hg : Ok3 P x q y) (he : corners f = corners ⟨x, q, y⟩) :
    (y, x) ∈ darts f := by
  have ha : f.a ∈ corners (⟨x, q, y⟩ : Fc) := by rw [← he]; simp [corners]
  have hb : f.b ∈ corners (⟨x, q, y⟩ : Fc) := by rw [← he]; simp [corners]
  have hc : f.c ∈ corners (⟨x, q, y⟩ : Fc) := by rw [← he]; simp [corners]
  simp only [corners, Finset.mem_insert, Finset.mem_singleton] at ha hb hc
  obtain ⟨n1, n2, n3⟩ := h.ne
  have d1 := h.det
  have d2 := hg.det
  unfold darts
  rcases ha with ha | ha | ha <;> rcases hb with hb | hb | hb <;> rcases hc with hc | hc | hc <;> rw [ha, hb, hc] at d1 <;> rw [ha, hb] at n1 <;> rw [hb, hc] at n2 <;> rw [hc, ha] at n3 <;> rw [ha, hb, hc] <;>
    first
      | exact absurd rfl n1 | exact absurd rfl n2 | exact absurd rfl n3 | (simp; done)
      | (exfalso; unfold det3 at d1 d2; linarith)

theorem Valid.snoc {H : List Fc} (hH : Valid P H) {x q y : ℕ} (hg : Ok3 P x q y) (hn : ∀ f ∈ H, (y, x) ∉ darts f) :
    Valid P (H ++ [⟨x, q, y⟩]) := by
  refine ⟨?_, ?_⟩
  · intro f hf
    rcases List.mem_append.mp hf with hf | hf
    · exact hH.ok f hf
    · rw [List.mem_singleton.mp hf]; exact hg
  · rw [List.pairwise_append]
    refine ⟨hH.dist, List.pairwise_singleton _ _, ?_⟩
    intro f hf g hg'
    rw [List.mem_singleton.mp hg']
    intro he
    exact hn f hf (same_corners (hH.ok f hf) hg he)

/-- The invariant. `nm` says that the buffer does not move. -/
structure Inv (P : List (P3 ℝ)) (cap : ℕ) (nm : Prop) (m : Mem) : Prop where
  ne : m.H ≠ []
  valid : Valid P m.H
  table : ∀ e, e ∈ m.T ↔ ∃ f ∈ m.H, e ∈ darts f
  len : m.T.length = 3 * m.H.length
  room : m.T.length ≤ cap
  queue : ∀ p ∈ m.Q, p.2 < m.H.length ∧ (nm → p.1 = m.gen)

/-- A later state of the loop over the edges of one facet. -/
structure Ext (nm : Prop) (m m' : Mem) : Prop where
  pre : m.H <+: m'.H
  table : m.T ⊆ m'.T
  queue : m.Q ⊆ m'.Q
  new : ∀ i, m.H.length ≤ i → i < m'.H.length → ∃ g, (g, i) ∈ m'.Q
  count : m'.H.length + m.Q.length = m.H.length + m'.Q.length
  gen : nm → m'.gen = m.gen

theorem Ext.refl (nm : Prop) (m : Mem) : Ext nm m m :=
  ⟨List.prefix_rfl, List.Subset.refl _, List.Subset.refl _, fun i h1 h2 => absurd h2 (by omega), rfl, fun _ => rfl⟩

theorem Ext.trans {nm : Prop} {a b c : Mem} (h1 : Ext nm a b) (h2 : Ext nm b c) : Ext nm a c := by
  have l1 := h1.pre.length_le
  have l2 := h2.pre.length_le
  refine ⟨h1.pre.trans h2.pre, fun _ h => h2.table (h1.table h), fun _ h => h2.queue (h1.queue h), ?_, ?_, fun h => (h2.gen h).trans (h1.gen h)⟩
  · intro i hi hi'
    rcases lt_or_ge i b.H.length with h | h
    · obtain ⟨g, hg⟩ := h1.new i hi h
      exact ⟨g, h2.queue hg⟩
    · exact h2.new i h hi'
  · have := h1.count
    have := h2.count
    omega

theorem mark_new {cap : ℕ} {T : List (ℕ × ℕ)} {e : ℕ × ℕ} (h : e ∉ T) :
    mark cap T e = if T.length < cap then .ok (e :: T) else .error .fuel := by
  unfold mark
  rw [if_neg h]

section

variable {cap : ℕ} {moves : ℕ → Bool} {pick : (ℕ → ℝ) → ℕ}

theorem addFacet_eq {m : Mem} {x q y : ℕ} (h1 : (x, q) ∉ m.T) (h2 : (q, y) ∉ m.T) (h3 : (y, x) ∉ m.T) (n1 : x ≠ q) (n2 : q ≠ y)
    (n3 : y ≠ x) : addFacet cap moves m ⟨x, q, y⟩ =
      if m.T.length + 3 ≤ cap then .ok ⟨m.H ++ [⟨x, q, y⟩], if moves m.H.length then m.gen + 1 else m.gen,
        (y, x) :: (q, y) :: (x, q) :: m.T, m.Q ++ [(if moves m.H.length then m.gen + 1 else m.gen, m.H.length)]⟩
      else .error .fuel := by
  unfold addFacet
  simp only
  generalize (if moves m.H.length = true then m.gen + 1 else m.gen) = g
  have g2 : (q, y) ∉ (x, q) :: m.T := by simp [h2]; omega
  have g3 : (y, x) ∉ (q, y) :: (x, q) :: m.T := by simp [h3]; omega
  rw [mark_new h1]
  by_cases c1 : m.T.length < cap
  · rw [if_pos c1]
    simp only [Except.bind]
    rw [mark_new g2]
    by_cases c2 : m.T.length + 1 < cap
    · rw [if_pos (by simpa using c2)]
      simp only
      rw [mark_new g3]
      by_cases c3 : m.T.length + 2 < cap
      · rw [if_pos (by simpa using c3), if_pos (by omega)]
      · rw [if_neg (by simpa using c3), if_neg (by omega)]
    · rw [if_neg (by simpa using c2), if_neg (by omega)]
  · rw [if_neg c1, if_neg (by omega)]
    rfl

/-- One edge. -/
theorem edgeStep_ok (hg : General P) (h0 : (0 : P3 ℝ) ∈ convexHull ℝ {p | p ∈ P}) (hp : PickOk P.length pick) {N : ℕ}
    (hN : ∀ H, Valid P H → H.length ≤ N) {m : Mem} (hI : Inv P cap (∀ k, 1 ≤ k → k < N → moves k = false) m) {f : ℕ × ℕ}
    {fc : Fc} (hf : m.H[f.2]? = some fc) (hgen : (∀ k, 1 ≤ k → k < N → moves k = false) → f.1 = m.gen) (j : ℕ) :
    (∃ m', edgeStep cap moves pick (at' P) f j m = .ok m' ∧ Inv P cap (∀ k, 1 ≤ k → k < N → moves k = false) m' ∧
      Ext (∀ k, 1 ≤ k → k < N → moves k = false) m m' ∧ ((edgeOf fc j).1, (edgeOf fc j).2.1) ∈ m'.T) ∨
    (edgeStep cap moves pick (at' P) f j m = .error .fuel ∧ cap < 3 * N) ∨
    (edgeStep cap moves pick (at' P) f j m = .error .ub ∧ ¬ ∀ k, 1 ≤ k → k < N → moves k = false) := by
  by_cases hgen' : f.1 = m.gen
  swap
  · refine Or.inr (Or.inr ⟨?_, fun h => hgen' (hgen h)⟩)
    unfold edgeStep Mem.deref
    rw [if_neg hgen']
    rfl
  have hder : m.deref f = .ok fc := by
    unfold Mem.deref
    rw [if_pos hgen', hf]
  have hfc : fc ∈ m.H := List.mem_of_getElem? hf
  have hok : Ok3 P (edgeOf fc j).2.1 (edgeOf fc j).1 (edgeOf fc j).2.2 := by
    have := hI.valid.ok fc hfc
    match j with
    | 0 => exact this
    | 1 => exact this.cyc
    | j + 2 => exact this.cyc.cyc
  unfold edgeStep
  rw [hder]
  simp only [Except.bind]
  generalize hy : (edgeOf fc j).1 = y at *
  generalize hx : (edgeOf fc j).2.1 = x at *
  generalize hz : (edgeOf fc j).2.2 = z at *
  unfold processed
  by_cases hT : (y, x) ∈ m.T
  · rw [if_pos hT]
    exact Or.inl ⟨m, rfl, hI, Ext.refl _ m, hT⟩
  · rw [if_neg hT]
    have hok' := pivot_ok hg h0 hp hok
    generalize pivot pick (at' P) (at' P y) (at' P x) (at' P z) = q at *
    have hval := hI.valid.snoc hok' (fun f hf hd => hT ((hI.table _).mpr ⟨f, hf, hd⟩))
    have hlen := hN _ hval
    rw [List.length_append, List.length_singleton] at hlen
    have hl := hI.len
    have hl1 : 1 ≤ m.H.length := List.length_pos_iff.mpr hI.ne
    by_cases hroom : m.T.length < cap
    · rw [if_pos hroom]
      simp only [Bool.false_eq_true, if_false]
      rw [mkFc_ok hok']
      obtain ⟨n1, n2, n3⟩ := hok'.ne
      have f1 : (x, q) ∉ m.T := by
        intro h
        obtain ⟨f, hf, hd⟩ := (hI.table _).mp h
        obtain ⟨w, hw, d1, d2⟩ := dart_third (hI.valid.ok f hf) hd
        rw [hw.uniq hg hok'] at d2
        exact hT ((hI.table _).mpr ⟨f, hf, d2⟩)
      have f2 : (q, y) ∉ m.T := by
        intro h
        obtain ⟨f, hf, hd⟩ := (hI.table _).mp h
        obtain ⟨w, hw, d1, d2⟩ := dart_third (hI.valid.ok f hf) hd
        rw [hw.uniq hg hok'.cyc] at d1
        exact hT ((hI.table _).mpr ⟨f, hf, d1⟩)
      rw [addFacet_eq f1 f2 hT n1 n2 n3]
      by_cases hr3 : m.T.length + 3 ≤ cap
      · rw [if_pos hr3]
        have hmv : (∀ k, 1 ≤ k → k < N → moves k = false) → moves m.H.length = false := fun h => h _ hl1 (by omega)
        refine Or.inl ⟨_, rfl, ⟨by simp, hval, ?_, ?_, ?_, ?_⟩, ⟨List.prefix_append _ _, ?_, ?_, ?_, ?_, ?_⟩, by simp⟩
        · intro e
          simp only [List.mem_cons, List.mem_append, List.mem_singleton, hI.table e]
          constructor
          · rintro (rfl | rfl | rfl | ⟨f, hf, hd⟩)
            · exact ⟨_, Or.inr (Or.inl rfl), by simp [darts]⟩
            · exact ⟨_, Or.inr (Or.inl rfl), by simp [darts]⟩
            · exact ⟨_, Or.inr (Or.inl rfl), by simp [darts]⟩
            · exact ⟨f, Or.inl hf, hd⟩
          · rintro ⟨f, hf | hf | hf, hd⟩
            · exact Or.inr (Or.inr (Or.inr ⟨f, hf, hd⟩))
            · rw [hf] at hd
              simp only [darts, List.mem_cons, List.not_mem_nil, or_false] at hd
              tauto
            · simp at hf
        · simp only [List.length_cons, List.length_append, List.length_nil]
          omega
        · simp only [List.length_cons]
          omega
        · intro p hp'
          simp only [List.mem_append, List.mem_singleton, List.length_append, List.length_singleton] at hp' ⊢
          rcases hp' with hp' | hp'
          · obtain ⟨a1, a2⟩ := hI.queue p hp'
            refine ⟨by omega, fun h => ?_⟩
            simp only [hmv h, Bool.false_eq_true, if_false]
            exact a2 h
          · rw [hp']
            exact ⟨by simp, fun _ => rfl⟩
        · intro e he
          simp [he]
        · intro e he
          simp [he]
        · intro i hi hi'
          simp only [List.length_append, List.length_singleton] at hi'
          have : i = m.H.length := by omega
          subst this
          exact ⟨_, List.mem_append_right _ (List.mem_singleton.mpr rfl)⟩
        · simp only [List.length_append, List.length_singleton]
          omega
        · intro h
          simp only [hmv h, Bool.false_eq_true, if_false]
      · rw [if_neg hr3]
        exact Or.inr (Or.inl ⟨rfl, by omega⟩)
    · rw [if_neg hroom]
      exact Or.inr (Or.inl ⟨rfl, by omega⟩)

/-- All edges of the facet have been crossed. -/
def Closed (T : List (ℕ × ℕ)) (f : Fc) : Prop := (f.b, f.a) ∈ T ∧ (f.c, f.b) ∈ T ∧ (f.a, f.c) ∈ T

/-- What the loop returns. -/
structure Final (P : List (P3 ℝ)) (cap : ℕ) (H : List Fc) : Prop where
  ne : H ≠ []
  valid : Valid P H
  room : 3 * H.length ≤ cap
  closed : ∀ f ∈ H, ∀ x y, (x, y) ∈ darts f → ∃ g ∈ H, (y, x) ∈ darts g

theorem prefix_get {A B : List Fc} (h : A <+: B) {i : ℕ} {f : Fc} (hi : A[i]? = some f) : B[i]? = some f := by
  obtain ⟨C, rfl⟩ := h
  have : i < A.length := by
    by_contra hc
    rw [List.getElem?_eq_none (by omega)] at hi
    cases hi
  rw [List.getElem?_append_left this]
  exact hi

theorem loop_ok (hg : General P) (h0 : (0 : P3 ℝ) ∈ convexHull ℝ {p | p ∈ P}) (hp : PickOk P.length pick) {N : ℕ}
    (hN : ∀ H, Valid P H → H.length ≤ N) : ∀ (fuel : ℕ) (m : Mem), Inv P cap (∀ k, 1 ≤ k → k < N → moves k = false) m →
    (∀ i f, m.H[i]? = some f → (∀ g, (g, i) ∉ m.Q) → Closed m.T f) →
    (∃ H, loop cap moves pick (at' P) fuel m = .ok H ∧ Final P cap H) ∨
    (loop cap moves pick (at' P) fuel m = .error .fuel ∧ (cap < 3 * N ∨ fuel + m.H.length ≤ N + m.Q.length)) ∨
    (loop cap moves pick (at' P) fuel m = .error .ub ∧ ¬ ∀ k, 1 ≤ k → k < N → moves k = false) := by
  intro fuel
  induction fuel with
  | zero =>
    intro m hI hfin
    refine Or.inr (Or.inl ⟨rfl, Or.inr ?_⟩)
    have := hN _ hI.valid
    omega
  | succ fuel ih =>
    intro m hI hfin
    unfold loop
    match hQ : m.Q with
    | [] =>
      simp only
      refine Or.inl ⟨m.H, rfl, hI.ne, hI.valid, by rw [← hI.len]; exact hI.room, ?_⟩
      intro f hf x y hd
      obtain ⟨i, hi, rfl⟩ := List.getElem_of_mem hf
      obtain ⟨c1, c2, c3⟩ := hfin i _ (List.getElem?_eq_getElem hi) (fun g hc => by rw [hQ] at hc; simp at hc)
      rw [← hI.table]
      simp only [darts, List.mem_cons, Prod.mk.injEq, List.not_mem_nil, or_false] at hd
      rcases hd with ⟨rfl, rfl⟩ | ⟨rfl, rfl⟩ | ⟨rfl, rfl⟩
      · exact c1
      · exact c2
      · exact c3
    | f :: Q =>
      simp only
      obtain ⟨f1, f2⟩ := hI.queue f (by rw [hQ]; simp)
      have hfc := List.getElem?_eq_getElem f1
      generalize m.H[f.2] = fc at hfc
      have hI1 : Inv P cap (∀ k, 1 ≤ k → k < N → moves k = false) { m with Q := Q } :=
        ⟨hI.ne, hI.valid, hI.table, hI.len, hI.room, fun p hp' => hI.queue p (by rw [hQ]; simp [show p ∈ Q from hp'])⟩
      rcases edgeStep_ok hg h0 hp hN hI1 hfc f2 0 with ⟨m1, e1, I1, X1, t1⟩ | ⟨e1, r1⟩ | ⟨e1, r1⟩
      swap
      · rw [e1]; exact Or.inr (Or.inl ⟨rfl, Or.inl r1⟩)
      swap
      · rw [e1]; exact Or.inr (Or.inr ⟨rfl, r1⟩)
      rw [e1]
      simp only [Except.bind]
      rcases edgeStep_ok hg h0 hp hN I1 (prefix_get X1.pre hfc) (fun h => (f2 h).trans (X1.gen h).symm) 1 with
        ⟨m2, e2, I2, X2, t2⟩ | ⟨e2, r2⟩ | ⟨e2, r2⟩
      swap
      · rw [e2]; exact Or.inr (Or.inl ⟨rfl, Or.inl r2⟩)
      swap
      · rw [e2]; exact Or.inr (Or.inr ⟨rfl, r2⟩)
      rw [e2]
      simp only
      have X12 := X1.trans X2
      rcases edgeStep_ok hg h0 hp hN I2 (prefix_get X12.pre hfc) (fun h => (f2 h).trans (X12.gen h).symm) 2 with
        ⟨m3, e3, I3, X3, t3⟩ | ⟨e3, r3⟩ | ⟨e3, r3⟩
      swap
      · rw [e3]; exact Or.inr (Or.inl ⟨rfl, Or.inl r3⟩)
      swap
      · rw [e3]; exact Or.inr (Or.inr ⟨rfl, r3⟩)
      rw [e3]
      simp only
      have X := X12.trans X3
      have hc := X.count
      simp only at hc
      have hlen : m.Q.length = Q.length + 1 := by rw [hQ]; rfl
      have hcl : Closed m3.T fc := ⟨X3.table (X2.table t1), X3.table t2, t3⟩
      rcases ih m3 I3 (by
        intro i f' hi hn
        rcases lt_or_ge i m.H.length with h | h
        · have hi0 := List.getElem?_eq_getElem h
          have hfe : m.H[i] = f' := by
            have := prefix_get X.pre hi0
            rw [this] at hi
            exact Option.some.inj hi
          by_cases hif : i = f.2
          · have : fc = f' := by
              rw [hif, prefix_get X.pre hfc] at hi
              exact Option.some.inj hi
            rw [← this]
            exact hcl
          · obtain ⟨c1, c2, c3⟩ := hfin i _ hi0 (fun g hm => by
              rw [hQ] at hm
              rcases List.mem_cons.mp hm with hm | hm
              · exact hif (by rw [← hm])
              · exact hn g (X.queue hm))
            rw [hfe] at c1 c2 c3
            exact ⟨X.table c1, X.table c2, X.table c3⟩
        · have hi' : i < m3.H.length := by
            by_contra hc
            rw [List.getElem?_eq_none (by omega)] at hi
            cases hi
          obtain ⟨g, hgq⟩ := X.new i h hi'
          exact absurd hgq (hn g)) with h | ⟨h, hr⟩ | h
      · exact Or.inl h
      · refine Or.inr (Or.inl ⟨h, hr.imp id fun hr => ?_⟩)
        rw [List.length_cons]
        omega
      · exact Or.inr (Or.inr h)

/-- The first facet. -/
theorem start_ok (hg : General P) (h0 : (0 : P3 ℝ) ∈ convexHull ℝ {p | p ∈ P}) (hp : PickOk P.length pick) {low : (ℕ → ℝ) → ℕ}
    (hl : LowOk P.length low) (nm : Prop) :
    (∃ m, start cap low pick (at' P) = .ok m ∧ m.H.length = 1 ∧ m.Q = [(0, 0)] ∧ m.gen = 0 ∧ Inv P cap nm m) ∨
    (start cap low pick (at' P) = .error .fuel ∧ cap < 3) := by
  unfold start
  generalize he : firstThree low pick (at' P) = p
  obtain ⟨p1, p2, p3⟩ := p
  obtain ⟨l1, l2, l3, n1, n2, n3, _, hs⟩ := first_ok hg hl hp he
  have hsup : ∀ p ∈ P, sv (at' P p3) (at' P p2) (at' P p1) p ≤ 0 := by
    intro p hp'
    have := hs p hp'
    rw [← sv_cyc, sv_swap, sv_cyc, sv_cyc] at this
    rw [sv_poly] at this ⊢
    linarith
  have hok : Ok3 P p3 p2 p1 := ⟨l3, l2, l1, lt_of_le_of_ne (sup_origin h0 hsup) (hg.det_ne l3 l2 l1 n3.symm n2.symm n1.symm), hsup⟩
  simp only
  rw [mkFc_ok hok, mark_new (by simp)]
  by_cases c1 : 3 ≤ cap
  · left
    rw [if_pos (by simp; omega)]
    simp only [Except.bind]
    rw [mark_new (by simp; omega), if_pos (by simp; omega)]
    simp only
    rw [mark_new (by simp; omega), if_pos (by simp; omega)]
    refine ⟨_, rfl, rfl, rfl, rfl, by simp, ⟨?_, by simp⟩, ?_, by simp, by simp; omega, ?_⟩
    · intro f hf
      rw [List.mem_singleton.mp hf]
      exact hok
    · intro e
      simp only [List.mem_cons, List.not_mem_nil, or_false, exists_eq_left, darts]
      tauto
    · intro p hp'
      rw [List.mem_singleton.mp hp']
      simp
  · right
    refine ⟨?_, by omega⟩
    by_cases c2 : 0 < cap
    · rw [if_pos (by simpa using c2)]
      simp only [Except.bind]
      rw [mark_new (by simp; omega)]
      by_cases c3 : 1 < cap
      · rw [if_pos (by simpa using c3)]
        simp only
        rw [mark_new (by simp; omega), if_neg (by simp; omega)]
      · rw [if_neg (by simpa using c3)]
    · rw [if_neg (by simpa using c2)]
      rfl

end

end Verif.Gift
