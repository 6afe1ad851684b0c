import Verif.Mst.FineModel
import Verif.Mst.KruskalRound
import Mathlib.Algebra.Order.BigOperators.Group.Finset

set_option linter.unusedSectionVars false
set_option linter.unusedVariables false

/-! The reserve loop access by access: every schedule keeps the invariant, and a finished loop has reserved for the
least iteration. -/

namespace Verif.Mst

open Verif.UF

variable {σ : Type} {D : Data} {G : (ℕ → ℕ) → Set ℕ → σ → Prop}

/-- A find of `x` in progress. -/
def FindOk (n : ℕ) (rt dep : ℕ → ℕ) (w : ℕ) (pc : Pc) : Prop :=
  ∃ a, a < n ∧ rt a = rt w ∧ PcOk n rt dep a pc ∧ ∀ r, pc = .done r → r = (rt w : ℕ)

/-- The end points of edge `i` have been replaced by their roots. -/
def HasU (D : Data) (rt : ℕ → ℕ) (s : KSt σ) (i : ℕ) : Prop := s.eu[i]? = some ((rt (D.u i) : ℕ) : ℤ)

/-- The end points of edge `i` have been replaced by their roots. -/
def HasV (D : Data) (rt : ℕ → ℕ) (s : KSt σ) (i : ℕ) : Prop := s.ev[i]? = some ((rt (D.v i) : ℕ) : ℤ)

/-- What iteration `i` knows. -/
def RPcOk (D : Data) (rt dep : ℕ → ℕ) (s : KSt σ) (i : ℕ) : RPc → Prop
  | .start => True
  | .findU pc => FindOk D.n rt dep (D.u i) pc
  | .findV u pc => u = (rt (D.u i) : ℕ) ∧ HasU D rt s i ∧ FindOk D.n rt dep (D.v i) pc
  | .loadV u v | .loadU u v => u = (rt (D.u i) : ℕ) ∧ v = (rt (D.v i) : ℕ) ∧ HasU D rt s i ∧ HasV D rt s i ∧ Active D rt i
  | .casV u v c | .casU u v c => u = (rt (D.u i) : ℕ) ∧ v = (rt (D.v i) : ℕ) ∧ HasU D rt s i ∧ HasV D rt s i ∧
      Active D rt i ∧ ltOpt i c = true
  | .fin b => HasU D rt s i ∧ HasV D rt s i ∧ (b = true ↔ Active D rt i)

/-- Iteration is through with the reservation of the root of its second end. -/
def RPc.pastV : RPc → Prop
  | .loadU _ _ | .casU _ _ _ | .fin _ => True
  | _ => False

/-- Iteration is through with the reservation of the root of its first end. -/
def RPc.pastU : RPc → Prop
  | .fin _ => True
  | _ => False

/-- Reservation of `x`: an iteration of the loop that touches `x`, not greater than those that are through. -/
structure CellOk (D : Data) (rt : ℕ → ℕ) (its : List ℕ) (pcs : ℕ → RPc) (x : ℕ) (q : Option ℕ) : Prop where
  v : ∀ j ∈ its, (pcs j).pastV → Active D rt j → x = rt (D.v j) → ∃ i, q = some i ∧ i ≤ j
  u : ∀ j ∈ its, (pcs j).pastU → Active D rt j → x = rt (D.u j) → ∃ i, q = some i ∧ i ≤ j
  mem : ∀ i, q = some i → i ∈ its ∧ Touches D rt i x

/-- Invariant of the reserve loop. -/
structure FRInv (D : Data) (G : (ℕ → ℕ) → Set ℕ → σ → Prop) (rt dep : ℕ → ℕ) (T : Set ℕ) (its : List ℕ) (st : FSt RPc σ) :
    Prop where
  base : Base D G rt dep T st.s
  pc : ∀ i ∈ its, RPcOk D rt dep st.s i (st.pcs i)
  R : ∀ x < D.n, rt x = x → ∃ q, st.s.R[x]? = some q ∧ CellOk D rt its st.pcs x q

theorem FRInv.start {rt dep : ℕ → ℕ} {T : Set ℕ} {its : List ℕ} {s : KSt σ} (hb : Base D G rt dep T s)
    (hfree : ∀ x < D.n, rt x = x → s.R[x]? = some none) : FRInv D G rt dep T its ⟨fun _ => .start, s⟩ :=
  ⟨hb, fun _ _ => trivial, fun x hx hr => ⟨none, hfree x hx hr,
    ⟨fun _ _ h => h.elim, fun _ _ h => h.elim, fun _ h => by simp at h⟩⟩⟩

/-- Others do not notice a step that keeps their end points. -/
theorem RPcOk.mono {rt dep : ℕ → ℕ} {s s' : KSt σ} {i : ℕ} {pc : RPc} (h : RPcOk D rt dep s i pc)
    (hu : s'.eu[i]? = s.eu[i]?) (hv : s'.ev[i]? = s.ev[i]?) : RPcOk D rt dep s' i pc := by
  cases pc <;> simp only [RPcOk, HasU, HasV, hu, hv] at h ⊢ <;> exact h

theorem CellOk.step {rt : ℕ → ℕ} {its : List ℕ} {pcs : ℕ → RPc} {x : ℕ} {q : Option ℕ} (h : CellOk D rt its pcs x q)
    (i : ℕ) (pc : RPc) (hv : pc.pastV → (pcs i).pastV ∨ ¬ Active D rt i ∨ x ≠ rt (D.v i) ∨ ∃ k, q = some k ∧ k ≤ i)
    (hu : pc.pastU → (pcs i).pastU ∨ ¬ Active D rt i ∨ x ≠ rt (D.u i) ∨ ∃ k, q = some k ∧ k ≤ i) :
    CellOk D rt its (Function.update pcs i pc) x q := by
  refine ⟨?_, ?_, h.mem⟩
  · intro j hj hp ha hx
    by_cases e : j = i
    · subst e
      rw [Function.update_self] at hp
      rcases hv hp with h1 | h1 | h1 | h1
      · exact h.v j hj h1 ha hx
      · exact absurd ha h1
      · exact absurd hx h1
      · exact h1
    · rw [Function.update_of_ne e] at hp
      exact h.v j hj hp ha hx
  · intro j hj hp ha hx
    by_cases e : j = i
    · subst e
      rw [Function.update_self] at hp
      rcases hu hp with h1 | h1 | h1 | h1
      · exact h.u j hj h1 ha hx
      · exact absurd ha h1
      · exact absurd hx h1
      · exact h1
    · rw [Function.update_of_ne e] at hp
      exact h.u j hj hp ha hx

/-- Lowering the reservation. -/
theorem CellOk.lower {rt : ℕ → ℕ} {its : List ℕ} {pcs : ℕ → RPc} {x : ℕ} {q : Option ℕ} (h : CellOk D rt its pcs x q)
    (i : ℕ) (hi : i ∈ its) (hl : ltOpt i q = true) (ht : Touches D rt i x) : CellOk D rt its pcs x (some i) := by
  have key : ∀ j, (∃ k, q = some k ∧ k ≤ j) → ∃ k, some i = some k ∧ k ≤ j := by
    rintro j ⟨k, rfl, hk⟩
    simp only [ltOpt, decide_eq_true_eq] at hl
    exact ⟨i, rfl, by omega⟩
  refine ⟨fun j hj hp ha hx => key j (h.v j hj hp ha hx), fun j hj hp ha hx => key j (h.u j hj hp ha hx), ?_⟩
  intro k hk
  cases hk
  exact ⟨hi, ht⟩

theorem not_ltOpt {i : ℕ} {q : Option ℕ} (h : ¬ ltOpt i q = true) : ∃ k, q = some k ∧ k ≤ i := by
  cases q with
  | none => simp [ltOpt] at h
  | some k => exact ⟨k, rfl, by simpa [ltOpt] using h⟩

theorem casR_ok {R : List (Option ℕ)} {x : ℕ} {q c : Option ℕ} {i : ℕ} {spur : Bool} (h : R[x]? = some q) :
    casR R x c i spur = if q = c ∧ spur = false then .ok (true, R.set x (some i)) else .ok (false, R) := by
  unfold casR
  rw [rd_ok h]
  simp only [Except.bind]
  split
  · rw [wr_ok _ (List.getElem?_eq_some_iff.mp h).1]; rfl
  · rfl

/-- A step that changes only its own counter and does not get past a cell. -/
theorem FRInv.quiet {rt dep : ℕ → ℕ} {T : Set ℕ} {its : List ℕ} {st : FSt RPc σ} (h : FRInv D G rt dep T its st)
    (i : ℕ) (pc : RPc) (s' : KSt σ) (hb : Base D G rt dep T s') (hR : s'.R = st.s.R)
    (hu : ∀ j, j ≠ i → s'.eu[j]? = st.s.eu[j]?) (hv : ∀ j, j ≠ i → s'.ev[j]? = st.s.ev[j]?)
    (hpc : RPcOk D rt dep s' i pc)
    (hV : ∀ x q, st.s.R[x]? = some q → pc.pastV → (st.pcs i).pastV ∨ ¬ Active D rt i ∨ x ≠ rt (D.v i) ∨ ∃ k, q = some k ∧ k ≤ i)
    (hU : ∀ x q, st.s.R[x]? = some q → pc.pastU → (st.pcs i).pastU ∨ ¬ Active D rt i ∨ x ≠ rt (D.u i) ∨ ∃ k, q = some k ∧ k ≤ i) :
    FRInv D G rt dep T its ⟨Function.update st.pcs i pc, s'⟩ := by
  refine ⟨hb, ?_, ?_⟩
  · intro j hj
    by_cases e : j = i
    · subst e
      simp only [Function.update_self]
      exact hpc
    · simp only [Function.update_of_ne e]
      exact (h.pc j hj).mono (hu j e) (hv j e)
  · intro x hx hr
    obtain ⟨q, hq, hc⟩ := h.R x hx hr
    refine ⟨q, by rw [← hq, ← hR], hc.step i pc (hV x q hq) (hU x q hq)⟩

theorem Base.withP {rt dep : ℕ → ℕ} {T : Set ℕ} {s : KSt σ} (h : Base D G rt dep T s) {P : List ℤ}
    (hP : Forest P D.n rt dep) : Base D G rt dep T { s with P := P } :=
  ⟨hP, h.conn, h.euLen, h.evLen, h.RLen, h.eu, h.ev, h.out⟩

theorem Base.withR {rt dep : ℕ → ℕ} {T : Set ℕ} {s : KSt σ} (h : Base D G rt dep T s) {R : List (Option ℕ)}
    (hR : R.length = s.R.length) : Base D G rt dep T { s with R := R } :=
  ⟨h.forest, h.conn, h.euLen, h.evLen, hR.trans h.RLen, h.eu, h.ev, h.out⟩

/-- The find machine under the invariant. -/
theorem findOk_step {P : List ℤ} {n : ℕ} {rt dep : ℕ → ℕ} (hF : Forest P n rt dep) {w : ℕ} {pc : Pc}
    (h : FindOk n rt dep w pc) (hnd : ∀ r, pc ≠ .done r) :
    ∃ pc' P', pcStep P pc = .ok (pc', P') ∧ Forest P' n rt dep ∧ FindOk n rt dep w pc' ∧
      pcWork n dep pc' < pcWork n dep pc := by
  obtain ⟨a, ha, hra, hp, hd⟩ := h
  obtain ⟨pc', P', h1, h2, h3, h4, h5⟩ := pcStep_ok hF a ha pc hp
  exact ⟨pc', P', h1, h2, ⟨a, ha, hra, h3, fun r hr => by rw [h4 r hr (hnd r), hra]⟩, h5 hnd⟩

theorem rStep_findU {i : ℕ} {spur : Bool} {s : KSt σ} {pc : Pc} (h : ∀ r, pc ≠ .done r) :
    rStep i spur s (.findU pc) = (pcStep s.P pc).map fun r => (.findU r.1, { s with P := r.2 }) := by
  cases pc <;> first | rfl | exact absurd rfl (h _)

theorem rStep_findV {i : ℕ} {spur : Bool} {s : KSt σ} {u : ℤ} {pc : Pc} (h : ∀ r, pc ≠ .done r) :
    rStep i spur s (.findV u pc) = (pcStep s.P pc).map fun r => (.findV u r.1, { s with P := r.2 }) := by
  cases pc <;> first | rfl | exact absurd rfl (h _)

/-- Work left of an iteration of the reserve loop with `N` iterations; a compare-and-swap bound to fail counts more. -/
def rWork (N n : ℕ) (dep : ℕ → ℕ) (R : List (Option ℕ)) : RPc → ℕ
  | .start => 4 * N + 6 * n + 16
  | .findU pc => 4 * N + 3 * n + 11 + pcWork n dep pc
  | .findV _ pc => 4 * N + 6 + pcWork n dep pc
  | .loadV _ _ => 4 * N + 5
  | .casV _ v c => if R[v.toNat]? = some c then 4 * N + 4 else 4 * N + 6
  | .loadU _ _ => 2 * N + 2
  | .casU u _ c => if R[u.toNat]? = some c then 2 * N + 1 else 2 * N + 3
  | .fin _ => 0

/-- An unfinished iteration makes an access: the invariant stays, its work gets less, by much if it changes a reservation. -/
theorem rStep_ok {rt dep : ℕ → ℕ} {T : Set ℕ} {its : List ℕ} {st : FSt RPc σ} (h : FRInv D G rt dep T its st)
    (N i : ℕ) (hi : i ∈ its) (him : i < D.m) (spur : Bool) :
    ∃ pc' s', rStep i spur st.s (st.pcs i) = .ok (pc', s') ∧
      FRInv D G rt dep T its ⟨Function.update st.pcs i pc', s'⟩ ∧
      ((∀ b, st.pcs i ≠ .fin b) →
        (spur = true ∧ s'.R = st.s.R ∧ rWork N D.n dep s'.R pc' ≤ rWork N D.n dep st.s.R (st.pcs i) + 1) ∨
        (s'.R = st.s.R ∧ rWork N D.n dep s'.R pc' < rWork N D.n dep st.s.R (st.pcs i)) ∨
        rWork N D.n dep s'.R pc' + 2 * N + 1 ≤ rWork N D.n dep st.s.R (st.pcs i)) := by
  have hpc := h.pc i hi
  obtain ⟨hun, _, hur⟩ := h.base.forest.root _ (D.hu i him)
  obtain ⟨hvn, _, hvr⟩ := h.base.forest.root _ (D.hv i him)
  cases hp : st.pcs i with
  | start =>
    obtain ⟨a, ha, hea, hra⟩ := h.base.eu i him
    refine ⟨.findU (.test a), st.s, by simp only [rStep, rd_ok hea, Except.map], ?_, ?_⟩
    · refine h.quiet i _ _ h.base rfl (fun _ _ => rfl) (fun _ _ => rfl) ⟨a, ha, hra, rfl, by simp⟩ ?_ ?_
      · intro _ _ _ h1; exact h1.elim
      · intro _ _ _ h1; exact h1.elim
    · intro _
      right; left
      refine ⟨rfl, ?_⟩
      simp only [rWork, pcWork]
      omega
  | findU pc =>
    rw [hp] at hpc
    by_cases hd : ∃ r, pc = .done r
    · obtain ⟨u, rfl⟩ := hd
      obtain ⟨a, ha, hra, -, hdone⟩ := hpc
      have hu : u = (rt (D.u i) : ℕ) := hdone u rfl
      subst hu
      obtain ⟨b, hb, heb, hrb⟩ := h.base.ev i him
      have hil : i < st.s.eu.length := by rw [h.base.euLen]; exact him
      refine ⟨.findV (rt (D.u i) : ℕ) (.test b), { st.s with eu := st.s.eu.set i ((rt (D.u i) : ℕ) : ℤ) },
        by simp only [rStep, wr_ok _ hil, rd_ok heb, Except.bind, Except.map], ?_, ?_⟩
      · refine h.quiet i _ _ ?_ rfl ?_ (fun _ _ => rfl) ?_ ?_ ?_
        · refine ⟨h.base.forest, h.base.conn, by simpa using h.base.euLen, h.base.evLen, h.base.RLen, ?_, h.base.ev,
            h.base.out⟩
          intro j hj
          simp only [getElem?_set_if hil]
          split
          · rename_i e
            subst e
            exact ⟨_, hun, rfl, hur⟩
          · exact h.base.eu j hj
        · intro j hj
          simp only [getElem?_set_if hil, if_neg hj]
        · refine ⟨rfl, ?_, b, hb, hrb, rfl, by simp⟩
          simp [HasU, hil]
        · intro _ _ _ h1; exact h1.elim
        · intro _ _ _ h1; exact h1.elim
      · intro _
        right; left
        refine ⟨rfl, ?_⟩
        simp only [rWork, pcWork]
        omega
    · have hd' : ∀ r, pc ≠ .done r := fun r hr => hd ⟨r, hr⟩
      obtain ⟨pc', P', h1, h2, h3, h4⟩ := findOk_step h.base.forest hpc hd'
      refine ⟨.findU pc', { st.s with P := P' }, by rw [rStep_findU hd', h1]; rfl, ?_, ?_⟩
      · refine h.quiet i _ _ (h.base.withP h2) rfl (fun _ _ => rfl) (fun _ _ => rfl) h3 ?_ ?_
        · intro _ _ _ h1; exact h1.elim
        · intro _ _ _ h1; exact h1.elim
      · intro _
        right; left
        refine ⟨rfl, ?_⟩
        simp only [rWork]
        omega
  | findV u pc =>
    rw [hp] at hpc
    obtain ⟨hu, hU, hpc⟩ := hpc
    subst hu
    by_cases hd : ∃ r, pc = .done r
    · obtain ⟨v, rfl⟩ := hd
      obtain ⟨a, ha, hra, -, hdone⟩ := hpc
      have hv : v = (rt (D.v i) : ℕ) := hdone v rfl
      subst hv
      have hil : i < st.s.ev.length := by rw [h.base.evLen]; exact him
      have hb' : Base D G rt dep T { st.s with ev := st.s.ev.set i ((rt (D.v i) : ℕ) : ℤ) } := by
        refine ⟨h.base.forest, h.base.conn, h.base.euLen, by simpa using h.base.evLen, h.base.RLen, h.base.eu, ?_,
          h.base.out⟩
        intro j hj
        simp only [getElem?_set_if hil]
        split
        · rename_i e
          subst e
          exact ⟨_, hvn, rfl, hvr⟩
        · exact h.base.ev j hj
      have hV' : HasV D rt { st.s with ev := st.s.ev.set i ((rt (D.v i) : ℕ) : ℤ) } i := by simp [HasV, hil]
      by_cases hne : rt (D.u i) = rt (D.v i)
      · have hna : ¬ Active D rt i := fun h => h hne
        refine ⟨.fin false, { st.s with ev := st.s.ev.set i ((rt (D.v i) : ℕ) : ℤ) },
          by simp [rStep, wr_ok _ hil, Except.map, hne], ?_, ?_⟩
        · refine h.quiet i _ _ hb' rfl (fun _ _ => rfl) ?_ ⟨hU, hV', by simp [hna]⟩ ?_ ?_
          · intro j hj
            simp only [getElem?_set_if hil, if_neg hj]
          · intro _ _ _ _; exact Or.inr (Or.inl hna)
          · intro _ _ _ _; exact Or.inr (Or.inl hna)
        · intro _
          right; left
          refine ⟨rfl, ?_⟩
          simp only [rWork, pcWork]
          omega
      · refine ⟨.loadV (rt (D.u i) : ℕ) (rt (D.v i) : ℕ), { st.s with ev := st.s.ev.set i ((rt (D.v i) : ℕ) : ℤ) },
          by simp only [rStep, wr_ok _ hil, Except.map]; rw [if_pos (by simpa using hne)], ?_, ?_⟩
        · refine h.quiet i _ _ hb' rfl (fun _ _ => rfl) ?_ ⟨rfl, rfl, hU, hV', hne⟩ ?_ ?_
          · intro j hj
            simp only [getElem?_set_if hil, if_neg hj]
          · intro _ _ _ h1; exact h1.elim
          · intro _ _ _ h1; exact h1.elim
        · intro _
          right; left
          refine ⟨rfl, ?_⟩
          simp only [rWork, pcWork]
          omega
    · have hd' : ∀ r, pc ≠ .done r := fun r hr => hd ⟨r, hr⟩
      obtain ⟨pc', P', h1, h2, h3, h4⟩ := findOk_step h.base.forest hpc hd'
      refine ⟨.findV (rt (D.u i) : ℕ) pc', { st.s with P := P' }, by rw [rStep_findV hd', h1]; rfl, ?_, ?_⟩
      · refine h.quiet i _ _ (h.base.withP h2) rfl (fun _ _ => rfl) (fun _ _ => rfl) ⟨rfl, hU, h3⟩ ?_ ?_
        · intro _ _ _ h1; exact h1.elim
        · intro _ _ _ h1; exact h1.elim
      · intro _
        right; left
        refine ⟨rfl, ?_⟩
        simp only [rWork]
        omega
  | loadV u v =>
    rw [hp] at hpc
    obtain ⟨rfl, rfl, hU, hV, ha⟩ := hpc
    obtain ⟨q, hq, hc⟩ := h.R _ hvn hvr
    by_cases hl : ltOpt i q = true
    · refine ⟨.casV (rt (D.u i) : ℕ) (rt (D.v i) : ℕ) q, st.s, by simp only [rStep, rd_ok hq, Except.map, if_pos hl], ?_, ?_⟩
      · refine h.quiet i _ _ h.base rfl (fun _ _ => rfl) (fun _ _ => rfl) ⟨rfl, rfl, hU, hV, ha, hl⟩ ?_ ?_
        · intro _ _ _ h1; exact h1.elim
        · intro _ _ _ h1; exact h1.elim
      · intro _
        right; left
        refine ⟨rfl, ?_⟩
        simp only [rWork, Int.toNat_natCast, hq, if_true]
        omega
    · refine ⟨.loadU (rt (D.u i) : ℕ) (rt (D.v i) : ℕ), st.s, by simp only [rStep, rd_ok hq, Except.map, if_neg hl], ?_, ?_⟩
      · refine h.quiet i _ _ h.base rfl (fun _ _ => rfl) (fun _ _ => rfl) ⟨rfl, rfl, hU, hV, ha⟩ ?_ ?_
        · intro x q' hq' _
          by_cases hx : x = rt (D.v i)
          · subst hx
            rw [hq] at hq'
            cases hq'
            exact Or.inr (Or.inr (Or.inr (not_ltOpt hl)))
          · exact Or.inr (Or.inr (Or.inl hx))
        · intro _ _ _ h1; exact h1.elim
      · intro _
        right; left
        refine ⟨rfl, ?_⟩
        simp only [rWork]
        omega
  | casV u v c =>
    rw [hp] at hpc
    obtain ⟨rfl, rfl, hU, hV, ha, hl⟩ := hpc
    obtain ⟨q, hq, hc⟩ := h.R _ hvn hvr
    have hxl : rt (D.v i) < st.s.R.length := (List.getElem?_eq_some_iff.mp hq).1
    by_cases hs : q = c ∧ spur = false
    · obtain ⟨rfl, rfl⟩ := hs
      refine ⟨.loadU (rt (D.u i) : ℕ) (rt (D.v i) : ℕ), { st.s with R := st.s.R.set (rt (D.v i)) (some i) },
        by simp [rStep, casR_ok hq, Except.map], ⟨h.base.withR (by simp), ?_, ?_⟩, ?_⟩
      · intro j hj
        by_cases e : j = i
        · subst e
          simp only [Function.update_self]
          exact ⟨rfl, rfl, hU, hV, ha⟩
        · simp only [Function.update_of_ne e]
          exact (h.pc j hj).mono rfl rfl
      · intro x hx hr
        simp only [getElem?_set_if hxl]
        split
        · rename_i e
          subst e
          refine ⟨some i, rfl, (hc.lower i hi hl ⟨ha, Or.inr rfl⟩).step i _ ?_ ?_⟩
          · intro _; exact Or.inr (Or.inr (Or.inr ⟨i, rfl, le_refl _⟩))
          · intro h1; exact h1.elim
        · rename_i e
          obtain ⟨q', hq', hc'⟩ := h.R x hx hr
          refine ⟨q', hq', hc'.step i _ ?_ ?_⟩
          · intro _; exact Or.inr (Or.inr (Or.inl e))
          · intro h1; exact h1.elim
      · intro _
        right; right
        simp only [rWork]
        split <;> omega
    · refine ⟨.loadV (rt (D.u i) : ℕ) (rt (D.v i) : ℕ), st.s, by simp [rStep, casR_ok hq, Except.map, if_neg hs], ?_, ?_⟩
      · refine h.quiet i _ _ h.base rfl (fun _ _ => rfl) (fun _ _ => rfl) ⟨rfl, rfl, hU, hV, ha⟩ ?_ ?_
        · intro _ _ _ h1; exact h1.elim
        · intro _ _ _ h1; exact h1.elim
      · intro _
        cases spur with
        | true =>
          left
          refine ⟨rfl, rfl, ?_⟩
          simp only [rWork]
          split <;> omega
        | false =>
          right; left
          refine ⟨rfl, ?_⟩
          have hqc : q ≠ c := fun h => hs ⟨h, rfl⟩
          simp only [rWork, Int.toNat_natCast, hq, Option.some.injEq, if_neg hqc]
          omega
  | loadU u v =>
    rw [hp] at hpc
    obtain ⟨rfl, rfl, hU, hV, ha⟩ := hpc
    obtain ⟨q, hq, hc⟩ := h.R _ hun hur
    by_cases hl : ltOpt i q = true
    · refine ⟨.casU (rt (D.u i) : ℕ) (rt (D.v i) : ℕ) q, st.s, by simp only [rStep, rd_ok hq, Except.map, if_pos hl], ?_, ?_⟩
      · refine h.quiet i _ _ h.base rfl (fun _ _ => rfl) (fun _ _ => rfl) ⟨rfl, rfl, hU, hV, ha, hl⟩ ?_ ?_
        · intro _ _ _ _; rw [hp]; exact Or.inl trivial
        · intro _ _ _ h1; exact h1.elim
      · intro _
        right; left
        refine ⟨rfl, ?_⟩
        simp only [rWork, Int.toNat_natCast, hq, if_true]
        omega
    · refine ⟨.fin true, st.s, by simp only [rStep, rd_ok hq, Except.map, if_neg hl], ?_, ?_⟩
      · refine h.quiet i _ _ h.base rfl (fun _ _ => rfl) (fun _ _ => rfl) ⟨hU, hV, by simp [ha]⟩ ?_ ?_
        · intro _ _ _ _; rw [hp]; exact Or.inl trivial
        · intro x q' hq' _
          by_cases hx : x = rt (D.u i)
          · subst hx
            rw [hq] at hq'
            cases hq'
            exact Or.inr (Or.inr (Or.inr (not_ltOpt hl)))
          · exact Or.inr (Or.inr (Or.inl hx))
      · intro _
        right; left
        refine ⟨rfl, ?_⟩
        simp only [rWork]
        omega
  | casU u v c =>
    rw [hp] at hpc
    obtain ⟨rfl, rfl, hU, hV, ha, hl⟩ := hpc
    obtain ⟨q, hq, hc⟩ := h.R _ hun hur
    have hxl : rt (D.u i) < st.s.R.length := (List.getElem?_eq_some_iff.mp hq).1
    by_cases hs : q = c ∧ spur = false
    · obtain ⟨rfl, rfl⟩ := hs
      refine ⟨.fin true, { st.s with R := st.s.R.set (rt (D.u i)) (some i) },
        by simp [rStep, casR_ok hq, Except.map], ⟨h.base.withR (by simp), ?_, ?_⟩, ?_⟩
      · intro j hj
        by_cases e : j = i
        · subst e
          simp only [Function.update_self]
          exact ⟨hU, hV, by simp [ha]⟩
        · simp only [Function.update_of_ne e]
          exact (h.pc j hj).mono rfl rfl
      · intro x hx hr
        simp only [getElem?_set_if hxl]
        split
        · rename_i e
          subst e
          refine ⟨some i, rfl, (hc.lower i hi hl ⟨ha, Or.inl rfl⟩).step i _ ?_ ?_⟩
          · intro _; rw [hp]; exact Or.inl trivial
          · intro _; exact Or.inr (Or.inr (Or.inr ⟨i, rfl, le_refl _⟩))
        · rename_i e
          obtain ⟨q', hq', hc'⟩ := h.R x hx hr
          refine ⟨q', hq', hc'.step i _ ?_ ?_⟩
          · intro _; rw [hp]; exact Or.inl trivial
          · intro _; exact Or.inr (Or.inr (Or.inl e))
      · intro _
        right; right
        simp only [rWork]
        split <;> omega
    · refine ⟨.loadU (rt (D.u i) : ℕ) (rt (D.v i) : ℕ), st.s, by simp [rStep, casR_ok hq, Except.map, if_neg hs], ?_, ?_⟩
      · refine h.quiet i _ _ h.base rfl (fun _ _ => rfl) (fun _ _ => rfl) ⟨rfl, rfl, hU, hV, ha⟩ ?_ ?_
        · intro _ _ _ _; rw [hp]; exact Or.inl trivial
        · intro _ _ _ h1; exact h1.elim
      · intro _
        cases spur with
        | true =>
          left
          refine ⟨rfl, rfl, ?_⟩
          simp only [rWork]
          split <;> omega
        | false =>
          right; left
          refine ⟨rfl, ?_⟩
          have hqc : q ≠ c := fun h => hs ⟨h, rfl⟩
          simp only [rWork, Int.toNat_natCast, hq, Option.some.injEq, if_neg hqc]
          omega
  | fin b =>
    refine ⟨.fin b, st.s, rfl, ?_, fun h => absurd rfl (h b)⟩
    rw [← hp, Function.update_eq_self]
    exact h

/-! ### The whole loop -/

/-- Work left of all iterations. -/
def rTotal (D : Data) (dep : ℕ → ℕ) (its : List ℕ) (st : FSt RPc σ) : ℕ :=
  ∑ i ∈ its.toFinset, rWork its.length D.n dep st.s.R (st.pcs i)

theorem rWork_le (N n : ℕ) (dep : ℕ → ℕ) (R R' : List (Option ℕ)) (pc : RPc) :
    rWork N n dep R' pc ≤ rWork N n dep R pc + 2 := by
  cases pc <;> simp only [rWork] <;> (try split_ifs) <;> omega

theorem sum_update {its : Finset ℕ} {i : ℕ} (hi : i ∈ its) (f g : ℕ → ℕ) (c : ℕ) (h : ∀ j ∈ its, j ≠ i → g j ≤ f j + c) :
    ∑ j ∈ its, g j + f i ≤ ∑ j ∈ its, f j + g i + c * its.card := by
  rw [← Finset.add_sum_erase _ f hi, ← Finset.add_sum_erase _ g hi]
  have h1 : ∑ j ∈ its.erase i, g j ≤ ∑ j ∈ its.erase i, (f j + c) :=
    Finset.sum_le_sum fun j hj => h j (Finset.mem_of_mem_erase hj) (Finset.ne_of_mem_erase hj)
  rw [Finset.sum_add_distrib, Finset.sum_const, Nat.nsmul_eq_mul] at h1
  have h2 : (its.erase i).card * c ≤ c * its.card := by
    rw [Nat.mul_comm]
    exact Nat.mul_le_mul_left _ (Finset.card_le_card (Finset.erase_subset _ _))
  omega

theorem RPc.res_isSome {pc : RPc} : pc.res.isSome = true ↔ ∃ b, pc = .fin b := by
  cases pc <;> simp [RPc.res]

theorem fstep_ok {rt dep : ℕ → ℕ} {T : Set ℕ} {its : List ℕ} (hlt : ∀ i ∈ its, i < D.m) (hnd : its.Nodup)
    {st : FSt RPc σ} (h : FRInv D G rt dep T its st) (e : ℕ × Bool) :
    ∃ st', fstep rStep its st e = .ok st' ∧ FRInv D G rt dep T its st' ∧
      (∀ i b, st.pcs i = .fin b → st'.pcs i = .fin b) ∧
      rTotal D dep its st' ≤ rTotal D dep its st + 2 * e.2.toNat ∧
      (e.1 ∈ its → (∀ b, st.pcs e.1 ≠ .fin b) → rTotal D dep its st' + 1 ≤ rTotal D dep its st + 2 * e.2.toNat) := by
  obtain ⟨i, spur⟩ := e
  by_cases hi : i ∈ its
  · obtain ⟨pc', s', h1, h2, h3⟩ := rStep_ok h its.length i hi (hlt i hi) spur
    refine ⟨⟨Function.update st.pcs i pc', s'⟩, by simp only [fstep, if_pos hi, h1, Except.map], h2, ?_, ?_⟩
    · intro j b hj
      by_cases e : j = i
      · subst e
        rw [hj] at h1
        simp only [rStep, Except.ok.injEq, Prod.mk.injEq] at h1
        simp [← h1.1]
      · simpa only [Function.update_of_ne e] using hj
    · by_cases hf : ∃ b, st.pcs i = .fin b
      · obtain ⟨b, hb⟩ := hf
        rw [hb] at h1
        simp only [rStep, Except.ok.injEq, Prod.mk.injEq] at h1
        obtain ⟨rfl, rfl⟩ := h1
        rw [← hb, Function.update_eq_self]
        exact ⟨Nat.le_add_right _ _, fun _ h => absurd hb (h b)⟩
      · have hf' : ∀ b, st.pcs i ≠ .fin b := fun b hb => hf ⟨b, hb⟩
        have hcard : its.toFinset.card = its.length := List.toFinset_card_of_nodup hnd
        have key : rTotal D dep its ⟨Function.update st.pcs i pc', s'⟩ + 1 ≤ rTotal D dep its st + 2 * spur.toNat := by
          unfold rTotal
          dsimp only
          have hsum := fun c hc => sum_update (List.mem_toFinset.mpr hi)
            (fun j => rWork its.length D.n dep st.s.R (st.pcs j))
            (fun j => rWork its.length D.n dep s'.R (Function.update st.pcs i pc' j)) c hc
          simp only [Function.update_self] at hsum
          rcases h3 hf' with ⟨rfl, hR, hw⟩ | ⟨hR, hw⟩ | hw
          · have h4 := hsum 0 (by
              intro j _ hj
              simp only [Function.update_of_ne hj, hR]
              omega)
            simp only [Bool.toNat_true]
            omega
          · have h4 := hsum 0 (by
              intro j _ hj
              simp only [Function.update_of_ne hj, hR]
              omega)
            omega
          · have h4 := hsum 2 (by
              intro j _ hj
              simp only [Function.update_of_ne hj]
              exact rWork_le _ _ _ _ _ _)
            rw [hcard] at h4
            omega
        exact ⟨by dsimp only; omega, fun _ _ => key⟩
  · exact ⟨st, by simp only [fstep, if_neg hi], h, fun _ _ h => h, by omega, fun h => absurd h hi⟩

/-- Number of spurious failures in a schedule. -/
def spurs (sched : List (ℕ × Bool)) : ℕ := sched.countP fun e => e.2

/-- Number of accesses of an iteration in a schedule. -/
def turns (sched : List (ℕ × Bool)) (i : ℕ) : ℕ := sched.countP fun e => e.1 = i

theorem frun_ok {rt dep : ℕ → ℕ} {T : Set ℕ} {its : List ℕ} (hlt : ∀ i ∈ its, i < D.m) (hnd : its.Nodup)
    (sched : List (ℕ × Bool)) : ∀ st : FSt RPc σ, FRInv D G rt dep T its st →
    ∃ st', frun rStep its sched st = .ok st' ∧ FRInv D G rt dep T its st' ∧
      ∀ i ∈ its, (∀ b, st'.pcs i ≠ .fin b) → (∀ b, st.pcs i ≠ .fin b) ∧
        turns sched i + rTotal D dep its st' ≤ rTotal D dep its st + 2 * spurs sched := by
  induction sched with
  | nil => exact fun st h => ⟨st, rfl, h, fun i _ hn => ⟨hn, by simp [turns, spurs]⟩⟩
  | cons e es ih =>
    intro st h
    obtain ⟨st1, h1, h2, h3, h4, h5⟩ := fstep_ok hlt hnd h e
    obtain ⟨st2, h6, h7, h8⟩ := ih st1 h2
    refine ⟨st2, by simp only [frun, h1, Except.bind, h6], h7, ?_⟩
    intro i hi hn
    obtain ⟨h9, h10⟩ := h8 i hi hn
    have h11 : ∀ b, st.pcs i ≠ .fin b := fun b hb => h9 b (h3 i b hb)
    refine ⟨h11, ?_⟩
    have hs : spurs (e :: es) = spurs es + e.2.toNat := by
      unfold spurs
      rw [List.countP_cons]
      cases e.2 <;> simp
    rw [hs]
    by_cases he : e.1 = i
    · subst he
      have := h5 hi h11
      have ht : turns (e :: es) e.1 = turns es e.1 + 1 := by simp [turns]
      omega
    · have ht : turns (e :: es) i = turns es i := by simp [turns, he]
      omega

/-- Accesses after which no iteration of a loop over `N` iterations and `n` vertices is unfinished. -/
def rBound (N n : ℕ) : ℕ := N * (4 * N + 6 * n + 16)

/-- The reserve loop, access by access. -/
theorem reserve_fine {rt dep : ℕ → ℕ} {T : Set ℕ} {its : List ℕ} (hlt : ∀ i ∈ its, i < D.m) (hnd : its.Nodup) {s : KSt σ}
    (hb : Base D G rt dep T s) (hfree : ∀ x < D.n, rt x = x → s.R[x]? = some none) (sched : List (ℕ × Bool)) :
    (fphase rStep RPc.res .start its sched s = .error .fuel ∧
        ∃ i ∈ its, turns sched i ≤ rBound its.length D.n + 2 * spurs sched) ∨
      ∃ kept s1, fphase rStep RPc.res .start its sched s = .ok (kept, s1) ∧
        (∀ i, i ∈ kept ↔ i ∈ its ∧ Active D rt i) ∧ RInv D G rt dep T its s1 := by
  obtain ⟨st, h1, h2, h3⟩ := frun_ok hlt hnd sched _ (FRInv.start (its := its) hb hfree)
  unfold fphase
  rw [h1]
  simp only [Except.bind]
  by_cases hall : its.all (fun i => (st.pcs i).res.isSome) = true
  · right
    rw [if_pos hall]
    rw [List.all_eq_true] at hall
    have hfin : ∀ i ∈ its, ∃ b, st.pcs i = .fin b := fun i hi => RPc.res_isSome.mp (hall i hi)
    refine ⟨_, _, rfl, ?_, h2.base, ?_, ?_, ?_⟩
    · intro i
      rw [List.mem_filter]
      constructor
      · rintro ⟨hi, hr⟩
        obtain ⟨b, hb⟩ := hfin i hi
        have hp := h2.pc i hi
        rw [hb] at hp hr
        simp only [RPc.res, Option.some.injEq, decide_eq_true_eq] at hr
        exact ⟨hi, hp.2.2.mp hr⟩
      · rintro ⟨hi, ha⟩
        obtain ⟨b, hb⟩ := hfin i hi
        have hp := h2.pc i hi
        rw [hb] at hp
        refine ⟨hi, ?_⟩
        rw [hb, hp.2.2.mpr ha]
        rfl
    · intro i hi
      obtain ⟨b, hb⟩ := hfin i hi
      have hp := h2.pc i hi
      rw [hb] at hp
      exact hp.1
    · intro i hi
      obtain ⟨b, hb⟩ := hfin i hi
      have hp := h2.pc i hi
      rw [hb] at hp
      exact hp.2.1
    · intro x hx hr
      obtain ⟨q, hq, hc⟩ := h2.R x hx hr
      refine ⟨q, hq, ?_, hc.mem⟩
      rintro j hj ⟨ha, hx | hx⟩
      · obtain ⟨b, hb⟩ := hfin j hj
        exact hc.u j hj (by rw [hb]; trivial) ha hx
      · obtain ⟨b, hb⟩ := hfin j hj
        exact hc.v j hj (by rw [hb]; trivial) ha hx
  · left
    rw [if_neg hall]
    refine ⟨rfl, ?_⟩
    rw [List.all_eq_true] at hall
    push Not at hall
    obtain ⟨i, hi, hn⟩ := hall
    refine ⟨i, hi, ?_⟩
    obtain ⟨-, h4⟩ := h3 i hi (fun b hb => hn (RPc.res_isSome.mpr ⟨b, hb⟩))
    have h5 : rTotal D dep its (⟨fun _ => .start, s⟩ : FSt RPc σ) = rBound its.length D.n := by
      unfold rTotal rBound
      simp only [rWork, Finset.sum_const, Nat.nsmul_eq_mul, List.toFinset_card_of_nodup hnd]
    omega

end Verif.Mst
