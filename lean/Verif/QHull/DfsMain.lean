import Verif.QHull.Dfs

set_option linter.unusedSectionVars false
set_option linter.unusedVariables false

/-!
What the traversal of the visible region emits.
-/

namespace Verif.QHull.Dfs

variable {α : Type} [DecidableEq α]

/-- Turning about the vertex `z`. -/
def rt (th : α → α → α) (z w : α) : α := th w z

/-- What the geometry of a convex surface says about the frontier. -/
structure Geo (D : List (α × α)) (th : α → α → α) (vis : α × α → Bool) : Prop where
  uniq : ∀ z w w', Front D vis (z, w) → Front D vis (z, w') → w = w'
  single : ∀ C : List (α × α), C ≠ [] → (∀ e ∈ C, Front D vis e) → (∀ e ∈ C, ∃ e' ∈ C, e'.1 = e.2) →
    ∀ f, Front D vis f → f ∈ C
  man : ∀ z w0 m, 0 < m → (z, w0) ∈ D → (rt th z)^[m] w0 = w0 → ∀ w, (z, w) ∈ D → ∃ j < m, w = (rt th z)^[j] w0
  conn : ∀ R : α × α → Prop, (∃ d ∈ D, vis d = true ∧ R d) → (∀ d ∈ D, vis d = true → R d → R (nx th d)) →
    (∀ d ∈ D, vis d = true → vis (tw d) = true → R d → R (tw d)) → ∀ d ∈ D, vis d = true → R d

section

variable {D : List (α × α)} {th : α → α → α} {vis : α × α → Bool}

theorem Surf.cyc2 (h : Surf D th vis) (d : α × α) (hd : d ∈ D) : th (th d.1 d.2) d.1 = d.2 := by
  have h1 := h.cyc _ (h.next d hd)
  simp only [nx] at h1
  rw [h.cyc d hd] at h1
  exact h1

theorem Surf.prev (h : Surf D th vis) (d : α × α) (hd : d ∈ D) : pv th d ∈ D := by
  have h1 := h.next _ (h.next d hd)
  simp only [nx] at h1
  rw [h.cyc d hd] at h1
  exact h1

theorem Surf.nx_nx (h : Surf D th vis) (d : α × α) (hd : d ∈ D) : nx th (nx th d) = pv th d := by
  simp only [nx, pv]
  rw [h.cyc d hd]

theorem Surf.pv_nx (h : Surf D th vis) (d : α × α) (hd : d ∈ D) : pv th (nx th d) = d := by
  simp only [nx, pv]
  rw [h.cyc d hd]

theorem Surf.visp (h : Surf D th vis) (d : α × α) (hd : d ∈ D) : vis (pv th d) = vis d := by
  rw [← h.nx_nx d hd, h.visn _ (h.next d hd), h.visn d hd]

/-- Turning keeps to the darts at `z`. -/
theorem Surf.rt_mem (h : Surf D th vis) {z w : α} (hd : (z, w) ∈ D) : (z, rt th z w) ∈ D :=
  h.next _ (h.twin _ hd)

theorem Surf.rt_iter_mem (h : Surf D th vis) {z w : α} (hd : (z, w) ∈ D) (k : ℕ) : (z, (rt th z)^[k] w) ∈ D := by
  induction k with
  | zero => exact hd
  | succ k ih => rw [Function.iterate_succ_apply']; exact h.rt_mem ih

theorem Surf.rt_inj (h : Surf D th vis) {z w w' : α} (hd : (z, w) ∈ D) (hd' : (z, w') ∈ D)
    (he : rt th z w = rt th z w') : w = w' := by
  have h1 := h.cyc _ (h.twin _ hd)
  have h2 := h.cyc _ (h.twin _ hd')
  simp only [tw] at h1 h2
  unfold rt at he
  rw [he] at h1
  exact h1.symm.trans h2

theorem Surf.rt_cancel (h : Surf D th vis) {z w : α} (hd : (z, w) ∈ D) (k m : ℕ)
    (he : (rt th z)^[k + m] w = (rt th z)^[k] w) : (rt th z)^[m] w = w := by
  induction k with
  | zero => simpa using he
  | succ k ih =>
    apply ih
    rw [show k + 1 + m = (k + m) + 1 by omega, Function.iterate_succ_apply', Function.iterate_succ_apply'] at he
    exact h.rt_inj (h.rt_iter_mem hd _) (h.rt_iter_mem hd _) he

/-- Turning from any dart eventually closes up. -/
theorem Surf.rt_closes (h : Surf D th vis) {z w : α} (hd : (z, w) ∈ D) : ∃ m, 0 < m ∧ (rt th z)^[m] w = w := by
  let f : ℕ → { d // d ∈ D } := fun k => ⟨(z, (rt th z)^[k] w), h.rt_iter_mem hd k⟩
  have : Finite { d // d ∈ D } := by
    have := List.finite_toSet D
    exact this
  obtain ⟨i, j, hij, he⟩ := Finite.exists_ne_map_eq_of_infinite f
  have he' : (rt th z)^[i] w = (rt th z)^[j] w := by
    have := congrArg Subtype.val he
    simpa [f] using this
  rcases Nat.lt_or_gt_of_ne hij with hlt | hlt
  · refine ⟨j - i, by omega, h.rt_cancel hd i _ ?_⟩
    rw [show i + (j - i) = j by omega, he']
  · refine ⟨i - j, by omega, h.rt_cancel hd j _ ?_⟩
    rw [show j + (i - j) = i by omega, he']

/-- After a frontier dart comes another one. -/
theorem Surf.front_succ (h : Surf D th vis) {e : α × α} (he : Front D vis e) : ∃ w, Front D vis (e.2, w) := by
  obtain ⟨hD, hv, hnv⟩ := he
  by_contra hno
  push Not at hno
  have hd := h.next e hD
  obtain ⟨m, hm, hc⟩ := h.rt_closes (z := e.2) (w := th e.1 e.2) hd
  have hall : ∀ k, vis (e.2, (rt th e.2)^[k] (th e.1 e.2)) = true := by
    intro k
    induction k with
    | zero => exact (h.visn e hD).trans hv
    | succ k ih =>
      have hmem := h.rt_iter_mem hd k
      have : vis (tw (e.2, (rt th e.2)^[k] (th e.1 e.2))) = true := by
        by_contra hc
        exact hno _ ⟨hmem, ih, by simpa using hc⟩
      rw [Function.iterate_succ_apply']
      exact (h.visn _ (h.twin _ hmem)).trans this
  obtain ⟨k, rfl⟩ : ∃ k, m = k + 1 := ⟨m - 1, by omega⟩
  rw [Function.iterate_succ_apply'] at hc
  have hmem := h.rt_iter_mem hd k
  have hcy := h.cyc _ (h.twin _ hmem)
  simp only [tw] at hcy
  unfold rt at hc
  unfold rt at hcy
  rw [hc, h.cyc e hD] at hcy
  have hk := hall k
  unfold rt at hk
  rw [← hcy] at hk
  unfold tw at hnv
  rw [hk] at hnv
  simp at hnv

/-- The state of the traversal. -/
structure Inv (D : List (α × α)) (th : α → α → α) (vis : α × α → Bool) (t0 : α × α) (S V E : List (α × α)) (z : α) :
    Prop where
  rel : Rel th vis V z [] S
  sD : ∀ e ∈ S, e ∈ D
  vD : ∀ e ∈ V, e ∈ D
  eV : ∀ e ∈ E, e ∈ V
  eF : ∀ e ∈ E, Front D vis e
  fV : ∀ e ∈ V, Front D vis e → e ∈ E
  nodup : E.Nodup
  chain : E.IsChain fun e e' => e.2 = e'.1
  pos : E = [] ∨ (∃ l, E.getLast? = some l ∧ l.2 = z) ∨ ∀ f, Front D vis f → f ∈ E
  rot : ∀ w, Front D vis (z, w) → (z, w) ∉ E → (∀ d ∈ V, d.1 = z → vis d = false) ∨
    ∃ w0 n, (z, w0) ∈ D ∧ (∀ k ≤ n, vis (z, (rt th z)^[k] w0) = true ∧ vis ((rt th z)^[k] w0, z) = true) ∧
      (∀ d ∈ V, d.1 = z → vis d = true → ∃ k ≤ n, d.2 = (rt th z)^[k] w0) ∧
      S.head? = some (z, (rt th z)^[n + 1] w0)
  oth : ∀ x w, x ≠ z → Front D vis (x, w) → (x, w) ∉ E → ∀ d ∈ V, d.1 = x → vis d = false
  clo : ∀ d ∈ V, vis d = true → vis (tw d) = true →
    (tw d ∈ V ∨ tw d ∈ S) ∧ (nx th (tw d) ∈ V ∨ nx th (tw d) ∈ S) ∧ (pv th (tw d) ∈ V ∨ pv th (tw d) ∈ S)
  st : t0 ∈ D ∧ vis t0 = true ∧ (t0 ∈ V ∨ t0 ∈ S) ∧ (nx th t0 ∈ V ∨ nx th t0 ∈ S) ∧ (pv th t0 ∈ V ∨ pv th t0 ∈ S)

/-- A chain of frontier darts that comes back to one of its own is everything. -/
theorem complete_of_back (hG : Geo D th vis) {E : List (α × α)} (hF : ∀ e ∈ E, Front D vis e)
    (hc : E.IsChain fun e e' => e.2 = e'.1) {l f : α × α} (hl : E.getLast? = some l) (hf : f ∈ E) (hlf : l.2 = f.1) :
    ∀ g, Front D vis g → ∃ E1 E2, E = E1 ++ f :: E2 ∧ g ∈ f :: E2 := by
  intro g hg
  obtain ⟨E1, E2, rfl⟩ := List.append_of_mem hf
  refine ⟨E1, E2, rfl, ?_⟩
  refine hG.single (f :: E2) (by simp) (fun e he => hF e (List.mem_append_right _ he)) ?_ g hg
  intro e he
  have hc2 : (f :: E2).IsChain fun e e' => e.2 = e'.1 := hc.right_of_append
  obtain ⟨A, B, hAB⟩ := List.append_of_mem he
  cases B with
  | nil =>
    refine ⟨f, by simp, ?_⟩
    have : (E1 ++ f :: E2).getLast? = some e := by rw [hAB]; simp
    rw [hl, Option.some.injEq] at this
    rw [← this, hlf]
  | cons e' B =>
    refine ⟨e', by rw [hAB]; simp, ?_⟩
    rw [hAB] at hc2
    have := hc2.right_of_append
    rw [List.isChain_cons_cons] at this
    exact this.1.symm

/-- The top of the stack is not yet visited while the frontier dart at the position is still owed. -/
theorem Inv.top_new (hS : Surf D th vis) (hG : Geo D th vis) {t0 : α × α} {S V E : List (α × α)} {z : α}
    (h : Inv D th vis t0 S V E z) {w : α} (hw : Front D vis (z, w)) (hwE : (z, w) ∉ E) {s : α × α}
    (hs : S.head? = some s) (hs1 : s ∈ V ∨ vis s = false) : ∀ d ∈ V, d.1 = z → vis d = false := by
  rcases h.rot w hw hwE with h1 | ⟨w0, n, hm, hk, hall, hh⟩
  · exact h1
  · exfalso
    rw [hs, Option.some.injEq] at hh
    have hv : vis (z, (rt th z)^[n + 1] w0) = true := by
      rw [Function.iterate_succ_apply']
      have := (hk n (le_refl n)).2
      exact (hS.visn _ (hS.twin _ (hS.rt_iter_mem hm n))).trans this
    rcases hs1 with hs1 | hs1
    · rw [hh] at hs1
      obtain ⟨k, hkn, he⟩ := hall _ hs1 rfl hv
      simp only at he
      have hc : (rt th z)^[n + 1 - k] w0 = w0 := by
        refine hS.rt_cancel hm k _ ?_
        rw [show k + (n + 1 - k) = n + 1 by omega]
        exact he
      obtain ⟨j, hj, hwj⟩ := hG.man z w0 (n + 1 - k) (by omega) hm hc w hw.1
      have := (hk j (by omega)).2
      rw [← hwj] at this
      have h2 := hw.2.2
      unfold tw at h2
      rw [this] at h2
      simp at h2
    · rw [hh, hv] at hs1
      simp at hs1

/-- Popping a dart that is visited or invisible, when the rest of the stack still follows the boundary from `z`. -/
theorem Inv.pop (hS : Surf D th vis) (hG : Geo D th vis) {t0 : α × α} {s : α × α} {S V E : List (α × α)} {z : α}
    (h : Inv D th vis t0 (s :: S) V E z) (hr : Rel th vis V z [] S) (hs : s ∈ V ∨ vis s = false) :
    Inv D th vis t0 S V E z := by
  have drop : ∀ d, vis d = true → (d ∈ V ∨ d ∈ s :: S) → d ∈ V ∨ d ∈ S := by
    intro d hd h
    rcases h with h | h
    · exact Or.inl h
    · rcases List.mem_cons.mp h with rfl | h
      · rcases hs with hs | hs
        · exact Or.inl hs
        · rw [hd] at hs; simp at hs
      · exact Or.inr h
  refine ⟨hr, fun e he => h.sD e (by simp [he]), h.vD, h.eV, h.eF, h.fV, h.nodup, h.chain, h.pos, ?_, h.oth, ?_, ?_⟩
  · intro w hw hwE
    exact Or.inl (h.top_new hS hG hw hwE rfl hs)
  · intro d hd hv hv'
    obtain ⟨h1, h2, h3⟩ := h.clo d hd hv hv'
    have hD := hS.twin d (h.vD d hd)
    exact ⟨drop _ hv' h1, drop _ ((hS.visn _ hD).trans hv') h2, drop _ ((hS.visp _ hD).trans hv') h3⟩
  · obtain ⟨h0, hv, h1, h2, h3⟩ := h.st
    exact ⟨h0, hv, drop _ hv h1, drop _ ((hS.visn _ h0).trans hv) h2, drop _ ((hS.visp _ h0).trans hv) h3⟩

/-- Processing a visible dart whose other side is visible. -/
theorem Inv.enter (hS : Surf D th vis) (hG : Geo D th vis) {t0 : α × α} {s : α × α} {S V E : List (α × α)}
    (h : Inv D th vis t0 (s :: S) V E s.1) (hsV : s ∉ V) (hv : vis s = true) (hv' : vis (tw s) = true)
    (hr : Rel th vis (s :: V) s.1 [] (nx th (tw s) :: pv th (tw s) :: tw s :: S)) :
    Inv D th vis t0 (nx th (tw s) :: pv th (tw s) :: tw s :: S) (s :: V) E s.1 := by
  have hsD := h.sD s (by simp)
  have htD := hS.twin s hsD
  have grow : ∀ d, (d ∈ V ∨ d ∈ s :: S) → d ∈ s :: V ∨ d ∈ nx th (tw s) :: pv th (tw s) :: tw s :: S := by
    intro d hd
    rcases hd with h | h
    · exact Or.inl (by simp [h])
    · rcases List.mem_cons.mp h with rfl | h
      · exact Or.inl (by simp)
      · exact Or.inr (by simp [h])
  refine ⟨hr, ?_, ?_, fun e he => by simp [h.eV e he], h.eF, ?_, h.nodup, h.chain, h.pos, ?_, ?_, ?_, ?_⟩
  · intro e he
    simp only [List.mem_cons] at he
    rcases he with rfl | rfl | rfl | he
    · exact hS.next _ htD
    · exact hS.prev _ htD
    · exact htD
    · exact h.sD e (by simp [he])
  · intro e he
    rcases List.mem_cons.mp he with rfl | he
    · exact hsD
    · exact h.vD e he
  · intro e he hf
    rcases List.mem_cons.mp he with rfl | he
    · rw [hf.2.2] at hv'; simp at hv'
    · exact h.fV e he hf
  · intro w hw hwE
    right
    rcases h.rot w hw hwE with h1 | ⟨w0, n, hm, hk, hall, hh⟩
    · refine ⟨s.2, 0, hsD, ?_, ?_, rfl⟩
      · intro k hk
        obtain rfl : k = 0 := by omega
        exact ⟨hv, hv'⟩
      · intro d hd hd1 hdv
        rcases List.mem_cons.mp hd with rfl | hd
        · exact ⟨0, le_refl 0, rfl⟩
        · rw [h1 d hd hd1] at hdv; simp at hdv
    · rw [List.head?_cons, Option.some.injEq] at hh
      have hs2 : s.2 = (rt th s.1)^[n + 1] w0 := congrArg Prod.snd hh
      refine ⟨w0, n + 1, hm, ?_, ?_, ?_⟩
      · intro k hkn
        rcases Nat.lt_or_ge n k with hlt | hge
        · obtain rfl : k = n + 1 := by omega
          rw [← hs2]
          exact ⟨hv, hv'⟩
        · exact hk k hge
      · intro d hd hd1 hdv
        rcases List.mem_cons.mp hd with rfl | hd
        · exact ⟨n + 1, le_refl _, hs2⟩
        · obtain ⟨k, hk', he⟩ := hall d hd hd1 hdv
          exact ⟨k, by omega, he⟩
      · rw [Function.iterate_succ_apply', ← hs2]
        rfl
  · intro x w hx hw hwE d hd hd1
    rcases List.mem_cons.mp hd with rfl | hd
    · exact absurd hd1.symm hx
    · exact h.oth x w hx hw hwE d hd hd1
  · intro d hd hdv hdv'
    rcases List.mem_cons.mp hd with rfl | hd
    · exact ⟨Or.inr (by simp), Or.inr (by simp), Or.inr (by simp)⟩
    · obtain ⟨h1, h2, h3⟩ := h.clo d hd hdv hdv'
      exact ⟨grow _ h1, grow _ h2, grow _ h3⟩
  · obtain ⟨h0, hv, h1, h2, h3⟩ := h.st
    exact ⟨h0, hv, grow _ h1, grow _ h2, grow _ h3⟩

/-- One step keeps the invariant. -/
theorem Inv.step (hS : Surf D th vis) (hG : Geo D th vis) {t0 : α × α} {s : α × α} {S V E : List (α × α)} {z : α}
    (h : Inv D th vis t0 (s :: S) V E z) :
    ((s ∈ V ∨ vis s = false) → ∃ z', Inv D th vis t0 S V E z') ∧
    (s ∉ V → vis s = true → ∃ z', Inv D th vis t0 (nx th (tw s) :: pv th (tw s) :: tw s :: S) (s :: V)
      (if vis (tw s) then E else E ++ [s]) z') := by
  have hsD := h.sD s (by simp)
  have htD := hS.twin s hsD
  have hrel := h.rel
  cases hrel with
  | skip _ _ _ _ hs hr =>
    have hs' : s ∈ V ∨ vis s = false := by
      rcases hs with h | h | h
      · exact Or.inl h
      · simp at h
      · exact Or.inr h
    refine ⟨fun _ => ⟨z, h.pop hS hG hr hs'⟩, fun h1 h2 => ?_⟩
    rcases hs' with h | h
    · exact absurd h h1
    · rw [h2] at h; simp at h
  | back _ _ _ _ hz hv hv' ht h1 h2 =>
    subst hz
    refine ⟨fun hs => ⟨s.1, h.pop hS hG ?_ hs⟩, fun hsV _ => ⟨s.1, ?_⟩⟩
    · rcases hs with hs | hs
      · exact h1.mono _ (fun _ h => h) fun e he => by
          rcases List.mem_cons.mp he with rfl | he
          · exact Or.inl hs
          · simp at he
      · rw [hv] at hs; simp at hs
    · rw [if_pos hv']
      refine h.enter hS hG hsV hv hv' ?_
      have h2' : Rel th vis (s :: V) s.1 [] (nx th (tw s) :: pv th (tw s) :: S) :=
        h2.mono _ (fun e he => by simp [he]) fun e he => by
          rcases List.mem_cons.mp he with rfl | he
          · exact Or.inl (by simp)
          · simp at he
      refine Rel.insert h2' [nx th (tw s), pv th (tw s)] S (tw s) rfl ?_
      rcases ht with h | h
      · exact Or.inl (by simp [h])
      · simp at h
  | real _ _ _ _ hz hv h1 h2 =>
    subst hz
    constructor
    · intro hs
      have hsV : s ∈ V := by
        rcases hs with h | h
        · exact h
        · rw [hv] at h; simp at h
      have hdone : ∀ w, Front D vis (s.1, w) → (s.1, w) ∈ E := by
        intro w hw
        by_contra hwE
        have := h.top_new hS hG hw hwE rfl (Or.inl hsV) s hsV rfl
        rw [hv] at this; simp at this
      refine ⟨s.2, ?_, fun e he => h.sD e (by simp [he]), h.vD, h.eV, h.eF, h.fV, h.nodup, h.chain, ?_, ?_, ?_, ?_, ?_⟩
      · exact h1.mono _ (fun _ h => h) fun e he => by
          rcases List.mem_cons.mp he with rfl | he
          · exact Or.inl hsV
          · simp at he
      · rcases h.pos with h | ⟨l, hl, hlz⟩ | h'
        · exact Or.inl h
        · right; right
          have hlE : l ∈ E := List.mem_of_getLast? hl
          obtain ⟨w, hw⟩ := hS.front_succ (h.eF l hlE)
          rw [hlz] at hw
          intro f hf
          obtain ⟨E1, E2, hE, hm⟩ := complete_of_back hG h.eF h.chain hl (hdone w hw) hlz f hf
          rw [hE]
          exact List.mem_append_right _ hm
        · exact Or.inr (Or.inr h')
      · intro w hw hwE
        exact Or.inl (h.oth s.2 w (hS.ne s hsD).symm hw hwE)
      · intro x w hx hw hwE
        by_cases hxs : x = s.1
        · subst hxs
          exact absurd (hdone w hw) hwE
        · exact h.oth x w hxs hw hwE
      · intro d hd hdv hdv'
        obtain ⟨g1, g2, g3⟩ := h.clo d hd hdv hdv'
        have drop : ∀ d, (d ∈ V ∨ d ∈ s :: S) → d ∈ V ∨ d ∈ S := by
          intro d h
          rcases h with h | h
          · exact Or.inl h
          · rcases List.mem_cons.mp h with rfl | h
            · exact Or.inl hsV
            · exact Or.inr h
        exact ⟨drop _ g1, drop _ g2, drop _ g3⟩
      · obtain ⟨g0, gv, g1, g2, g3⟩ := h.st
        have drop : ∀ d, (d ∈ V ∨ d ∈ s :: S) → d ∈ V ∨ d ∈ S := by
          intro d h
          rcases h with h | h
          · exact Or.inl h
          · rcases List.mem_cons.mp h with rfl | h
            · exact Or.inl hsV
            · exact Or.inr h
        exact ⟨g0, gv, drop _ g1, drop _ g2, drop _ g3⟩
    · intro hsV _
      have hab : ∀ e ∈ [s], e ∈ s :: V ∨ e ∈ ([] : List (α × α)) := fun e he => by
        rw [List.mem_singleton] at he
        exact Or.inl (by simp [he])
      have h1' : Rel th vis (s :: V) s.2 [] S := h1.mono _ (fun e he => by simp [he]) hab
      have h2' : Rel th vis (s :: V) s.2 [] (nx th s :: pv th s :: S) := h2.mono _ (fun e he => by simp [he]) hab
      by_cases hv' : vis (tw s) = true
      · rw [if_pos hv']
        refine ⟨s.1, h.enter hS hG hsV hv hv' ?_⟩
        exact Rel.push (hS.cyc _ htD) (hS.cyc2 _ htD) ((hS.visn _ htD).trans hv') ((hS.visp _ htD).trans hv') hv' hv
          (by simp) h1' h2'
      · rw [if_neg hv']
        have hvf : vis (tw s) = false := by simpa using hv'
        have hF : Front D vis s := ⟨hsD, hv, hvf⟩
        have hsE : s ∉ E := fun he => hsV (h.eV s he)
        have grow : ∀ d, (d ∈ V ∨ d ∈ s :: S) → d ∈ s :: V ∨ d ∈ nx th (tw s) :: pv th (tw s) :: tw s :: S := by
          intro d hd
          rcases hd with h | h
          · exact Or.inl (by simp [h])
          · rcases List.mem_cons.mp h with rfl | h
            · exact Or.inl (by simp)
            · exact Or.inr (by simp [h])
        refine ⟨s.2, ?_, ?_, ?_, ?_, ?_, ?_, ?_, ?_, ?_, ?_, ?_, ?_, ?_⟩
        · refine .skip _ _ _ _ (Or.inr (Or.inr ((hS.visn _ htD).trans hvf))) ?_
          refine .skip _ _ _ _ (Or.inr (Or.inr ((hS.visp _ htD).trans hvf))) ?_
          exact .skip _ _ _ _ (Or.inr (Or.inr hvf)) h1'
        · intro e he
          simp only [List.mem_cons] at he
          rcases he with rfl | rfl | rfl | he
          · exact hS.next _ htD
          · exact hS.prev _ htD
          · exact htD
          · exact h.sD e (by simp [he])
        · intro e he
          rcases List.mem_cons.mp he with rfl | he
          · exact hsD
          · exact h.vD e he
        · intro e he
          rcases List.mem_append.mp he with he | he
          · simp [h.eV e he]
          · rw [List.mem_singleton] at he; simp [he]
        · intro e he
          rcases List.mem_append.mp he with he | he
          · exact h.eF e he
          · rw [List.mem_singleton] at he; rw [he]; exact hF
        · intro e he hf
          rcases List.mem_cons.mp he with rfl | he
          · simp
          · exact List.mem_append_left _ (h.fV e he hf)
        · rw [List.nodup_append]
          refine ⟨h.nodup, by simp, ?_⟩
          intro a ha b hb
          rw [List.mem_singleton] at hb
          rw [hb]
          rintro rfl
          exact hsE ha
        · rw [List.isChain_append]
          refine ⟨h.chain, by simp, ?_⟩
          intro x hx y hy
          rw [List.head?_cons, Option.mem_some_iff] at hy
          rw [← hy]
          rcases h.pos with h' | ⟨l, hl, hlz⟩ | h'
          · rw [h'] at hx; simp at hx
          · rw [hl, Option.mem_some_iff] at hx
            rw [← hx]; exact hlz
          · exact absurd (h' s hF) hsE
        · right; left
          exact ⟨s, by simp, rfl⟩
        · intro w hw hwE
          left
          intro d hd hd1
          rcases List.mem_cons.mp hd with rfl | hd
          · exact absurd hd1 (hS.ne _ hsD)
          · exact h.oth s.2 w (hS.ne s hsD).symm hw (fun hc => hwE (List.mem_append_left _ hc)) d hd hd1
        · intro x w hx hw hwE d hd hd1
          by_cases hxs : x = s.1
          · exfalso
            subst hxs
            have : w = s.2 := hG.uniq s.1 w s.2 hw hF
            apply hwE
            rw [this]
            simp
          · rcases List.mem_cons.mp hd with rfl | hd
            · exact absurd hd1.symm hxs
            · exact h.oth x w hxs hw (fun hc => hwE (List.mem_append_left _ hc)) d hd hd1
        · intro d hd hdv hdv'
          rcases List.mem_cons.mp hd with rfl | hd
          · rw [hvf] at hdv'; simp at hdv'
          · obtain ⟨g1, g2, g3⟩ := h.clo d hd hdv hdv'
            exact ⟨grow _ g1, grow _ g2, grow _ g3⟩
        · obtain ⟨g0, gv, g1, g2, g3⟩ := h.st
          exact ⟨g0, gv, grow _ g1, grow _ g2, grow _ g3⟩

/-- The whole traversal. -/
theorem go_spec (hS : Surf D th vis) (hG : Geo D th vis) (t0 : α × α) : ∀ n S V E z, Inv D th vis t0 S V E z →
    S.length + 3 * (D.filter fun d => decide (d ∉ V)).length < n →
    ∃ V' E' z', go th vis n S V E = some (V', E') ∧ Inv D th vis t0 [] V' E' z' := by
  intro n
  induction n with
  | zero => intro S V E z _ h; omega
  | succ n ih =>
    intro S V E z h hn
    cases S with
    | nil => exact ⟨V, E, z, rfl, h⟩
    | cons s S =>
      obtain ⟨h1, h2⟩ := h.step hS hG
      rw [List.length_cons] at hn
      unfold go
      by_cases hsV : s ∈ V
      · rw [if_pos hsV]
        obtain ⟨z', h'⟩ := h1 (Or.inl hsV)
        exact ih _ _ _ _ h' (by omega)
      · rw [if_neg hsV]
        by_cases hv : vis s = true
        · rw [if_pos hv]
          obtain ⟨z', h'⟩ := h2 hsV hv
          refine ih _ _ _ _ h' ?_
          have hlt : (D.filter fun d => decide (d ∉ s :: V)).length < (D.filter fun d => decide (d ∉ V)).length := by
            have hsub : (D.filter fun d => decide (d ∉ s :: V)) =
                (D.filter fun d => decide (d ∉ V)).filter fun d => decide (d ≠ s) := by
              rw [List.filter_filter]
              apply List.filter_congr
              intro d _
              by_cases hd : d = s <;> simp [hd]
            rw [hsub]
            refine List.length_filter_lt_length_iff_exists.mpr ⟨s, ?_, by simp⟩
            rw [List.mem_filter]
            exact ⟨h.sD s (by simp), by simpa using hsV⟩
          simp only [List.length_cons]
          omega
        · rw [if_neg hv]
          obtain ⟨z', h'⟩ := h1 (Or.inr (by simpa using hv))
          exact ih _ _ _ _ h' (by omega)

/-- The stack after the first step. -/
theorem Inv.start (hS : Surf D th vis) {t0 : α × α} (hD : t0 ∈ D) (hv : vis t0 = true) :
    Inv D th vis t0 [nx th t0, pv th t0, t0] [tw t0] [] t0.2 := by
  have cyc1 := hS.cyc _ hD
  have cyc2 := hS.cyc2 _ hD
  set u := nx th t0 with hu
  set v := pv th t0 with hvd
  have hnu : nx th u = v := by
    show (th t0.1 t0.2, th t0.2 (th t0.1 t0.2)) = (th t0.1 t0.2, t0.1)
    rw [cyc1]
  have hpu : pv th u = t0 := by
    show (th t0.2 (th t0.1 t0.2), t0.2) = t0
    rw [cyc1]
  have hnv : nx th v = t0 := by
    show (t0.1, th (th t0.1 t0.2) t0.1) = t0
    rw [cyc2]
  have hpv : pv th v = u := by
    show (th (th t0.1 t0.2) t0.1, th t0.1 t0.2) = (t0.2, th t0.1 t0.2)
    rw [cyc2]
  have hvu : vis u = true := (hS.visn _ hD).trans hv
  have hvv : vis v = true := (hS.visp _ hD).trans hv
  have base : ∀ (z : α) (Ab L : List (α × α)), (∀ e ∈ L, e ∈ Ab) → Rel th vis [tw t0] z Ab L := by
    intro z Ab L
    induction L with
    | nil => intro _; exact .nil _ _
    | cons e L ih => intro h; exact .skip _ _ _ _ (Or.inr (Or.inl (h e (by simp)))) (ih fun e he => h e (by simp [he]))
  have Rt : ∀ Ab L, u ∈ Ab → v ∈ Ab → (∀ e ∈ L, e = t0 ∨ e ∈ Ab) → Rel th vis [tw t0] t0.1 Ab (t0 :: L) := by
    intro Ab L h1 h2 hL
    refine .real _ _ _ _ rfl hv ?_ ?_
    · refine base _ _ _ fun e he => ?_
      rcases hL e he with h | h <;> simp [h]
    · refine base _ _ _ fun e he => ?_
      simp only [List.mem_cons] at he
      rcases he with rfl | rfl | he
      · rw [← hu]; simp [h1]
      · rw [← hvd]; simp [h2]
      · rcases hL e he with h | h <;> simp [h]
  have Rv : ∀ Ab L, u ∈ Ab → (∀ e ∈ L, e = t0 ∨ e = v ∨ e ∈ Ab) → Rel th vis [tw t0] v.1 Ab (v :: t0 :: L) := by
    intro Ab L h1 hL
    refine .real _ _ _ _ rfl hvv ?_ ?_
    · refine Rt _ _ (by simp [h1]) (by simp) fun e he => ?_
      rcases hL e he with h | h | h <;> simp [h]
    · rw [hnv, hpv]
      refine Rt _ _ (by simp [h1]) (by simp) fun e he => ?_
      simp only [List.mem_cons] at he ⊢
      rcases he with rfl | rfl | he
      · exact Or.inr (Or.inr h1)
      · exact Or.inl rfl
      · rcases hL e he with h | h | h <;> simp [h]
  refine ⟨?_, ?_, ?_, by simp, by simp, ?_, by simp, by simp, Or.inl rfl, ?_, ?_, ?_, ?_⟩
  · refine .real _ _ _ _ rfl hvu ?_ ?_
    · exact Rv _ [] (by simp) (by simp)
    · rw [hnu, hpu]
      exact Rv _ [v, t0] (by simp) (by simp)
  · intro e he
    simp only [List.mem_cons, List.not_mem_nil, or_false] at he
    rcases he with rfl | rfl | rfl
    · exact hS.next _ hD
    · exact hS.prev _ hD
    · exact hD
  · intro e he
    rw [List.mem_singleton] at he
    rw [he]; exact hS.twin _ hD
  · intro e he hf
    rw [List.mem_singleton] at he
    have := hf.2.2
    rw [he] at this
    have h2 : tw (tw t0) = t0 := rfl
    rw [h2, hv] at this
    simp at this
  · intro w hw _
    by_cases hvt : vis (tw t0) = true
    · right
      refine ⟨t0.1, 0, hS.twin _ hD, ?_, ?_, rfl⟩
      · intro k hk
        obtain rfl : k = 0 := by omega
        exact ⟨hvt, hv⟩
      · intro d hd _ _
        rw [List.mem_singleton] at hd
        exact ⟨0, le_refl 0, by rw [hd]; rfl⟩
    · left
      intro d hd _
      rw [List.mem_singleton] at hd
      rw [hd]; simpa using hvt
  · intro x w hx _ _ d hd hd1
    rw [List.mem_singleton] at hd
    rw [hd] at hd1
    exact absurd hd1.symm hx
  · intro d hd _ _
    rw [List.mem_singleton] at hd
    have h2 : tw d = t0 := by rw [hd]; rfl
    rw [h2]
    exact ⟨Or.inr (by simp), Or.inr (by simp [hu]), Or.inr (by simp [hvd])⟩
  · exact ⟨hD, hv, Or.inr (by simp), Or.inr (by simp [hu]), Or.inr (by simp [hvd])⟩

/-- At the end everything visible has been visited. -/
theorem Inv.all_visited (hS : Surf D th vis) (hG : Geo D th vis) {t0 : α × α} {V E : List (α × α)} {z : α}
    (h : Inv D th vis t0 [] V E z) : ∀ d ∈ D, vis d = true → d ∈ V := by
  have inV : ∀ d, (d ∈ V ∨ d ∈ ([] : List (α × α))) → d ∈ V := by
    intro d hd
    rcases hd with hd | hd
    · exact hd
    · simp at hd
  intro d hd hv
  refine (hG.conn (fun d => d ∈ V ∧ nx th d ∈ V ∧ pv th d ∈ V) ?_ ?_ ?_ d hd hv).1
  · obtain ⟨g0, gv, g1, g2, g3⟩ := h.st
    exact ⟨t0, g0, gv, inV _ g1, inV _ g2, inV _ g3⟩
  · intro d hd _ ⟨g1, g2, g3⟩
    refine ⟨g2, ?_, ?_⟩
    · rw [hS.nx_nx d hd]; exact g3
    · rw [hS.pv_nx d hd]; exact g1
  · intro d hd hv hv' ⟨g1, g2, g3⟩
    obtain ⟨k1, k2, k3⟩ := h.clo d g1 hv hv'
    exact ⟨inV _ k1, inV _ k2, inV _ k3⟩

/-- What is emitted: the whole frontier, every dart once, head to tail, and closed. -/
theorem Inv.final (hS : Surf D th vis) (hG : Geo D th vis) {t0 : α × α} {V E : List (α × α)} {z : α}
    (h : Inv D th vis t0 [] V E z) : (∀ d, d ∈ E ↔ Front D vis d) ∧ E.Nodup ∧ (E.IsChain fun e e' => e.2 = e'.1) ∧
      ∀ l f, E.getLast? = some l → E.head? = some f → l.2 = f.1 := by
  have hall : ∀ d, Front D vis d → d ∈ E := fun d hd => h.fV d (h.all_visited hS hG d hd.1 hd.2.1) hd
  refine ⟨fun d => ⟨h.eF d, hall d⟩, h.nodup, h.chain, ?_⟩
  intro l f hl hf
  obtain ⟨w, hw⟩ := hS.front_succ (h.eF l (List.mem_of_getLast? hl))
  obtain ⟨E1, E2, hE, hm⟩ := complete_of_back hG h.eF h.chain hl (hall _ hw) rfl f (h.eF f (List.mem_of_head? hf))
  cases E1 with
  | nil =>
    rw [hE] at hf
    simp only [List.nil_append, List.head?_cons, Option.some.injEq] at hf
    rw [← hf]
  | cons f' E1 =>
    exfalso
    rw [hE] at hf
    simp only [List.cons_append, List.head?_cons, Option.some.injEq] at hf
    have hnd := h.nodup
    rw [hE, List.cons_append, List.nodup_cons, hf] at hnd
    exact hnd.1 (List.mem_append_right _ hm)

end

end Verif.QHull.Dfs
