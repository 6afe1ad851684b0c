import Verif.Par.SplitLemmas
import Verif.RandInc.Step

set_option linter.unusedSectionVars false
set_option linter.unusedVariables false

/-!
The rounds.
-/

namespace Verif.RandInc

open Verif Verif.Hull2d

variable {K : Type} [Field K] [LinearOrder K] [IsStrictOrderedRing K]

theorem packRemain_ok (see : ℕ → Option ℕ) (l : List ℕ) : packRemain see l = .ok (l.filter fun v => (see v).isSome) := by
  have hout : ((l.zip (l.map fun v => if (see v).isSome then 1 else 0)).filter fun a => a.2 = 1).map Prod.fst =
      l.filter fun v => (see v).isSome := by
    induction l with
    | nil => rfl
    | cons x l ih =>
      cases hx : (see x).isSome <;> simp [hx] at ih ⊢ <;> exact ih
  have hcnt : (l.map fun v => if (see v).isSome then 1 else 0).count 1 = (l.filter fun v => (see v).isSome).length := by
    clear hout
    induction l with
    | nil => rfl
    | cons x l ih => cases hx : (see x).isSome <;> simp [hx] at ih ⊢ <;> exact ih
  have hw := Par.chunkWrites_writes 1 (l.zip (l.map fun v => if (see v).isSome then 1 else 0))
  rw [hout] at hw
  unfold packRemain
  simp only
  rw [hcnt, hw.run]
  simp only
  generalize l.filter (fun v => (see v).isSome) = m
  induction m with
  | nil => rfl
  | cons x m ih =>
    rw [List.map_cons, List.mapM_cons, ih]
    rfl

section
variable {eps : K} {pos : ℕ → Point K 2} {n : ℕ} {Q : Fin 4 → ℕ}

theorem Run.lt {C : Fin 4 → List ℕ} {s : St} {v : ℕ} {k : Fin 4} {A M B : List ℕ} {a e : ℕ} (hI : Inv eps pos n Q C s)
    (hR : Run eps pos Q C s v k A M B a e) : ∀ x ∈ a :: (M ++ [e]), x < s.top := by
  intro y hy
  simp only [List.mem_cons, List.mem_append, List.not_mem_nil, or_false] at hy
  rcases hy with rfl | hy | rfl
  · obtain ⟨A', hA⟩ := hR.before
    have : y ∈ C k ++ A := by rw [hA]; simp
    rcases List.mem_append.mp this with h1 | h1
    · exact hI.lt _ y h1
    · exact hI.lt (k + 1) y (by rw [hR.split]; simp [h1])
  · exact hI.lt (k + 1) y (by rw [hR.split]; simp [hy])
  · obtain ⟨B', hB⟩ := hR.after
    have : y ∈ B ++ C (k + 1 + 1) := by rw [hB]; simp
    rcases List.mem_append.mp this with h1 | h1
    · exact hI.lt (k + 1) y (by rw [hR.split]; simp [h1])
    · exact hI.lt _ y h1

theorem vis_congr {h h' : ℕ → Option Fct} {p a e : ℕ} {M : List ℕ} (hV : Vis eps pos h p a M e)
    (hh : ∀ x ∈ a :: (M ++ [e]), h' x = h x) : Vis eps pos h' p a M e := by
  refine ⟨hV.ne, chain_congr hV.chain hh, ?_, ?_, ?_, hV.nodup, ?_⟩
  · intro i hi
    obtain ⟨f, h1, h2⟩ := hV.vis i hi
    exact ⟨f, by rw [hh i (by simp [hi]), h1], h2⟩
  · obtain ⟨f, h1, h2⟩ := hV.nva
    exact ⟨f, by rw [hh a (by simp), h1], h2⟩
  · obtain ⟨f, h1, h2⟩ := hV.nve
    exact ⟨f, by rw [hh e (by simp), h1], h2⟩
  · obtain ⟨f, h1, h2⟩ := hV.out
    exact ⟨f, by rw [hh e (by simp), h1], h2⟩

theorem vis_unique {s : St} {v f a e a' e' : ℕ} {M M' : List ℕ} (ht : ∀ x f, s.heap x = some f → f.token = none)
    (hs : s.see v = some f) (hV : Vis eps pos s.heap v a M e) (hf : f ∈ M) (hl : M.length + 1 < s.top + 1)
    (hV' : Vis eps pos s.heap v a' M' e') (hf' : f ∈ M') (hl' : M'.length + 1 < s.top + 1) : a = a' ∧ M = M' ∧ e = e' := by
  have hst := strip_self ht
  obtain ⟨p1, p2⟩ := find_range hs (by rw [hst]; exact hV) hf hl
  obtain ⟨q1, q2⟩ := find_range hs (by rw [hst]; exact hV') hf' hl'
  rw [p1] at q1
  have := Option.some.inj (Except.ok.inj q1)
  rw [Prod.mk.injEq] at this
  rw [← this.1, ← this.2, p2] at q2
  have h2 := Except.ok.inj q2
  rw [List.cons.injEq] at h2
  have he := this.2
  subst he
  exact ⟨h2.1, List.append_cancel_right h2.2, rfl⟩

variable (heps : 0 ≤ eps) (J : (Fin 4 → List ℕ) → St → Prop)
  (hJ : ∀ C s v k A M B a e fa fs fe x0, Ins eps pos n Q C s v k A M B a e fa fs fe x0 → J C s →
    J (newC C s.top k A B) (nx eps pos s v a M e fa fs fe))
include heps hJ

/-- The orders are rearrangements. -/
def Ords.Ok (o : Ords) : Prop := (∀ k l, (o.res k l).Perm l) ∧ (∀ k l, (o.chk k l).Perm l) ∧ ∀ k l, (o.prc k l).Perm l

theorem round_ok {C : Fin 4 → List ℕ} {s : St} (hI : Inv eps pos n Q C s) (hj : J C s) {batch : ℕ} (hb : 0 < batch) {o : Ords}
    (ho : o.Ok) (k : ℕ) {mapping : List ℕ} (hn : mapping.Nodup) (hm : ∀ v, v ∈ mapping ↔ (s.see v).isSome) (hne : mapping ≠ []) :
    ∃ s' m' C', round eps pos batch o k s mapping = .ok (s', m') ∧ Inv eps pos n Q C' s' ∧ J C' s' ∧ m'.Nodup ∧
      (∀ v, v ∈ m' ↔ (s'.see v).isSome) ∧ m'.length < mapping.length := by
  set cur := mapping.take (min batch mapping.length) with hcur
  have hsub : ∀ v ∈ cur, v ∈ mapping := fun v hv => List.mem_of_mem_take hv
  have hcne : cur ≠ [] := by
    rw [hcur]
    intro h0
    rw [List.take_eq_nil_iff] at h0
    rcases h0 with h0 | h0
    · have := List.length_pos_of_ne_nil hne
      omega
    · exact hne h0
  have hrun : ∀ v, ∃ (r : ℕ × List ℕ × ℕ), v ∈ cur → ∃ f, s.see v = some f ∧ f ∈ r.2.1 ∧ Vis eps pos s.heap v r.1 r.2.1 r.2.2 ∧
      r.2.1.length + 1 < s.top + 1 ∧ ∀ x ∈ r.1 :: (r.2.1 ++ [r.2.2]), x < s.top := by
    intro v
    by_cases hv : v ∈ cur
    · obtain ⟨f, hf⟩ := Option.isSome_iff_exists.mp ((hm v).mp (hsub v hv))
      obtain ⟨k', A', M', B', a', e', hR, h1, h2⟩ := hI.run heps hf
      exact ⟨(a', M', e'), fun _ => ⟨f, hf, h1, hR.vis, h2, hR.lt hI⟩⟩
    · exact ⟨(0, [], 0), fun h => absurd h hv⟩
  choose r hr using hrun
  have hcn : cur.Nodup := hn.sublist (List.take_sublist _ _)
  have hB : Batch eps pos s.heap s.see s.top cur (fun v => (r v).1) (fun v => (r v).2.1) (fun v => (r v).2.2) :=
    ⟨hcn, fun v hv => by
      obtain ⟨f, h1, h2, h3, h4, -⟩ := hr v hv
      exact ⟨f, h1, h2, h3, h4⟩⟩
  have hst := strip_self hI.tok
  have htok : ∀ i, tok s.heap i = none := by
    intro i
    unfold tok
    cases hi : s.heap i with
    | none => rfl
    | some f => exact hI.tok i f hi
  obtain ⟨h1, a1, a2, a3⟩ := reserve_all hB s hst rfl rfl htok _ (ho.1 k cur)
  obtain ⟨h2, W, b1, b2, b3⟩ := check_all hB { s with heap := h1 } a2 rfl rfl _ (ho.1 k cur) a3 _ (ho.2.1 k cur)
  obtain ⟨w1, w2⟩ := winners hB (ho.1 k cur) a3
  subst b2
  set succ := cur.filter fun v => decide (v ∈ W) with hsucc
  have hsm : ∀ v, v ∈ succ ↔ v ∈ cur ∧ ∀ i ∈ rng (fun v => (r v).1) (fun v => (r v).2.1) (fun v => (r v).2.2) v, tok h1 i = some v := by
    intro v
    rw [hsucc, List.mem_filter, decide_eq_true_eq, b3]
    tauto
  have hP := ho.2.2 k succ
  have hPn : (o.prc k succ).Nodup := hP.nodup_iff.mpr (hcn.filter _)
  have key := foldlM_inv (step := processOne eps pos) (fun done s' => ∃ C', Inv eps pos n Q C' s' ∧ J C' s' ∧ s.top ≤ s'.top ∧
    (∀ v ∈ succ, v ∉ done → s'.see v = s.see v ∧ ∀ x ∈ (r v).1 :: ((r v).2.1 ++ [(r v).2.2]), s'.heap x = s.heap x) ∧
    (∀ v ∈ done, s'.see v = none) ∧ ∀ v, s.see v = none → s'.see v = none) (o.prc k succ) s
    ⟨C, hI, hj, le_refl _, fun v _ _ => ⟨rfl, fun _ _ => rfl⟩, by simp, fun v hv => hv⟩ ?_
  · obtain ⟨s', c1, C', c2, c3, c4, c5, c6, c7⟩ := key
    have hmem : ∀ v, v ∈ mapping.filter (fun v => (s'.see v).isSome) ↔ (s'.see v).isSome := by
      intro v
      rw [List.mem_filter]
      refine ⟨fun h => h.2, fun h => ⟨?_, h⟩⟩
      rw [hm]
      by_contra hc
      rw [Bool.not_eq_true, Option.isSome_eq_false_iff, Option.isNone_iff_eq_none] at hc
      rw [c7 v hc] at h
      cases h
    refine ⟨s', mapping.filter fun v => (s'.see v).isSome, C', ?_, c2, c3, hn.filter _, hmem, ?_⟩
    · unfold round
      simp only [← hcur]
      rw [a1]
      simp only [Except.bind]
      rw [b1]
      simp only
      rw [← hsucc, c1]
      simp only
      rw [packRemain_ok]
      rfl
    · obtain ⟨v, hv1, hv2⟩ := w1 hcne
      have hvs : v ∈ o.prc k succ := hP.mem_iff.mpr ((hsm v).mpr ⟨hv1, hv2⟩)
      refine List.length_filter_lt_length_iff_exists.mpr ⟨v, hsub v hv1, ?_⟩
      rw [c6 v hvs]
      simp
  · rintro done v rest s' hl ⟨C', c2, c3, c4, c5, c6, c7⟩
    have hvl : v ∈ o.prc k succ := by rw [hl]; simp
    have hvs : v ∈ succ := hP.mem_iff.mp hvl
    have hvd : v ∉ done := by
      rw [hl] at hPn
      intro hh
      exact (List.nodup_append.mp hPn).2.2 v hh v (by simp) rfl
    obtain ⟨d1, d2⟩ := c5 v hvs hvd
    have hvc := ((hsm v).mp hvs).1
    obtain ⟨f, f1, f2, f3, f4, f5⟩ := hr v hvc
    have hsv : s'.see v = some f := d1.trans f1
    have hV' := vis_congr f3 d2
    obtain ⟨k', A', M', B', a', e', hR, g1, g2⟩ := c2.run heps hsv
    obtain ⟨e1, e2, e3⟩ := vis_unique c2.tok hsv hV' f2 (by omega) hR.vis g1 g2
    have hlive : ∀ x, x ∈ a' :: (M' ++ [e']) → ∃ f, s'.heap x = some f := by
      intro x hx
      simp only [List.mem_cons, List.mem_append, List.not_mem_nil, or_false] at hx
      rcases hx with rfl | hx | rfl
      · obtain ⟨f, h1, -⟩ := hR.vis.nva; exact ⟨f, h1⟩
      · obtain ⟨f, h1, -⟩ := hR.vis.vis x hx; exact ⟨f, h1⟩
      · obtain ⟨f, h1, -⟩ := hR.vis.nve; exact ⟨f, h1⟩
    obtain ⟨fa, ha⟩ := hlive a' (by simp)
    obtain ⟨fs, hfs⟩ := hlive (M'.head hR.vis.ne) (by simp)
    obtain ⟨fe, he⟩ := hlive e' (by simp)
    have hIns : Ins eps pos n Q C' s' v k' A' M' B' a' e' fa fs fe f := ⟨c2, hR, hsv, g1, ha, hfs, he⟩
    refine ⟨_, hIns.process, _, hIns.next heps, hJ _ _ _ _ _ _ _ _ _ _ _ _ _ hIns c3, ?_, ?_, ?_, ?_⟩
    · show s.top ≤ s'.top + 2
      omega
    · intro w hw hwd
      rw [List.mem_append, not_or, List.mem_singleton] at hwd
      obtain ⟨q1, q2⟩ := c5 w hw hwd.1
      obtain ⟨fw, r1, r2, r3, r4, r5⟩ := hr w ((hsm w).mp hw).1
      have hdis : ∀ x ∈ (r w).1 :: ((r w).2.1 ++ [(r w).2.2]), x ∉ a' :: (M' ++ [e']) := by
        rw [← e1, ← e2, ← e3]
        exact w2 w v ((hsm w).mp hw).2 ((hsm v).mp hvs).2 hwd.2
      constructor
      · rcases hIns.see_cases w with ⟨⟨y, hy, t1⟩, -⟩ | ⟨-, -, -, t1⟩
        · rw [q1, r1, Option.some.injEq] at t1
          subst t1
          exact absurd (by simp [hy]) (hdis fw (by simp [r2]))
        · rw [t1, q1]
      · intro x hx
        have hx' := hdis x hx
        have hxl := r5 x hx
        simp only [List.mem_cons, List.mem_append, List.not_mem_nil, or_false, not_or] at hx'
        rw [hIns.heap_o hx'.2.1 hx'.1 hx'.2.2 (by omega) (by omega), q2 x hx]
    · intro w hw
      rcases List.mem_append.mp hw with hw | hw
      · exact hIns.see_none (c6 w hw)
      · rw [List.mem_singleton.mp hw]; exact hIns.see_v heps
    · intro w hw
      exact hIns.see_none (c7 w hw)

theorem rounds_ok {batch : ℕ} (hb : 0 < batch) {o : Ords} (ho : o.Ok) (fuel k : ℕ) {C : Fin 4 → List ℕ} {s : St}
    (hI : Inv eps pos n Q C s) (hj : J C s) {mapping : List ℕ} (hn : mapping.Nodup) (hm : ∀ v, v ∈ mapping ↔ (s.see v).isSome)
    (hf : mapping.length < fuel) :
    ∃ s' C', rounds eps pos batch o fuel k s mapping = .ok s' ∧ Inv eps pos n Q C' s' ∧ J C' s' ∧ ∀ v, s'.see v = none := by
  induction fuel generalizing k C s mapping with
  | zero => omega
  | succ fuel ih =>
    unfold rounds
    by_cases hne : mapping = []
    · subst hne
      refine ⟨s, C, by simp, hI, hj, fun v => ?_⟩
      have := (hm v).not.mp (by simp)
      rwa [Bool.not_eq_true, Option.isSome_eq_false_iff, Option.isNone_iff_eq_none] at this
    · rw [if_pos (List.length_pos_of_ne_nil hne)]
      obtain ⟨s1, m1, C1, h1, h2, h3, h4, h5, h6⟩ := round_ok heps J hJ hI hj hb ho k hn hm hne
      rw [h1]
      simp only [Except.bind]
      exact ih (k + 1) h2 h3 h4 h5 (by omega)

end

end Verif.RandInc
