import Verif.QHull.ParIndep

set_option linter.unusedSectionVars false
set_option linter.unusedVariables false

/-!
The successful apexes of a round, interleaved, do what they do one after the other.
-/

namespace Verif.QHull

open Verif Verif.Hull3d Verif.Par

variable {K : Type} [Field K] [LinearOrder K] [IsStrictOrderedRing K]

theorem withBase_pairwise : ∀ (ws : List (Task K)) (b : ℕ), ws.Pairwise (fun w u => ∀ c, touch w c → ¬ touch u c) →
    (∀ w ∈ ws, ∀ c, touch w c → c < b) → (withBase b ws).Pairwise fun x y => ∀ c, ownW x.1 x.2.2 c → ¬ ownW y.1 y.2.2 c
  | [], b, _, _ => by simp [withBase]
  | w :: ws, b, hd, hb => by
    rw [List.pairwise_cons] at hd
    simp only [withBase, List.pairwise_cons]
    refine ⟨?_, withBase_pairwise ws _ hd.2 fun u hu c hc => by have := hb u (by simp [hu]) c hc; omega⟩
    intro x hx c h1 h2
    have hge := withBase_ge ws _ x hx
    have hm := withBase_mem ws _ x hx
    rcases (own_iff _ _ _).mp h1 with h1 | h1 <;> rcases (own_iff _ _ _).mp h2 with h2 | h2
    · omega
    · have := hb x.2 (by simp [hm]) c h2
      omega
    · have := hb w (by simp) c h1
      omega
    · exact hd.1 x.2 hm c h1 h2

theorem isAbortP_iff (p : OProg K) : isAbortP p = true ↔ p = .abort := by cases p <;> simp [isAbortP]
theorem isDoneP_iff (p : OProg K) : isDoneP p = true ↔ p = .done := by cases p <;> simp [isDoneP]

section

variable {eps : K} {Q : List (P3 K)} {st st' : Hull K} {ws : List (Task K)}

/-- Good states with another start facet. -/
theorem Good.withH (hG : Good Q st) {b : ℕ} (hb : b ∈ st.live) : Good Q { st with H := b } :=
  ⟨hG.mesh, hG.fresh, hb, hG.size, hG.see, hG.cov⟩

/-- Whatever the interleaving, the parallel loop either is not through, or ends in a good state. If every thread gets `B` accesses, it
is through. -/
theorem commit_ok (hG : Good Q st) (hC : Chained eps Q st.live st st' ws)
    (hd : ws.Pairwise fun w u => ∀ c, touch w c → ¬ touch u c) (hb : ∀ w ∈ ws, ∀ c, touch w c → c ∈ st.live)
    (hne : ∀ w ∈ ws, w.2.1 ≠ []) (o : Oracle K) :
    (commit eps o st ws = .error .fuel ∨ ∃ b, commit eps o st ws = .ok { st' with H := b } ∧ Good Q { st' with H := b }) ∧
    ∀ B, (∀ w ∈ ws, 25 * w.2.1.length + w.2.2.length ≤ B) → (∀ t < ws.length, B ≤ o.s2.count t) →
      commit eps o st ws ≠ .error .fuel := by
  set wb := withBase st.next ws with hwb
  have hlen : wb.length = ws.length := withBase_length ws _
  have hpw := withBase_pairwise ws st.next hd fun w hw c hc => hG.fresh c (hb w hw c hc)
  rw [← hwb] at hpw
  let own : ℕ → ℕ → Prop := fun t c => ∃ x, wb[t]? = some x ∧ ownW x.1 x.2.2 c
  have hdis : ∀ t t' c, own t c → own t' c → t = t' := by
    rintro t t' c ⟨x, hx, h1⟩ ⟨y, hy, h2⟩
    obtain ⟨ht, rfl⟩ := List.getElem?_eq_some_iff.mp hx
    obtain ⟨ht', rfl⟩ := List.getElem?_eq_some_iff.mp hy
    rw [List.pairwise_iff_getElem] at hpw
    rcases lt_trichotomy t t' with h | h | h
    · exact absurd h2 (hpw t t' ht ht' h c h1)
    · exact h
    · exact absurd h1 (hpw t' t ht' ht h c h2)
  let p : ℕ → OProg K := fun t => match wb[t]? with
    | some w => procP eps st.live w.1 w.2.1.1 w.2.2
    | none => .done
  have hsafe : ∀ t, ∃ n, ∃ f, Safe (own t) n (memOf st) (p t) f ∧ (∀ c, own t c → f c = memOf st' c) ∧
      (∀ x, wb[t]? = some x → n ≤ 25 * x.2.2.1.length + x.2.2.2.length) ∧ (wb[t]? = none → n = 0) := by
    intro t
    cases hx : wb[t]? with
    | none =>
      refine ⟨0, memOf st, ?_, ?_, by simp, fun _ => rfl⟩
      · simp only [p, hx]
        exact .done _
      · rintro c ⟨x, hx', _⟩
        rw [hx] at hx'
        simp at hx'
    | some x =>
      obtain ⟨n, hn, f, hs, hf⟩ := hC.each x (List.mem_of_getElem? hx)
      refine ⟨n, f, ?_, ?_, ?_, by simp⟩
      · simp only [p, hx]
        exact hs.weaken fun c hc => ⟨x, hx, hc⟩
      · rintro c ⟨y, hy, hc⟩
        rw [hx] at hy
        obtain rfl := Option.some.inj hy
        exact hf c hc
      · intro y hy
        obtain rfl := Option.some.inj hy
        exact hn
  choose n f hs hf hn hz using hsafe
  obtain ⟨i1, i2, i3⟩ := interleave hdis hs o.s2
  have hab : (List.range wb.length).any (fun t => isAbortP ((prun ⟨memOf st, p⟩ o.s2).pc t)) = false := by
    rw [List.any_eq_false]
    intro t _ hc
    exact i1 t ((isAbortP_iff _).mp hc)
  have hcommit : commit eps o st ws = if (List.range wb.length).any (fun t => !isDoneP ((prun ⟨memOf st, p⟩ o.s2).pc t)) then
      .error .fuel else .ok ⟨fun i => ((prun ⟨memOf st, p⟩ o.s2).mem i).1,
        ((wb.reverse.flatMap fun w => List.range' w.1 w.2.2.1.length) ++ st.live).filter fun i =>
          decide (i ∉ ws.flatMap fun j => j.2.2),
        fun i => ((prun ⟨memOf st, p⟩ o.s2).mem i).2, st.next + (ws.map fun j => j.2.1.length).sum,
        match wb[o.last % wb.length]? with
        | some w => w.1
        | none => st.H,
        st.hSize + (ws.map fun j => j.2.1.length).sum - (ws.map fun j => j.2.2.length).sum⟩ := by
    exact if_neg fun h => Bool.false_ne_true (hab.symm.trans h)
  rw [hcommit]
  constructor
  · by_cases hdn : (List.range wb.length).any (fun t => !isDoneP ((prun ⟨memOf st, p⟩ o.s2).pc t)) = true
    · rw [if_pos hdn]; exact Or.inl rfl
    · rw [if_neg hdn]
      rw [Bool.not_eq_true, List.any_eq_false] at hdn
      have hdone : ∀ t, (prun ⟨memOf st, p⟩ o.s2).pc t = .done := by
        intro t
        by_cases ht : t < wb.length
        · have := hdn t (List.mem_range.mpr ht)
          rw [Bool.not_eq_true, Bool.not_eq_false'] at this
          exact (isDoneP_iff _).mp this
        · refine i2 t ?_
          have hx : wb[t]? = none := List.getElem?_eq_none (by omega)
          rw [hz t hx]
          omega
      have hmem : ∀ c, (prun ⟨memOf st, p⟩ o.s2).mem c = memOf st' c := by
        intro c
        obtain ⟨j1, j2⟩ := i3 hdone c
        by_cases ho : ∃ t, own t c
        · obtain ⟨t, ht⟩ := ho
          rw [j1 t ht, hf t c ht]
        · push Not at ho
          rw [j2 ho, hC.rest c]
          intro x hx hc
          obtain ⟨t, ht⟩ := List.mem_iff_getElem?.mp hx
          exact ho t ⟨x, ht, hc⟩
      have hbase : ∀ b, (match wb[o.last % wb.length]? with
        | some w => w.1
        | none => st.H) = b → b ∈ st'.live := by
        intro b hbe
        rw [hC.live, ← hwb]
        by_cases hw : wb = []
        · have : wb[o.last % wb.length]? = none := by rw [hw]; simp
          rw [this] at hbe
          simp only at hbe
          have hws : ws = [] := by
            rw [← List.length_eq_zero_iff, ← hlen, hw]
            rfl
          subst hbe
          rw [hw, hws]
          simp [hG.start]
        · have hlt : o.last % wb.length < wb.length := Nat.mod_lt _ (List.length_pos_of_ne_nil hw)
          rw [List.getElem?_eq_getElem hlt] at hbe
          simp only at hbe
          have hxm : wb[o.last % wb.length] ∈ wb := List.getElem_mem hlt
          rw [List.mem_filter]
          refine ⟨List.mem_append_left _ (List.mem_flatMap.mpr ⟨_, List.mem_reverse.mpr hxm, ?_⟩), ?_⟩
          · rw [← hbe, List.mem_range'_1]
            have := List.length_pos_of_ne_nil (hne _ (withBase_mem ws _ _ hxm))
            omega
          · rw [decide_eq_true_eq]
            intro hc
            obtain ⟨w, hw', hc⟩ := List.mem_flatMap.mp hc
            have h1 := hG.fresh b (hb w hw' b (Or.inl hc))
            have h2 := withBase_ge ws _ _ hxm
            omega
      refine Or.inr ⟨_, ?_, hC.good.withH (hbase _ rfl)⟩
      congr 1
      have hsz := hC.size
      have e1 : st.hSize + (ws.map fun j => j.2.1.length).sum - (ws.map fun j => j.2.2.length).sum = st'.hSize := by omega
      rw [e1]
      have e2 : (fun i => ((prun ⟨memOf st, p⟩ o.s2).mem i).1) = st'.heap := by
        funext i; rw [hmem i]; rfl
      have e3 : (fun i => ((prun ⟨memOf st, p⟩ o.s2).mem i).2) = st'.pts := by
        funext i; rw [hmem i]; rfl
      rw [e2, e3, ← hC.next, hwb, ← hC.live]
  · intro B hB hcnt hc
    by_cases hdn : (List.range wb.length).any (fun t => !isDoneP ((prun ⟨memOf st, p⟩ o.s2).pc t)) = true
    · rw [List.any_eq_true] at hdn
      obtain ⟨t, ht, hnd⟩ := hdn
      rw [List.mem_range] at ht
      have hx : wb[t]? = some wb[t] := List.getElem?_eq_getElem ht
      have h1 := hn t _ hx
      have h2 := hB _ (withBase_mem ws _ _ (List.getElem_mem ht))
      have h3 := hcnt t (by omega)
      rw [i2 t (by omega)] at hnd
      simp [isDoneP] at hnd
    · rw [if_neg hdn] at hc
      simp at hc

end

end Verif.QHull
