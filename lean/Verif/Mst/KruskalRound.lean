import Verif.Mst.KruskalLemmas

set_option linter.unusedSectionVars false
set_option linter.unusedVariables false

namespace Verif.Mst

open Verif.UF

theorem roundIters_eq (hold : List ℕ) (done size : ℕ) (h : hold.length ≤ size) :
    roundIters hold done size =
      hold ++ (List.range (size - hold.length)).map fun i => done + hold.length + i := by
  apply List.ext_getElem?
  intro i
  unfold roundIters
  rw [List.getElem?_map]
  by_cases hi : i < hold.length
  · rw [List.getElem?_append_left hi, List.getElem?_range (by omega)]
    simp [List.getElem?_eq_getElem hi]
  · rw [List.getElem?_append_right (by omega), List.getElem?_map]
    by_cases hs : i < size
    · rw [List.getElem?_range hs, List.getElem?_range (by omega)]
      simp only [Option.map_some, Option.some.injEq]
      rw [List.getElem?_eq_none (by omega)]
      simp only [Option.getD_none]
      omega
    · rw [List.getElem?_eq_none (by simpa using hs), List.getElem?_eq_none (by simp; omega)]
      rfl

section

variable {σ : Type} {D : Data} {G : (ℕ → ℕ) → Set ℕ → σ → Prop} {rec : Recorder σ}

/-- Invariant of the loop of `speculative_for`. -/
structure GInv (D : Data) (G : (ℕ → ℕ) → Set ℕ → σ → Prop) (maxRound : ℕ) (rt dep : ℕ → ℕ) (T : Set ℕ) (done : ℕ) (hold : List ℕ)
    (cur : ℕ) (s : KSt σ) : Prop where
  base : Base D G rt dep T s
  free : ∀ x < D.n, rt x = x → s.R[x]? = some none
  sub : T ⊆ {i | i < D.m ∧ i ∈ greedy D.cu D.cv}
  subNext : ∀ i ∈ T, i < done + hold.length
  seen : ∀ i < done + hold.length, i ∈ hold ∨ i ∈ T ∨ i ∉ greedy D.cu D.cv
  sorted : hold.Pairwise (· < ·)
  holdNext : ∀ i ∈ hold, i < done + hold.length
  holdT : ∀ i ∈ hold, i ∉ T
  next : done + hold.length ≤ D.m
  curPos : 1 ≤ cur
  curMax : cur ≤ maxRound
  holdCur : hold.length ≤ cur

theorem isMin_congr {rt : ℕ → ℕ} {A B : List ℕ} {x : ℕ} {r : Option ℕ} (hAB : ∀ i, i ∈ A ↔ i ∈ B)
    (h : IsMin D rt A x r) : IsMin D rt B x r :=
  ⟨fun j hj ht => h.1 j ((hAB j).mpr hj) ht, fun i hi => ⟨(hAB i).mp (h.2 i hi).1, (h.2 i hi).2⟩⟩

/-- What a round on the iterations `its` must achieve. -/
structure RoundOk (D : Data) (G : (ℕ → ℕ) → Set ℕ → σ → Prop) (rt : ℕ → ℕ) (T : Set ℕ) (its kept committed : List ℕ)
    (s2 : KSt σ) : Prop where
  ok : ∃ rt2 dep2, ∃ r : ℕ → Option ℕ, Start D rt T r its ∧
      (∀ i, i ∈ kept ↔ i ∈ its ∧ Active D rt i) ∧
      (∀ i, i ∈ committed ↔ i ∈ its ∧ Active D rt i ∧ Wins D rt r i) ∧
      Base D G rt2 dep2 (T ∪ {i | i ∈ committed}) s2 ∧
      (∀ x < D.n, rt2 x = x → s2.R[x]? = some none)

/-- The reservations after the first loop of a round. -/
def resOf (s : KSt σ) (x : ℕ) : Option ℕ := (s.R[x]?).getD none

/-- The second loop of a round, from a state after the reservations of all iterations. -/
theorem after_reserve (hrec : RecOk D rec G) {rt dep : ℕ → ℕ} {T : Set ℕ} {s1 : KSt σ} {A its kept : List ℕ}
    (hA : RInv D G rt dep T A s1) (hAm' : ∀ i, i ∈ A ↔ i ∈ its) (hlt : ∀ i ∈ its, i < D.m) (hnd : its.Nodup)
    (hkept : ∀ i, i ∈ kept ↔ i ∈ its ∧ Active D rt i)
    (ord : List ℕ) (hordC : ord.Perm (its.filter (· ∈ kept))) :
    ∃ committed s2, phase (commit rec) ord s1 = .ok (committed, s2) ∧
      (∀ i, i ∈ committed ↔ i ∈ its ∧ Active D rt i ∧ Wins D rt (resOf s1) i) ∧
      RoundOk D G rt T its kept committed s2 := by
  have hb := hA.base
  let r : ℕ → Option ℕ := resOf s1
  have hs : Start D rt T r its := by
    refine ⟨hb.conn, fun x hx => ⟨(hb.forest.root x hx).1, (hb.forest.root x hx).2.2⟩, ?_, hlt⟩
    intro x hx hr
    obtain ⟨q, hq, hm⟩ := hA.R x hx hr
    have : r x = q := by simp [r, resOf, hq]
    rw [this]
    exact isMin_congr hAm' hm
  have hC0 : CInv D G rt T r its rt dep [] s1 := by
    refine ⟨?_, fun i hi => hA.eu i ((hAm' i).mpr hi), fun i hi => hA.ev i ((hAm' i).mpr hi), ?_, ?_,
      fun x _ h => h, ?_, by simp⟩
    · have : T ∪ {i | i ∈ ([] : List ℕ) ∧ Wins D rt r i} = T := by
        ext i; simp
      rw [this]
      exact hA.base
    · intro x hx hr
      obtain ⟨q, hq, hm⟩ := hA.R x hx hr
      have : r x = q := by simp [r, resOf, hq]
      refine ⟨q, hq, Or.inl this.symm, fun h => absurd this.symm h, ?_⟩
      rintro ⟨j, hj, _⟩
      simp at hj
    · intro x hx hr i hi
      exact ⟨i, le_refl _, by rw [hr]; exact hi⟩
    · intro x hx hr hne
      exact absurd hr hne
  have hmemC : ∀ i, i ∈ ord ↔ i ∈ its ∧ Active D rt i := by
    intro i
    rw [hordC.mem_iff, List.mem_filter]
    simp only [decide_eq_true_eq, hkept]
    tauto
  obtain ⟨committed, s2, rt2, dep2, B', h3, h4, h5, h6⟩ := commit_phase hrec hs
    ord (fun i hi => (hmemC i).mp hi) hC0
    (hordC.nodup_iff.mpr (hnd.filter _)) (by simp)
  have hcom : ∀ i, i ∈ committed ↔ i ∈ its ∧ Active D rt i ∧ Wins D rt r i := by
    intro i
    rw [h4, hmemC, and_assoc]
  have hB' : ∀ i, i ∈ B' ↔ i ∈ its ∧ Active D rt i := by
    intro i
    rw [h6, hmemC]
    simp
  refine ⟨committed, s2, h3, hcom, rt2, dep2, r, hs, hkept, hcom, ?_, ?_⟩
  · have : T ∪ {i | i ∈ committed} = T ∪ {i | i ∈ B' ∧ Wins D rt r i} := by
      ext i
      simp only [Set.mem_union, Set.mem_ofPred_eq, hcom, hB', and_assoc]
    rw [this]
    exact h5.base
  · intro x hx hr2
    have hr := h5.roots x hx hr2
    obtain ⟨q, hq, hq1, hq2, hq3⟩ := h5.R x hx hr
    rw [hq]
    cases hrx : r x with
    | none =>
      rcases hq1 with h | h
      · rw [h, hrx]
      · rw [h]
    | some i =>
      obtain ⟨hi, ht⟩ := (hs.min x hx hr).2 i hrx
      rcases h5.fin x hx hr i ((hB' i).mpr ⟨hi, ht.1⟩) hrx ht with h | h
      · exact absurd hr2 h
      · rw [hq3 h]

/-- One round on the iterations `its`. -/
theorem round_ok (hrec : RecOk D rec G) {rt dep : ℕ → ℕ} {T : Set ℕ} {s : KSt σ} (hb : Base D G rt dep T s)
    (hfree : ∀ x < D.n, rt x = x → s.R[x]? = some none)
    (env : Env) (henv : env.Ok) (fuel : ℕ) (its : List ℕ) (hlt : ∀ i ∈ its, i < D.m) (hnd : its.Nodup) :
    ∃ kept committed s2, atomicRound reserve (commit rec) env fuel its s = .ok (kept, committed, s2) ∧
      RoundOk D G rt T its kept committed s2 := by
  have hR0 : RInv D G rt dep T [] s := by
    refine ⟨hb, by simp, by simp, fun x hx hr => ⟨none, hfree x hx hr, by simp [IsMin]⟩⟩
  have hord := henv.permR fuel its
  obtain ⟨kept, s1, h1, h2, A, hA, hAm⟩ := reserve_phase (env.ordR fuel its)
    (fun i hi => hlt i (hord.mem_iff.mp hi)) hR0
  have hAm' : ∀ i, i ∈ A ↔ i ∈ its := by
    intro i
    rw [hAm, hord.mem_iff]
    simp
  have hkept : ∀ i, i ∈ kept ↔ i ∈ its ∧ Active D rt i := by
    intro i
    rw [h2, hord.mem_iff]
  obtain ⟨committed, s2, h3, -, h4⟩ := after_reserve hrec hA hAm' hlt hnd hkept _
    (henv.permC fuel (its.filter (· ∈ kept)))
  exact ⟨kept, committed, s2, by simp only [atomicRound, h1, Except.bind, h3, Except.map], h4⟩

/-- The loop either throws, after more rounds than there are iterations left, or finishes with the
flags of exactly the greedy edges set. -/
theorem specLoop_ok (round : Round (KSt σ)) (adj : ℕ → ℕ → ℕ → Adj) (bad : ℕ → List ℕ → Prop)
    (hround : ∀ (fuel : ℕ) (its : List ℕ) (rt dep : ℕ → ℕ) (T : Set ℕ) (s : KSt σ), Base D G rt dep T s →
      (∀ x < D.n, rt x = x → s.R[x]? = some none) → (∀ i ∈ its, i < D.m) → its.Nodup →
      (round fuel its s = .error .fuel ∧ bad fuel its) ∨
        ∃ kept committed s2, round fuel its s = .ok (kept, committed, s2) ∧ RoundOk D G rt T its kept committed s2)
    (maxRound : ℕ) (hmax : 4 ≤ maxRound) (fuel : ℕ)
    {rt dep : ℕ → ℕ} {T : Set ℕ} {done : ℕ} {hold : List ℕ} {cur : ℕ} {s : KSt σ}
    (h : GInv D G maxRound rt dep T done hold cur s) :
    (specLoopR round adj D.m maxRound fuel done hold cur s = .error .fuel ∧
        ∃ k its, its.Nodup ∧ its.length ≤ maxRound ∧ (∀ i ∈ its, i < D.m) ∧ bad k its) ∨
    (specLoopR round adj D.m maxRound fuel done hold cur s = .error .throws ∧
        fuel < D.m - done) ∨
      ∃ s' rt' dep', specLoopR round adj D.m maxRound fuel done hold cur s = .ok s' ∧
        Base D G rt' dep' {i | i < D.m ∧ i ∈ greedy D.cu D.cv} s' := by
  induction fuel generalizing rt dep T done hold cur s with
  | zero =>
    unfold specLoopR
    by_cases hd : D.m ≤ done
    · right; right
      rw [if_pos hd]
      have hl : hold.length = 0 := by have := h.next; omega
      have hn : done = D.m := by have := h.next; omega
      have hT : T = {i | i < D.m ∧ i ∈ greedy D.cu D.cv} := by
        refine Set.Subset.antisymm h.sub ?_
        rintro i ⟨hi, hg⟩
        rcases h.seen i (by omega) with h1 | h1 | h1
        · rw [List.length_eq_zero_iff.mp hl] at h1; simp at h1
        · exact h1
        · exact absurd hg h1
      exact ⟨s, rt, dep, rfl, hT ▸ h.base⟩
    · right; left
      rw [if_neg hd]
      exact ⟨rfl, by omega⟩
  | succ fuel ih =>
    unfold specLoopR
    by_cases hd : D.m ≤ done
    · right; right
      rw [if_pos hd]
      have hl : hold.length = 0 := by have := h.next; omega
      have hn : done = D.m := by have := h.next; omega
      have hT : T = {i | i < D.m ∧ i ∈ greedy D.cu D.cv} := by
        refine Set.Subset.antisymm h.sub ?_
        rintro i ⟨hi, hg⟩
        rcases h.seen i (by omega) with h1 | h1 | h1
        · rw [List.length_eq_zero_iff.mp hl] at h1; simp at h1
        · exact h1
        · exact absurd hg h1
      exact ⟨s, rt, dep, rfl, hT ▸ h.base⟩
    · rw [if_neg hd]
      have hnext := h.next
      have hhc := h.holdCur
      have hcp := h.curPos
      have hcm := h.curMax
      have hsz : hold.length ≤ min cur (D.m - done) := by omega
      have hsz1 : 1 ≤ min cur (D.m - done) := by omega
      have hszm : min cur (D.m - done) ≤ maxRound := by omega
      have hszc : min cur (D.m - done) ≤ cur := by omega
      have hszn : done + min cur (D.m - done) ≤ D.m := by omega
      generalize min cur (D.m - done) = size at hsz hsz1 hszm hszc hszn
      simp only
      rw [if_neg (by omega)]
      generalize hits : roundIters hold done size = its
      rw [roundIters_eq _ _ _ hsz] at hits
      have hmem : ∀ i, i ∈ its ↔ i ∈ hold ∨ (done + hold.length ≤ i ∧ i < done + size) := by
        intro i
        rw [← hits]
        simp only [List.mem_append, List.mem_map, List.mem_range]
        constructor
        · rintro (h1 | ⟨j, h1, h2⟩)
          · exact Or.inl h1
          · right; omega
        · rintro (h1 | h1)
          · exact Or.inl h1
          · exact Or.inr ⟨i - (done + hold.length), by omega, by omega⟩
      have hlen : its.length = size := by
        rw [← hits]; simp; omega
      have hsort : its.Pairwise (· < ·) := by
        rw [← hits, List.pairwise_append]
        refine ⟨h.sorted, ?_, ?_⟩
        · rw [List.pairwise_map]
          exact List.pairwise_lt_range.imp (by intro a b hab; omega)
        · intro a ha b hb
          have := h.holdNext a ha
          simp only [List.mem_map, List.mem_range] at hb
          obtain ⟨j, _, hj⟩ := hb
          omega
      have hlt : ∀ i ∈ its, i < done + size := by
        intro i hi
        rcases (hmem i).mp hi with h1 | h1
        · have := h.holdNext i h1; omega
        · exact h1.2
      have hitsT : ∀ i ∈ its, i ∉ T := by
        intro i hi hT
        rcases (hmem i).mp hi with h1 | h1
        · exact h.holdT i h1 hT
        · have := h.subNext i hT; omega
      have hnd : its.Nodup := hsort.imp (by intro a b hab; omega)
      have hlm : ∀ i ∈ its, i < D.m := fun i hi => by have := hlt i hi; omega
      rcases hround fuel its rt dep T s h.base h.free hlm hnd with
        ⟨hbad, hbad2⟩ | ⟨kept, committed, s2, h1, ⟨rt2, dep2, r, hst, hkept, hcom, hbase2, hfree2⟩⟩
      · left
        simp only [hbad, Except.bind]
        exact ⟨trivial, fuel, its, hnd, by omega, hlm, hbad2⟩
      simp only [h1, Except.bind]
      generalize hh' : (its.filter fun i => i ∈ kept ∧ i ∉ committed) = hold'
      have hmem' : ∀ i, i ∈ hold' ↔ i ∈ its ∧ Active D rt i ∧ ¬ Wins D rt r i := by
        intro i
        rw [← hh', List.mem_filter]
        simp only [decide_eq_true_eq, hkept, hcom]
        tauto
      have hlen' : hold'.length < size := by
        rw [← hh', ← hlen]
        rw [List.length_filter_lt_length_iff_exists]
        -- the first iteration of the round always finishes
        cases hitsc : its with
        | nil => rw [hitsc] at hlen; simp at hlen; omega
        | cons i0 rest =>
          refine ⟨i0, by simp, ?_⟩
          simp only [decide_eq_true_eq, not_and, not_not]
          intro hk
          have hi0 : i0 ∈ its := by rw [hitsc]; simp
          have hact := ((hkept i0).mp hk).2
          rw [hcom]
          refine ⟨hi0, hact, Or.inl ?_⟩
          have hm := hlt i0 hi0
          obtain ⟨hUn, hUr⟩ := hst.root _ (D.hu i0 (by omega))
          obtain ⟨k, hk1, hk2⟩ := (hst.min _ hUn hUr).1 i0 hi0 ⟨hact, Or.inl rfl⟩
          have hk3 := ((hst.min _ hUn hUr).2 k hk1).1
          rw [hitsc] at hk3 hsort
          rcases List.mem_cons.mp hk3 with rfl | hk3
          · exact hk1
          · have := (List.pairwise_cons.mp hsort).1 k hk3
            omega
      have hlen'' : hold'.length ≤ size := hlen'.le
      have hinv : GInv D G maxRound rt2 dep2 (T ∪ {i | i ∈ committed})
          (done + (size - hold'.length)) hold'
          (adjust (adj fuel hold'.length size) cur maxRound hold'.length) s2 := by
        have hnx : done + (size - hold'.length) + hold'.length = done + size := by omega
        refine ⟨hbase2, hfree2, ?_, ?_, ?_, ?_, ?_, ?_, ?_, ?_, ?_, ?_⟩
        · rintro i (hi | hi)
          · exact h.sub hi
          · obtain ⟨hi1, hi2, hi3⟩ := (hcom i).mp hi
            have hm : i < D.m := by have := hlt i hi1; omega
            refine ⟨hm, ?_⟩
            have key : ∀ x, x < D.n → rt x = x → r x = some i → i ∈ greedy D.cu D.cv := by
              intro x hx hx0 hrx
              obtain ⟨hmn, hmx⟩ := hst.min x hx hx0
              obtain ⟨_, ht⟩ := hmx i hrx
              have hcc : ∀ a b, D.c a = D.c b → rt a = rt b := fun a b hab =>
                (h.base.conn a b).mpr (by rw [hab]; exact .refl _)
              have hmU : ∀ j, D.cu j ∈ {z | ∃ a, D.c a = z ∧ rt a = x} ↔ rt (D.u j) = x := fun j =>
                ⟨fun ⟨a, ha, hb⟩ => (hcc a (D.u j) ha).symm.trans hb, fun hj => ⟨_, rfl, hj⟩⟩
              have hmV : ∀ j, D.cv j ∈ {z | ∃ a, D.c a = z ∧ rt a = x} ↔ rt (D.v j) = x := fun j =>
                ⟨fun ⟨a, ha, hb⟩ => (hcc a (D.v j) ha).symm.trans hb, fun hj => ⟨_, rfl, hj⟩⟩
              apply greedy_of_leaving (X := {z | ∃ a, D.c a = z ∧ rt a = x})
              · intro j hj hg
                have hjn : j < done + size := by have := hlt i hi1; omega
                have hcase : j ∈ its ∨ j ∈ T := by
                  by_cases hjl : j < done + hold.length
                  · rcases h.seen j hjl with h3 | h3 | h3
                    · exact Or.inl ((hmem j).mpr (Or.inl h3))
                    · exact Or.inr h3
                    · exact absurd hg h3
                  · exact Or.inl ((hmem j).mpr (Or.inr ⟨by omega, hjn⟩))
                rcases hcase with h3 | h3
                · by_cases hja : Active D rt j
                  · have hno : ¬ Touches D rt j x := by
                      intro h4
                      obtain ⟨k, hk1, hk2⟩ := hmn j h3 h4
                      rw [hrx] at hk1
                      simp only [Option.some.injEq] at hk1
                      omega
                    rw [hmU, hmV]
                    constructor
                    · intro h4
                      exact absurd ⟨hja, Or.inl (Eq.symm h4)⟩ hno
                    · intro h4
                      exact absurd ⟨hja, Or.inr (Eq.symm h4)⟩ hno
                  · have : rt (D.u j) = rt (D.v j) := not_not.mp hja
                    rw [hmU, hmV, this]
                · have : rt (D.u j) = rt (D.v j) := (h.base.conn _ _).mpr (.edge h3)
                  rw [hmU, hmV, this]
              · rw [hmU, hmV]
                intro h4
                have ha : rt (D.u i) ≠ rt (D.v i) := ht.1
                rcases ht.2 with h5 | h5
                · exact ha (h5.symm.trans (h4.mp h5.symm).symm)
                · exact ha ((h4.mpr h5.symm).trans h5)
            obtain ⟨hUn, hUr⟩ := hst.root _ (D.hu i hm)
            obtain ⟨hVn, hVr⟩ := hst.root _ (D.hv i hm)
            rcases hi3 with h3 | h3
            · exact key _ hUn hUr h3
            · exact key _ hVn hVr h3
        · rw [hnx]
          rintro i (hi | hi)
          · have := h.subNext i hi; omega
          · exact hlt i ((hcom i).mp hi).1
        · rw [hnx]
          intro i hi
          have hcase : i ∈ its ∨ i ∈ T ∨ i ∉ greedy D.cu D.cv := by
            by_cases hjl : i < done + hold.length
            · rcases h.seen i hjl with h3 | h3 | h3
              · exact Or.inl ((hmem i).mpr (Or.inl h3))
              · exact Or.inr (Or.inl h3)
              · exact Or.inr (Or.inr h3)
            · exact Or.inl ((hmem i).mpr (Or.inr ⟨by omega, hi⟩))
          rcases hcase with h3 | h3 | h3
          · by_cases ha : Active D rt i
            · by_cases hw : Wins D rt r i
              · exact Or.inr (Or.inl (Or.inr ((hcom i).mpr ⟨h3, ha, hw⟩)))
              · exact Or.inl ((hmem' i).mpr ⟨h3, ha, hw⟩)
            · right; right
              exact not_greedy_of_conn h.sub (hitsT i h3) (by omega)
                ((h.base.conn _ _).mp (not_not.mp ha))
          · exact Or.inr (Or.inl (Or.inl h3))
          · exact Or.inr (Or.inr h3)
        · rw [← hh']
          exact hsort.filter _
        · rw [hnx]
          intro i hi
          exact hlt i ((hmem' i).mp hi).1
        · intro i hi hT
          obtain ⟨h3, h4, h5⟩ := (hmem' i).mp hi
          rcases hT with hT | hT
          · exact hitsT i h3 hT
          · exact h5 ((hcom i).mp hT).2.2
        · omega
        · unfold adjust; split <;> omega
        · unfold adjust; split <;> omega
        · unfold adjust; split <;> omega
      rcases ih hinv with h3 | ⟨h3, h4⟩ | h3
      · exact Or.inl h3
      · exact Or.inr (Or.inl ⟨h3, by omega⟩)
      · exact Or.inr (Or.inr h3)

end

end Verif.Mst
