import Verif.Hash.CheckModel
import Verif.Hash.SeqProps
import Mathlib.Tactic.NormNum

set_option linter.unusedSectionVars false
set_option linter.unusedVariables false

/-!
C105: `insert_check` always returns; `insert_f` folds the values of every key.
-/

namespace Verif.Hash

variable {K V : Type} [DecidableEq K]

/-! ### `insert_check` -/

/-- The guarded loop is the unguarded one with a limit on the number of probes. -/
theorem checkLoop_probe {b : ℕ} {k : K} {tab : ℕ → Option K} (fuel : ℕ) : ∀ (n h : ℕ), n + fuel = 10001 → 0 < fuel →
    checkLoop b k tab fuel n h = .ok (match probe b k tab fuel h with | .ok r => some r | .error _ => none) := by
  induction fuel with
  | zero => intro n h _ h0; omega
  | succ fuel ih =>
    intro n h hn _
    rw [checkLoop, probe]
    split
    · rfl
    · split
      · rfl
      · by_cases hf : fuel = 0
        · subst hf
          rw [if_pos (by omega), probe]
        · rw [if_neg (by omega)]
          exact ih (n + 1) _ (by omega) (by omega)

/-- Where the loop stops, with any number of probes. -/
theorem probe_cases {b : ℕ} {hash : K → ℕ} {tab : ℕ → Option K} (k : K) (fuel : ℕ) : ∀ j, Passed b hash tab k j →
    (∃ j', Passed b hash tab k j' ∧
      ((probe b k tab fuel (pos b hash k j) = .ok (pos b hash k j', true) ∧ tab (pos b hash k j') = some k) ∨
       (probe b k tab fuel (pos b hash k j) = .ok (pos b hash k j', false) ∧ tab (pos b hash k j') = none))) ∨
    (probe b k tab fuel (pos b hash k j) = .error .fuel ∧ Passed b hash tab k (j + fuel)) := by
  induction fuel with
  | zero => intro j hp; exact Or.inr ⟨rfl, hp⟩
  | succ fuel ih =>
    intro j hp
    rw [probe]
    split
    · rename_i h1
      exact Or.inl ⟨j, hp, Or.inr ⟨rfl, h1⟩⟩
    · rename_i h1
      split
      · rename_i h2
        exact Or.inl ⟨j, hp, Or.inl ⟨rfl, h2⟩⟩
      · rename_i h2
        rw [incrementIndex_pos]
        have := ih (j + 1) (passed_succ hp h1 h2)
        rwa [show j + 1 + fuel = j + (fuel + 1) by omega] at this

/-- Slots passed are taken. -/
theorem passed_used {hash : K → ℕ} {tomb : K} {t : Tbl K V} {s : Spec K V} (hr : Rep hash tomb t s) {k : K} {n : ℕ}
    (hp : Passed t.b hash t.tab k n) : min (2 ^ t.b) n ≤ s.used := by
  rw [← hr.used]
  have hsub : (Finset.range (min (2 ^ t.b) n)).image (pos t.b hash k) ⊆
      (Finset.range (2 ^ t.b)).filter fun h => t.tab h ≠ none := by
    intro x hx
    rw [Finset.mem_image] at hx
    obtain ⟨i, hi, rfl⟩ := hx
    rw [Finset.mem_range] at hi
    rw [Finset.mem_filter, Finset.mem_range]
    exact ⟨pos_lt _ _ _ _, (hp i (by omega)).1⟩
  have h1 := Finset.card_le_card hsub
  rw [Finset.card_image_of_injOn, Finset.card_range] at h1
  · exact h1
  · intro i hi j hj he
    rw [Finset.mem_coe, Finset.mem_range] at hi hj
    exact pos_inj (by omega) (by omega) he

/-- C105: `insert_check` returns on every table that holds a map, full or not. If the flag was set it does nothing.
Otherwise it either leaves the flag alone and does what `insert_seq` does, or it sets the flag, returns `false`,
leaves the table alone, and then all slots, or at least 10001 slots, are taken; on tables of at most 10001 slots
the key is then not in the table. -/
theorem c105_check {hash : K → ℕ} {tomb : K} {t : Tbl K V} {s : Spec K V} (hr : Rep hash tomb t s) {k : K}
    (hk : k ≠ tomb) (v : V) (abort : Bool) :
    ∃ t' r a, insertCheck hash 10001 t k v abort = .ok (t', r, a) ∧
      (abort = true → t' = t ∧ r = false ∧ a = true) ∧
      (abort = false → a = false → t'.b = t.b ∧ Rep hash tomb t' (s.next (.insert k v)) ∧ r = (s.m k).isNone) ∧
      (abort = false → a = true → t' = t ∧ r = false ∧ min (2 ^ t.b) 10001 ≤ s.used ∧
        (2 ^ t.b ≤ 10001 → s.m k = none)) := by
  cases abort with
  | true => exact ⟨t, false, true, rfl, fun _ => ⟨rfl, rfl, rfl⟩, by simp, by simp⟩
  | false =>
    have hp0 : Passed t.b hash t.tab k 0 := fun i hi => absurd hi (Nat.not_lt_zero i)
    have hl : checkLoop t.b k t.tab 10001 0 (firstIndex t.b hash k) = _ :=
      checkLoop_probe (b := t.b) (k := k) (tab := t.tab) 10001 0 (firstIndex t.b hash k) rfl (by norm_num)
    unfold insertCheck
    rw [hl, firstIndex_eq]
    rcases probe_cases (b := t.b) (hash := hash) (tab := t.tab) k 10001 0 hp0 with ⟨j, hj, h | h⟩ | h
    · rw [h.1]
      refine ⟨t, false, false, rfl, by simp, fun _ _ => ?_, by simp⟩
      have hm := (hr.keys k hk _).mpr ⟨_, pos_lt _ _ _ _, h.2, rfl⟩
      refine ⟨rfl, ?_, by rw [hm]; rfl⟩
      rw [Spec.next, if_neg (by rw [hm]; simp)]
      exact hr
    · rw [h.1]
      refine ⟨_, true, false, rfl, by simp, fun _ _ => ?_, by simp⟩
      have hj2 : j < 2 ^ t.b := passed_lt hj ⟨_, pos_lt _ _ _ _, h.2⟩
      have hm : s.m k = none := by
        cases hm : s.m k with
        | none => rfl
        | some w =>
          obtain ⟨h', c1, c2, -⟩ := (hr.keys k hk w).mp hm
          obtain ⟨j', d1, rfl, d3⟩ := hr.wf k hk h' c1 c2
          rcases Nat.lt_trichotomy j j' with hlt | rfl | hlt
          · exact absurd h.2 (d3 j hlt).1
          · rw [h.2] at c2; exact absurd c2 (by simp)
          · exact absurd c2 (hj j' hlt).2
      refine ⟨rfl, ?_, by rw [hm]; rfl⟩
      rw [Spec.next, if_pos hm]
      exact rep_insert hr hk v hj2 hj h.2 hm
    · rw [h.1]
      refine ⟨t, false, true, rfl, by simp, by simp, fun _ _ => ⟨rfl, rfl, ?_, ?_⟩⟩
      · have := passed_used hr h.2
        rwa [Nat.zero_add] at this
      · intro hle
        cases hm : s.m k with
        | none => rfl
        | some w =>
          obtain ⟨h', c1, c2, -⟩ := (hr.keys k hk w).mp hm
          obtain ⟨j', d1, rfl, d3⟩ := hr.wf k hk h' c1 c2
          exact absurd c2 (h.2 j' (by omega)).2

/-- C105: on a table of at most 10001 slots with a free slot `insert_check` never gives up. Missing: larger tables,
for which this is false (`c105_check_false`). -/
theorem c105_check_room_partial {hash : K → ℕ} {tomb : K} {t : Tbl K V} {s : Spec K V} (hr : Rep hash tomb t s) {k : K}
    (hk : k ≠ tomb) (v : V) (hb : 2 ^ t.b ≤ 10001) (hu : s.used < 2 ^ t.b) :
    ∃ t', insertCheck hash 10001 t k v false = .ok (t', (s.m k).isNone, false) ∧
      Rep hash tomb t' (s.next (.insert k v)) := by
  obtain ⟨t', r, a, h1, -, h3, h4⟩ := c105_check hr hk v false
  cases a with
  | true =>
    have := (h4 rfl rfl).2.2.1
    omega
  | false =>
    obtain ⟨-, c2, c3⟩ := h3 rfl rfl
    exact ⟨t', by rw [h1, c3], c2⟩

/-- The table after the keys `0 .. n-1`, all with hash 0. -/
def crowd (b n : ℕ) (val : ℕ → ℕ) : Tbl ℕ ℕ := ⟨b, fun h => if h < n then some h else none, val⟩

theorem probe_crowd (b n k : ℕ) (hn : n < 2 ^ b) (hk : n ≤ k) (fuel : ℕ) : ∀ h ≤ n,
    probe b k (fun h => if h < n then some h else none) fuel h =
      if n < h + fuel then .ok (n, false) else .error .fuel := by
  induction fuel with
  | zero => intro h hh; rw [probe, if_neg (by omega)]
  | succ fuel ih =>
    intro h hh
    rw [probe]
    by_cases he : h = n
    · subst he
      rw [if_pos (by simp), if_pos (by omega)]
    · rw [if_neg (by simp; omega), if_neg (by rw [if_pos (by omega)]; simp; omega)]
      have : incrementIndex b h = h + 1 := by
        unfold incrementIndex hashToRange
        rw [Nat.and_two_pow_sub_one_eq_mod, Nat.mod_eq_of_lt (by omega)]
      rw [this, ih (h + 1) (by omega)]
      simp only [show h + 1 + fuel = h + (fuel + 1) by omega]

theorem execAll_crowd (b fuel : ℕ) (tomb : ℕ) (len : ℕ) : ∀ (n : ℕ) (val : ℕ → ℕ), n + len < 2 ^ b → 2 ^ b < fuel →
    ∃ val', execAll (fun _ => 0) tomb 0 fuel (crowd b n val) ((List.range' n len).map fun i => .insert i 0) =
      .ok (crowd b (n + len) val', List.replicate len (.bool true)) := by
  induction len with
  | zero => intro n val _ _; exact ⟨val, rfl⟩
  | succ len ih =>
    intro n val h1 h2
    obtain ⟨val', h3⟩ := ih (n + 1) (Function.update val n 0) (by omega) h2
    refine ⟨val', ?_⟩
    have hp : probe b n (fun h => if h < n then some h else none) fuel (firstIndex b (fun _ => 0) n) =
        .ok (n, false) := by
      have : firstIndex b (fun _ : ℕ => 0) n = 0 := by simp [firstIndex, hashToRange]
      rw [this, probe_crowd b n n (by omega) le_rfl fuel 0 (by omega), if_pos (by omega)]
    have hu : Function.update (fun h => if h < n then some h else none) n (some n) =
        fun h => if h < n + 1 then some h else none := by
      funext h
      by_cases he : h = n
      · subst he; simp
      · rw [Function.update_of_ne he]
        by_cases h' : h < n
        · rw [if_pos h', if_pos (by omega)]
        · rw [if_neg h', if_neg (by omega)]
    have he : exec (fun _ => 0) tomb 0 fuel (crowd b n val) (.insert n 0) =
        .ok (crowd b (n + 1) (Function.update val n 0), .bool true) := by
      unfold exec insertSeq crowd
      dsimp only
      rw [hp]
      simp only [Except.map, Bool.false_eq_true, if_false, hu]
    rw [List.range'_succ, List.map_cons, execAll, he]
    simp only [Except.bind]
    rw [h3, show n + (len + 1) = n + 1 + len by omega]
    rfl

/-- C105: that `insert_check` gives up only when the table is full is false of the code: in a table made for 20000
keys, after the insertion of 10001 different keys with the same hash value, the next key is refused and the flag
set, although more than half of the slots are free. -/
theorem c105_check_false : ∃ t : Tbl ℕ ℕ,
    execAll (fun _ => 0) 50000 0 (2 ^ initBits 20000 + 1) (newTbl 20000 0)
      ((List.range' 0 10001).map fun i => .insert i 0) = .ok (t, List.replicate 10001 (.bool true)) ∧
    2 * 10001 < 2 ^ t.b ∧
    insertCheck (fun _ => 0) 10001 t 10001 0 false = .ok (t, false, true) := by
  have hb : initBits 20000 = 15 := by
    decide +kernel
  obtain ⟨val', h⟩ := execAll_crowd 15 (2 ^ 15 + 1) 50000 10001 0 (fun _ => 0) (by norm_num) (by omega)
  refine ⟨crowd 15 10001 val', ?_, by norm_num [crowd], ?_⟩
  · rw [hb]
    have hnew : (newTbl 20000 0 : Tbl ℕ ℕ) = crowd 15 0 fun _ => 0 := by
      unfold newTbl crowd emptyTab
      rw [hb]
      simp
    rw [hnew, h]
  · have hl := checkLoop_probe (b := 15) (k := 10001) (tab := fun h => if h < 10001 then some h else none) 10001 0
      (firstIndex 15 (fun _ => 0) 10001) rfl (by norm_num)
    have h0 : firstIndex 15 (fun _ : ℕ => 0) 10001 = 0 := by simp [firstIndex, hashToRange]
    have hp := probe_crowd 15 10001 10001 (by norm_num) le_rfl 10001 0 (by omega)
    rw [if_neg (by omega)] at hp
    rw [h0, hp] at hl
    unfold insertCheck crowd
    dsimp only
    rw [h0, hl]
    rfl

/-- Non-vacuity of `c105_check_room_partial`: a table with a key and a deleted key, and a key that is not in it. -/
example : ∃ (t t' : Tbl ℤ ℕ), insertCheck (fun k : ℤ => k.toNat) 10001 t 9 90 false = .ok (t', true, false) := by
  obtain ⟨t, os, h1, h2, h3, h4⟩ := execAll_rep (t := newTbl 3 0) 0 5
    [.insert 1 10, .insert 5 50, .mark (1 : ℤ)] (rep_empty (fun k : ℤ => k.toNat) (-1) (initBits 3) (fun _ => (0 : ℕ)))
    (c82_fits 3 _ (by decide)) (by decide +kernel) (by
      intro op h
      simp only [List.mem_cons, List.not_mem_nil, or_false] at h
      rcases h with rfl | rfl | rfl <;> simp [Op.key?])
  have hb : t.b = 2 := by rw [h2]; decide +kernel
  obtain ⟨t', h5, -⟩ := c105_check_room_partial h3 (k := 9) (by decide) 90 (by rw [hb]; norm_num)
    (by rw [hb]; decide +kernel)
  exact ⟨t, t', h5⟩

/-! ### Concurrent calls of `insert_check` -/

section conc

variable {ι : Type} [DecidableEq ι]

/-- A thread that probes is at the slot given by its counter. -/
def CntOK (b : ℕ) (hash : K → ℕ) (k : K) (n : ℕ) : PC → Prop
  | .probe h => h = pos b hash k n ∧ n < 2 ^ b
  | .cas h => h = pos b hash k n ∧ n < 2 ^ b
  | .cmp h => h = pos b hash k n ∧ n < 2 ^ b
  | _ => True

theorem checkStep_sim {b : ℕ} {hash : K → ℕ} {key : ι → K} {value : ι → V} {tab0 : ℕ → Option K} {val0 : ℕ → V}
    {U : Finset K} (hb : 2 ^ b ≤ 10001) (hcard : U.card ≤ 2 ^ b) (hkU : ∀ t, key t ∈ U) {c : ι → ℕ}
    {s : CheckState K V ι} (hi : Inv b hash key value tab0 val0 U c s.base) (ha : s.abort = false)
    (hc : ∀ t, CntOK b hash (key t) (s.cnt t) (s.base.pc t)) (t : ι) :
    (checkStep b key value t s).abort = false ∧
    (checkStep b key value t s).base = (if s.began t = false then s.base else step b key value t s.base) ∧
    (checkStep b key value t s).began = Function.update s.began t true ∧
    ∀ t', CntOK b hash (key t') ((checkStep b key value t s).cnt t') ((checkStep b key value t s).base.pc t') := by
  unfold checkStep
  by_cases hbg : s.began t = false
  · rw [if_pos hbg, if_pos hbg, if_neg (by rw [ha]; simp)]
    exact ⟨ha, rfl, rfl, hc⟩
  · rw [if_neg hbg, if_neg hbg]
    have hupd : Function.update s.began t true = s.began := by
      rw [Function.update_eq_self_iff]
      simpa using hbg
    rw [hupd]
    have hct := hc t
    have hth := hi.thread t
    cases hp : s.base.pc t with
    | probe h =>
      rw [hp] at hct
      refine ⟨ha, rfl, rfl, fun t' => ?_⟩
      dsimp only
      unfold step
      rw [hp]
      dsimp only
      by_cases ht : t' = t
      · subst ht
        split <;> (dsimp only; rw [Function.update_self]; exact hct)
      · split <;> (dsimp only; rw [Function.update_of_ne ht]; exact hc t')
    | cas h =>
      rw [hp] at hct
      refine ⟨ha, rfl, rfl, fun t' => ?_⟩
      dsimp only
      unfold step
      rw [hp]
      dsimp only
      by_cases ht : t' = t
      · subst ht
        split
        · dsimp only; rw [Function.update_self]; trivial
        · dsimp only; rw [Function.update_self]; exact hct
      · split <;> (dsimp only; rw [Function.update_of_ne ht]; exact hc t')
    | store h =>
      refine ⟨ha, rfl, rfl, fun t' => ?_⟩
      dsimp only
      unfold step
      rw [hp]
      dsimp only
      by_cases ht : t' = t
      · subst ht
        rw [Function.update_self]; trivial
      · rw [Function.update_of_ne ht]; exact hc t'
    | done r =>
      refine ⟨ha, rfl, rfl, fun t' => ?_⟩
      dsimp only
      unfold step
      rw [hp]
      exact hc t'
    | cmp h =>
      rw [hp] at hct hth
      dsimp only
      obtain ⟨e1, e2⟩ := hct
      obtain ⟨j, d1, d2, d3, d4, -⟩ := hth
      have hj : j = s.cnt t := pos_inj d1 e2 (d2.symm.trans e1)
      subst hj
      by_cases hk : s.base.tab h = some (key t)
      · rw [if_pos hk]
        refine ⟨ha, rfl, rfl, fun t' => ?_⟩
        dsimp only
        unfold step
        rw [hp]
        dsimp only
        rw [if_pos hk]
        dsimp only
        by_cases ht : t' = t
        · subst ht
          rw [Function.update_self]; trivial
        · rw [Function.update_of_ne ht]; exact hc t'
      · have hpass : Passed b hash s.base.tab (key t) (s.cnt t + 1) :=
          passed_succ d3 (by rw [← d2]; exact d4) (by rw [← d2]; exact hk)
        have hlt : s.cnt t + 1 < 2 ^ b := by
          by_contra hge
          have heq : s.cnt t + 1 = 2 ^ b := by omega
          rw [heq] at hpass
          exact pass_lt hi.wf.noDup hi.univ hcard (hkU t) hpass
        rw [if_neg hk, if_neg (by omega)]
        refine ⟨ha, rfl, rfl, fun t' => ?_⟩
        dsimp only
        unfold step
        rw [hp]
        dsimp only
        rw [if_neg hk]
        dsimp only
        by_cases ht : t' = t
        · subst ht
          rw [Function.update_self, Function.update_self]
          exact ⟨by rw [e1, incrementIndex_pos], hlt⟩
        · rw [Function.update_of_ne ht, Function.update_of_ne ht]; exact hc t'

theorem checkRun_sim {b : ℕ} {hash : K → ℕ} {key : ι → K} {value : ι → V} {tab0 : ℕ → Option K} {val0 : ℕ → V}
    {U : Finset K} (hb : 2 ^ b ≤ 10001) (hcard : U.card ≤ 2 ^ b) (hkU : ∀ t, key t ∈ U) (sched : List ι) :
    ∀ {c : ι → ℕ} {s : CheckState K V ι}, Inv b hash key value tab0 val0 U c s.base → s.abort = false →
    (∀ t, CntOK b hash (key t) (s.cnt t) (s.base.pc t)) →
    (checkRun b key value sched s).abort = false ∧
    ∃ sched', (checkRun b key value sched s).base = run b key value sched' s.base ∧
      ∀ t, sched.count t ≤ sched'.count t + if s.began t then 0 else 1 := by
  induction sched with
  | nil => intro c s _ ha _; exact ⟨ha, [], rfl, fun t => by simp⟩
  | cons t sched ih =>
    intro c s hi ha hc
    obtain ⟨h1, h2, h3, h4⟩ := checkStep_sim hb hcard hkU hi ha hc t
    by_cases hbg : s.began t = false
    · rw [if_pos hbg] at h2
      obtain ⟨g1, sched', g2, g3⟩ := ih (c := c) (s := checkStep b key value t s) (by rw [h2]; exact hi) h1 h4
      refine ⟨g1, sched', by rw [h2] at g2; exact g2, fun t' => ?_⟩
      have := g3 t'
      rw [h3] at this
      by_cases ht : t' = t
      · subst ht
        rw [Function.update_self] at this
        rw [List.count_cons_self, hbg]
        simpa using this
      · rw [Function.update_of_ne ht] at this
        rwa [List.count_cons_of_ne (Ne.symm ht)]
    · rw [if_neg hbg] at h2
      obtain ⟨g1, sched', g2, g3⟩ := ih (s := checkStep b key value t s)
        (by rw [h2]; exact inv_step hcard hkU hi t) h1 h4
      refine ⟨g1, t :: sched', by rw [h2] at g2; exact g2, fun t' => ?_⟩
      have := g3 t'
      rw [h3] at this
      by_cases ht : t' = t
      · subst ht
        rw [Function.update_self] at this
        rw [List.count_cons_self, List.count_cons_self]
        simp only [if_true] at this
        omega
      · rw [Function.update_of_ne ht] at this
        rwa [List.count_cons_of_ne (Ne.symm ht), List.count_cons_of_ne (Ne.symm ht)]

/-- C105: concurrent calls of `insert_check` on a table of at most 10001 slots with room for all keys, with one flag
that is not set at the start: under every interleaving the flag is never set, and when all calls have run to their
end the table is the one promised for `insert` (C45). Missing: larger tables, for which the flag may be set
(`c105_check_false`). -/
theorem c105_concurrent_partial {b : ℕ} {hash : K → ℕ} (key : ι → K) (value : ι → V) {tab0 : ℕ → Option K} {val0 : ℕ → V}
    (hb : 2 ^ b ≤ 10001) (hw : WF b hash tab0) (U : Finset K) (hcard : U.card ≤ 2 ^ b)
    (hU0 : ∀ k, InTab b tab0 k → k ∈ U) (hkU : ∀ t, key t ∈ U) (sched : List ι) :
    (checkRun b key value sched (checkStart b hash key tab0 val0 false)).abort = false ∧
    ((∀ t, 3 * 2 ^ b + 1 < sched.count t) →
      Inserted b key value tab0 val0 (checkRun b key value sched (checkStart b hash key tab0 val0 false)).base ∧
      WF b hash (checkRun b key value sched (checkStart b hash key tab0 val0 false)).base.tab) := by
  have hi : Inv b hash key value tab0 val0 U (fun _ => 0) (checkStart b hash key tab0 val0 false).base :=
    inv_start key value hw hU0
  obtain ⟨h1, sched', h2, h3⟩ := checkRun_sim hb hcard hkU sched hi rfl
    (fun t => ⟨firstIndex_eq b hash (key t), Nat.two_pow_pos b⟩)
  refine ⟨h1, fun hfair => ?_⟩
  rw [h2]
  exact c45_insert key value hw U hcard hU0 hkU sched' (fun t => by
    have e1 := h3 t
    have e2 := hfair t
    have e3 : (if (checkStart b hash key tab0 val0 false : CheckState K V ι).began t then 0 else 1) = 1 := rfl
    rw [e3] at e1
    omega)

/-- C105: once the flag is set no call that starts afterwards changes the table. -/
theorem c105_concurrent_abort {b : ℕ} {hash : K → ℕ} (key : ι → K) (value : ι → V) (tab0 : ℕ → Option K) (val0 : ℕ → V)
    (sched : List ι) :
    (checkRun b key value sched (checkStart b hash key tab0 val0 true)).base.tab = tab0 ∧
    (checkRun b key value sched (checkStart b hash key tab0 val0 true)).base.val = val0 ∧
    ∀ t, t ∈ sched → (checkRun b key value sched (checkStart b hash key tab0 val0 true)).base.pc t = .done false := by
  have key' : ∀ (sched : List ι) (s : CheckState K V ι), s.abort = true → s.base.tab = tab0 → s.base.val = val0 →
      (∀ t, s.began t = true → s.base.pc t = .done false) →
      (checkRun b key value sched s).base.tab = tab0 ∧ (checkRun b key value sched s).base.val = val0 ∧
      ∀ t, t ∈ sched ∨ s.began t = true → (checkRun b key value sched s).base.pc t = .done false := by
    intro sched
    induction sched with
    | nil => intro s _ h2 h3 h4; exact ⟨h2, h3, fun t ht => h4 t (by simpa using ht)⟩
    | cons t sched ih =>
      intro s h1 h2 h3 h4
      by_cases hbg : s.began t = false
      · have hs : checkStep b key value t s = { s with
            began := Function.update s.began t true
            base := { s.base with pc := Function.update s.base.pc t (.done false) } } := by
          unfold checkStep
          rw [if_pos hbg, if_pos h1]
        obtain ⟨g1, g2, g3⟩ := ih (checkStep b key value t s) (by rw [hs]; exact h1) (by rw [hs]; exact h2)
          (by rw [hs]; exact h3) (by
            rw [hs]
            intro t' ht'
            dsimp only at ht' ⊢
            by_cases ht : t' = t
            · subst ht; rw [Function.update_self]
            · rw [Function.update_of_ne ht] at ht' ⊢; exact h4 t' ht')
        refine ⟨g1, g2, fun t' ht' => g3 t' ?_⟩
        rw [hs]
        dsimp only
        by_cases ht : t' = t
        · subst ht; right; rw [Function.update_self]
        · rw [Function.update_of_ne ht]
          rcases ht' with ht' | ht'
          · rcases List.mem_cons.mp ht' with h | h
            · exact absurd h ht
            · exact Or.inl h
          · exact Or.inr ht'
      · have hbg' : s.began t = true := by simpa using hbg
        have hs : checkStep b key value t s = s := by
          unfold checkStep
          rw [if_neg hbg, h4 t hbg']
          dsimp only
          unfold step
          rw [h4 t hbg']
        obtain ⟨g1, g2, g3⟩ := ih (checkStep b key value t s) (by rw [hs]; exact h1) (by rw [hs]; exact h2)
          (by rw [hs]; exact h3) (by rw [hs]; exact h4)
        refine ⟨g1, g2, fun t' ht' => g3 t' ?_⟩
        rw [hs]
        rcases ht' with ht' | ht'
        · rcases List.mem_cons.mp ht' with rfl | h
          · exact Or.inr hbg'
          · exact Or.inl h
        · exact Or.inr ht'
  obtain ⟨g1, g2, g3⟩ := key' sched (checkStart b hash key tab0 val0 true) rfl rfl rfl (by
    intro t ht
    exact absurd ht (by simp [checkStart]))
  exact ⟨g1, g2, fun t ht => g3 t (Or.inl ht)⟩

/-- Non-vacuity of `c105_concurrent_partial`: three threads, two with the same key, one with the same hash value, a
table of four slots. -/
example : ∃ sched : List (Fin 3), (∀ t, 3 * 2 ^ 2 + 1 < sched.count t) ∧
    (checkRun 2 ![4, 8, 4] ![10, 20, 30] sched (checkStart 2 (fun k : ℕ => k) ![4, 8, 4] emptyTab (fun _ => 0)
      false)).abort = false := by
  refine ⟨(List.replicate 14 [0, 1, 2]).flatten, by decide +kernel, ?_⟩
  exact (c105_concurrent_partial (b := 2) (hash := fun k : ℕ => k) ![4, 8, 4] ![10, 20, 30] (by norm_num)
    (wf_empty 2 _) {4, 8} (by decide) (by rintro k ⟨h, -, hk⟩; simp [emptyTab] at hk) (by decide) _).1

end conc

/-! ### `insert_f` -/

/-- A new value for a key of the table. -/
theorem rep_set {hash : K → ℕ} {tomb : K} {t : Tbl K V} {s : Spec K V} (hr : Rep hash tomb t s) {k : K}
    (hk : k ≠ tomb) (v : V) {h0 : ℕ} (hpl : h0 < 2 ^ t.b) (hn : t.tab h0 = some k) :
    Rep hash tomb ⟨t.b, t.tab, Function.update t.val h0 v⟩ ⟨Function.update s.m k (some v), s.used, s.dead⟩ := by
  refine ⟨hr.wf, ?_, ?_, hr.used, hr.dead⟩
  · intro k' hk' v'
    dsimp only
    by_cases hkk : k' = k
    · subst hkk
      rw [Function.update_self]
      constructor
      · intro he
        exact ⟨h0, hpl, hn, by rw [Function.update_self]; simpa using he⟩
      · rintro ⟨h, b1, b2, b3⟩
        have := hr.noDup hk hpl b1 hn b2
        subst this
        rw [Function.update_self] at b3
        rw [b3]
    · rw [Function.update_of_ne hkk, hr.keys k' hk' v']
      have hne : ∀ h, t.tab h = some k' → h ≠ h0 := fun h he hc => by
        rw [hc, hn] at he
        exact hkk (by simpa using he.symm)
      constructor
      · rintro ⟨h, b1, b2, b3⟩
        exact ⟨h, b1, b2, by rw [Function.update_of_ne (hne h b2)]; exact b3⟩
      · rintro ⟨h, b1, b2, b3⟩
        rw [Function.update_of_ne (hne h b2)] at b3
        exact ⟨h, b1, b2, b3⟩
  · dsimp only
    rw [Function.update_of_ne (Ne.symm hk)]
    exact hr.mtomb

/-- Specification: the value of a key after the calls `l`. -/
def folded (f : V → K × V → V) (empty : V) (l : List (K × V)) (k : K) : Option V :=
  if k ∈ l.map Prod.fst then some ((l.filter fun e => e.1 = k).foldl f empty) else none

/-- Specification: the results of the calls `l` after the calls `pre`: whether the key is new. -/
def newKeys : List (K × V) → List (K × V) → List Bool
  | _, [] => []
  | pre, e :: l => decide (e.1 ∉ pre.map Prod.fst) :: newKeys (pre ++ [e]) l

theorem folded_append (f : V → K × V → V) (empty : V) (pre : List (K × V)) (e : K × V) :
    folded f empty (pre ++ [e]) =
      Function.update (folded f empty pre) e.1 (some (f ((folded f empty pre e.1).getD empty) e)) := by
  funext k
  by_cases hk : k = e.1
  · subst hk
    rw [Function.update_self]
    unfold folded
    rw [if_pos (by simp), List.filter_append, List.foldl_append]
    by_cases hm : e.1 ∈ pre.map Prod.fst
    · rw [if_pos hm]
      simp
    · rw [if_neg hm]
      have : pre.filter (fun x => x.1 = e.1) = [] := by
        rw [List.filter_eq_nil_iff]
        intro x hx hc
        exact hm (List.mem_map.mpr ⟨x, hx, by simpa using hc⟩)
      rw [this]
      simp
  · rw [Function.update_of_ne hk]
    unfold folded
    have h1 : (k ∈ (pre ++ [e]).map Prod.fst) ↔ k ∈ pre.map Prod.fst := by
      simp [hk]
    have h2 : (pre ++ [e]).filter (fun x => x.1 = k) = pre.filter fun x => x.1 = k := by
      rw [List.filter_append]
      simp [Ne.symm hk]
    rw [h2]
    by_cases hm : k ∈ pre.map Prod.fst
    · rw [if_pos hm, if_pos (h1.mpr hm)]
    · rw [if_neg hm, if_neg (fun hc => hm (h1.mp hc))]

theorem insertFAll_rep {hash : K → ℕ} {tomb : K} (f : V → K × V → V) (empty : V) (b fuel : ℕ) (hf : 2 ^ b < fuel)
    (l : List (K × V)) : ∀ (pre : List (K × V)) (t : Tbl K V), t.b = b →
    Rep hash tomb t ⟨folded f empty pre, (pre.map Prod.fst).toFinset.card, 0⟩ →
    (∀ h < 2 ^ t.b, t.tab h = none → t.val h = empty) →
    ((pre ++ l).map Prod.fst).toFinset.card < 2 ^ b → (∀ e ∈ l, e.1 ≠ tomb) →
    ∃ t', insertFAll hash fuel f t l = .ok (t', newKeys pre l) ∧ t'.b = b ∧
      Rep hash tomb t' ⟨folded f empty (pre ++ l), ((pre ++ l).map Prod.fst).toFinset.card, 0⟩ := by
  induction l with
  | nil => intro pre t hb hr _ _ _; exact ⟨t, rfl, hb, by rwa [List.append_nil]⟩
  | cons e l ih =>
    intro pre t hb hr hfree hfit hk
    have hke : e.1 ≠ tomb := hk e (by simp)
    have hcard : (pre.map Prod.fst).toFinset.card < 2 ^ b := by
      refine lt_of_le_of_lt (Finset.card_le_card ?_) hfit
      intro x hx
      simp only [List.mem_toFinset, List.map_append, List.mem_append] at hx ⊢
      exact Or.inl hx
    have hcat : pre ++ e :: l = (pre ++ [e]) ++ l := by simp
    obtain ⟨j, h1, h2, h3⟩ := probe_rep hr (by rw [hb]; exact hcard) (by rw [hb]; exact hf) hke
    rcases h3 with ⟨a1, a2, a3⟩ | ⟨a1, a2, a3⟩
    · have hin : e.1 ∈ pre.map Prod.fst := by
        by_contra hc
        dsimp only at a3
        rw [folded, if_neg hc] at a3
        exact absurd a3 (by simp)
      have hstep : insertF hash fuel f t e.1 e.2 = .ok (⟨t.b, t.tab,
          Function.update t.val (pos t.b hash e.1 j) (f (t.val (pos t.b hash e.1 j)) e)⟩, false) := by
        unfold insertF
        rw [a1]
        rfl
      have hset : ((pre ++ [e]).map Prod.fst).toFinset = (pre.map Prod.fst).toFinset := by
        ext x
        simp only [List.mem_toFinset, List.map_append, List.mem_append, List.map_cons, List.map_nil,
          List.mem_singleton]
        constructor
        · rintro (h | rfl)
          · exact h
          · exact hin
        · exact Or.inl
      have hr' := rep_set hr hke (f (t.val (pos t.b hash e.1 j)) e) (pos_lt _ _ _ _) a2
      obtain ⟨t', g1, g2, g3⟩ := ih (pre ++ [e]) ⟨t.b, t.tab,
          Function.update t.val (pos t.b hash e.1 j) (f (t.val (pos t.b hash e.1 j)) e)⟩ hb (by
          rw [hset, folded_append]
          dsimp only at a3 hr'
          rw [a3]
          exact hr') (by
          intro h hh hn
          dsimp only at hh hn ⊢
          rw [Function.update_of_ne (fun hc => by rw [hc, a2] at hn; exact absurd hn (by simp))]
          exact hfree h hh hn) (by rw [← hcat]; exact hfit) (fun x hx => hk x (by simp [hx]))
      refine ⟨t', ?_, g2, by rw [hcat]; exact g3⟩
      rw [insertFAll, hstep]
      simp only [Except.bind]
      rw [g1, newKeys, show decide (e.1 ∉ pre.map Prod.fst) = false by simpa using hin]
      rfl
    · have hin : e.1 ∉ pre.map Prod.fst := by
        intro hc
        dsimp only at a3
        rw [folded, if_pos hc] at a3
        exact absurd a3 (by simp)
      have hval : t.val (pos t.b hash e.1 j) = empty := hfree _ (pos_lt _ _ _ _) a2
      have hstep : insertF hash fuel f t e.1 e.2 = .ok (⟨t.b, Function.update t.tab (pos t.b hash e.1 j) (some e.1),
          Function.update t.val (pos t.b hash e.1 j) (f empty e)⟩, true) := by
        unfold insertF
        rw [a1, ← hval]
        rfl
      have hset : ((pre ++ [e]).map Prod.fst).toFinset.card = (pre.map Prod.fst).toFinset.card + 1 := by
        have : ((pre ++ [e]).map Prod.fst).toFinset = Insert.insert e.1 (pre.map Prod.fst).toFinset := by
          ext x
          simp [or_comm]
        rw [this, Finset.card_insert_of_notMem (by rwa [List.mem_toFinset])]
      have hr' := rep_insert hr hke (f empty e) h1 h2 a2 a3
      obtain ⟨t', g1, g2, g3⟩ := ih (pre ++ [e]) ⟨t.b, Function.update t.tab (pos t.b hash e.1 j) (some e.1),
          Function.update t.val (pos t.b hash e.1 j) (f empty e)⟩ hb (by
          rw [hset, folded_append]
          dsimp only at a3 hr'
          rw [a3]
          exact hr') (by
          intro h hh hn
          dsimp only at hh hn ⊢
          have hne : h ≠ pos t.b hash e.1 j := fun hc => by
            rw [hc, Function.update_self] at hn
            exact absurd hn (by simp)
          rw [Function.update_of_ne hne] at hn ⊢
          exact hfree h hh hn) (by rw [← hcat]; exact hfit) (fun x hx => hk x (by simp [hx]))
      refine ⟨t', ?_, g2, by rw [hcat]; exact g3⟩
      rw [insertFAll, hstep]
      simp only [Except.bind]
      rw [g1, newKeys, show decide (e.1 ∉ pre.map Prod.fst) = true by simpa using hin]
      rfl

/-- C105: a table made for `m` keys, and any sequence of calls of `insert_f` with at most `m` different keys: all
calls return, each tells whether its key is new, and afterwards `find` gives for every key the values of its calls,
combined by `f` from the value of the cleared table on, in the order of the calls, or the default if there was no
call with this key; `entries` lists exactly these pairs. -/
theorem c105_fold (hash : K → ℕ) (tomb : K) (f : V → K × V → V) (empty : V) (m : ℕ) (l : List (K × V))
    (hm : (l.map Prod.fst).toFinset.card ≤ m) (hk : ∀ e ∈ l, e.1 ≠ tomb) :
    ∃ t, insertFAll hash (2 ^ initBits m + 1) f (newTbl m empty) l = .ok (t, newKeys [] l) ∧
      (∀ k, k ≠ tomb → ∀ d, find t.b hash t.tab t.val (2 ^ initBits m + 1) k d =
        .ok ((folded f empty l k).getD d)) ∧
      Lists (folded f empty l) (entries t) := by
  have hc := c82_capacity m
  obtain ⟨t, h1, h2, h3⟩ := insertFAll_rep (hash := hash) (tomb := tomb) f empty (initBits m) (2 ^ initBits m + 1)
    (Nat.lt_succ_self _) l [] (newTbl m empty) rfl (rep_empty hash tomb (initBits m) _) (fun _ _ _ => rfl)
    (by rw [List.nil_append]; omega) hk
  rw [List.nil_append] at h3
  refine ⟨t, h1, ?_, c82_entries_exact h3 rfl⟩
  intro k hk d
  obtain ⟨t', o, g1, g2, g3, g4⟩ := exec_rep empty h3 (fuel := 2 ^ initBits m + 1) (by rw [h2]; dsimp only; omega)
    (by rw [h2]; omega) (.find k d) (by simpa [Op.key?] using hk)
  unfold exec at g1
  dsimp only at g1
  cases hfd : find t.b hash t.tab t.val (2 ^ initBits m + 1) k d with
  | error e =>
    rw [hfd] at g1
    exact absurd g1 (by simp [Except.map])
  | ok r =>
    rw [hfd] at g1
    simp only [Except.map, Except.ok.injEq, Prod.mk.injEq] at g1
    rw [← g1.2] at g4
    exact congrArg _ g4

/-- Non-vacuity of `c105_fold`: sums of values, two keys with the same hash value, one of them twice. -/
example : (([(1, 10), (5, 50), (1, 7)] : List (ℤ × ℕ)).map Prod.fst).toFinset.card ≤ 2 ∧
    (∀ e ∈ ([(1, 10), (5, 50), (1, 7)] : List (ℤ × ℕ)), e.1 ≠ -1) ∧
    folded (fun a e => a + e.2) 0 ([(1, 10), (5, 50), (1, 7)] : List (ℤ × ℕ)) 1 = some 17 ∧
    newKeys [] ([(1, 10), (5, 50), (1, 7)] : List (ℤ × ℕ)) = [true, true, false] := by
  decide +kernel

end Verif.Hash
