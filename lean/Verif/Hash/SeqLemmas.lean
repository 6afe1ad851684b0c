import Verif.Hash.SeqModel
import Verif.Hash.Props
import Mathlib.Order.Interval.Finset.Nat
import Mathlib.Data.Finset.Image
import Mathlib.Data.Nat.Count
import Mathlib.Data.Fintype.Card

set_option linter.unusedSectionVars false
set_option linter.unusedVariables false

/-!
Specification of the sequential table and lemmas for C82.
-/

namespace Verif.Hash

variable {K V : Type} [DecidableEq K]

/-! ### Specification -/

/-- What the user has in mind: a finite map; `used` and `dead` count the slots taken and the slots taken by marked
keys, since the last `clear`. -/
structure Spec (K V : Type) where
  m : K → Option V
  used : ℕ
  dead : ℕ

/-- The effect of a call on the map. -/
def Spec.next (s : Spec K V) : Op K V → Spec K V
  | .insert k v => if s.m k = none then ⟨Function.update s.m k (some v), s.used + 1, s.dead⟩ else s
  | .mark k => if s.m k = none then s else ⟨Function.update s.m k none, s.used, s.dead + 1⟩
  | .clear => ⟨fun _ => none, 0, 0⟩
  | _ => s

/-- A list has exactly the entries of the map, each key once. -/
def Lists (m : K → Option V) (l : List (K × V)) : Prop :=
  (∀ k v, (k, v) ∈ l ↔ m k = some v) ∧ (l.map Prod.fst).Nodup

/-- The answer to a call is the one of the map. The list of entries also has one entry with key `tomb` for every
marked key. -/
def Answers (tomb : K) (s : Spec K V) : Op K V → Out K V → Prop
  | .insert k _, .bool r => r = (s.m k).isNone
  | .mark _, .unit => True
  | .contains k, .bool r => r = (s.m k).isSome
  | .find k d, .val v => v = (s.m k).getD d
  | .entries, .list l => Lists s.m (l.filter fun e => e.1 ≠ tomb) ∧ (l.filter fun e => e.1 = tomb).length = s.dead
  | .clear, .unit => True
  | _, _ => False

/-- The key of a call. -/
def Op.key? : Op K V → Option K
  | .insert k _ => some k
  | .mark k => some k
  | .contains k => some k
  | .find k _ => some k
  | _ => none

/-- The answers to a sequence of calls. -/
def AllAnswers (tomb : K) : Spec K V → List (Op K V) → List (Out K V) → Prop
  | _, [], [] => True
  | s, op :: ops, o :: os => Answers tomb s op o ∧ AllAnswers tomb (s.next op) ops os
  | _, _, _ => False

/-- The table never gets full: after every call fewer than `n` slots are taken. -/
def Fits (n : ℕ) : Spec K V → List (Op K V) → Prop
  | s, [] => s.used < n
  | s, op :: ops => s.used < n ∧ Fits n (s.next op) ops

/-! ### Invariant -/

/-- The table holds the map. -/
structure Rep (hash : K → ℕ) (tomb : K) (t : Tbl K V) (s : Spec K V) : Prop where
  wf : ∀ k, k ≠ tomb → ∀ h < 2 ^ t.b, t.tab h = some k →
    ∃ j < 2 ^ t.b, h = pos t.b hash k j ∧ Passed t.b hash t.tab k j
  keys : ∀ k, k ≠ tomb → ∀ v, s.m k = some v ↔ ∃ h < 2 ^ t.b, t.tab h = some k ∧ t.val h = v
  mtomb : s.m tomb = none
  used : ((Finset.range (2 ^ t.b)).filter fun h => t.tab h ≠ none).card = s.used
  dead : ((Finset.range (2 ^ t.b)).filter fun h => t.tab h = some tomb).card = s.dead

theorem Rep.noDup {hash : K → ℕ} {tomb : K} {t : Tbl K V} {s : Spec K V} (hr : Rep hash tomb t s)
    {k : K} (hk : k ≠ tomb) {h h' : ℕ} (hh : h < 2 ^ t.b) (hh' : h' < 2 ^ t.b) (h1 : t.tab h = some k)
    (h2 : t.tab h' = some k) : h = h' := by
  obtain ⟨j, hj, rfl, hj2⟩ := hr.wf k hk h hh h1
  obtain ⟨j', hj', rfl, hj2'⟩ := hr.wf k hk h' hh' h2
  rcases Nat.lt_trichotomy j j' with hlt | rfl | hlt
  · exact absurd h1 (hj2' j hlt).2
  · rfl
  · exact absurd h2 (hj2 j' hlt).2

theorem Rep.room {hash : K → ℕ} {tomb : K} {t : Tbl K V} {s : Spec K V} (hr : Rep hash tomb t s)
    (hu : s.used < 2 ^ t.b) : ∃ h < 2 ^ t.b, t.tab h = none := by
  by_contra hno
  push Not at hno
  have : (Finset.range (2 ^ t.b)).filter (fun h => t.tab h ≠ none) = Finset.range (2 ^ t.b) := by
    apply Finset.filter_true_of_mem
    intro h hh
    exact hno h (Finset.mem_range.mp hh)
  have h2 := hr.used
  rw [this, Finset.card_range] at h2
  omega

theorem passed_succ {b : ℕ} {hash : K → ℕ} {tab : ℕ → Option K} {k : K} {j : ℕ} (hp : Passed b hash tab k j)
    (h1 : tab (pos b hash k j) ≠ none) (h2 : tab (pos b hash k j) ≠ some k) : Passed b hash tab k (j + 1) := by
  intro i hi
  by_cases hij : i = j
  · subst hij
    exact ⟨h1, h2⟩
  · exact hp i (by omega)

/-- A whole round over a table with a free slot meets it. -/
theorem passed_lt {b : ℕ} {hash : K → ℕ} {tab : ℕ → Option K} {k : K} {j : ℕ} (hp : Passed b hash tab k j)
    (hroom : ∃ h < 2 ^ b, tab h = none) : j < 2 ^ b := by
  by_contra hge
  obtain ⟨h0, hh0, hn0⟩ := hroom
  have hr' : hash k % 2 ^ b < 2 ^ b := Nat.mod_lt _ (Nat.two_pow_pos b)
  have : ∃ i < 2 ^ b, pos b hash k i = h0 := by
    refine ⟨(h0 + (2 ^ b - hash k % 2 ^ b)) % 2 ^ b, Nat.mod_lt _ (Nat.two_pow_pos b), ?_⟩
    unfold pos
    rw [Nat.add_mod, Nat.mod_mod, ← Nat.add_mod, ← Nat.mod_add_mod,
      show hash k % 2 ^ b + (h0 + (2 ^ b - hash k % 2 ^ b)) = h0 + 2 ^ b by omega, Nat.add_mod_right,
      Nat.mod_eq_of_lt hh0]
  obtain ⟨i, hi, hi2⟩ := this
  exact (hp i (by omega)).1 (by rw [hi2]; exact hn0)

/-- The probing loop stops at the key, or at the free slot where the key belongs. -/
theorem probe_spec {b : ℕ} {hash : K → ℕ} {tab : ℕ → Option K} (k : K) (hroom : ∃ h < 2 ^ b, tab h = none)
    (j fuel : ℕ) (hj : 2 ^ b < j + fuel) (hp : Passed b hash tab k j) :
    ∃ j', j' < 2 ^ b ∧ Passed b hash tab k j' ∧
      ((probe b k tab fuel (pos b hash k j) = .ok (pos b hash k j', true) ∧ tab (pos b hash k j') = some k) ∨
       (probe b k tab fuel (pos b hash k j) = .ok (pos b hash k j', false) ∧ tab (pos b hash k j') = none)) := by
  induction fuel generalizing j with
  | zero =>
    have := passed_lt hp hroom
    omega
  | succ fuel ih =>
    rw [probe]
    split
    · rename_i h1
      exact ⟨j, passed_lt hp hroom, hp, Or.inr ⟨rfl, h1⟩⟩
    · rename_i h1
      split
      · rename_i h2
        exact ⟨j, passed_lt hp hroom, hp, Or.inl ⟨rfl, h2⟩⟩
      · rename_i h2
        rw [incrementIndex_pos]
        exact ih (j + 1) (by omega) (passed_succ hp h1 h2)

theorem lookup_probe (b : ℕ) (k : K) (tab : ℕ → Option K) (fuel h : ℕ) :
    lookup b k tab fuel h = (probe b k tab fuel h).map fun r => if r.2 then some r.1 else none := by
  induction fuel generalizing h with
  | zero => rfl
  | succ fuel ih =>
    rw [lookup, probe]
    by_cases h1 : tab h = none
    · rw [if_pos h1, if_pos h1, h1, if_neg (by simp)]
      rfl
    · rw [if_neg h1, if_neg h1]
      by_cases h2 : tab h = some k
      · rw [if_pos h2, if_pos h2]
        rfl
      · rw [if_neg h2, if_neg h2]
        exact ih _

/-- In a full table without the key the loop never ends. -/
theorem probe_full {b : ℕ} {k : K} {tab : ℕ → Option K} (hfull : ∀ h < 2 ^ b, tab h ≠ none ∧ tab h ≠ some k)
    (fuel h : ℕ) (hh : h < 2 ^ b) : probe b k tab fuel h = .error .fuel := by
  induction fuel generalizing h with
  | zero => rfl
  | succ fuel ih =>
    rw [probe, if_neg (hfull h hh).1, if_neg (hfull h hh).2]
    apply ih
    unfold incrementIndex hashToRange
    rw [Nat.and_two_pow_sub_one_eq_mod]
    exact Nat.mod_lt _ (Nat.two_pow_pos b)

/-- What the loop says in terms of the map. -/
theorem probe_rep {hash : K → ℕ} {tomb : K} {t : Tbl K V} {s : Spec K V} (hr : Rep hash tomb t s)
    (hu : s.used < 2 ^ t.b) {fuel : ℕ} (hf : 2 ^ t.b < fuel) {k : K} (hk : k ≠ tomb) :
    ∃ j, j < 2 ^ t.b ∧ Passed t.b hash t.tab k j ∧
      ((probe t.b k t.tab fuel (firstIndex t.b hash k) = .ok (pos t.b hash k j, true) ∧
        t.tab (pos t.b hash k j) = some k ∧ s.m k = some (t.val (pos t.b hash k j))) ∨
       (probe t.b k t.tab fuel (firstIndex t.b hash k) = .ok (pos t.b hash k j, false) ∧
        t.tab (pos t.b hash k j) = none ∧ s.m k = none)) := by
  rw [firstIndex_eq]
  obtain ⟨j, h1, h2, h3⟩ := probe_spec (hash := hash) k (hr.room hu) 0 fuel (by omega)
    (fun i hi => absurd hi (by omega))
  refine ⟨j, h1, h2, ?_⟩
  rcases h3 with ⟨a1, a2⟩ | ⟨a1, a2⟩
  · exact Or.inl ⟨a1, a2, (hr.keys k hk _).mpr ⟨_, pos_lt _ _ _ _, a2, rfl⟩⟩
  · refine Or.inr ⟨a1, a2, ?_⟩
    cases hm : s.m k with
    | none => rfl
    | some v =>
      obtain ⟨h, b1, b2, b3⟩ := (hr.keys k hk v).mp hm
      obtain ⟨j', c1, c2, c3⟩ := hr.wf k hk h b1 b2
      exfalso
      rcases Nat.lt_trichotomy j' j with hlt | heq | hlt
      · exact (h2 j' hlt).2 (by rw [← c2]; exact b2)
      · subst heq
        rw [← c2, b2] at a2
        exact absurd a2 (by simp)
      · exact (c3 j hlt).1 a2

/-! ### The operations keep the invariant -/

theorem rep_insert {hash : K → ℕ} {tomb : K} {t : Tbl K V} {s : Spec K V} (hr : Rep hash tomb t s)
    {k : K} (hk : k ≠ tomb) (v : V) {j : ℕ} (hj : j < 2 ^ t.b) (hp : Passed t.b hash t.tab k j)
    (hn : t.tab (pos t.b hash k j) = none) (hm : s.m k = none) :
    Rep hash tomb ⟨t.b, Function.update t.tab (pos t.b hash k j) (some k),
      Function.update t.val (pos t.b hash k j) v⟩ ⟨Function.update s.m k (some v), s.used + 1, s.dead⟩ := by
  have hpl : pos t.b hash k j < 2 ^ t.b := pos_lt _ _ _ _
  set h0 := pos t.b hash k j with hh0
  have hnk : ∀ h < 2 ^ t.b, t.tab h ≠ some k := by
    intro h hh he
    have := (hr.keys k hk (t.val h)).mpr ⟨h, hh, he, rfl⟩
    rw [hm] at this
    exact absurd this (by simp)
  have hpass : ∀ (k' : K) (j' : ℕ), k' ≠ k → Passed t.b hash t.tab k' j' →
      Passed t.b hash (Function.update t.tab h0 (some k)) k' j' := by
    intro k' j' hne hp' i hi
    by_cases he : pos t.b hash k' i = h0
    · rw [he, Function.update_self]
      exact ⟨by simp, by simpa using Ne.symm hne⟩
    · rw [Function.update_of_ne he]
      exact hp' i hi
  refine ⟨?_, ?_, ?_, ?_, ?_⟩
  · intro k' hk' h hh he
    dsimp only at hh he ⊢
    by_cases hhe : h = h0
    · subst hhe
      rw [Function.update_self] at he
      have : k = k' := by simpa using he
      subst this
      refine ⟨j, hj, hh0, ?_⟩
      intro i hi
      have hne : pos t.b hash k i ≠ h0 := fun hc => by
        have := pos_inj (by omega) hj (hc.trans hh0)
        omega
      rw [Function.update_of_ne hne]
      exact hp i hi
    · rw [Function.update_of_ne hhe] at he
      obtain ⟨j', c1, c2, c3⟩ := hr.wf k' hk' h hh he
      have hne : k' ≠ k := fun hc => hnk h hh (hc ▸ he)
      exact ⟨j', c1, c2, hpass k' j' hne c3⟩
  · intro k' hk' v'
    dsimp only
    by_cases hkk : k' = k
    · subst hkk
      rw [Function.update_self]
      constructor
      · intro he
        exact ⟨h0, hpl, Function.update_self _ _ _, by rw [Function.update_self]; simpa using he⟩
      · rintro ⟨h, b1, b2, b3⟩
        by_cases hhe : h = h0
        · subst hhe
          rw [Function.update_self] at b3
          rw [b3]
        · rw [Function.update_of_ne hhe] at b2
          exact absurd b2 (hnk h b1)
    · rw [Function.update_of_ne hkk, hr.keys k' hk' v']
      constructor
      · rintro ⟨h, b1, b2, b3⟩
        have hhe : h ≠ h0 := fun hc => by
          rw [hc, hn] at b2
          exact absurd b2 (by simp)
        exact ⟨h, b1, by rw [Function.update_of_ne hhe]; exact b2, by rw [Function.update_of_ne hhe]; exact b3⟩
      · rintro ⟨h, b1, b2, b3⟩
        have hhe : h ≠ h0 := fun hc => by
          rw [hc, Function.update_self] at b2
          exact hkk (by simpa using b2.symm)
        rw [Function.update_of_ne hhe] at b2 b3
        exact ⟨h, b1, b2, b3⟩
  · dsimp only
    rw [Function.update_of_ne (Ne.symm hk)]
    exact hr.mtomb
  · dsimp only
    rw [← hr.used]
    have : (Finset.range (2 ^ t.b)).filter (fun h => Function.update t.tab h0 (some k) h ≠ none) =
        Insert.insert h0 ((Finset.range (2 ^ t.b)).filter fun h => t.tab h ≠ none) := by
      ext h
      simp only [Finset.mem_filter, Finset.mem_range, Finset.mem_insert]
      by_cases hhe : h = h0
      · subst hhe
        simp [hpl]
      · rw [Function.update_of_ne hhe]
        simp [hhe]
    rw [this, Finset.card_insert_of_notMem]
    simp [hn]
  · dsimp only
    rw [← hr.dead]
    congr 1
    ext h
    simp only [Finset.mem_filter, Finset.mem_range]
    by_cases hhe : h = h0
    · subst hhe
      rw [Function.update_self, hn]
      simp [hk]
    · rw [Function.update_of_ne hhe]

theorem rep_mark {hash : K → ℕ} {tomb : K} {t : Tbl K V} {s : Spec K V} (hr : Rep hash tomb t s)
    {k : K} (hk : k ≠ tomb) {h0 : ℕ} (hpl : h0 < 2 ^ t.b) (hn : t.tab h0 = some k) :
    Rep hash tomb ⟨t.b, Function.update t.tab h0 (some tomb), t.val⟩
      ⟨Function.update s.m k none, s.used, s.dead + 1⟩ := by
  refine ⟨?_, ?_, ?_, ?_, ?_⟩
  · intro k' hk' h hh he
    dsimp only at hh he ⊢
    by_cases hhe : h = h0
    · subst hhe
      rw [Function.update_self] at he
      exact absurd (by simpa using he.symm) hk'
    · rw [Function.update_of_ne hhe] at he
      obtain ⟨j', c1, c2, c3⟩ := hr.wf k' hk' h hh he
      refine ⟨j', c1, c2, ?_⟩
      intro i hi
      by_cases hie : pos t.b hash k' i = h0
      · rw [hie, Function.update_self]
        exact ⟨by simp, by simpa using Ne.symm hk'⟩
      · rw [Function.update_of_ne hie]
        exact c3 i hi
  · intro k' hk' v'
    dsimp only
    by_cases hkk : k' = k
    · subst hkk
      rw [Function.update_self]
      constructor
      · intro he
        exact absurd he (by simp)
      · rintro ⟨h, b1, b2, b3⟩
        by_cases hhe : h = h0
        · subst hhe
          rw [Function.update_self] at b2
          exact absurd (by simpa using b2.symm) hk
        · rw [Function.update_of_ne hhe] at b2
          exact absurd (hr.noDup hk b1 hpl b2 hn) hhe
    · rw [Function.update_of_ne hkk, hr.keys k' hk' v']
      constructor
      · rintro ⟨h, b1, b2, b3⟩
        have hhe : h ≠ h0 := fun hc => by
          rw [hc, hn] at b2
          exact hkk (by simpa using b2.symm)
        exact ⟨h, b1, by rw [Function.update_of_ne hhe]; exact b2, b3⟩
      · rintro ⟨h, b1, b2, b3⟩
        have hhe : h ≠ h0 := fun hc => by
          rw [hc, Function.update_self] at b2
          exact hk' (by simpa using b2.symm)
        rw [Function.update_of_ne hhe] at b2
        exact ⟨h, b1, b2, b3⟩
  · dsimp only
    rw [Function.update_of_ne (Ne.symm hk)]
    exact hr.mtomb
  · dsimp only
    rw [← hr.used]
    congr 1
    ext h
    simp only [Finset.mem_filter, Finset.mem_range]
    by_cases hhe : h = h0
    · subst hhe
      rw [Function.update_self, hn]
      simp
    · rw [Function.update_of_ne hhe]
  · dsimp only
    rw [← hr.dead]
    have : (Finset.range (2 ^ t.b)).filter (fun h => Function.update t.tab h0 (some tomb) h = some tomb) =
        Insert.insert h0 ((Finset.range (2 ^ t.b)).filter fun h => t.tab h = some tomb) := by
      ext h
      simp only [Finset.mem_filter, Finset.mem_range, Finset.mem_insert]
      by_cases hhe : h = h0
      · subst hhe
        simp [hpl]
      · rw [Function.update_of_ne hhe]
        simp [hhe]
    rw [this, Finset.card_insert_of_notMem]
    simp [hn, hk]

theorem rep_empty (hash : K → ℕ) (tomb : K) (b : ℕ) (val : ℕ → V) :
    Rep hash tomb ⟨b, emptyTab, val⟩ ⟨fun _ => none, 0, 0⟩ := by
  refine ⟨?_, ?_, rfl, ?_, ?_⟩
  · intro k _ h _ he
    simp [emptyTab] at he
  · intro k _ v
    simp [emptyTab]
  · simp [emptyTab]
  · simp [emptyTab]

/-! ### Entries -/

theorem mem_entries {t : Tbl K V} {k : K} {v : V} :
    (k, v) ∈ entries t ↔ ∃ h < 2 ^ t.b, t.tab h = some k ∧ t.val h = v := by
  unfold entries
  simp only [List.mem_filterMap, List.mem_range, Option.map_eq_some_iff, Prod.mk.injEq]
  constructor
  · rintro ⟨h, h1, k', h2, rfl, h3⟩
    exact ⟨h, h1, h2, h3⟩
  · rintro ⟨h, h1, h2, h3⟩
    exact ⟨h, h1, k, h2, rfl, h3⟩

theorem entries_nodup {t : Tbl K V} {tomb : K}
    (hd : ∀ k, k ≠ tomb → ∀ h < 2 ^ t.b, ∀ h' < 2 ^ t.b, t.tab h = some k → t.tab h' = some k → h = h') :
    (((entries t).filter fun e => e.1 ≠ tomb).map Prod.fst).Nodup := by
  unfold entries
  generalize 2 ^ t.b = n at hd
  induction n with
  | zero => simp
  | succ n ih =>
    rw [List.range_succ, List.filterMap_append, List.filter_append, List.map_append]
    have ih' := ih (fun k hk h hh h' hh' => hd k hk h (by omega) h' (by omega))
    rw [List.nodup_append]
    refine ⟨ih', ?_, ?_⟩
    · cases hk : t.tab n with
      | none => simp [hk]
      | some k =>
        by_cases hkt : k = tomb <;> simp [hk, hkt]
    · intro a ha b hb hab
      subst hab
      simp only [List.mem_map, List.mem_filter, List.mem_filterMap, List.mem_range, Option.map_eq_some_iff,
        List.mem_singleton, decide_eq_true_eq] at ha hb
      obtain ⟨e, ⟨⟨h, h1, k, h2, h3⟩, h4⟩, h5⟩ := ha
      obtain ⟨e', ⟨⟨h', h1', k', h2', h3'⟩, h4'⟩, h5'⟩ := hb
      subst h3 h3'
      dsimp only at h5 h5' h4 h4'
      subst h5
      subst h5'
      have := hd _ h4 h (by omega) h' (by omega) h2 h2'
      omega

theorem entries_dead (t : Tbl K V) (tomb : K) :
    ((entries t).filter fun e => e.1 = tomb).length =
      ((Finset.range (2 ^ t.b)).filter fun h => t.tab h = some tomb).card := by
  unfold entries
  generalize 2 ^ t.b = n
  induction n with
  | zero => simp
  | succ n ih =>
    rw [List.range_succ, List.filterMap_append, List.filter_append, List.length_append, ih, Finset.range_add_one,
      Finset.filter_insert]
    cases hk : t.tab n with
    | none => simp [hk]
    | some k =>
      by_cases hkt : k = tomb
      · simp [hk, hkt]
      · simp [hk, hkt]

theorem lists_rep {hash : K → ℕ} {tomb : K} {t : Tbl K V} {s : Spec K V} (hr : Rep hash tomb t s) :
    Lists s.m ((entries t).filter fun e => e.1 ≠ tomb) := by
  refine ⟨?_, entries_nodup fun k hk h hh h' hh' h1 h2 => hr.noDup hk hh hh' h1 h2⟩
  intro k v
  rw [List.mem_filter, mem_entries]
  by_cases hk : k = tomb
  · subst hk
    rw [hr.mtomb]
    simp
  · rw [hr.keys k hk v]
    simp [hk]

end Verif.Hash
