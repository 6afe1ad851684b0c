import Verif.Hash.Model
import Mathlib.Data.Finset.Card
import Mathlib.Data.Fintype.Basic
import Mathlib.Data.Nat.Bitwise
import Mathlib.Data.Nat.ModEq
import Mathlib.Data.Fin.VecNotation

set_option linter.unusedSectionVars false
set_option linter.unusedVariables false

/-!
C45: concurrent insertion into the hash table, for every interleaving of the steps of the threads.
-/

namespace Verif.Hash

variable {K V ι : Type} [DecidableEq K] [DecidableEq ι]

/-- The `j`-th slot probed for a key. -/
def pos (b : ℕ) (hash : K → ℕ) (k : K) (j : ℕ) : ℕ := (hash k + j) % 2 ^ b

theorem firstIndex_eq (b : ℕ) (hash : K → ℕ) (k : K) : firstIndex b hash k = pos b hash k 0 := by
  unfold firstIndex hashToRange pos
  rw [Nat.and_two_pow_sub_one_eq_mod, Nat.add_zero]

theorem incrementIndex_pos (b : ℕ) (hash : K → ℕ) (k : K) (j : ℕ) :
    incrementIndex b (pos b hash k j) = pos b hash k (j + 1) := by
  unfold incrementIndex hashToRange pos
  rw [Nat.and_two_pow_sub_one_eq_mod, Nat.mod_add_mod, Nat.add_assoc]

theorem pos_lt (b : ℕ) (hash : K → ℕ) (k : K) (j : ℕ) : pos b hash k j < 2 ^ b :=
  Nat.mod_lt _ (Nat.two_pow_pos b)

theorem pos_inj {b : ℕ} {hash : K → ℕ} {k : K} {i j : ℕ} (hi : i < 2 ^ b) (hj : j < 2 ^ b)
    (h : pos b hash k i = pos b hash k j) : i = j := by
  unfold pos at h
  have : Nat.ModEq (2 ^ b) i j := Nat.ModEq.add_left_cancel' (hash k) h
  rwa [Nat.ModEq, Nat.mod_eq_of_lt hi, Nat.mod_eq_of_lt hj] at this

/-- A table made by insertions: every key sits at a slot of its probe sequence, and all slots before are taken by
other keys. -/
def WF (b : ℕ) (hash : K → ℕ) (tab : ℕ → Option K) : Prop :=
  ∀ h < 2 ^ b, ∀ k, tab h = some k →
    ∃ j < 2 ^ b, h = pos b hash k j ∧ ∀ i < j, tab (pos b hash k i) ≠ none ∧ tab (pos b hash k i) ≠ some k

/-- A key is in the table. -/
def InTab (b : ℕ) (tab : ℕ → Option K) (k : K) : Prop := ∃ h < 2 ^ b, tab h = some k

/-- No key is stored twice. -/
def NoDup (b : ℕ) (tab : ℕ → Option K) : Prop :=
  ∀ h < 2 ^ b, ∀ h' < 2 ^ b, ∀ k, tab h = some k → tab h' = some k → h = h'

theorem WF.noDup {b : ℕ} {hash : K → ℕ} {tab : ℕ → Option K} (hw : WF b hash tab) : NoDup b tab := by
  intro h hh h' hh' k h1 h2
  obtain ⟨j, hj, rfl, hj2⟩ := hw h hh k h1
  obtain ⟨j', hj', rfl, hj2'⟩ := hw h' hh' k h2
  rcases Nat.lt_trichotomy j j' with hlt | rfl | hlt
  · exact absurd h1 (hj2' j hlt).2
  · rfl
  · exact absurd h2 (hj2 j' hlt).2

theorem wf_empty (b : ℕ) (hash : K → ℕ) : WF b hash (emptyTab : ℕ → Option K) := by
  intro h _ k hk
  simp [emptyTab] at hk

/-- A thread has claimed its key if its compare-and-swap succeeded. -/
def Claimed (p : PC) : Prop := (∃ h, p = .store h) ∨ p = .done true

/-- Slots before the `j`-th of the probe sequence are taken by other keys. -/
def Passed (b : ℕ) (hash : K → ℕ) (tab : ℕ → Option K) (k : K) (j : ℕ) : Prop :=
  ∀ i < j, tab (pos b hash k i) ≠ none ∧ tab (pos b hash k i) ≠ some k

/-- What holds of one thread; `n` is a bound for the number of steps it has taken. -/
def ThreadOK (b : ℕ) (hash : K → ℕ) (k : K) (v : V) (tab : ℕ → Option K) (val : ℕ → V) (n : ℕ) : PC → Prop
  | .probe h => ∃ j < 2 ^ b, h = pos b hash k j ∧ Passed b hash tab k j ∧ n ≤ 3 * j
  | .cas h => ∃ j < 2 ^ b, h = pos b hash k j ∧ Passed b hash tab k j ∧ n ≤ 3 * j + 1
  | .cmp h => ∃ j < 2 ^ b, h = pos b hash k j ∧ Passed b hash tab k j ∧ tab h ≠ none ∧ n ≤ 3 * j + 2
  | .store h => h < 2 ^ b ∧ tab h = some k ∧ n ≤ 3 * 2 ^ b
  | .done true => ∃ h < 2 ^ b, tab h = some k ∧ val h = v
  | .done false => InTab b tab k

/-- Invariant of all executions that start from the table `tab0`. -/
structure Inv (b : ℕ) (hash : K → ℕ) (key : ι → K) (value : ι → V) (tab0 : ℕ → Option K) (val0 : ℕ → V)
    (U : Finset K) (cnt : ι → ℕ) (s : State K V ι) : Prop where
  wf : WF b hash s.tab
  thread : ∀ t, ThreadOK b hash (key t) (value t) s.tab s.val (cnt t) (s.pc t)
  old : ∀ h < 2 ^ b, ∀ k, tab0 h = some k → s.tab h = some k ∧ s.val h = val0 h
  fresh : ∀ t, Claimed (s.pc t) → ¬ InTab b tab0 (key t)
  one : ∀ t t', Claimed (s.pc t) → Claimed (s.pc t') → key t = key t' → t = t'
  src : ∀ k, InTab b s.tab k → InTab b tab0 k ∨ ∃ t, Claimed (s.pc t) ∧ key t = k
  univ : ∀ k, InTab b s.tab k → k ∈ U

theorem inv_start {b : ℕ} {hash : K → ℕ} (key : ι → K) (value : ι → V) {tab0 : ℕ → Option K} {val0 : ℕ → V}
    {U : Finset K} (hw : WF b hash tab0) (hU0 : ∀ k, InTab b tab0 k → k ∈ U) :
    Inv b hash key value tab0 val0 U (fun _ => 0) (start b hash key tab0 val0) := by
  refine ⟨hw, ?_, fun h _ k hk => ⟨hk, rfl⟩, ?_, ?_, fun k hk => Or.inl hk, hU0⟩
  · intro t
    exact ⟨0, Nat.two_pow_pos b, firstIndex_eq b hash (key t), fun i hi => absurd hi (by omega), le_refl _⟩
  · rintro t (⟨h, hh⟩ | hh) <;> simp [start] at hh
  · rintro t t' (⟨h, hh⟩ | hh) <;> simp [start] at hh

/-- A full pass over the table is impossible while there is room. -/
theorem pass_lt {b : ℕ} {hash : K → ℕ} {tab : ℕ → Option K} {U : Finset K} (hd : NoDup b tab)
    (hU : ∀ k, InTab b tab k → k ∈ U) (hcard : U.card ≤ 2 ^ b) {k : K} (hk : k ∈ U)
    (hp : Passed b hash tab k (2 ^ b)) : False := by
  have hget : ∀ i, i < 2 ^ b → ∃ k', tab (pos b hash k i) = some k' := fun i hi =>
    Option.ne_none_iff_exists'.mp (hp i hi).1
  have : Nonempty K := ⟨k⟩
  choose! f hf using hget
  have hinj : Set.InjOn f (Finset.range (2 ^ b)) := by
    intro i hi j hj hij
    rw [Finset.coe_range, Set.mem_Iio] at hi hj
    have h1 := hf i hi
    have h2 := hf j hj
    rw [← hij] at h2
    exact pos_inj hi hj (hd _ (pos_lt b hash k i) _ (pos_lt b hash k j) _ h1 h2)
  have hsub : (Finset.range (2 ^ b)).image f ⊆ U.erase k := by
    intro x hx
    rw [Finset.mem_image] at hx
    obtain ⟨i, hi, rfl⟩ := hx
    rw [Finset.mem_range] at hi
    rw [Finset.mem_erase]
    refine ⟨fun h => (hp i hi).2 (by rw [hf i hi, h]), hU _ ⟨_, pos_lt b hash k i, hf i hi⟩⟩
  have h1 := Finset.card_le_card hsub
  rw [Finset.card_image_of_injOn hinj, Finset.card_range, Finset.card_erase_of_mem hk] at h1
  have := Finset.card_pos.mpr ⟨k, hk⟩
  omega

/-- Threads are not disturbed by a write to an empty slot or a write of a value to another thread's slot. -/
theorem threadOK_mono {b : ℕ} {hash : K → ℕ} {k : K} {v : V} {tab tab' : ℕ → Option K} {val val' : ℕ → V} {n : ℕ}
    {p : PC} (h : ThreadOK b hash k v tab val n p) (ht : ∀ h < 2 ^ b, ∀ k, tab h = some k → tab' h = some k)
    (hv : ∀ h < 2 ^ b, tab h = some k → p = .done true → val' h = val h) : ThreadOK b hash k v tab' val' n p := by
  have hpass : ∀ j, Passed b hash tab k j → Passed b hash tab' k j := by
    intro j hp i hi
    obtain ⟨h1, h2⟩ := hp i hi
    obtain ⟨k', hk'⟩ := Option.ne_none_iff_exists'.mp h1
    have := ht _ (pos_lt b hash k i) k' hk'
    rw [this]
    rw [hk'] at h2
    exact ⟨by simp, h2⟩
  cases p with
  | probe h0 =>
    obtain ⟨j, h1, h2, h3, h4⟩ := h
    exact ⟨j, h1, h2, hpass j h3, h4⟩
  | cas h0 =>
    obtain ⟨j, h1, h2, h3, h4⟩ := h
    exact ⟨j, h1, h2, hpass j h3, h4⟩
  | cmp h0 =>
    obtain ⟨j, h1, h2, h3, h4, h5⟩ := h
    refine ⟨j, h1, h2, hpass j h3, ?_, h5⟩
    obtain ⟨k', hk'⟩ := Option.ne_none_iff_exists'.mp h4
    rw [ht h0 (by rw [h2]; exact pos_lt _ _ _ _) k' hk']
    simp
  | store h0 =>
    obtain ⟨h1, h2, h3⟩ := h
    exact ⟨h1, ht h0 h1 k h2, h3⟩
  | done r =>
    cases r with
    | true =>
      obtain ⟨h0, h1, h2, h3⟩ := h
      exact ⟨h0, h1, ht h0 h1 k h2, by rw [hv h0 h1 h2 rfl, h3]⟩
    | false =>
      obtain ⟨h0, h1, h2⟩ := h
      exact ⟨h0, h1, ht h0 h1 k h2⟩

/-- Moving one thread without changing the table. -/
theorem inv_move {b : ℕ} {hash : K → ℕ} {key : ι → K} {value : ι → V} {tab0 : ℕ → Option K} {val0 : ℕ → V}
    {U : Finset K} {cnt : ι → ℕ} {s : State K V ι} (h : Inv b hash key value tab0 val0 U cnt s) (t : ι) (p : PC)
    (hnew : ThreadOK b hash (key t) (value t) s.tab s.val (cnt t + 1) p) (hcl : ¬ Claimed p)
    (hcl' : ¬ Claimed (s.pc t)) :
    Inv b hash key value tab0 val0 U (Function.update cnt t (cnt t + 1))
      { s with pc := Function.update s.pc t p } := by
  have hc : ∀ t', Claimed (Function.update s.pc t p t') → t' ≠ t ∧ Claimed (s.pc t') := by
    intro t' ht'
    by_cases htt : t' = t
    · subst htt
      rw [Function.update_self] at ht'
      exact absurd ht' hcl
    · rw [Function.update_of_ne htt] at ht'
      exact ⟨htt, ht'⟩
  refine ⟨h.wf, ?_, h.old, fun t' ht' => h.fresh t' (hc t' ht').2,
    fun t1 t2 h1 h2 => h.one t1 t2 (hc t1 h1).2 (hc t2 h2).2, ?_, h.univ⟩
  · intro t'
    by_cases htt : t' = t
    · subst htt
      simp only [Function.update_self]
      exact hnew
    · simp only [Function.update_of_ne htt]
      exact h.thread t'
  · intro k hk
    rcases h.src k hk with h1 | ⟨t', h1, h2⟩
    · exact Or.inl h1
    · right
      refine ⟨t', ?_, h2⟩
      have htt : t' ≠ t := by
        rintro rfl
        exact hcl' h1
      simp only [Function.update_of_ne htt]
      exact h1

theorem not_claimed_probe (h : ℕ) : ¬ Claimed (.probe h) := by rintro (⟨_, h⟩ | h) <;> simp at h
theorem not_claimed_cas (h : ℕ) : ¬ Claimed (.cas h) := by rintro (⟨_, h⟩ | h) <;> simp at h
theorem not_claimed_cmp (h : ℕ) : ¬ Claimed (.cmp h) := by rintro (⟨_, h⟩ | h) <;> simp at h
theorem not_claimed_false : ¬ Claimed (.done false) := by rintro (⟨_, h⟩ | h) <;> simp at h

theorem inv_step {b : ℕ} {hash : K → ℕ} {key : ι → K} {value : ι → V} {tab0 : ℕ → Option K} {val0 : ℕ → V}
    {U : Finset K} (hcard : U.card ≤ 2 ^ b) (hkU : ∀ t, key t ∈ U) {cnt : ι → ℕ} {s : State K V ι}
    (h : Inv b hash key value tab0 val0 U cnt s) (t : ι) :
    Inv b hash key value tab0 val0 U (Function.update cnt t (cnt t + 1)) (step b key value t s) := by
  have ht := h.thread t
  unfold step
  cases hp : s.pc t with
  | probe h0 =>
    rw [hp] at ht
    obtain ⟨j, h1, h2, h3, h4⟩ := ht
    simp only
    split
    · exact inv_move h t _ ⟨j, h1, h2, h3, by omega⟩ (not_claimed_cas _) (by rw [hp]; exact not_claimed_probe _)
    · rename_i hne
      exact inv_move h t _ ⟨j, h1, h2, h3, hne, by omega⟩ (not_claimed_cmp _)
        (by rw [hp]; exact not_claimed_probe _)
  | cmp h0 =>
    rw [hp] at ht
    obtain ⟨j, h1, h2, h3, h4, h5⟩ := ht
    simp only
    split
    · rename_i heq
      exact inv_move h t _ ⟨h0, by rw [h2]; exact pos_lt _ _ _ _, heq⟩ not_claimed_false
        (by rw [hp]; exact not_claimed_cmp _)
    · rename_i hne
      have hp' : Passed b hash s.tab (key t) (j + 1) := by
        intro i hi
        by_cases hij : i = j
        · subst hij
          rw [← h2]
          exact ⟨h4, hne⟩
        · exact h3 i (by omega)
      have hlt : j + 1 < 2 ^ b := by
        by_contra hge
        have : j + 1 = 2 ^ b := by omega
        rw [this] at hp'
        exact pass_lt h.wf.noDup h.univ hcard (hkU t) hp'
      refine inv_move h t _ ⟨j + 1, hlt, ?_, hp', by omega⟩ (not_claimed_probe _)
        (by rw [hp]; exact not_claimed_cmp _)
      rw [h2, incrementIndex_pos]
  | done r =>
    simp only
    refine ⟨h.wf, ?_, h.old, h.fresh, h.one, h.src, h.univ⟩
    intro t'
    by_cases htt : t' = t
    · subst htt
      have := h.thread t'
      rw [hp] at this ⊢
      cases r <;> exact this
    · rw [Function.update_of_ne htt]
      exact h.thread t'
  | cas h0 =>
    rw [hp] at ht
    obtain ⟨j, h1, h2, h3, h4⟩ := ht
    have hh0 : h0 < 2 ^ b := by rw [h2]; exact pos_lt _ _ _ _
    simp only
    split
    · rename_i hnone
      -- the key is not in the table
      have hnot : ¬ InTab b s.tab (key t) := by
        rintro ⟨h', hh', hk'⟩
        obtain ⟨j', hj', hpos, hpass⟩ := h.wf h' hh' _ hk'
        rcases Nat.lt_trichotomy j' j with hlt | heq | hlt
        · exact (h3 j' hlt).2 (by rw [← hpos]; exact hk')
        · subst heq
          rw [← h2] at hpos
          rw [hpos, hnone] at hk'
          simp at hk'
        · have := (hpass j hlt).1
          rw [← h2] at this
          exact this hnone
      have htab : ∀ h < 2 ^ b, ∀ k, s.tab h = some k →
          Function.update s.tab h0 (some (key t)) h = some k := by
        intro h' _ k hk
        rw [Function.update_of_ne]
        · exact hk
        · rintro rfl
          rw [hnone] at hk
          simp at hk
      have hpass : ∀ k i, Passed b hash s.tab k i →
          Passed b hash (Function.update s.tab h0 (some (key t))) k i := by
        intro k i hpk i' hi'
        obtain ⟨a1, a2⟩ := hpk i' hi'
        obtain ⟨k', hk'⟩ := Option.ne_none_iff_exists'.mp a1
        rw [htab _ (pos_lt b hash k i') k' hk']
        rw [hk'] at a2
        exact ⟨by simp, a2⟩
      have hin : ∀ k, InTab b (Function.update s.tab h0 (some (key t))) k → InTab b s.tab k ∨ k = key t := by
        rintro k ⟨h', hh', hk'⟩
        by_cases he : h' = h0
        · subst he
          rw [Function.update_self, Option.some.injEq] at hk'
          exact Or.inr hk'.symm
        · rw [Function.update_of_ne he] at hk'
          exact Or.inl ⟨h', hh', hk'⟩
      have hcl : ∀ t', Claimed (Function.update s.pc t (.store h0) t') → t' = t ∨ Claimed (s.pc t') := by
        intro t' ht'
        by_cases htt : t' = t
        · exact Or.inl htt
        · rw [Function.update_of_ne htt] at ht'
          exact Or.inr ht'
      have hctab : ∀ t', Claimed (s.pc t') → InTab b s.tab (key t') := by
        intro t' ht'
        have hto := h.thread t'
        rcases ht' with ⟨h', hs⟩ | hs
        · rw [hs] at hto
          exact ⟨h', hto.1, hto.2.1⟩
        · rw [hs] at hto
          obtain ⟨h', a1, a2, _⟩ := hto
          exact ⟨h', a1, a2⟩
      refine ⟨?_, ?_, ?_, ?_, ?_, ?_, ?_⟩
      · intro h' hh' k hk
        by_cases he : h' = h0
        · subst he
          simp only [Function.update_self, Option.some.injEq] at hk
          subst hk
          exact ⟨j, h1, h2, hpass _ j h3⟩
        · simp only [Function.update_of_ne he] at hk
          obtain ⟨j', a1, a2, a3⟩ := h.wf h' hh' k hk
          exact ⟨j', a1, a2, hpass k j' a3⟩
      · intro t'
        by_cases htt : t' = t
        · subst htt
          simp only [Function.update_self]
          refine ⟨hh0, Function.update_self _ _ _, by omega⟩
        · simp only [Function.update_of_ne htt]
          exact threadOK_mono (h.thread t') htab fun _ _ _ _ => rfl
      · intro h' hh' k hk
        obtain ⟨a1, a2⟩ := h.old h' hh' k hk
        exact ⟨htab h' hh' k a1, a2⟩
      · intro t' ht'
        rcases hcl t' ht' with rfl | h'
        · rintro ⟨h', hh', hk'⟩
          exact hnot ⟨h', hh', (h.old h' hh' _ hk').1⟩
        · exact h.fresh t' h'
      · intro t1 t2 ht1 ht2 hk
        rcases hcl t1 ht1 with a1 | a1 <;> rcases hcl t2 ht2 with a2 | a2
        · rw [a1, a2]
        · exact absurd (by rw [← a1, hk]; exact hctab t2 a2) hnot
        · exact absurd (by rw [← a2, ← hk]; exact hctab t1 a1) hnot
        · exact h.one t1 t2 a1 a2 hk
      · intro k hk
        rcases hin k hk with hk | rfl
        · rcases h.src k hk with a | ⟨t', a1, a2⟩
          · exact Or.inl a
          · right
            refine ⟨t', ?_, a2⟩
            have htt : t' ≠ t := by
              rintro rfl
              rw [hp] at a1
              exact not_claimed_cas _ a1
            simp only [Function.update_of_ne htt]
            exact a1
        · exact Or.inr ⟨t, by simp only [Function.update_self]; exact Or.inl ⟨h0, rfl⟩, rfl⟩
      · intro k hk
        rcases hin k hk with hk | rfl
        · exact h.univ k hk
        · exact hkU t
    · rename_i hne
      exact inv_move h t _ ⟨j, h1, h2, h3, hne, by omega⟩ (not_claimed_cmp _)
        (by rw [hp]; exact not_claimed_cas _)
  | store h0 =>
    rw [hp] at ht
    obtain ⟨h1, h2, h3⟩ := ht
    have hcl : ∀ t', Claimed (Function.update s.pc t (.done true) t') → Claimed (s.pc t') := by
      intro t' ht'
      by_cases htt : t' = t
      · subst htt
        rw [hp]
        exact Or.inl ⟨h0, rfl⟩
      · rwa [Function.update_of_ne htt] at ht'
    simp only
    refine ⟨h.wf, ?_, ?_, fun t' ht' => h.fresh t' (hcl t' ht'),
      fun t1 t2 a1 a2 => h.one t1 t2 (hcl t1 a1) (hcl t2 a2), ?_, h.univ⟩
    · intro t'
      by_cases htt : t' = t
      · subst htt
        simp only [Function.update_self]
        exact ⟨h0, h1, h2, Function.update_self _ _ _⟩
      · simp only [Function.update_of_ne htt]
        refine threadOK_mono (h.thread t') (fun _ _ _ a => a) ?_
        intro h' hh' hk' hd
        rw [Function.update_of_ne]
        rintro rfl
        rw [h2, Option.some.injEq] at hk'
        exact htt (h.one t' t (by rw [hd]; exact Or.inr rfl) (by rw [hp]; exact Or.inl ⟨_, rfl⟩) hk'.symm)
    · intro h' hh' k hk
      obtain ⟨a1, a2⟩ := h.old h' hh' k hk
      refine ⟨a1, ?_⟩
      simp only
      rw [Function.update_of_ne]
      · exact a2
      · rintro rfl
        rw [h2, Option.some.injEq] at a1
        exact h.fresh t (by rw [hp]; exact Or.inl ⟨_, rfl⟩) ⟨h', hh', by rw [a1]; exact hk⟩
    · intro k hk
      rcases h.src k hk with a | ⟨t', a1, a2⟩
      · exact Or.inl a
      · right
        refine ⟨t', ?_, a2⟩
        by_cases htt : t' = t
        · subst htt
          simp only [Function.update_self]
          exact Or.inr rfl
        · simp only [Function.update_of_ne htt]
          exact a1

theorem inv_run {b : ℕ} {hash : K → ℕ} {key : ι → K} {value : ι → V} {tab0 : ℕ → Option K} {val0 : ℕ → V}
    {U : Finset K} (hcard : U.card ≤ 2 ^ b) (hkU : ∀ t, key t ∈ U) (sched : List ι) {cnt : ι → ℕ}
    {s : State K V ι} (h : Inv b hash key value tab0 val0 U cnt s) :
    Inv b hash key value tab0 val0 U (fun t => cnt t + sched.count t) (run b key value sched s) := by
  induction sched generalizing cnt s with
  | nil => simpa [run] using h
  | cons t sched ih =>
    have := ih (inv_step hcard hkU h t)
    unfold run at this ⊢
    rw [List.foldl_cons]
    convert this using 1
    funext t'
    rw [List.count_cons]
    by_cases htt : t' = t
    · subst htt
      simp
      omega
    · rw [Function.update_of_ne htt]
      simp [Ne.symm htt]

/-! ### C45 -/

/-- What the users of the table rely on after concurrent insertions into the table `tab0`. -/
structure Inserted (b : ℕ) (key : ι → K) (value : ι → V) (tab0 : ℕ → Option K) (val0 : ℕ → V)
    (s : State K V ι) : Prop where
  /-- Every insertion has returned. -/
  returned : ∀ t, ∃ r, s.pc t = .done r
  /-- No key is stored twice. -/
  noDup : NoDup b s.tab
  /-- The keys stored are the old ones and the inserted ones. -/
  keys : ∀ k, InTab b s.tab k ↔ InTab b tab0 k ∨ ∃ t, key t = k
  /-- Of the threads that inserted a new key exactly one was told that it was new. -/
  winner : ∀ k, ¬ InTab b tab0 k → (∃ t, key t = k) → ∃! t, key t = k ∧ s.pc t = .done true
  /-- A thread whose key was there before was told so. -/
  present : ∀ t, InTab b tab0 (key t) → s.pc t = .done false
  /-- Old entries are unchanged, new entries carry the value of the winner. -/
  oldVal : ∀ h < 2 ^ b, ∀ k, tab0 h = some k → s.tab h = some k ∧ s.val h = val0 h
  newVal : ∀ t, s.pc t = .done true → ∀ h < 2 ^ b, s.tab h = some (key t) → s.val h = value t

/-- C45: for every table made by insertions, every hash function, every family of concurrent insertions with room
for all distinct keys, and every interleaving in which each thread takes `3 * 2 ^ b + 1` steps or more. -/
theorem c45_insert {b : ℕ} {hash : K → ℕ} (key : ι → K) (value : ι → V) {tab0 : ℕ → Option K} {val0 : ℕ → V}
    (hw : WF b hash tab0) (U : Finset K) (hcard : U.card ≤ 2 ^ b) (hU0 : ∀ k, InTab b tab0 k → k ∈ U)
    (hkU : ∀ t, key t ∈ U) (sched : List ι) (hfair : ∀ t, 3 * 2 ^ b < sched.count t) :
    Inserted b key value tab0 val0 (run b key value sched (start b hash key tab0 val0)) ∧
    WF b hash (run b key value sched (start b hash key tab0 val0)).tab := by
  have h := inv_run hcard hkU sched (inv_start (val0 := val0) key value hw hU0)
  set s := run b key value sched (start b hash key tab0 val0) with hs
  have hdone : ∀ t, ∃ r, s.pc t = .done r := by
    intro t
    have ht := h.thread t
    have hf := hfair t
    cases hp : s.pc t with
    | done r => exact ⟨r, rfl⟩
    | probe h0 => rw [hp] at ht; obtain ⟨j, a1, a2, a3, a4⟩ := ht; omega
    | cas h0 => rw [hp] at ht; obtain ⟨j, a1, a2, a3, a4⟩ := ht; omega
    | cmp h0 => rw [hp] at ht; obtain ⟨j, a1, a2, a3, a4, a5⟩ := ht; omega
    | store h0 => rw [hp] at ht; obtain ⟨a1, a2, a3⟩ := ht; omega
  have hcl : ∀ t, Claimed (s.pc t) → s.pc t = .done true := by
    rintro t (⟨h0, hh⟩ | hh)
    · obtain ⟨r, hr⟩ := hdone t
      rw [hr] at hh
      simp at hh
    · exact hh
  have htab : ∀ t, InTab b s.tab (key t) := by
    intro t
    obtain ⟨r, hr⟩ := hdone t
    have ht := h.thread t
    rw [hr] at ht
    cases r with
    | true =>
      obtain ⟨h', a1, a2, _⟩ := ht
      exact ⟨h', a1, a2⟩
    | false => exact ht
  refine ⟨⟨hdone, h.wf.noDup, ?_, ?_, ?_, h.old, ?_⟩, h.wf⟩
  · intro k
    constructor
    · intro hk
      rcases h.src k hk with a | ⟨t, _, a⟩
      · exact Or.inl a
      · exact Or.inr ⟨t, a⟩
    · rintro (⟨h', a1, a2⟩ | ⟨t, rfl⟩)
      · exact ⟨h', a1, (h.old h' a1 k a2).1⟩
      · exact htab t
  · rintro k hk ⟨t, rfl⟩
    rcases h.src _ (htab t) with a | ⟨t', a1, a2⟩
    · exact absurd a hk
    · refine ⟨t', ⟨a2, hcl t' a1⟩, ?_⟩
      rintro t'' ⟨b1, b2⟩
      exact h.one t'' t' (Or.inr b2) a1 (by rw [b1, a2])
  · intro t ht
    obtain ⟨r, hr⟩ := hdone t
    cases r with
    | false => exact hr
    | true => exact absurd ht (h.fresh t (Or.inr hr))
  · intro t ht h' hh' hk'
    have hto := h.thread t
    rw [ht] at hto
    obtain ⟨h0, a1, a2, a3⟩ := hto
    rw [h.wf.noDup h' hh' h0 a1 _ hk' a2]
    exact a3

/-- Lookup in a table with a free slot. -/
theorem lookup_spec {b : ℕ} {hash : K → ℕ} {tab : ℕ → Option K} (hw : WF b hash tab)
    (hroom : ∃ h < 2 ^ b, tab h = none) (k : K) (j fuel : ℕ) (hj : j + fuel = 2 ^ b + 1) (hj1 : j ≤ 2 ^ b)
    (hp : Passed b hash tab k j) :
    (∃ h < 2 ^ b, lookup b k tab fuel (pos b hash k j) = .ok (some h) ∧ tab h = some k) ∨
    (lookup b k tab fuel (pos b hash k j) = .ok none ∧ ¬ InTab b tab k) := by
  induction fuel generalizing j with
  | zero => omega
  | succ fuel ih =>
    rw [lookup]
    split
    · rename_i h1
      exact Or.inl ⟨_, pos_lt b hash k j, rfl, h1⟩
    · rename_i h1
      split
      · rename_i h2
        right
        refine ⟨rfl, ?_⟩
        rintro ⟨h', hh', hk'⟩
        obtain ⟨j', a1, a2, a3⟩ := hw h' hh' k hk'
        rcases Nat.lt_trichotomy j' j with hlt | heq | hlt
        · exact (hp j' hlt).2 (by rw [← a2]; exact hk')
        · subst heq
          rw [← a2] at h1
          exact h1 hk'
        · exact (a3 j hlt).1 h2
      · rename_i h2
        have hp' : Passed b hash tab k (j + 1) := by
          intro i hi
          by_cases hij : i = j
          · subst hij
            exact ⟨h2, h1⟩
          · exact hp i (by omega)
        rw [incrementIndex_pos]
        apply ih (j + 1) (by omega) _ hp'
        -- not all slots are taken
        obtain ⟨h0, hh0, hn0⟩ := hroom
        by_contra hge
        have hje : j = 2 ^ b := by omega
        -- the free slot is one of the first `2 ^ b` probed
        set r := hash k % 2 ^ b with hr
        have hr' : r < 2 ^ b := Nat.mod_lt _ (Nat.two_pow_pos b)
        have : ∃ i < 2 ^ b, pos b hash k i = h0 := by
          refine ⟨(h0 + (2 ^ b - r)) % 2 ^ b, Nat.mod_lt _ (Nat.two_pow_pos b), ?_⟩
          unfold pos
          rw [Nat.add_mod, Nat.mod_mod, ← Nat.add_mod, ← Nat.mod_add_mod, ← hr,
            show r + (h0 + (2 ^ b - r)) = h0 + 2 ^ b by omega, Nat.add_mod_right, Nat.mod_eq_of_lt hh0]
        obtain ⟨i, hi, hi2⟩ := this
        exact (hp i (by omega)).1 (by rw [hi2]; exact hn0)

/-- C45: a lookup in a table made by insertions that has a free slot ends, and is true iff the key is there. -/
theorem c45_contains {b : ℕ} {hash : K → ℕ} {tab : ℕ → Option K} (hw : WF b hash tab)
    (hroom : ∃ h < 2 ^ b, tab h = none) (k : K) :
    ∃ r, contains b hash tab (2 ^ b + 1) k = .ok r ∧ (r = true ↔ InTab b tab k) := by
  unfold contains
  rw [firstIndex_eq]
  rcases lookup_spec hw hroom k 0 (2 ^ b + 1) (by omega) (by omega) (fun i hi => absurd hi (by omega)) with
    ⟨h, h1, h2, h3⟩ | ⟨h1, h2⟩
  · rw [h2]
    exact ⟨true, rfl, by simp only [true_iff]; exact ⟨h, h1, h3⟩⟩
  · rw [h1]
    exact ⟨false, rfl, by simpa using h2⟩

/-- C45: `find` returns the value stored with the key, or the default. -/
theorem c45_find {b : ℕ} {hash : K → ℕ} {tab : ℕ → Option K} {val : ℕ → V} (hw : WF b hash tab)
    (hroom : ∃ h < 2 ^ b, tab h = none) (k : K) (dflt : V) :
    (∃ h < 2 ^ b, tab h = some k ∧ find b hash tab val (2 ^ b + 1) k dflt = .ok (val h)) ∨
    (¬ InTab b tab k ∧ find b hash tab val (2 ^ b + 1) k dflt = .ok dflt) := by
  unfold find
  rw [firstIndex_eq]
  rcases lookup_spec hw hroom k 0 (2 ^ b + 1) (by omega) (by omega) (fun i hi => absurd hi (by omega)) with
    ⟨h, h1, h2, h3⟩ | ⟨h1, h2⟩
  · left
    refine ⟨h, h1, h3, ?_⟩
    rw [h2]
    rfl
  · right
    refine ⟨h2, ?_⟩
    rw [h1]
    rfl

/-- With fewer keys than slots there is a free slot. -/
theorem room {b : ℕ} {tab : ℕ → Option K} {U : Finset K} (hd : NoDup b tab) (hU : ∀ k, InTab b tab k → k ∈ U)
    (hcard : U.card < 2 ^ b) : ∃ h < 2 ^ b, tab h = none := by
  by_contra hno
  push Not at hno
  have hget : ∀ i, i < 2 ^ b → ∃ k', tab i = some k' := fun i hi => Option.ne_none_iff_exists'.mp (hno i hi)
  have : Nonempty K := ⟨(hget 0 (Nat.two_pow_pos b)).choose⟩
  choose! f hf using hget
  have hsub : (Finset.range (2 ^ b)).image f ⊆ U := by
    intro x hx
    rw [Finset.mem_image] at hx
    obtain ⟨i, hi, rfl⟩ := hx
    rw [Finset.mem_range] at hi
    exact hU _ ⟨i, hi, hf i hi⟩
  have hinj : Set.InjOn f (Finset.range (2 ^ b)) := by
    intro i hi j hj hij
    rw [Finset.coe_range, Set.mem_Iio] at hi hj
    have h1 := hf i hi
    have h2 := hf j hj
    rw [← hij] at h2
    exact hd _ hi _ hj _ h1 h2
  have h1 := Finset.card_le_card hsub
  rw [Finset.card_image_of_injOn hinj, Finset.card_range] at h1
  omega

/-- C45: insertion into an empty table followed by lookups: `contains k` iff `k` was inserted. -/
theorem c45_insert_contains {b : ℕ} {hash : K → ℕ} (key : ι → K) (value : ι → V) (val0 : ℕ → V) (U : Finset K)
    (hcard : U.card < 2 ^ b) (hkU : ∀ t, key t ∈ U) (sched : List ι) (hfair : ∀ t, 3 * 2 ^ b < sched.count t)
    (k : K) :
    ∃ r, contains b hash (run b key value sched (start b hash key emptyTab val0)).tab (2 ^ b + 1) k = .ok r ∧
      (r = true ↔ ∃ t, key t = k) := by
  have hno : ∀ k, ¬ InTab b (emptyTab : ℕ → Option K) k := by
    rintro k ⟨h, _, hk⟩
    simp [emptyTab] at hk
  obtain ⟨h1, h2⟩ := c45_insert (val0 := val0) key value (wf_empty b hash) U (by omega)
    (fun k hk => absurd hk (hno k)) hkU sched hfair
  obtain ⟨r, hr1, hr2⟩ := c45_contains h2 (room h1.noDup (U := U) (fun k hk => by
    rcases (h1.keys k).mp hk with a | ⟨t, rfl⟩
    · exact absurd a (hno k)
    · exact hkU t) hcard) k
  refine ⟨r, hr1, hr2.trans ((h1.keys k).trans ?_)⟩
  simp [hno k]

/-- Four threads, three distinct keys with the same first slot, four slots: the hypotheses are met. -/
example : (({10, 14, 18} : Finset ℕ).card < 2 ^ 2) ∧
    (∀ t : Fin 4, (![10, 14, 10, 18] : Fin 4 → ℕ) t ∈ ({10, 14, 18} : Finset ℕ)) ∧
    ∀ t : Fin 4, 3 * 2 ^ 2 < ((List.replicate 13 [3, 2, 1, 0]).flatten : List (Fin 4)).count t := by decide

/-- The same in a run: thread 2 finds the key that thread 0 stores, both having seen the slot empty. -/
example :
    let s := run 2 (![10, 14, 10, 18] : Fin 4 → ℕ) (fun t => t.val)
      ([0, 2, 0, 2] ++ (List.replicate 13 [3, 2, 1, 0]).flatten) (start 2 id ![10, 14, 10, 18] emptyTab fun _ => 99)
    (List.finRange 4).map s.pc = [.done true, .done true, .done false, .done true] ∧
      (List.range 4).map s.tab = [some 14, none, some 10, some 18] ∧
      (List.range 4).map s.val = [1, 99, 0, 3] := by decide +kernel

/-- C45 (a full table): with no free slot and an absent key an insertion never returns, however many steps it
takes. -/
theorem c45_full_diverges {b : ℕ} {hash : K → ℕ} (k : K) (v : V) {tab0 : ℕ → Option K} {val0 : ℕ → V}
    (hfull : ∀ h < 2 ^ b, tab0 h ≠ none) (habs : ¬ InTab b tab0 k) (n : ℕ) (r : Bool) :
    (run b (fun _ : Unit => k) (fun _ => v) (List.replicate n ()) (start b hash (fun _ => k) tab0 val0)).pc () ≠
      .done r := by
  have key : ∀ (n : ℕ) (s : State K V Unit), s.tab = tab0 →
      (∃ j, s.pc () = .probe (pos b hash k j) ∨ s.pc () = .cmp (pos b hash k j)) →
      (run b (fun _ : Unit => k) (fun _ => v) (List.replicate n ()) s).pc () ≠ .done r := by
    intro n
    induction n with
    | zero =>
      rintro s _ ⟨j, h | h⟩ <;> simp [run, h]
    | succ n ih =>
      rintro s hs ⟨j, h | h⟩
      · rw [List.replicate_succ, run, List.foldl_cons]
        apply ih
        · simp only [step, h]
          split <;> exact hs
        · refine ⟨j, Or.inr ?_⟩
          simp only [step, h]
          rw [hs, if_neg (hfull _ (pos_lt _ _ _ _))]
          simp
      · rw [List.replicate_succ, run, List.foldl_cons]
        apply ih
        · simp only [step, h]
          split <;> exact hs
        · refine ⟨j + 1, Or.inl ?_⟩
          simp only [step, h]
          rw [hs, if_neg fun hk => habs ⟨_, pos_lt _ _ _ _, hk⟩]
          simp [incrementIndex_pos]
  apply key n
  · rfl
  · exact ⟨0, Or.inl (by rw [← firstIndex_eq]; rfl)⟩

/-- A full table of two slots without the key 7. -/
example : (∀ h < 2 ^ 1, (fun h => some h : ℕ → Option ℕ) h ≠ none) ∧
    ¬ InTab 1 (fun h => some h : ℕ → Option ℕ) 7 := by
  refine ⟨by simp, ?_⟩
  rintro ⟨h, hh, hk⟩
  simp only [Option.some.injEq] at hk
  omega

end Verif.Hash
