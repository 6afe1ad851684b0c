import Mathlib.Data.List.Basic
import Mathlib.Tactic.IntervalCases
import Verif.BatchKd.BloomModel

set_option linter.unusedSectionVars false
set_option linter.unusedVariables false

/-!
Property C31: the Bloom filter has no false negatives, under every interleaving of the insertions.
-/

namespace Verif.BatchKd

variable {P : Type}

/-- The arrays have their allocated sizes. -/
def Bloom.Wf (b : Bloom) : Prop :=
  0 < b.num ∧ b.buckets.length = numArrays ∧ ∀ a ∈ b.buckets, a.length = b.num

/-- Bit `i` of array `j`. -/
def Bloom.bit (b : Bloom) (j i : ℕ) : Prop := ∃ a, b.buckets[j]? = some a ∧ a[i]? = some true

theorem Bloom.get_ok {b : Bloom} (hb : b.Wf) {j i : ℕ} (hj : j < numArrays) (hi : i < b.num) :
    ∃ x, b.get j i = .ok x ∧ (x = true ↔ b.bit j i) := by
  obtain ⟨_, hl, ha⟩ := hb
  have hj' : j < b.buckets.length := by omega
  have hi' : i < b.buckets[j].length := by rw [ha _ (List.getElem_mem hj')]; exact hi
  refine ⟨b.buckets[j][i], ?_, ?_⟩
  · simp [Bloom.get, List.getElem?_eq_getElem hj', List.getElem?_eq_getElem hi']
  · simp [Bloom.bit, List.getElem?_eq_getElem hj', List.getElem?_eq_getElem hi']

theorem Bloom.cas_ok {b : Bloom} (hb : b.Wf) {j i : ℕ} (hj : j < numArrays) (hi : i < b.num) :
    ∃ b', b.cas j i = .ok b' ∧ b'.Wf ∧ b'.num = b.num ∧
      ∀ j' i', b'.bit j' i' ↔ b.bit j' i' ∨ (j' = j ∧ i' = i) := by
  obtain ⟨hn, hl, ha⟩ := hb
  have hj' : j < b.buckets.length := by omega
  have hi' : i < b.buckets[j].length := by rw [ha _ (List.getElem_mem hj')]; exact hi
  refine ⟨{ b with buckets := b.buckets.set j (if b.buckets[j][i] then b.buckets[j]
    else b.buckets[j].set i true) }, ?_, ⟨hn, ?_, ?_⟩, rfl, ?_⟩
  · simp [Bloom.cas, List.getElem?_eq_getElem hj', List.getElem?_eq_getElem hi']
  · simpa using hl
  · intro a hmem
    rcases List.mem_or_eq_of_mem_set hmem with h | h
    · exact ha a h
    · rw [h]
      split
      · exact ha _ (List.getElem_mem hj')
      · rw [List.length_set]
        exact ha _ (List.getElem_mem hj')
  · intro j' i'
    unfold Bloom.bit
    by_cases hjj : j' = j
    · subst hjj
      simp only [List.getElem?_set_self hj', List.getElem?_eq_getElem hj', Option.some.injEq,
        exists_eq_left', true_and]
      by_cases hx : b.buckets[j'][i] = true
      · simp only [hx, if_true]
        constructor
        · exact Or.inl
        · rintro (h | rfl)
          · exact h
          · rw [List.getElem?_eq_getElem hi', hx]
      · rw [if_neg hx]
        by_cases hii : i' = i
        · subst hii
          simp [List.getElem?_set_self hi']
        · rw [List.getElem?_set_ne (fun h => hii h.symm)]
          simp [hii]
    · rw [List.getElem?_set_ne (fun h => hjj h.symm)]
      simp [hjj]

/-- Invariant of a run: every array a thread has passed has the bit of its point set; bits are those of
the beginning plus bits of inserted points. -/
structure BInv (h : P → ℕ → ℕ) (pts : List P) (b0 : Bloom) (s : BSys) : Prop where
  wf : s.b.Wf
  num : s.b.num = b0.num
  len : s.ts.length = pts.length
  set : ∀ (t : ℕ) (p : P) (th : BThread), pts[t]? = some p → s.ts[t]? = some th →
    ∀ j, j < th.j → j < numArrays → s.b.bit j (h p j % b0.num)
  keep : ∀ j i, b0.bit j i → s.b.bit j i
  only : ∀ j i, s.b.bit j i → b0.bit j i ∨ ∃ p ∈ pts, i = h p j % b0.num

theorem BInv.start (h : P → ℕ → ℕ) (pts : List P) (b : Bloom) (hb : b.Wf) :
    BInv h pts b (bloomStart b pts) where
  wf := hb
  num := rfl
  len := by simp [bloomStart]
  set := by
    intro t p th h1 h2 j hj
    simp only [bloomStart, List.getElem?_map, Option.map_eq_some_iff] at h2
    obtain ⟨_, _, rfl⟩ := h2
    simp at hj
  keep := fun _ _ h => h
  only := fun _ _ h => Or.inl h

/-- Accesses a thread still has to make, at most. -/
def BThread.todo (t : BThread) : ℕ := 2 * (numArrays - t.j) - (if t.sawEmpty then 1 else 0)

theorem bsysStep_ok (h : P → ℕ → ℕ) (pts : List P) (b0 : Bloom) (s : BSys)
    (hs : BInv h pts b0 s) (t : ℕ) :
    ∃ s', bsysStep h pts s t = .ok s' ∧ BInv h pts b0 s' ∧
      (∀ t' th', s'.ts[t']? = some th' → ∃ th, s.ts[t']? = some th ∧
        (th'.todo ≤ th.todo ∧ (t' = t → th'.todo ≤ th.todo - 1))) := by
  have hstay : (∀ t' th', s.ts[t']? = some th' → ∃ th, s.ts[t']? = some th ∧
        (th'.todo ≤ th.todo ∧ (t' = t → th.todo = 0 → th'.todo ≤ th.todo - 1))) :=
    fun t' th' h' => ⟨th', h', le_rfl, fun _ h0 => by omega⟩
  cases hp : pts[t]? with
  | none =>
    have hlen : pts.length ≤ t := by simpa using hp
    refine ⟨s, by simp [bsysStep, hp], hs, fun t' th' h' => ⟨th', h', le_rfl, ?_⟩⟩
    rintro rfl
    have := hs.len
    rw [List.getElem?_eq_none (by omega)] at h'
    cases h'
  | some p =>
    have htl : t < pts.length := by
      by_contra hc
      rw [List.getElem?_eq_none (by omega)] at hp
      cases hp
    have hts : t < s.ts.length := by rw [hs.len]; exact htl
    have hth : s.ts[t]? = some s.ts[t] := List.getElem?_eq_getElem hts
    generalize s.ts[t] = th at hth
    have hstep : bsysStep h pts s t = (bloomStep h p s.b th).map fun r => ⟨r.1, s.ts.set t r.2⟩ := by
      simp [bsysStep, hp, hth]
    -- after a step that replaces the thread
    have key : ∀ (b' : Bloom) (th' : BThread), b'.Wf → b'.num = b0.num →
        (∀ j i, s.b.bit j i → b'.bit j i) →
        (∀ j i, b'.bit j i → s.b.bit j i ∨ (i = h p j % b0.num)) →
        (∀ j, j < th'.j → j < numArrays → b'.bit j (h p j % b0.num)) →
        BInv h pts b0 ⟨b', s.ts.set t th'⟩ := by
      intro b' th' hwf hnum hkeep honly hset
      refine ⟨hwf, hnum, by simpa using hs.len, ?_, fun j i hb => hkeep j i (hs.keep j i hb), ?_⟩
      · intro t' p' th'' hp' ht'' j hj hj4
        by_cases e : t' = t
        · subst e
          rw [List.getElem?_set_self hts] at ht''
          cases ht''
          rw [hp] at hp'
          cases hp'
          exact hset j hj hj4
        · rw [List.getElem?_set_ne (fun h => e h.symm)] at ht''
          exact hkeep _ _ (hs.set t' p' th'' hp' ht'' j hj hj4)
      · intro j i hb
        rcases honly j i hb with hb | hb
        · exact hs.only j i hb
        · exact Or.inr ⟨p, List.mem_of_getElem? hp, hb⟩
    have key2 : ∀ th' : BThread, th'.todo ≤ th.todo - 1 → ∀ t' th'', (s.ts.set t th')[t']? = some th'' →
        ∃ th0, s.ts[t']? = some th0 ∧ (th''.todo ≤ th0.todo ∧ (t' = t → th''.todo ≤ th0.todo - 1)) := by
      intro th' hle t' th'' ht''
      by_cases e : t' = t
      · subst e
        rw [List.getElem?_set_self hts] at ht''
        cases ht''
        exact ⟨th, hth, by omega, fun _ => hle⟩
      · rw [List.getElem?_set_ne (fun h => e h.symm)] at ht''
        exact ⟨th'', ht'', le_rfl, fun h => absurd h e⟩
    by_cases hj : numArrays ≤ th.j
    · refine ⟨⟨s.b, s.ts.set t th⟩, ?_, ?_, ?_⟩
      · rw [hstep, bloomStep, if_pos hj]
        rfl
      · exact key s.b th hs.wf hs.num (fun _ _ h => h) (fun _ _ h => Or.inl h)
          (fun j h1 h2 => hs.set t p th hp hth j h1 h2)
      · refine key2 th ?_
        unfold BThread.todo
        split <;> omega
    · have hj' : th.j < numArrays := by omega
      have hn : s.b.num ≠ 0 := Nat.pos_iff_ne_zero.mp hs.wf.1
      have hidx : s.b.idx h p th.j = .ok (h p th.j % s.b.num) := by simp [Bloom.idx, hn]
      have hi : h p th.j % s.b.num < s.b.num := Nat.mod_lt _ hs.wf.1
      have e1 : bloomStep h p s.b th = (if th.sawEmpty then
          (s.b.cas th.j (h p th.j % s.b.num)).map fun b' => (b', ⟨th.j + 1, false⟩)
          else (s.b.get th.j (h p th.j % s.b.num)).map fun x =>
            (s.b, if x then ⟨th.j + 1, false⟩ else ⟨th.j, true⟩)) := by
        rw [bloomStep, if_neg hj, hidx]
        rfl
      have hprev : ∀ j, j < th.j → j < numArrays → s.b.bit j (h p j % b0.num) :=
        fun j h1 h2 => hs.set t p th hp hth j h1 h2
      by_cases hse : th.sawEmpty = true
      · obtain ⟨b', hcas, hwf', hnum', hbit'⟩ := Bloom.cas_ok hs.wf hj' hi
        refine ⟨⟨b', s.ts.set t ⟨th.j + 1, false⟩⟩, ?_, ?_, ?_⟩
        · rw [hstep, e1, if_pos hse, hcas]
          rfl
        · refine key b' _ hwf' (by rw [hnum', hs.num]) (fun j i hb => (hbit' j i).2 (Or.inl hb)) ?_ ?_
          · intro j i hb
            rcases (hbit' j i).1 hb with hb | ⟨rfl, rfl⟩
            · exact Or.inl hb
            · exact Or.inr (by rw [hs.num])
          · intro j h1 h2
            refine (hbit' _ _).2 ?_
            rcases Nat.lt_succ_iff_lt_or_eq.mp h1 with h3 | h3
            · exact Or.inl (hprev j h3 h2)
            · exact Or.inr ⟨h3, by rw [h3, hs.num]⟩
        · refine key2 _ ?_
          simp only [BThread.todo, hse, if_true]
          simp only [Bool.false_eq_true, if_false]
          omega
      · obtain ⟨x, hget, hx⟩ := Bloom.get_ok hs.wf hj' hi
        refine ⟨⟨s.b, s.ts.set t (if x then ⟨th.j + 1, false⟩ else ⟨th.j, true⟩)⟩, ?_, ?_, ?_⟩
        · rw [hstep, e1, if_neg hse, hget]
          rfl
        · refine key s.b _ hs.wf hs.num (fun _ _ h => h) (fun _ _ h => Or.inl h) ?_
          intro j h1 h2
          by_cases hxt : x = true
          · rw [if_pos hxt] at h1
            rcases Nat.lt_succ_iff_lt_or_eq.mp h1 with h3 | h3
            · exact hprev j h3 h2
            · rw [h3, ← hs.num]
              exact hx.1 hxt
          · rw [if_neg hxt] at h1
            exact hprev j h1 h2
        · refine key2 _ ?_
          unfold BThread.todo
          by_cases hxt : x = true
          · simp [hxt, hse]
            omega
          · simp [hxt, hse]

theorem bloomRun_ok (h : P → ℕ → ℕ) (pts : List P) (b0 : Bloom) (sched : List ℕ) (s : BSys)
    (hs : BInv h pts b0 s) :
    ∃ s', bloomRun h pts sched s = .ok s' ∧ BInv h pts b0 s' ∧
      ∀ t th', s'.ts[t]? = some th' → ∃ th, s.ts[t]? = some th ∧
        th'.todo ≤ th.todo - sched.count t := by
  induction sched generalizing s with
  | nil => exact ⟨s, rfl, hs, fun t th' h' => ⟨th', h', by simp⟩⟩
  | cons a sched ih =>
    obtain ⟨s1, h1, hs1, hm1⟩ := bsysStep_ok h pts b0 s hs a
    obtain ⟨s2, h2, hs2, hm2⟩ := ih s1 hs1
    refine ⟨s2, ?_, hs2, ?_⟩
    · rw [bloomRun, h1]
      exact h2
    · intro t th' ht'
      obtain ⟨th1, e1, l1⟩ := hm2 t th' ht'
      obtain ⟨th0, e0, l0, l0'⟩ := hm1 t th1 e1
      refine ⟨th0, e0, ?_⟩
      by_cases e : t = a
      · have := l0' e
        rw [e, List.count_cons_self]
        rw [e] at l1
        omega
      · rw [List.count_cons_of_ne (fun h => e h.symm)]
        omega

theorem mightContainLoop_iff (h : P → ℕ → ℕ) {b : Bloom} (hb : b.Wf) (p : P) (js : List ℕ)
    (hjs : ∀ j ∈ js, j < numArrays) :
    ∃ x, mightContainLoop h b p js = .ok x ∧ (x = true ↔ ∀ j ∈ js, b.bit j (h p j % b.num)) := by
  induction js with
  | nil => exact ⟨true, rfl, by simp⟩
  | cons j js ih =>
    obtain ⟨x, hx, hx'⟩ := ih fun j' hj' => hjs j' (by simp [hj'])
    have hn : b.num ≠ 0 := Nat.pos_iff_ne_zero.mp hb.1
    obtain ⟨y, hy, hy'⟩ := Bloom.get_ok hb (hjs j (by simp)) (Nat.mod_lt (h p j) hb.1)
    have e : mightContainLoop h b p (j :: js) =
        if y then mightContainLoop h b p js else .ok false := by
      rw [mightContainLoop, Bloom.idx, if_neg hn]
      simp only [Except.bind]
      rw [hy]
    by_cases hyt : y = true
    · refine ⟨x, by rw [e, if_pos hyt, hx], ?_⟩
      rw [hx']
      simp [hy'.1 hyt]
    · refine ⟨false, by rw [e, if_neg hyt], ?_⟩
      have : ¬ b.bit j (h p j % b.num) := fun hh => hyt (hy'.2 hh)
      simp [this]

theorem mightContain_iff (h : P → ℕ → ℕ) {b : Bloom} (hb : b.Wf) (p : P) :
    ∃ x, b.mightContain h p = .ok x ∧ (x = true ↔ ∀ j < numArrays, b.bit j (h p j % b.num)) := by
  obtain ⟨x, h1, h2⟩ := mightContainLoop_iff h hb p (List.range numArrays) (by simp)
  exact ⟨x, h1, by simpa using h2⟩

theorem Bloom.new_wf (n : ℕ) (hn : 0 < n) (init : ℕ → ℕ → Bool) : (Bloom.new n init).Wf := by
  refine ⟨by simp [Bloom.new]; omega, by simp [Bloom.new], ?_⟩
  intro a ha
  simp only [Bloom.new, List.mem_map] at ha
  obtain ⟨j, _, rfl⟩ := ha
  simp [Bloom.new]

theorem Bloom.clear_wf {b : Bloom} (hb : b.Wf) : b.clear.Wf := by
  refine ⟨hb.1, by simpa [Bloom.clear] using hb.2.1, ?_⟩
  intro a ha
  simp only [Bloom.clear, List.mem_map] at ha
  obtain ⟨a', h', rfl⟩ := ha
  rw [List.length_map]
  exact hb.2.2 a' h'

theorem Bloom.clear_bit (b : Bloom) (j i : ℕ) : ¬ b.clear.bit j i := by
  rintro ⟨a, h1, h2⟩
  simp only [Bloom.clear, List.getElem?_map, Option.map_eq_some_iff] at h1
  obtain ⟨a', _, rfl⟩ := h1
  have := List.mem_of_getElem? h2
  simp at this

/-- **C31**: for every well-formed filter state (whatever was inserted before), every list of points
inserted concurrently and every interleaving `sched` of the accesses, the run has no undefined
behaviour, and once the insertion has finished every inserted point is reported by `might_contain`, as
is every point reported before. -/
theorem c31_no_false_negatives (h : P → ℕ → ℕ) (b : Bloom) (hb : b.Wf) (pts : List P) (sched : List ℕ) :
    ∃ s, bloomRun h pts sched (bloomStart b pts) = .ok s ∧
      (s.finished → ∀ p ∈ pts, s.b.mightContain h p = .ok true) ∧
      (∀ p, b.mightContain h p = .ok true → s.b.mightContain h p = .ok true) := by
  obtain ⟨s, h1, hs, _⟩ := bloomRun_ok h pts b sched _ (BInv.start h pts b hb)
  refine ⟨s, h1, ?_, ?_⟩
  · intro hf p hp
    obtain ⟨x, hx, hx'⟩ := mightContain_iff h hs.wf p
    rw [hx, hx'.2]
    intro j hj
    obtain ⟨t, ht⟩ := List.getElem?_of_mem hp
    have htl : t < s.ts.length := by
      rw [hs.len]
      by_contra hc
      rw [List.getElem?_eq_none (by omega)] at ht
      cases ht
    rw [hs.num]
    exact hs.set t p _ ht (List.getElem?_eq_getElem htl) j
      (lt_of_lt_of_le hj (hf _ (List.getElem_mem htl))) hj
  · intro p hp
    obtain ⟨x, hx, hx'⟩ := mightContain_iff h hs.wf p
    obtain ⟨y, hy, hy'⟩ := mightContain_iff h hb p
    rw [hy] at hp
    cases hp
    rw [hx, hx'.2]
    intro j hj
    rw [hs.num]
    exact hs.keep _ _ (hy'.1 rfl j hj)

/-- **C31**: the insertion is wait-free: after every thread has made eight accesses it has finished. -/
theorem c31_wait_free (h : P → ℕ → ℕ) (b : Bloom) (hb : b.Wf) (pts : List P) (sched : List ℕ)
    (hf : ∀ t < pts.length, 8 ≤ sched.count t) :
    ∃ s, bloomRun h pts sched (bloomStart b pts) = .ok s ∧ s.finished := by
  obtain ⟨s, h1, hs, hm⟩ := bloomRun_ok h pts b sched _ (BInv.start h pts b hb)
  refine ⟨s, h1, ?_⟩
  intro th hth
  obtain ⟨t, ht⟩ := List.getElem?_of_mem hth
  obtain ⟨th0, e0, hle⟩ := hm t th ht
  have htl : t < pts.length := by
    rw [← hs.len]
    by_contra hc
    rw [List.getElem?_eq_none (by omega)] at ht
    cases ht
  have := hf t htl
  simp only [bloomStart, List.getElem?_map, Option.map_eq_some_iff] at e0
  obtain ⟨_, _, rfl⟩ := e0
  have h0 : th.todo = 0 := by
    have h8 : (⟨0, false⟩ : BThread).todo = 8 := rfl
    omega
  unfold BThread.todo at h0
  by_contra hc
  have : numArrays = 4 := rfl
  split at h0 <;> omega

/-- **C31**: after `build` (clear, then insert), a positive answer means that in each of the four arrays
some inserted point has the same bucket as the query, so all false positives are hash collisions. -/
theorem c31_build_exact (h : P → ℕ → ℕ) (b : Bloom) (hb : b.Wf) (pts : List P) (sched : List ℕ)
    (s : BSys) (hrun : bloomRun h pts sched (bloomStart b.clear pts) = .ok s) (hfin : s.finished) (p : P) :
    s.b.mightContain h p = .ok true ↔
      ∀ j < 4, ∃ q ∈ pts, h q j % b.num = h p j % b.num := by
  obtain ⟨s', h1, hs, _⟩ := bloomRun_ok h pts b.clear sched _ (BInv.start h pts _ (Bloom.clear_wf hb))
  rw [hrun] at h1
  cases h1
  obtain ⟨x, hx, hx'⟩ := mightContain_iff h hs.wf p
  have hnum : b.clear.num = b.num := rfl
  rw [hx]
  constructor
  · intro he j hj
    cases he
    rcases hs.only _ _ (hx'.1 rfl j hj) with hc | ⟨q, hq, e⟩
    · exact absurd hc (Bloom.clear_bit b j _)
    · rw [hs.num, hnum] at e
      exact ⟨q, hq, e.symm⟩
  · intro hall
    rw [hx'.2]
    intro j hj
    obtain ⟨q, hq, e⟩ := hall j hj
    obtain ⟨t, ht⟩ := List.getElem?_of_mem hq
    have htl : t < s.ts.length := by
      rw [hs.len]
      by_contra hc
      rw [List.getElem?_eq_none (by omega)] at ht
      cases ht
    have := hs.set t q _ ht (List.getElem?_eq_getElem htl) j
      (lt_of_lt_of_le hj (hfin _ (List.getElem_mem htl))) hj
    rw [hs.num]
    rw [hnum] at this ⊢
    rw [← e]
    exact this

/-- The filters the trees create (`num_points ≥ 1`) are well-formed, whatever the uninitialised buckets
contain. -/
theorem c31_new_wf (n : ℕ) (hn : 0 < n) (init : ℕ → ℕ → Bool) : (Bloom.new n init).Wf :=
  Bloom.new_wf n hn init

/-- A filter created for no points divides by zero. -/
theorem c31_empty_filter_ub (h : P → ℕ → ℕ) (init : ℕ → ℕ → Bool) (p : P) :
    (Bloom.new 0 init).mightContain h p = .error .ub := rfl

/-- Non-trivial instance: two points inserted by two interleaved threads that collide in an array. -/
example : (bloomRun (fun (p : ℕ) j => p * (j + 1)) [3, 7]
    [0, 1, 0, 1, 0, 1, 0, 1, 0, 1, 0, 1, 0, 1, 0, 1]
    (bloomStart (Bloom.new 2 fun _ _ => false) [3, 7])).map (fun s =>
      (s.ts.all fun t => decide (numArrays ≤ t.j),
        s.b.mightContain (fun (p : ℕ) j => p * (j + 1)) 3,
        s.b.mightContain (fun (p : ℕ) j => p * (j + 1)) 2)) = .ok (true, .ok true, .ok false) := by
  decide

end Verif.BatchKd
