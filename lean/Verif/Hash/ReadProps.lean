import Verif.Hash.ReadModel
import Verif.Hash.FoldProps

set_option linter.unusedSectionVars false
set_option linter.unusedVariables false

/-!
C108: lookups that run at the same time as insertions.
-/

namespace Verif.Hash

variable {K V ι : Type} [DecidableEq K] [DecidableEq ι]

theorem pos_surj {b : ℕ} (hash : K → ℕ) (k : K) {h : ℕ} (hh : h < 2 ^ b) : ∃ j < 2 ^ b, h = pos b hash k j := by
  refine ⟨(h + (2 ^ b - hash k % 2 ^ b)) % 2 ^ b, Nat.mod_lt _ (Nat.two_pow_pos b), ?_⟩
  unfold pos
  have hlt : hash k % 2 ^ b < 2 ^ b := Nat.mod_lt _ (Nat.two_pow_pos b)
  rw [Nat.add_mod_mod, ← Nat.mod_add_mod]
  have : hash k % 2 ^ b + (h + (2 ^ b - hash k % 2 ^ b)) = h + 2 ^ b := by omega
  rw [this, Nat.add_mod_right, Nat.mod_eq_of_lt hh]

theorem step_done {b : ℕ} {key : ι → K} {value : ι → V} (t t' : ι) (s : State K V ι) {r : Bool}
    (hr : s.pc t' = .done r) : (step b key value t s).pc t' = .done r := by
  by_cases ht : t' = t
  · subst ht
    unfold step
    rw [hr]
    exact hr
  · rw [step_pc_ne ht]
    exact hr

/-- What is known of a value in the table. -/
def ValOK (key : ι → K) (value : ι → V) (val0 : ℕ → V) (s : State K V ι) : Prop :=
  ∀ h, s.val h = val0 h ∨ ∃ t, s.tab h = some (key t) ∧ s.val h = value t

theorem valOK_step {b : ℕ} {hash : K → ℕ} {key : ι → K} {value : ι → V} {tab0 : ℕ → Option K} {val0 : ℕ → V}
    {U : Finset K} {cnt : ι → ℕ} {s : State K V ι} (hi : Inv b hash key value tab0 val0 U cnt s) (t : ι)
    (h : ValOK key value val0 s) : ValOK key value val0 (step b key value t s) := by
  have hmono := fun h k (hk : s.tab h = some k) => step_tab_mono (b := b) (key := key) (value := value) t s hk
  have hsame : (step b key value t s).val = s.val → ValOK key value val0 (step b key value t s) := by
    intro he h0
    rw [he]
    rcases h h0 with a | ⟨t', a1, a2⟩
    · exact Or.inl a
    · exact Or.inr ⟨t', hmono _ _ a1, a2⟩
  cases hp : s.pc t with
  | probe h0 => exact hsame (by unfold step; rw [hp]; dsimp only; split <;> rfl)
  | cas h0 => exact hsame (by unfold step; rw [hp]; dsimp only; split <;> rfl)
  | cmp h0 => exact hsame (by unfold step; rw [hp]; dsimp only; split <;> rfl)
  | done r => exact hsame (by unfold step; rw [hp])
  | store h0 =>
    have hth := hi.thread t
    rw [hp] at hth
    unfold step
    rw [hp]
    intro h1
    dsimp only
    by_cases he : h1 = h0
    · subst he
      rw [Function.update_self]
      exact Or.inr ⟨t, hth.2.1, rfl⟩
    · rw [Function.update_of_ne he]
      exact h h1

theorem valOK_run {b : ℕ} {hash : K → ℕ} {key : ι → K} {value : ι → V} {tab0 : ℕ → Option K} {val0 : ℕ → V}
    {U : Finset K} (hcard : U.card ≤ 2 ^ b) (hkU : ∀ t, key t ∈ U) (hw : WF b hash tab0)
    (hU0 : ∀ k, InTab b tab0 k → k ∈ U) (sched : List ι) :
    ValOK key value val0 (run b key value sched (start b hash key tab0 val0)) := by
  induction sched using List.reverseRecOn with
  | nil => exact fun h => Or.inl rfl
  | append_singleton l t ih =>
    rw [run_append]
    exact valOK_step (inv_run hcard hkU l (inv_start (val0 := val0) key value hw hU0)) t ih

/-- What a finished lookup promises: `i` is the state in which it was called, `s` a state after its end. -/
def ReadOK (b : ℕ) (key : ι → K) (value : ι → V) (tab0 : ℕ → Option K) (val0 : ℕ → V) (k : K) (i s : State K V ι) :
    Option V → Prop
  | none => ¬ InTab b i.tab k
  | some v => ∃ h < 2 ^ b, s.tab h = some k ∧ (v = val0 h ∨ ∃ t, key t = k ∧ v = value t) ∧
      (tab0 h = some k → v = val0 h) ∧ ∀ t, i.pc t = .done true → key t = k → v = value t

/-- What holds of the lookup; `n` is the number of steps it has taken. -/
def LookOK (b : ℕ) (hash : K → ℕ) (key : ι → K) (value : ι → V) (tab0 : ℕ → Option K) (val0 : ℕ → V) (k : K)
    (i s : State K V ι) (n : ℕ) : ReadPC V → Prop
  | .look h => ∃ j < 2 ^ b, h = pos b hash k j ∧
      (∀ x < j, s.tab (pos b hash k x) ≠ none ∧ i.tab (pos b hash k x) ≠ some k) ∧ n ≤ 2 * j
  | .test h => ∃ j < 2 ^ b, h = pos b hash k j ∧
      (∀ x < j, s.tab (pos b hash k x) ≠ none ∧ i.tab (pos b hash k x) ≠ some k) ∧
      i.tab (pos b hash k j) ≠ some k ∧ n ≤ 2 * j + 1
  | .load h => h < 2 ^ b ∧ s.tab h = some k ∧ n ≤ 2 * 2 ^ b
  | .done r => ReadOK b key value tab0 val0 k i s r

theorem lookOK_mono {b : ℕ} {hash : K → ℕ} {key : ι → K} {value : ι → V} {tab0 : ℕ → Option K} {val0 : ℕ → V} {k : K}
    {i s s' : State K V ι} {n : ℕ} (hm : ∀ h k, s.tab h = some k → s'.tab h = some k) {p : ReadPC V}
    (h : LookOK b hash key value tab0 val0 k i s n p) : LookOK b hash key value tab0 val0 k i s' n p := by
  have hn : ∀ h, s.tab h ≠ none → s'.tab h ≠ none := fun h hne => by
    obtain ⟨k', hk'⟩ := Option.ne_none_iff_exists'.mp hne
    rw [hm h k' hk']
    simp
  cases p with
  | look h0 =>
    obtain ⟨j, a1, a2, a3, a4⟩ := h
    exact ⟨j, a1, a2, fun x hx => ⟨hn _ (a3 x hx).1, (a3 x hx).2⟩, a4⟩
  | test h0 =>
    obtain ⟨j, a1, a2, a3, a4, a5⟩ := h
    exact ⟨j, a1, a2, fun x hx => ⟨hn _ (a3 x hx).1, (a3 x hx).2⟩, a4, a5⟩
  | load h0 => exact ⟨h.1, hm _ _ h.2.1, h.2.2⟩
  | done r =>
    cases r with
    | none => exact h
    | some v =>
      obtain ⟨h0, a1, a2, a3⟩ := h
      exact ⟨h0, a1, hm _ _ a2, a3⟩

/-- Invariant of a lookup called after the steps `pre` of the insertions. -/
structure RInv (b : ℕ) (hash : K → ℕ) (key : ι → K) (value : ι → V) (tab0 : ℕ → Option K) (val0 : ℕ → V) (k : K)
    (i : State K V ι) (sched : List (Option ι)) (s : ReadState K V ι) : Prop where
  reach : ∃ l, s.base = run b key value l (start b hash key tab0 val0)
  mono : ∀ h k, i.tab h = some k → s.base.tab h = some k
  done : ∀ t r, i.pc t = .done r → s.base.pc t = .done r
  look : LookOK b hash key value tab0 val0 k i s.base (sched.count none) s.rd

theorem rinv_run {b : ℕ} {hash : K → ℕ} {key : ι → K} {value : ι → V} {tab0 : ℕ → Option K} {val0 : ℕ → V}
    {U : Finset K} (hcard : U.card < 2 ^ b) (hkU : ∀ t, key t ∈ U) (hw : WF b hash tab0)
    (hU0 : ∀ k, InTab b tab0 k → k ∈ U) (k : K) (pre : List ι) (sched : List (Option ι)) {i : State K V ι}
    (hi : i = run b key value pre (start b hash key tab0 val0)) :
    RInv b hash key value tab0 val0 k i sched (readRun b key value k sched (readStart b hash k i)) := by
  have hinv := fun l => inv_run hcard.le hkU l (inv_start (val0 := val0) key value hw hU0)
  have hwfi : WF b hash i.tab := by rw [hi]; exact (hinv pre).wf
  induction sched using List.reverseRecOn with
  | nil =>
    exact ⟨⟨pre, hi⟩, fun _ _ h => h, fun _ _ h => h,
      ⟨0, Nat.two_pow_pos b, firstIndex_eq b hash k, fun x hx => absurd hx (by omega), by simp⟩⟩
  | append_singleton l o ih =>
    have he : readRun b key value k (l ++ [o]) (readStart b hash k i) = (match o with
        | none => readStep b k (readRun b key value k l (readStart b hash k i))
        | some t => { readRun b key value k l (readStart b hash k i) with
            base := step b key value t (readRun b key value k l (readStart b hash k i)).base }) := by
      unfold readRun
      rw [List.foldl_append]
      rfl
    rw [he]
    generalize readRun b key value k l (readStart b hash k i) = s at ih
    obtain ⟨⟨l', hl'⟩, hmono, hdone, hlook⟩ := ih
    cases o with
    | some t =>
      have hm := fun h k (hk : s.base.tab h = some k) => step_tab_mono (b := b) (key := key) (value := value) t s.base hk
      refine ⟨⟨l' ++ [t], by rw [run_append, ← hl']⟩, fun h k hk => hm _ _ (hmono h k hk),
        fun t' r hr => step_done t t' _ (hdone t' r hr), ?_⟩
      have hc : (l ++ [some t]).count none = l.count none := by simp
      rw [hc]
      exact lookOK_mono hm hlook
    | none =>
      have hc : (l ++ [(none : Option ι)]).count none = l.count none + 1 := by simp
      have hI := hinv l'
      have hV := valOK_run (value := value) (val0 := val0) hcard.le hkU hw hU0 l'
      rw [← hl'] at hI hV
      dsimp only
      cases hp : s.rd with
      | look h0 =>
        rw [hp] at hlook
        obtain ⟨j, a1, a2, a3, a4⟩ := hlook
        unfold readStep
        rw [hp]
        refine ⟨⟨l', hl'⟩, hmono, hdone, ?_⟩
        rw [hc]
        dsimp only
        by_cases hk : s.base.tab h0 = some k
        · rw [if_pos hk]
          exact ⟨by rw [a2]; exact pos_lt _ _ _ _, hk, by omega⟩
        · rw [if_neg hk]
          exact ⟨j, a1, a2, a3, fun hx => hk (by rw [a2]; exact hmono _ _ hx), by omega⟩
      | test h0 =>
        rw [hp] at hlook
        obtain ⟨j, a1, a2, a3, a4, a5⟩ := hlook
        unfold readStep
        rw [hp]
        refine ⟨⟨l', hl'⟩, hmono, hdone, ?_⟩
        rw [hc]
        dsimp only
        by_cases hk : s.base.tab h0 = none
        · rw [if_pos hk]
          rintro ⟨h', hh', hk'⟩
          obtain ⟨j', b1, b2, b3⟩ := hwfi h' hh' k hk'
          rcases Nat.lt_trichotomy j' j with hlt | heq | hlt
          · exact (a3 j' hlt).2 (by rw [← b2]; exact hk')
          · exact a4 (by rw [← heq, ← b2]; exact hk')
          · obtain ⟨k', hx⟩ := Option.ne_none_iff_exists'.mp (b3 j hlt).1
            have := hmono _ _ hx
            rw [← a2, hk] at this
            exact absurd this (by simp)
        · rw [if_neg hk]
          have hnext : ∀ x < j + 1, s.base.tab (pos b hash k x) ≠ none ∧ i.tab (pos b hash k x) ≠ some k := by
            intro x hx
            rcases Nat.lt_succ_iff_lt_or_eq.mp hx with h1 | h1
            · exact a3 x h1
            · rw [h1]
              exact ⟨by rw [← a2]; exact hk, a4⟩
          have hj : j + 1 < 2 ^ b := by
            by_contra hge
            obtain ⟨hf, c1, c2⟩ := room hI.wf.noDup hI.univ hcard
            obtain ⟨x, d1, d2⟩ := pos_surj hash k c1
            exact (hnext x (by omega)).1 (by rw [← d2]; exact c2)
          exact ⟨j + 1, hj, by rw [a2, incrementIndex_pos], hnext, by omega⟩
      | load h0 =>
        rw [hp] at hlook
        obtain ⟨a1, a2, a3⟩ := hlook
        unfold readStep
        rw [hp]
        refine ⟨⟨l', hl'⟩, hmono, hdone, ?_⟩
        dsimp only
        refine ⟨h0, a1, a2, ?_, fun h1 => (hI.old h0 a1 k h1).2, ?_⟩
        · rcases hV h0 with h1 | ⟨t, h1, h2⟩
          · exact Or.inl h1
          · rw [a2] at h1
            exact Or.inr ⟨t, by simpa using h1.symm, h2⟩
        · intro t ht hk
          have hth := hI.thread t
          rw [hdone t true ht] at hth
          obtain ⟨h1, b1, b2, b3⟩ := hth
          rw [hk] at b2
          rw [hI.wf.noDup h0 a1 h1 b1 k a2 b2]
          exact b3
      | done r =>
        have hst : readStep b k s = s := by
          unfold readStep
          rw [hp]
        rw [hst]
        refine ⟨⟨l', hl'⟩, hmono, hdone, ?_⟩
        rw [hp] at hlook ⊢
        exact hlook

/-- C108: a lookup called while insertions run, at any moment of any execution of them, in a table with a free slot
for every moment. It ends after at most `2 * 2 ^ b + 1` of its own steps, whatever the others do. If it finds nothing,
the key was not in the table when it was called. If it finds the key, the key is in the table from then on, and the
value is that of an insertion of this key or what the slot held before; it is the old value if the key was in the
table before the insertions, and the value of the insertion that made the key if that had returned before the call. A
key whose insertion had returned before the call is found. Missing from C108: that the value is always an inserted one,
which is false (`c108_value_false`). -/
theorem c108_read_partial {b : ℕ} {hash : K → ℕ} (key : ι → K) (value : ι → V) {tab0 : ℕ → Option K} {val0 : ℕ → V}
    (hw : WF b hash tab0) (U : Finset K) (hcard : U.card < 2 ^ b) (hU0 : ∀ k, InTab b tab0 k → k ∈ U)
    (hkU : ∀ t, key t ∈ U) (k : K) (pre : List ι) (sched : List (Option ι)) (hfair : 2 * 2 ^ b < sched.count none) :
    ∃ i s, i = run b key value pre (start b hash key tab0 val0) ∧
      s = readRun b key value k sched (readStart b hash k i) ∧ ∃ r, s.rd = .done r ∧
      (r = none → ¬ InTab b i.tab k) ∧
      (∀ v, r = some v → ∃ h < 2 ^ b, s.base.tab h = some k ∧ (v = val0 h ∨ ∃ t, key t = k ∧ v = value t) ∧
        (tab0 h = some k → v = val0 h) ∧ ∀ t, i.pc t = .done true → key t = k → v = value t) ∧
      ((InTab b tab0 k ∨ ∃ t q, key t = k ∧ i.pc t = .done q) → ∃ v, r = some v) := by
  have hinv := inv_run hcard.le hkU pre (inv_start (val0 := val0) key value hw hU0)
  have h := rinv_run (value := value) (val0 := val0) hcard hkU hw hU0 k pre sched rfl
  refine ⟨_, _, rfl, rfl, ?_⟩
  generalize run b key value pre (start b hash key tab0 val0) = i at h hinv
  generalize readRun b key value k sched (readStart b hash k i) = s at h
  have hl := h.look
  cases hp : s.rd with
  | look h0 =>
    rw [hp] at hl
    obtain ⟨j, a1, -, -, a4⟩ := hl
    omega
  | test h0 =>
    rw [hp] at hl
    obtain ⟨j, a1, -, -, -, a4⟩ := hl
    omega
  | load h0 =>
    rw [hp] at hl
    have := hl.2.2
    omega
  | done r =>
    rw [hp] at hl
    refine ⟨r, rfl, ?_, ?_, ?_⟩
    · rintro rfl
      exact hl
    · rintro v rfl
      exact hl
    · intro hin
      have hI : InTab b i.tab k := by
        rcases hin with ⟨h0, b1, b2⟩ | ⟨t, q, b1, b2⟩
        · exact ⟨h0, b1, (hinv.old h0 b1 k b2).1⟩
        · have hth := hinv.thread t
          rw [b2] at hth
          rw [← b1]
          cases q with
          | true =>
            obtain ⟨h0, c1, c2, -⟩ := hth
            exact ⟨h0, c1, c2⟩
          | false => exact hth
      cases r with
      | none => exact absurd hI hl
      | some v => exact ⟨v, rfl⟩

/-- Non-vacuity of `c108_read_partial`: two insertions, the first has returned, the second runs during the lookup of the key of
the first. -/
example : ∃ s : ReadState ℕ ℕ (Fin 2), s = readRun 2 ![4, 8] ![10, 20] 4
      (List.replicate 9 [none, some 1]).flatten
      (readStart 2 (fun k => k) 4 (run 2 ![4, 8] ![10, 20] [0, 0, 0] (start 2 (fun k => k) ![4, 8] emptyTab fun _ => 0))) ∧
    s.rd = .done (some 10) := by
  obtain ⟨i, s, h1, h2, r, h3, -, h5, h6⟩ := c108_read_partial (b := 2) (hash := fun k : ℕ => k) (![4, 8] : Fin 2 → ℕ)
    (![10, 20] : Fin 2 → ℕ) (tab0 := emptyTab) (val0 := fun _ => 0) (wf_empty 2 _) {4, 8} (by decide)
    (by rintro k ⟨h, -, hk⟩; simp [emptyTab] at hk) (by decide) 4 [0, 0, 0]
    (List.replicate 9 [none, some 1]).flatten (by decide +kernel)
  have hd : i.pc 0 = .done true := by rw [h1]; decide +kernel
  obtain ⟨v, rfl⟩ := h6 (Or.inr ⟨0, true, rfl, hd⟩)
  obtain ⟨h, -, -, -, -, hv⟩ := h5 v rfl
  have := hv 0 hd rfl
  rw [h1] at h2
  exact ⟨s, h2, by rw [h3, this]; rfl⟩

/-- C108: that a lookup finds only values that were inserted is false: a lookup that runs between the compare-and-swap
of an insertion and its write of the value finds the key with the value of the cleared slot. -/
theorem c108_value_false : ¬ ∀ (pre : List Unit) (sched : List (Option Unit)) (v : ℕ),
    (readRun 1 (fun _ => 5) (fun _ => 7) 5 sched (readStart 1 (fun k : ℕ => k) 5
      (run 1 (fun _ : Unit => 5) (fun _ => 7) pre (start 1 (fun k : ℕ => k) (fun _ => 5) emptyTab fun _ => 0)))).rd =
        .done (some v) → v = 7 := by
  intro h
  have := h [(), ()] [none, none] 0 rfl
  omega

end Verif.Hash
