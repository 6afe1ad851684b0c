import Verif.UnionFind.Lemmas

set_option linter.unusedSectionVars false
set_option linter.unusedVariables false

/-!
Property C12: union-find represents exactly the equivalence generated by the links.
-/

namespace Verif.UF

/-- C12. For every `n` and every history of finds and unions on elements below `n`: the history runs
without undefined behaviour and terminates, and afterwards two finds return the same element iff the
two arguments are connected by the unions of the history. The elements returned are in the class
they represent. -/
theorem c12_history (n : ℕ) (ops : List Op) (hr : InRange n ops) :
    ∃ P, run ops (init n) = .ok P ∧ ∀ i j, i < n → j < n →
      ∃ (a b : ℕ) (P1 P2 : List ℤ), find P i = .ok ((a : ℤ), P1) ∧ find P1 j = .ok ((b : ℤ), P2) ∧
        a < n ∧ Conn (unions ops) i a ∧ (a = b ↔ Conn (unions ops) i j) := by
  obtain ⟨P, rt, dep, h1, h2⟩ := run_ok ops _ n _ _ _ (rep_init n) hr
  rw [List.nil_append] at h2
  refine ⟨P, h1, ?_⟩
  intro i j hi hj
  obtain ⟨P1, h3, h4⟩ := find_ok P h2.forest i hi
  obtain ⟨P2, h5, h6⟩ := find_ok P1 h4 j hj
  exact ⟨rt i, rt j, P1, P2, h3, h5, (h4.root i hi).1, h2.conn i, h2.iff i j⟩

/-- C12. Finds never change the represented partition: any number of finds inserted anywhere leave
the answers as they are (only the unions matter). -/
theorem c12_find_irrelevant (n : ℕ) (ops ops' : List Op) (hr : InRange n ops) (hr' : InRange n ops')
    (hu : unions ops = unions ops') :
    ∃ P P', run ops (init n) = .ok P ∧ run ops' (init n) = .ok P' ∧
      ∀ i j, i < n → j < n → ∃ (a b a' b' : ℕ) (P1 P2 P1' P2' : List ℤ),
        find P i = .ok ((a : ℤ), P1) ∧ find P1 j = .ok ((b : ℤ), P2) ∧
        find P' i = .ok ((a' : ℤ), P1') ∧ find P1' j = .ok ((b' : ℤ), P2') ∧ (a = b ↔ a' = b') := by
  obtain ⟨P, h1, h2⟩ := c12_history n ops hr
  obtain ⟨P', h1', h2'⟩ := c12_history n ops' hr'
  refine ⟨P, P', h1, h1', ?_⟩
  intro i j hi hj
  obtain ⟨a, b, P1, P2, h3, h4, _, _, h5⟩ := h2 i j hi hj
  obtain ⟨a', b', P1', P2', h3', h4', _, _, h5'⟩ := h2' i j hi hj
  exact ⟨a, b, a', b', P1, P2, P1', P2', h3, h4, h3', h4', by rw [h5, h5', hu]⟩

example : InRange 5 [.union 0 1, .find 0, .union 3 4, .union 1 4, .find 3] := by
  simp [InRange]

/-- C12, concurrent version. Any number of threads run `find` concurrently, interleaved at single
memory accesses, while valid links are performed. No access is out of bounds, and every find that
returns gives the representative its argument had at some moment of the execution. -/
theorem c12_concurrent (n : ℕ) (xs : List ℕ) (hxs : ∀ x ∈ xs, x < n) (es : List CStep)
    (hv : ValidLinks n es) :
    ∃ s, crun es ⟨init n, xs.map fun x : ℕ => .test (x : ℤ)⟩ = .ok s ∧
      ∀ (t x : ℕ) (r : ℤ), xs[t]? = some x → s.pcs[t]? = some (.done r) →
        ∃ pre, pre <+: es ∧ ∃ ρ : ℕ, r = ρ ∧ IsRep (linksOf pre) x ρ := by
  obtain ⟨s, rt, dep, h1, h2⟩ := crun_inv n xs hxs es hv
  exact ⟨s, h1, h2.fin⟩

/-- C12. Representatives are unique: after valid links, two unlinked elements of one class are equal.
So finds between the same links agree exactly when their arguments are connected. -/
theorem c12_rep_unique (n : ℕ) (es : List CStep) (hv : ValidLinks n es) (x y a b : ℕ)
    (ha : IsRep (linksOf es) x a) (hb : IsRep (linksOf es) y b) :
    a = b ↔ Conn (linksOf es) x y := by
  obtain ⟨s, rt, dep, h1, h2⟩ := crun_inv n [] (by simp) es hv
  have e1 : rt a = a := (h2.roots a).mpr ha.2
  have e2 : rt b = b := (h2.roots b).mpr hb.2
  constructor
  · rintro rfl
    exact ha.1.trans hb.1.symm
  · intro h
    have := (h2.rep.iff a b).mpr ((ha.1.symm.trans h).trans hb.1)
    rwa [e1, e2] at this

/-- Number of accesses made by thread `t`. -/
def stepsOf (t : ℕ) (fs : List CStep) : ℕ :=
  (fs.filter fun e => match e with | .thread t' => t' = t | _ => false).length

theorem nolink_run (n : ℕ) (xs : List ℕ) (hxs : ∀ x ∈ xs, x < n) (rt dep : ℕ → ℕ) (t : ℕ)
    (fs : List CStep) (hfs : linksOf fs = []) (s : CState) (hF : Forest s.parents n rt dep)
    (hlen : s.pcs.length = xs.length)
    (hok : ∀ (t x : ℕ) (pc : Pc), xs[t]? = some x → s.pcs[t]? = some pc → PcOk n rt dep x pc)
    (pc : Pc) (hpc : s.pcs[t]? = some pc) :
    ∃ s' pc', crun fs s = .ok s' ∧ s'.pcs[t]? = some pc' ∧
      ((∃ r, pc' = .done r) ∨ pcWork n dep pc' + stepsOf t fs ≤ pcWork n dep pc) := by
  induction fs generalizing s pc with
  | nil => exact ⟨s, pc, rfl, hpc, Or.inr (by simp [stepsOf])⟩
  | cons e fs ih =>
    cases e with
    | link u v => simp [linksOf] at hfs
    | thread t' =>
      simp only [crun, cstep]
      rcases hp : s.pcs[t']? with _ | q
      · obtain ⟨s', pc', h1, h2, h3⟩ := ih hfs s hF hlen hok pc hpc
        refine ⟨s', pc', h1, h2, ?_⟩
        have hne : t' ≠ t := by rintro rfl; rw [hpc] at hp; simp at hp
        have : stepsOf t (.thread t' :: fs) = stepsOf t fs := by simp [stepsOf, hne]
        rw [this]; exact h3
      · have ht : t' < s.pcs.length := (List.getElem?_eq_some_iff.mp hp).1
        have htx : t' < xs.length := by rw [← hlen]; exact ht
        have hx : xs[t']? = some xs[t'] := List.getElem?_eq_getElem htx
        obtain ⟨q', P', h3, h4, h5, h6, h7⟩ := pcStep_ok hF xs[t'] (hxs _ (by simp)) q
          (hok t' _ q hx hp)
        simp only [h3, Except.map, Except.bind]
        have hset : ∀ j, (s.pcs.set t' q')[j]? = if j = t' then some q' else s.pcs[j]? := by
          intro j
          by_cases he : j = t'
          · subst he; simp [ht]
          · rw [if_neg he, List.getElem?_set_ne (fun h => he h.symm)]
        have hok' : ∀ (j x : ℕ) (pc : Pc), xs[j]? = some x →
            (s.pcs.set t' q')[j]? = some pc → PcOk n rt dep x pc := by
          intro j x r h8 h9
          rw [hset] at h9
          split at h9
          · rename_i he
            subst he
            rw [hx] at h8
            simp only [Option.some.injEq] at h8 h9
            subst h8 h9
            exact h5
          · exact hok j x r h8 h9
        by_cases he : t = t'
        · subst he
          rw [hpc] at hp
          simp only [Option.some.injEq] at hp
          subst hp
          obtain ⟨s', pc', h8, h9, h10⟩ := ih hfs ⟨P', s.pcs.set t q'⟩ h4 (by simpa using hlen) hok' q'
            (by simp [hset])
          refine ⟨s', pc', h8, h9, ?_⟩
          by_cases hd : ∃ r, pc = .done r
          · obtain ⟨r, rfl⟩ := hd
            left
            have hq : q' = .done r := by
              simp only [pcStep, Except.ok.injEq, Prod.mk.injEq] at h3
              exact h3.1.symm
            rcases h10 with h10 | h10
            · exact h10
            · subst hq
              have h12 : pcWork n dep (.done r) = 0 := rfl
              have : pcWork n dep pc' = 0 := by omega
              cases pc' <;> simp [pcWork] at this ⊢
          · rcases h10 with h10 | h10
            · exact Or.inl h10
            · right
              have h11 := h7 (fun r hr => hd ⟨r, hr⟩)
              have : stepsOf t (.thread t :: fs) = stepsOf t fs + 1 := by simp [stepsOf]
              omega
        · obtain ⟨s', pc', h8, h9, h10⟩ := ih hfs ⟨P', s.pcs.set t' q'⟩ h4 (by simpa using hlen) hok' pc
            (by simp [hset, he, hpc])
          refine ⟨s', pc', h8, h9, ?_⟩
          have : stepsOf t (.thread t' :: fs) = stepsOf t fs := by
            have he' : ¬ t' = t := fun h => he h.symm
            simp [stepsOf, he']
          rw [this]; exact h10

theorem pcWork_le {n : ℕ} {rt dep : ℕ → ℕ} {x : ℕ} {pc : Pc} (h : PcOk n rt dep x pc) :
    pcWork n dep pc ≤ 3 * n + 3 := by
  cases pc with
  | test i => simp [pcWork]
  | load i => simp [pcWork]
  | testP i p =>
    obtain ⟨a, b, h1, rfl, h3, h4, h5⟩ := h
    have := meas_lt_n (dep := dep) h4
    simp only [pcWork, Int.toNat_natCast]; omega
  | loadGp i p =>
    obtain ⟨a, b, h1, rfl, h3, h4, h5⟩ := h
    have := meas_lt_n (dep := dep) h4
    simp only [pcWork, Int.toNat_natCast]; omega
  | store i p g =>
    obtain ⟨a, b, c, h1, h2, rfl, h3, h4, h5, h6⟩ := h
    have := meas_lt_n (dep := dep) h5
    simp only [pcWork, Int.toNat_natCast]; omega
  | testGp i p =>
    obtain ⟨a, b, h1, rfl, h3, h4, h5⟩ := h
    have := meas_lt_n (dep := dep) h4
    simp only [pcWork, Int.toNat_natCast]; omega
  | done r => simp [pcWork]

/-- C12. A find terminates whatever the other finding threads do: after an arbitrary execution `es`
with valid links, if no link happens any more, a thread has returned after at most `3 n + 3` own
accesses. -/
theorem c12_find_terminates (n : ℕ) (xs : List ℕ) (hxs : ∀ x ∈ xs, x < n) (es fs : List CStep)
    (hv : ValidLinks n (es ++ fs)) (hfs : linksOf fs = []) (t : ℕ) (ht : t < xs.length)
    (hc : 3 * n + 3 ≤ stepsOf t fs) :
    ∃ s r, crun (es ++ fs) ⟨init n, xs.map fun x : ℕ => .test (x : ℤ)⟩ = .ok s ∧
      s.pcs[t]? = some (.done r) := by
  obtain ⟨s, rt, dep, h1, h2⟩ := crun_inv n xs hxs es (by
    intro pre u v post he
    exact hv pre u v (post ++ fs) (by rw [he]; simp))
  have hp : s.pcs[t]? = some (s.pcs[t]'(by rw [h2.len]; exact ht)) :=
    List.getElem?_eq_getElem _
  obtain ⟨s', pc', h3, h4, h5⟩ := nolink_run n xs hxs rt dep t fs hfs s h2.rep.forest h2.len h2.pcs _ hp
  have hw := pcWork_le (h2.pcs t _ _ (List.getElem?_eq_getElem ht) hp)
  have hd : ∃ r, pc' = .done r := by
    rcases h5 with h5 | h5
    · exact h5
    · have : pcWork n dep pc' = 0 := by omega
      cases pc' <;> simp [pcWork] at this ⊢
  obtain ⟨r, rfl⟩ := hd
  refine ⟨s', r, ?_, h4⟩
  rw [crun_append, h1]
  exact h3

/-- Non-vacuity: two finds race with each other while three links have been made, one of them
between their steps. -/
def demo : List CStep :=
  [.link 1 0, .link 2 1, .link 3 2, .thread 0, .thread 1, .thread 0, .thread 1, .thread 0, .thread 0,
    .thread 1, .thread 1, .thread 1, .link 0 4, .thread 0, .thread 0, .thread 1]

/-- The array after the racing finds of `demo`: both shortcuts were made and both finds returned the
root of their time, 0 or 4. -/
example : ∃ s, crun demo ⟨init 5, [.test 3, .test 2]⟩ = .ok s ∧
    s.parents = [4, 0, 0, 1, -1] := by
  refine ⟨_, rfl, ?_⟩
  decide

example : ValidLinks 5 [.link 1 0, .thread 0, .link 2 1] := by
  intro pre u v post h
  have h1 : pre = [] ∨ ∃ a q, pre = a :: q := by cases pre <;> simp
  rcases h1 with rfl | ⟨a, q, rfl⟩
  · simp at h
    obtain ⟨⟨rfl, rfl⟩, rfl⟩ := h
    refine ⟨by omega, by omega, by simp [linksOf], ?_⟩
    intro hc
    have := hc.const (f := id) (by simp [linksOf])
    simp at this
  · rcases q with _ | ⟨b, q⟩
    · simp at h
    · rcases q with _ | ⟨c, q⟩
      · simp at h
        obtain ⟨rfl, rfl, ⟨rfl, rfl⟩, rfl⟩ := h
        refine ⟨by omega, by omega, by simp [linksOf], ?_⟩
        intro hc
        have := hc.const (f := fun x => decide (x ≤ 1)) (by simp [linksOf])
        simp at this
      · simp at h

/-! ### C51: `union_roots` -/

/-- The class with root `u` after `union_roots`: the root holds a number below -1. -/
structure Dead (P : List ℤ) (n : ℕ) (rt dep : ℕ → ℕ) (u : ℕ) : Prop where
  len : P.length = n
  node : ∀ i, i < n → rt i = u → P[i]? = some (-2) ∨
    ∃ p : ℕ, p < n ∧ P[i]? = some (p : ℤ) ∧ rt p = u ∧ dep p < dep i

theorem Dead.get {P n rt dep u} (h : Dead P n rt dep u) (i : ℕ) (hi : i < n) (hr : rt i = u) :
    UF.get P i = .ok (-2) ∨
    ∃ p : ℕ, p < n ∧ UF.get P i = .ok (p : ℤ) ∧ rt p = u ∧ dep p < dep i := by
  unfold UF.get
  simp only [Int.natCast_nonneg, if_true, Int.toNat_natCast]
  rcases h.node i hi hr with h1 | ⟨p, h1, h2, h3, h4⟩
  · left; rw [h1]
  · right; exact ⟨p, h1, by rw [h2], h3, h4⟩

theorem get_neg (P : List ℤ) : UF.get P (-2) = .error .ub := by
  unfold UF.get; simp

theorem Dead.loop {n : ℕ} {rt dep : ℕ → ℕ} {u : ℕ} (k : ℕ) (P : List ℤ) (h : Dead P n rt dep u)
    (i p : ℕ) (hi : i < n) (hp : p < n) (hri : rt i = u) (hr : rt p = u) (hd : dep p < dep i)
    (hk : meas n dep p < k) : findLoop k P i p = .error .ub := by
  induction k generalizing P i p with
  | zero => omega
  | succ k ih =>
    have hil : i < P.length := by rw [h.len]; exact hi
    rcases h.get p hp hr with h1 | ⟨g, hg, h1, h2, h3⟩
    · simp only [findLoop, h1, Except.bind, put_ok P i _ hil, get_neg]
    · simp only [findLoop, h1, Except.bind, put_ok P i _ hil]
      have hD : Dead (P.set i (g : ℤ)) n rt dep u := by
        refine ⟨by simpa using h.len, fun j hj hrj => ?_⟩
        by_cases he : j = i
        · subst he
          right
          exact ⟨g, hg, by simp [hil], h2, by omega⟩
        · rw [List.getElem?_set_ne (fun h => he h.symm)]
          exact h.node j hj hrj
      have hm := meas_lt (n := n) hg h3
      have hrec := ih _ hD p g hp hg hr h2 h3 (by omega)
      rcases hD.get g hg h2 with h4 | ⟨q, hq, h4, _⟩
      · simp only [h4]
        rw [if_neg (by omega)]
        exact hrec
      · simp only [h4]
        rw [if_neg (by omega)]
        exact hrec

theorem Dead.find {n : ℕ} {rt dep : ℕ → ℕ} {u : ℕ} (P : List ℤ) (h : Dead P n rt dep u)
    (i : ℕ) (hi : i < n) (hri : rt i = u) : UF.find P i = .error .ub := by
  unfold UF.find
  rcases h.get i hi hri with h1 | ⟨p, hp, h1, h2, h3⟩
  · simp only [h1, Except.bind]
    rw [if_neg (by omega)]
    simp only [get_neg]
  · simp only [h1, Except.bind]
    rw [if_neg (by omega)]
    have hloop := h.loop P.length P i p hi hp hri h2 h3 (by rw [h.len]; exact meas_lt_n hp)
    rcases h.get p hp h2 with h4 | ⟨q, hq, h4, _⟩
    · simp only [h4]
      rw [if_neg (by omega)]
      exact hloop
    · simp only [h4]
      rw [if_neg (by omega)]
      exact hloop

/-- C51 is false of the code, in every case: take any history of finds and unions and any two elements
in different classes. `union_roots` on their roots succeeds, and afterwards every find of an element
of either class reads outside the array: `union_roots` stores a rank below -1 in the new root, and
`find` recognises a root only by the value -1. -/
theorem c51_union_roots_false (n : ℕ) (ops : List Op) (hr : InRange n ops) (a b : ℕ) (ha : a < n)
    (hb : b < n) (hab : ¬ Conn (unions ops) a b) :
    ∃ P u v P1 P2 P3, run ops (init n) = .ok P ∧ find P a = .ok (u, P1) ∧ find P1 b = .ok (v, P2) ∧
      unionRoots P2 u v = .ok P3 ∧
      ∀ i < n, Conn (unions ops) a i ∨ Conn (unions ops) b i → find P3 i = .error .ub := by
  obtain ⟨P, rt, dep, h1, h2⟩ := run_ok ops _ n _ _ _ (rep_init n) hr
  rw [List.nil_append] at h2
  obtain ⟨P1, h3, h4⟩ := find_ok P h2.forest a ha
  obtain ⟨P2, h5, h6⟩ := find_ok P1 h4 b hb
  obtain ⟨hua, hub, huc⟩ := h6.root a ha
  obtain ⟨hva, hvb, hvc⟩ := h6.root b hb
  have hne : rt a ≠ rt b := fun h => hab ((h2.iff a b).mp h)
  have hgu : UF.get P2 (rt a : ℕ) = .ok (-1) := by unfold UF.get; simp [hub]
  have hgv : UF.get P2 (rt b : ℕ) = .ok (-1) := by unfold UF.get; simp [hvb]
  have hlu : rt a < P2.length := by rw [h6.len]; exact hua
  have hlv : rt b < P2.length := by rw [h6.len]; exact hva
  have hun : unionRoots P2 (rt a : ℕ) (rt b : ℕ) =
      .ok ((P2.set (rt a) (-2)).set (rt b) ((rt a : ℕ) : ℤ)) := by
    unfold unionRoots
    simp only [hgu, hgv, Except.bind]
    rw [if_neg (by omega), put_ok P2 _ _ hlu]
    simp only
    rw [put_ok _ _ _ (by simpa using hlv)]
    norm_num
  refine ⟨P, _, _, P1, P2, _, h1, h3, h5, hun, ?_⟩
  have hD : Dead ((P2.set (rt a) (-2)).set (rt b) ((rt a : ℕ) : ℤ)) n (linkRt rt (rt b) (rt a))
      (linkDep rt dep (rt b) (rt a)) (rt a) := by
    obtain ⟨_, hF⟩ := h6.link (rt b) (rt a) hva hua hvc (by rw [huc]; exact hne)
    refine ⟨by simpa using h6.len, fun j hj hrj => ?_⟩
    by_cases he : j = rt a
    · left
      rw [he, List.getElem?_set_ne (Ne.symm hne)]
      simp [hlu]
    · right
      have hsw : ((P2.set (rt a) (-2)).set (rt b) ((rt a : ℕ) : ℤ))[j]? =
          (P2.set (rt b) ((rt a : ℕ) : ℤ))[j]? := by
        rw [List.set_comm _ _ hne, List.getElem?_set_ne (fun h => he h.symm)]
      rw [hsw]
      rcases hF.node j hj with ⟨h7, h8⟩ | ⟨p, h7, h8, h9, h10⟩
      · exact absurd (h8.symm.trans hrj) he
      · exact ⟨p, h7, h8, h9.symm.trans hrj, h10⟩
  intro i hi hc
  apply hD.find _ i hi
  unfold linkRt
  rcases hc with hc | hc
  · have : rt i = rt a := ((h2.iff a i).mpr hc).symm
    rw [this, if_neg hne]
  · have : rt i = rt b := ((h2.iff b i).mpr hc).symm
    rw [this, if_pos rfl, huc]

/-- What remains true of C51: the finds of elements outside the two classes are not part of this
statement; `union_roots` itself stays inside the array and points one root at the other. Missing: that
later finds work, which is false by `c51_union_roots_false`. -/
theorem c51_union_roots_partial (n : ℕ) (ops : List Op) (hr : InRange n ops) (a b : ℕ) (ha : a < n)
    (hb : b < n) (hab : ¬ Conn (unions ops) a b) :
    ∃ P u v P1 P2 P3, run ops (init n) = .ok P ∧ find P a = .ok (u, P1) ∧ find P1 b = .ok (v, P2) ∧
      unionRoots P2 u v = .ok P3 ∧ get P3 v = .ok u ∧ P3.length = n := by
  obtain ⟨P, rt, dep, h1, h2⟩ := run_ok ops _ n _ _ _ (rep_init n) hr
  rw [List.nil_append] at h2
  obtain ⟨P1, h3, h4⟩ := find_ok P h2.forest a ha
  obtain ⟨P2, h5, h6⟩ := find_ok P1 h4 b hb
  obtain ⟨hua, hub, huc⟩ := h6.root a ha
  obtain ⟨hva, hvb, hvc⟩ := h6.root b hb
  have hgu : UF.get P2 (rt a : ℕ) = .ok (-1) := by unfold UF.get; simp [hub]
  have hgv : UF.get P2 (rt b : ℕ) = .ok (-1) := by unfold UF.get; simp [hvb]
  have hlu : rt a < P2.length := by rw [h6.len]; exact hua
  have hlv : rt b < P2.length := by rw [h6.len]; exact hva
  refine ⟨P, _, _, P1, P2, (P2.set (rt a) (-2)).set (rt b) ((rt a : ℕ) : ℤ), h1, h3, h5, ?_, ?_, ?_⟩
  · unfold unionRoots
    simp only [hgu, hgv, Except.bind]
    rw [if_neg (by omega), put_ok P2 _ _ hlu]
    simp only
    rw [put_ok _ _ _ (by simpa using hlv)]
    norm_num
  · unfold UF.get
    simp [hlv]
  · simpa using h6.len

/-- What `union_roots` does to an array of any contents (so also to roots that already carry a rank, the
branch no history of finds and unions reaches): the cell with the smaller value keeps its place as root and
receives the sum, the other cell points at it, and nothing else changes. -/
theorem c51_union_roots_cells (P : List ℤ) (u v : ℕ) (pu pv : ℤ) (huv : u ≠ v) (hu : P[u]? = some pu)
    (hv : P[v]? = some pv) : ∃ P3, unionRoots P u v = .ok P3 ∧ P3.length = P.length ∧
      (∀ j, j ≠ u → j ≠ v → P3[j]? = P[j]?) ∧
      (pv < pu → P3[v]? = some (pu + pv) ∧ P3[u]? = some (v : ℤ)) ∧
      (pu ≤ pv → P3[u]? = some (pu + pv) ∧ P3[v]? = some (u : ℤ)) := by
  have hgu : UF.get P (u : ℕ) = .ok pu := by unfold UF.get; simp [hu]
  have hgv : UF.get P (v : ℕ) = .ok pv := by unfold UF.get; simp [hv]
  have hlu : u < P.length := (List.getElem?_eq_some_iff.mp hu).1
  have hlv : v < P.length := (List.getElem?_eq_some_iff.mp hv).1
  unfold unionRoots
  simp only [hgu, hgv, Except.bind]
  by_cases h : pv < pu
  · rw [if_pos h, put_ok P _ _ hlv]
    simp only
    rw [put_ok _ _ _ (by simpa using hlu)]
    refine ⟨_, rfl, by simp, fun j h1 h2 => ?_, fun _ => ⟨?_, ?_⟩, fun h' => absurd h (by omega)⟩
    · rw [List.getElem?_set_ne (Ne.symm h1), List.getElem?_set_ne (Ne.symm h2)]
    · rw [List.getElem?_set_ne huv, List.getElem?_set_self hlv, add_comm]
    · rw [List.getElem?_set_self (by simpa using hlu)]
  · rw [if_neg h, put_ok P _ _ hlu]
    simp only
    rw [put_ok _ _ _ (by simpa using hlv)]
    refine ⟨_, rfl, by simp, fun j h1 h2 => ?_, fun h' => absurd h' h, fun _ => ⟨?_, ?_⟩⟩
    · rw [List.getElem?_set_ne (Ne.symm h2), List.getElem?_set_ne (Ne.symm h1)]
    · rw [List.getElem?_set_ne (Ne.symm huv), List.getElem?_set_self hlu]
    · rw [List.getElem?_set_self (by simpa using hlv)]

/-- An instance in the branch with a ranked root. -/
example : unionRoots [-1, 0, -3, 2, 2] 0 2 = .ok [2, 0, -4, 2, 2] := by decide

/-- Two different classes after a history. -/
example : InRange 4 [.union 0 1, .union 2 3] ∧ ¬ Conn (unions [.union 0 1, .union 2 3]) 0 2 := by
  refine ⟨by simp [InRange], fun hc => ?_⟩
  have := hc.const (f := fun x => decide (x ≤ 1)) (by simp [unions]; omega)
  simp at this

end Verif.UF
