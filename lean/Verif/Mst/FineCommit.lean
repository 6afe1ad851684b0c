import Verif.Mst.FineReserve

set_option linter.unusedSectionVars false
set_option linter.unusedVariables false

/-! The commit loop access by access: the memory at the end is that of atomic commits in the order in which the edges
are recorded. -/

namespace Verif.Mst

open Verif.UF

variable {σ : Type}

theorem phase_append {τ : Type} (f : ℕ → τ → Except Err (Bool × τ)) : ∀ (a b : List ℕ) (s : τ),
    phase f (a ++ b) s = (phase f a s).bind fun r => (phase f b r.2).map fun q => (r.1 ++ q.1, q.2)
  | [], b, s => by
    simp only [List.nil_append, phase, Except.bind]
    cases phase f b s <;> rfl
  | i :: a, b, s => by
    simp only [List.cons_append, phase]
    cases f i s with
    | error e => rfl
    | ok r =>
      simp only [Except.bind]
      rw [phase_append f a b r.2]
      cases phase f a r.2 with
      | error e => rfl
      | ok q =>
        simp only [Except.bind, Except.map]
        cases phase f b q.2 with
        | error e => rfl
        | ok t =>
          simp only
          by_cases hr : r.1 = true <;> simp [hr]

/-- What the commit loop starts from: the roots `U i`, `V i` of the ends of the edges, and the reservations. -/
structure CStart (l : List ℕ) (n : ℕ) (U V : ℕ → ℕ) (s : KSt σ) : Prop where
  eu : ∀ i ∈ l, s.eu[i]? = some ((U i : ℕ) : ℤ)
  ev : ∀ i ∈ l, s.ev[i]? = some ((V i : ℕ) : ℤ)
  u : ∀ i ∈ l, U i < n
  v : ∀ i ∈ l, V i < n
  ne : ∀ i ∈ l, U i ≠ V i
  R : s.R.length = n
  P : s.P.length = n

/-- Edge `i` wins: which root it links to which. -/
def target (U V : ℕ → ℕ) (r : ℕ → Option ℕ) (i : ℕ) : Option (ℕ × ℕ × Bool) :=
  if r (V i) = some i then some (V i, U i, true) else if r (U i) = some i then some (U i, V i, false) else none

/-- The union-find array when the edges with flags are linked. -/
def newP (U V : ℕ → ℕ) (r : ℕ → Option ℕ) (P : List ℤ) (fl : ℕ → Bool) (x : ℕ) : Option ℤ :=
  match r x with
  | none => P[x]?
  | some i => if fl i = true ∧ x = V i then some ((U i : ℕ) : ℤ)
    else if fl i = true ∧ x = U i ∧ r (V i) ≠ some i then some ((V i : ℕ) : ℤ) else P[x]?

/-- The reservations when the edges with flags have reset theirs. -/
def newR (U V : ℕ → ℕ) (r : ℕ → Option ℕ) (fl : ℕ → Bool) (x : ℕ) : Option ℕ :=
  match r x with
  | none => none
  | some i => if fl i = true ∧ x = U i ∧ r (V i) = some i then none else some i

theorem newR_eq {U V : ℕ → ℕ} {r : ℕ → Option ℕ} {fl : ℕ → Bool} {x i : ℕ} (h : fl i = false) :
    newR U V r fl x = some i ↔ r x = some i := by
  unfold newR
  cases hr : r x with
  | none => simp
  | some j =>
    simp only [Option.some.injEq]
    split
    · rename_i h1
      simp only [reduceCtorEq, false_iff]
      rintro rfl
      rw [h] at h1
      simp at h1
    · simp

/-- Memory in which the edges with flags `fp` are linked and those with flags `fr` have reset their reservations. -/
structure Desc (n : ℕ) (U V : ℕ → ℕ) (s0 : KSt σ) (fp fr : ℕ → Bool) (s : KSt σ) : Prop where
  eu : s.eu = s0.eu
  ev : s.ev = s0.ev
  RLen : s.R.length = n
  PLen : s.P.length = n
  P : ∀ x < n, s.P[x]? = newP U V (resOf s0) s0.P fp x
  R : ∀ x < n, s.R[x]? = some (newR U V (resOf s0) fr x)

theorem Desc.start {l : List ℕ} {n : ℕ} {U V : ℕ → ℕ} {s : KSt σ} (h : CStart l n U V s) :
    Desc n U V s (fun _ => false) (fun _ => false) s := by
  refine ⟨rfl, rfl, h.R, h.P, ?_, ?_⟩
  · intro x _
    unfold newP
    cases resOf s x <;> simp
  · intro x hx
    have hx' : x < s.R.length := by rw [h.R]; exact hx
    unfold newR
    have : s.R[x]? = some (resOf s x) := by simp [resOf, List.getElem?_eq_getElem hx']
    rw [this]
    cases resOf s x <;> simp

/-- Two memories with the same flags agree, apart from the records. -/
theorem Desc.eq {n : ℕ} {U V : ℕ → ℕ} {s0 s s' : KSt σ} {fp fr : ℕ → Bool} (h : Desc n U V s0 fp fr s)
    (h' : Desc n U V s0 fp fr s') (ho : s.out = s'.out) : s = s' := by
  have hR : s.R = s'.R := by
    apply List.ext_getElem?
    intro x
    by_cases hx : x < n
    · rw [h.R x hx, h'.R x hx]
    · rw [List.getElem?_eq_none (by rw [h.RLen]; omega), List.getElem?_eq_none (by rw [h'.RLen]; omega)]
  have hP : s.P = s'.P := by
    apply List.ext_getElem?
    intro x
    by_cases hx : x < n
    · rw [h.P x hx, h'.P x hx]
    · rw [List.getElem?_eq_none (by rw [h.PLen]; omega), List.getElem?_eq_none (by rw [h'.PLen]; omega)]
  have hu := h.eu.trans h'.eu.symm
  have hv := h.ev.trans h'.ev.symm
  cases s
  cases s'
  simp only at hR hP hu hv ho
  subst hR hP hu hv ho
  rfl

/-- Setting a flag. -/
def setFl (fl : ℕ → Bool) (i : ℕ) : ℕ → Bool := Function.update fl i true

/-- A link of a winner. -/
theorem Desc.link {n : ℕ} {U V : ℕ → ℕ} {s0 s : KSt σ} {fp fr : ℕ → Bool} (h : Desc n U V s0 fp fr s) {i x y : ℕ}
    {side : Bool} (hne : U i ≠ V i) (hx : x < n) (ht : target U V (resOf s0) i = some (x, y, side)) :
    link s.P x y = .ok (s.P.set x y) ∧ Desc n U V s0 (setFl fp i) fr { s with P := s.P.set x y } := by
  have hxl : x < s.P.length := by rw [h.PLen]; exact hx
  refine ⟨put_ok s.P x y hxl, h.eu, h.ev, h.RLen, by simpa using h.PLen, ?_, h.R⟩
  intro z hz
  simp only [getElem?_set_if hxl]
  unfold target at ht
  unfold newP
  split
  · rename_i e
    subst e
    split_ifs at ht with h1 h2
    · simp only [Option.some.injEq, Prod.mk.injEq] at ht
      obtain ⟨rfl, rfl, rfl⟩ := ht
      simp [h1, setFl]
    · simp only [Option.some.injEq, Prod.mk.injEq] at ht
      obtain ⟨rfl, rfl, rfl⟩ := ht
      simp only [h2, setFl, Function.update_self, true_and, if_neg hne, ne_eq]
      rw [if_pos h1]
  · rename_i e
    have h3 := h.P z hz
    unfold newP at h3
    rw [h3]
    cases hr : resOf s0 z with
    | none => rfl
    | some j =>
      by_cases hj : j = i
      · subst hj
        split_ifs at ht with h1 h2
        · simp only [Option.some.injEq, Prod.mk.injEq] at ht
          obtain ⟨rfl, rfl, rfl⟩ := ht
          simp [e, h1]
        · simp only [Option.some.injEq, Prod.mk.injEq] at ht
          obtain ⟨rfl, rfl, rfl⟩ := ht
          have e2 : z ≠ V j := by
            rintro rfl
            exact h1 hr
          simp [e, e2]
      · simp only [setFl, Function.update_of_ne hj]

/-- The flag of a link that does not concern an edge does not matter. -/
theorem Desc.noLink {n : ℕ} {U V : ℕ → ℕ} {s0 s : KSt σ} {fp fr : ℕ → Bool} (h : Desc n U V s0 fp fr s) {i : ℕ}
    (ht : target U V (resOf s0) i = none) : Desc n U V s0 (setFl fp i) fr s := by
  refine ⟨h.eu, h.ev, h.RLen, h.PLen, ?_, h.R⟩
  intro z hz
  rw [h.P z hz]
  unfold target at ht
  unfold newP
  cases hr : resOf s0 z with
  | none => rfl
  | some j =>
    by_cases hj : j = i
    · subst hj
      split_ifs at ht with h1 h2
      have e1 : z ≠ V j := by rintro rfl; exact h1 hr
      have e2 : z ≠ U j := by rintro rfl; exact h2 hr
      simp [e1, e2]
    · simp only [setFl, Function.update_of_ne hj]

/-- A reset. -/
theorem Desc.reset {n : ℕ} {U V : ℕ → ℕ} {s0 s : KSt σ} {fp fr : ℕ → Bool} (h : Desc n U V s0 fp fr s) {i : ℕ}
    (hx : U i < n) (hv : resOf s0 (V i) = some i) (hu : resOf s0 (U i) = some i) :
    wr s.R (U i) none = .ok (s.R.set (U i) none) ∧ Desc n U V s0 fp (setFl fr i) { s with R := s.R.set (U i) none } := by
  have hxl : U i < s.R.length := by rw [h.RLen]; exact hx
  refine ⟨wr_ok _ hxl, h.eu, h.ev, by simpa using h.RLen, h.PLen, h.P, ?_⟩
  intro z hz
  simp only [getElem?_set_if hxl]
  unfold newR
  split
  · rename_i e
    subst e
    simp [hu, hv, setFl]
  · rename_i e
    have h3 := h.R z hz
    unfold newR at h3
    rw [h3]
    cases hr : resOf s0 z with
    | none => rfl
    | some j =>
      by_cases hj : j = i
      · subst hj
        simp [e]
      · simp only [setFl, Function.update_of_ne hj]

/-- The flag of a reset that does not take place does not matter. -/
theorem Desc.noReset {n : ℕ} {U V : ℕ → ℕ} {s0 s : KSt σ} {fp fr : ℕ → Bool} (h : Desc n U V s0 fp fr s) {i : ℕ}
    (ht : ¬ (resOf s0 (V i) = some i ∧ resOf s0 (U i) = some i)) : Desc n U V s0 fp (setFl fr i) s := by
  refine ⟨h.eu, h.ev, h.RLen, h.PLen, h.P, ?_⟩
  intro z hz
  rw [h.R z hz]
  unfold newR
  cases hr : resOf s0 z with
  | none => rfl
  | some j =>
    by_cases hj : j = i
    · subst hj
      have : ¬ (z = U j ∧ resOf s0 (V j) = some j) := by
        rintro ⟨rfl, h1⟩
        exact ht ⟨h1, hr⟩
      simp [this]
    · simp only [setFl, Function.update_of_ne hj]

theorem Desc.congr {n : ℕ} {U V : ℕ → ℕ} {s0 s : KSt σ} {fp fr fp' fr' : ℕ → Bool} (h : Desc n U V s0 fp fr s)
    (hp : fp = fp') (hr : fr = fr') : Desc n U V s0 fp' fr' s := by subst hp hr; exact h

/-- An atomic commit of an edge that has not been committed. -/
theorem Desc.commit {l : List ℕ} {n : ℕ} {U V : ℕ → ℕ} {s0 s : KSt σ} {fl : ℕ → Bool} (hs : CStart l n U V s0)
    (h : Desc n U V s0 fl fl s) (rec : Recorder σ) {i : ℕ} (hi : i ∈ l) (hf : fl i = false) :
    (target U V (resOf s0) i = none → Mst.commit rec i s = .ok (false, s) ∧ Desc n U V s0 (setFl fl i) (setFl fl i) s) ∧
    (∀ x y side, target U V (resOf s0) i = some (x, y, side) → ∃ s' : KSt σ, s'.out = s.out ∧
      (Mst.commit rec i s = (rec s.out i x side).map fun o => (true, { s' with out := o })) ∧
      ∀ o, Desc n U V s0 (setFl fl i) (setFl fl i) { s' with out := o }) := by
  have heu : s.eu[i]? = some ((U i : ℕ) : ℤ) := by rw [h.eu]; exact hs.eu i hi
  have hev : s.ev[i]? = some ((V i : ℕ) : ℤ) := by rw [h.ev]; exact hs.ev i hi
  have hun := hs.u i hi
  have hvn := hs.v i hi
  have hne := hs.ne i hi
  have hRv := h.R (V i) hvn
  have hRu := h.R (U i) hun
  have hcv := newR_eq (U := U) (V := V) (r := resOf s0) (x := V i) hf
  have hcu := newR_eq (U := U) (V := V) (r := resOf s0) (x := U i) hf
  constructor
  · intro ht
    have hno := ht
    unfold target at ht
    split_ifs at ht with h1 h2
    have hst : ¬ (resOf s0 (V i) = some i ∧ resOf s0 (U i) = some i) := fun h => h1 h.1
    refine ⟨?_, (h.noLink hno).noReset hst⟩
    simp only [Mst.commit, rd_ok heu, rd_ok hev, Except.bind, rd_ok hRv, rd_ok hRu, hcv, hcu, if_neg h1, if_neg h2]
  · intro x y side ht
    have ht0 := ht
    unfold target at ht
    split_ifs at ht with h1 h2
    · simp only [Option.some.injEq, Prod.mk.injEq] at ht
      obtain ⟨rfl, rfl, rfl⟩ := ht
      by_cases h2 : resOf s0 (U i) = some i
      · obtain ⟨hw, hd⟩ := h.reset hun h1 h2
        obtain ⟨hl, hd2⟩ := hd.link hne hvn ht0
        refine ⟨{ s with P := s.P.set (V i) ((U i : ℕ) : ℤ), R := s.R.set (U i) none }, rfl, ?_, ?_⟩
        · simp only [Mst.commit, rd_ok heu, rd_ok hev, Except.bind, rd_ok hRv, checkReset, rd_ok hRu, hcv, hcu, if_pos h1,
            if_pos h2, hw, accept]
          simp only at hl
          rw [hl]
        · intro o
          exact ⟨hd2.eu, hd2.ev, hd2.RLen, hd2.PLen, hd2.P, hd2.R⟩
      · obtain ⟨hl, hd2⟩ := h.link hne hvn ht0
        have hd3 := hd2.noReset (i := i) (fun h => h2 h.2)
        refine ⟨{ s with P := s.P.set (V i) ((U i : ℕ) : ℤ) }, rfl, ?_, ?_⟩
        · simp only [Mst.commit, rd_ok heu, rd_ok hev, Except.bind, rd_ok hRv, checkReset, rd_ok hRu, hcv, hcu, if_pos h1,
            if_neg h2, accept, hl]
        · intro o
          exact ⟨hd3.eu, hd3.ev, hd3.RLen, hd3.PLen, hd3.P, hd3.R⟩
    · simp only [Option.some.injEq, Prod.mk.injEq] at ht
      obtain ⟨rfl, rfl, rfl⟩ := ht
      obtain ⟨hl, hd2⟩ := h.link hne hun ht0
      have hd3 := hd2.noReset (i := i) (fun h => h1 h.1)
      refine ⟨{ s with P := s.P.set (U i) ((V i : ℕ) : ℤ) }, rfl, ?_, ?_⟩
      · simp only [Mst.commit, rd_ok heu, rd_ok hev, Except.bind, rd_ok hRv, rd_ok hRu, hcv, hcu, if_neg h1,
          if_pos h2, accept, hl]
      · intro o
        exact ⟨hd3.eu, hd3.ev, hd3.RLen, hd3.PLen, hd3.P, hd3.R⟩

/-! ### The machines -/

/-- The edge has been linked. -/
def CPc.linked (recFirst : Bool) : CPc → Bool
  | .second _ _ _ => !recFirst
  | .fin _ => true
  | _ => false

/-- The edge has been recorded. -/
def CPc.recd (recFirst : Bool) : CPc → Bool
  | .second _ _ _ => recFirst
  | .fin _ => true
  | _ => false

/-- The reset has been done. -/
def CPc.wasReset : CPc → Bool
  | .first _ _ _ => true
  | .second _ _ _ => true
  | .fin _ => true
  | _ => false

/-- What an iteration knows. -/
def CPcOk (U V : ℕ → ℕ) (r : ℕ → Option ℕ) (i : ℕ) : CPc → Prop
  | .start => True
  | .crLoad u v => u = (U i : ℕ) ∧ v = (V i : ℕ) ∧ r (V i) = some i
  | .crStore u v => u = (U i : ℕ) ∧ v = (V i : ℕ) ∧ r (V i) = some i ∧ r (U i) = some i
  | .checkU u v => u = (U i : ℕ) ∧ v = (V i : ℕ) ∧ r (V i) ≠ some i
  | .first x y side => ∃ a b : ℕ, x = a ∧ y = b ∧ target U V r i = some (a, b, side)
  | .second x y side => ∃ a b : ℕ, x = a ∧ y = b ∧ target U V r i = some (a, b, side)
  | .fin b => b = (target U V r i).isSome

/-- Invariant of the commit loop: the memory is that of the atomic commits of the recorded edges `B`, apart from links
and resets of edges on the way. -/
structure FCInv (rec : Recorder σ) (recFirst : Bool) (l : List ℕ) (n : ℕ) (U V : ℕ → ℕ) (s0 : KSt σ) (st : FSt CPc σ)
    (B : List ℕ) : Prop where
  pc : ∀ i ∈ l, CPcOk U V (resOf s0) i (st.pcs i)
  out : ∀ i, i ∉ l → st.pcs i = .start
  desc : Desc n U V s0 (fun i => (st.pcs i).linked recFirst) (fun i => (st.pcs i).wasReset) st.s
  nodup : B.Nodup
  mem : ∀ i, i ∈ B ↔ (st.pcs i).recd recFirst = true
  ghost : ∃ c g, phase (commit rec) B s0 = .ok (c, g) ∧
    Desc n U V s0 (fun i => decide (i ∈ B)) (fun i => decide (i ∈ B)) g ∧ g.out = st.s.out

theorem FCInv.start (rec : Recorder σ) (recFirst : Bool) {l : List ℕ} {n : ℕ} {U V : ℕ → ℕ} {s0 : KSt σ}
    (hs : CStart l n U V s0) : FCInv rec recFirst l n U V s0 ⟨fun _ => .start, s0⟩ [] :=
  ⟨fun _ _ => trivial, fun _ _ => rfl, Desc.start hs, List.nodup_nil, by simp [CPc.recd],
    [], s0, rfl, by simpa using Desc.start hs, rfl⟩

/-- Accesses left. -/
def cWork : CPc → ℕ
  | .start => 5
  | .crLoad _ _ => 4
  | .crStore _ _ => 3
  | .checkU _ _ => 3
  | .first _ _ _ => 2
  | .second _ _ _ => 1
  | .fin _ => 0

theorem flags_update {f : CPc → Bool} {pcs : ℕ → CPc} {i : ℕ} {pc : CPc} (h : f pc = f (pcs i)) :
    (fun j => f (Function.update pcs i pc j)) = fun j => f (pcs j) := by
  funext j
  by_cases e : j = i
  · subst e; simp [h]
  · simp [Function.update_of_ne e]

theorem flags_set {f : CPc → Bool} {pcs : ℕ → CPc} {i : ℕ} {pc : CPc} (h : f pc = true) :
    (fun j => f (Function.update pcs i pc j)) = setFl (fun j => f (pcs j)) i := by
  funext j
  by_cases e : j = i
  · subst e; simp [h, setFl]
  · simp [Function.update_of_ne e, setFl]

section

variable {rec : Recorder σ} {recFirst : Bool} {l : List ℕ} {n : ℕ} {U V : ℕ → ℕ} {s0 : KSt σ} {st : FSt CPc σ} {B : List ℕ}

theorem FCInv.pcs (h : FCInv rec recFirst l n U V s0 st B) {i : ℕ} (hi : i ∈ l) {pc : CPc}
    (hpc : CPcOk U V (resOf s0) i pc) : (∀ j ∈ l, CPcOk U V (resOf s0) j (Function.update st.pcs i pc j)) ∧
      ∀ j, j ∉ l → Function.update st.pcs i pc j = .start := by
  constructor
  · intro j hj
    by_cases e : j = i
    · subst e; simpa using hpc
    · rw [Function.update_of_ne e]; exact h.pc j hj
  · intro j hj
    rw [Function.update_of_ne (by rintro rfl; exact hj hi)]
    exact h.out j hj

/-- A step that is not the recording one. -/
theorem FCInv.quiet (h : FCInv rec recFirst l n U V s0 st B) {i : ℕ} (hi : i ∈ l) {pc : CPc} {s' : KSt σ}
    (hpc : CPcOk U V (resOf s0) i pc) (hrec : pc.recd recFirst = (st.pcs i).recd recFirst) (ho : s'.out = st.s.out)
    (hd : Desc n U V s0 (fun j => (Function.update st.pcs i pc j).linked recFirst)
      (fun j => (Function.update st.pcs i pc j).wasReset) s') :
    FCInv rec recFirst l n U V s0 ⟨Function.update st.pcs i pc, s'⟩ B := by
  obtain ⟨h1, h2⟩ := h.pcs hi hpc
  refine ⟨h1, h2, hd, h.nodup, ?_, ?_⟩
  · intro j
    rw [h.mem]
    by_cases e : j = i
    · subst e; simp [hrec]
    · simp [Function.update_of_ne e]
  · obtain ⟨c, g, h3, h4, h5⟩ := h.ghost
    exact ⟨c, g, h3, h4, by rw [h5, ho]⟩

/-- Recording: the atomic commit takes place. -/
theorem FCInv.record (h : FCInv rec recFirst l n U V s0 st B) (hs : CStart l n U V s0)
    (hall : ∀ ord, ord.Perm l → ∃ c s2, phase (commit rec) ord s0 = .ok (c, s2)) (hnd : l.Nodup)
    {i : ℕ} (hi : i ∈ l) (hnr : (st.pcs i).recd recFirst = false) :
    (target U V (resOf s0) i = none → ∃ c g, phase (commit rec) (B ++ [i]) s0 = .ok (c, g) ∧
      Desc n U V s0 (fun j => decide (j ∈ B ++ [i])) (fun j => decide (j ∈ B ++ [i])) g ∧ g.out = st.s.out) ∧
    (∀ x y side, target U V (resOf s0) i = some (x, y, side) → ∃ c g o, rec st.s.out i x side = .ok o ∧
      phase (commit rec) (B ++ [i]) s0 = .ok (c, g) ∧
      Desc n U V s0 (fun j => decide (j ∈ B ++ [i])) (fun j => decide (j ∈ B ++ [i])) g ∧ g.out = o) := by
  obtain ⟨c, g, h1, h2, h3⟩ := h.ghost
  have hiB : i ∉ B := by rw [h.mem, hnr]; simp
  have hfl : setFl (fun j => decide (j ∈ B)) i = fun j => decide (j ∈ B ++ [i]) := by
    funext j
    by_cases e : j = i
    · subst e; simp [setFl]
    · simp [setFl, Function.update_of_ne e, e]
  have hBl : ∀ j ∈ B, j ∈ l := by
    intro j hj
    by_contra hc
    have := (h.mem j).mp hj
    rw [h.out j hc] at this
    simp [CPc.recd] at this
  -- the atomic run can go on
  have hgo : ∃ b g', commit rec i g = .ok (b, g') := by
    have hp : (B ++ i :: l.filter (fun j => j ∉ i :: B)).Perm l := by
      rw [List.perm_ext_iff_of_nodup _ hnd]
      · intro j
        simp only [List.mem_append, List.mem_cons, List.mem_filter, decide_eq_true_eq, not_or]
        constructor
        · rintro (hj | rfl | ⟨hj, _⟩)
          · exact hBl j hj
          · exact hi
          · exact hj
        · intro hj
          by_cases e1 : j ∈ B
          · exact Or.inl e1
          · by_cases e2 : j = i
            · exact Or.inr (Or.inl e2)
            · exact Or.inr (Or.inr ⟨hj, e2, e1⟩)
      · rw [List.nodup_append]
        refine ⟨h.nodup, ?_, ?_⟩
        · rw [List.nodup_cons]
          exact ⟨by simp, hnd.filter _⟩
        · intro a ha b hb e
          subst e
          simp only [List.mem_cons, List.mem_filter, decide_eq_true_eq, not_or] at hb
          rcases hb with rfl | ⟨_, _, hb⟩
          · exact hiB ha
          · exact hb ha
    obtain ⟨c2, s2, h4⟩ := hall _ hp
    rw [phase_append, h1] at h4
    simp only [Except.bind, phase] at h4
    cases hc : commit rec i g with
    | error e => rw [hc] at h4; simp [Except.map] at h4
    | ok r => exact ⟨r.1, r.2, rfl⟩
  have hph : ∀ b g', commit rec i g = .ok (b, g') →
      phase (commit rec) (B ++ [i]) s0 = .ok (c ++ (if b then [i] else []), g') := by
    intro b g' hc
    rw [phase_append, h1]
    simp only [Except.bind, phase, hc, Except.map]
  obtain ⟨h5, h6⟩ := h2.commit hs rec hi (by simp [hiB])
  constructor
  · intro ht
    obtain ⟨h7, h8⟩ := h5 ht
    exact ⟨_, _, hph _ _ h7, h8.congr hfl hfl, h3⟩
  · intro x y side ht
    obtain ⟨s', h7, h8, h9⟩ := h6 x y side ht
    obtain ⟨b, g', hc⟩ := hgo
    cases hr : rec g.out i x side with
    | error e => rw [h8, hr] at hc; simp [Except.map] at hc
    | ok o =>
      have hc2 : commit rec i g = .ok (true, { s' with out := o }) := by rw [h8, hr]; rfl
      exact ⟨_, _, o, by rw [← h3]; exact hr, hph _ _ hc2, (h9 o).congr hfl hfl, rfl⟩

/-- The recording step of the machine. -/
theorem FCInv.recStep (h : FCInv rec recFirst l n U V s0 st B) {i : ℕ} (hi : i ∈ l)
    (hnr : (st.pcs i).recd recFirst = false) {pc : CPc} {s' : KSt σ}
    (hpc : CPcOk U V (resOf s0) i pc) (hr : pc.recd recFirst = true)
    (hd : Desc n U V s0 (fun j => (Function.update st.pcs i pc j).linked recFirst)
      (fun j => (Function.update st.pcs i pc j).wasReset) s')
    (hg : ∃ c g, phase (commit rec) (B ++ [i]) s0 = .ok (c, g) ∧
      Desc n U V s0 (fun j => decide (j ∈ B ++ [i])) (fun j => decide (j ∈ B ++ [i])) g ∧ g.out = s'.out) :
    FCInv rec recFirst l n U V s0 ⟨Function.update st.pcs i pc, s'⟩ (B ++ [i]) := by
  obtain ⟨h1, h2⟩ := h.pcs hi hpc
  have hiB : i ∉ B := by rw [h.mem, hnr]; simp
  refine ⟨h1, h2, hd, ?_, ?_, hg⟩
  · rw [List.nodup_append]
    exact ⟨h.nodup, by simp, by intro a ha b hb e; simp at hb; subst hb; subst e; exact hiB ha⟩
  · intro j
    by_cases e : j = i
    · subst e; simp [hr]
    · simp [Function.update_of_ne e, e, h.mem]

/-- One access. -/
theorem cStep_ok (h : FCInv rec recFirst l n U V s0 st B) (hs : CStart l n U V s0)
    (hall : ∀ ord, ord.Perm l → ∃ c s2, phase (commit rec) ord s0 = .ok (c, s2)) (hnd : l.Nodup)
    {i : ℕ} (hi : i ∈ l) (spur : Bool) :
    ∃ pc' s' B', cStep rec recFirst i spur st.s (st.pcs i) = .ok (pc', s') ∧
      FCInv rec recFirst l n U V s0 ⟨Function.update st.pcs i pc', s'⟩ B' ∧
      ((∀ b, st.pcs i ≠ .fin b) → cWork pc' < cWork (st.pcs i)) := by
  have hpc := h.pc i hi
  have heu : st.s.eu[i]? = some ((U i : ℕ) : ℤ) := by rw [h.desc.eu]; exact hs.eu i hi
  have hev : st.s.ev[i]? = some ((V i : ℕ) : ℤ) := by rw [h.desc.ev]; exact hs.ev i hi
  have hun := hs.u i hi
  have hvn := hs.v i hi
  have hne := hs.ne i hi
  have hRv := h.desc.R (V i) hvn
  have hRu := h.desc.R (U i) hun
  have htn : ∀ x y side, target U V (resOf s0) i = some (x, y, side) → x < n := by
    intro x y side ht
    unfold target at ht
    split_ifs at ht
    · simp only [Option.some.injEq, Prod.mk.injEq] at ht
      omega
    · simp only [Option.some.injEq, Prod.mk.injEq] at ht
      omega
  cases hp : st.pcs i with
  | start =>
    have hf : (st.pcs i).wasReset = false := by rw [hp]; rfl
    have hcv := newR_eq (U := U) (V := V) (r := resOf s0) (x := V i) (fl := fun j => (st.pcs j).wasReset) hf
    by_cases h1 : resOf s0 (V i) = some i
    · refine ⟨.crLoad (U i : ℕ) (V i : ℕ), st.s, B,
        by simp only [cStep, rd_ok heu, rd_ok hev, Except.bind, rd_ok hRv, Except.map, hcv, if_pos h1], ?_,
        fun _ => by simp [cWork]⟩
      refine h.quiet hi ⟨rfl, rfl, h1⟩ (by rw [hp]; rfl) rfl ?_
      rw [flags_update (by rw [hp]; rfl), flags_update (by rw [hp]; rfl)]
      exact h.desc
    · refine ⟨.checkU (U i : ℕ) (V i : ℕ), st.s, B,
        by simp only [cStep, rd_ok heu, rd_ok hev, Except.bind, rd_ok hRv, Except.map, hcv, if_neg h1], ?_,
        fun _ => by simp [cWork]⟩
      refine h.quiet hi ⟨rfl, rfl, h1⟩ (by rw [hp]; rfl) rfl ?_
      rw [flags_update (by rw [hp]; rfl), flags_update (by rw [hp]; rfl)]
      exact h.desc
  | crLoad u v =>
    rw [hp] at hpc
    obtain ⟨rfl, rfl, h1⟩ := hpc
    have hf : (st.pcs i).wasReset = false := by rw [hp]; rfl
    have hcu := newR_eq (U := U) (V := V) (r := resOf s0) (x := U i) (fl := fun j => (st.pcs j).wasReset) hf
    by_cases h2 : resOf s0 (U i) = some i
    · refine ⟨.crStore (U i : ℕ) (V i : ℕ), st.s, B,
        by simp only [cStep, rd_ok hRu, Except.map, hcu, if_pos h2], ?_, fun _ => by simp [cWork]⟩
      refine h.quiet hi ⟨rfl, rfl, h1, h2⟩ (by rw [hp]; rfl) rfl ?_
      rw [flags_update (by rw [hp]; rfl), flags_update (by rw [hp]; rfl)]
      exact h.desc
    · refine ⟨.first (V i : ℕ) (U i : ℕ) true, st.s, B,
        by simp only [cStep, rd_ok hRu, Except.map, hcu, if_neg h2], ?_, fun _ => by simp [cWork]⟩
      refine h.quiet hi ⟨_, _, rfl, rfl, by simp [target, h1]⟩ (by rw [hp]; rfl) rfl ?_
      rw [flags_update (by rw [hp]; rfl), flags_set rfl]
      exact h.desc.noReset fun h => h2 h.2
  | crStore u v =>
    rw [hp] at hpc
    obtain ⟨rfl, rfl, h1, h2⟩ := hpc
    obtain ⟨hw, hd⟩ := h.desc.reset hun h1 h2
    refine ⟨.first (V i : ℕ) (U i : ℕ) true, { st.s with R := st.s.R.set (U i) none }, B,
      by simp only [cStep, hw, Except.map], ?_, fun _ => by simp [cWork]⟩
    refine h.quiet hi ⟨_, _, rfl, rfl, by simp [target, h1]⟩ (by rw [hp]; rfl) rfl ?_
    rw [flags_update (by rw [hp]; rfl), flags_set rfl]
    exact hd
  | checkU u v =>
    rw [hp] at hpc
    obtain ⟨rfl, rfl, h1⟩ := hpc
    have hf : (st.pcs i).wasReset = false := by rw [hp]; rfl
    have hcu := newR_eq (U := U) (V := V) (r := resOf s0) (x := U i) (fl := fun j => (st.pcs j).wasReset) hf
    by_cases h2 : resOf s0 (U i) = some i
    · refine ⟨.first (U i : ℕ) (V i : ℕ) false, st.s, B,
        by simp only [cStep, rd_ok hRu, Except.map, hcu, if_pos h2], ?_, fun _ => by simp [cWork]⟩
      refine h.quiet hi ⟨_, _, rfl, rfl, by simp [target, h1, h2]⟩ (by rw [hp]; rfl) rfl ?_
      rw [flags_update (by rw [hp]; rfl), flags_set rfl]
      exact h.desc.noReset fun h => h1 h.1
    · have ht : target U V (resOf s0) i = none := by simp [target, h1, h2]
      obtain ⟨c, g, h3, h4, h5⟩ := (h.record hs hall hnd hi (by rw [hp]; rfl)).1 ht
      refine ⟨.fin false, st.s, B ++ [i],
        by simp only [cStep, rd_ok hRu, Except.map, hcu, if_neg h2], ?_, fun _ => by simp [cWork]⟩
      refine h.recStep hi (by rw [hp]; rfl) (by simp [CPcOk, ht]) rfl ?_ ⟨c, g, h3, h4, h5⟩
      rw [flags_set rfl, flags_set rfl]
      exact (h.desc.noLink ht).noReset fun h => h1 h.1
  | first x y side =>
    rw [hp] at hpc
    obtain ⟨a, b, rfl, rfl, ht⟩ := hpc
    cases hrf : recFirst with
    | true =>
      subst hrf
      obtain ⟨c, g, o, h3, h4, h5, h6⟩ := (h.record hs hall hnd hi (by rw [hp]; rfl)).2 a b side ht
      refine ⟨.second a b side, { st.s with out := o }, B ++ [i], by simp [cStep, cWrite, h3, Except.map], ?_,
        fun _ => by simp [cWork]⟩
      refine h.recStep hi (by rw [hp]; rfl) ⟨a, b, rfl, rfl, ht⟩ rfl ?_ ⟨c, g, h4, h5, h6⟩
      rw [flags_update (by rw [hp]; rfl), flags_update (by rw [hp]; rfl)]
      exact ⟨h.desc.eu, h.desc.ev, h.desc.RLen, h.desc.PLen, h.desc.P, h.desc.R⟩
    | false =>
      subst hrf
      obtain ⟨hl, hd⟩ := h.desc.link hne (htn _ _ _ ht) ht
      refine ⟨.second a b side, { st.s with P := st.s.P.set a b }, B, by simp [cStep, cWrite, hl, Except.map], ?_,
        fun _ => by simp [cWork]⟩
      refine h.quiet hi ⟨a, b, rfl, rfl, ht⟩ (by rw [hp]; rfl) rfl ?_
      rw [flags_set rfl, flags_update (by rw [hp]; rfl)]
      exact hd
  | second x y side =>
    rw [hp] at hpc
    obtain ⟨a, b, rfl, rfl, ht⟩ := hpc
    cases hrf : recFirst with
    | true =>
      subst hrf
      obtain ⟨hl, hd⟩ := h.desc.link hne (htn _ _ _ ht) ht
      refine ⟨.fin true, { st.s with P := st.s.P.set a b }, B, by simp [cStep, cWrite, hl, Except.map], ?_,
        fun _ => by simp [cWork]⟩
      refine h.quiet hi (by simp [CPcOk, ht]) (by rw [hp]; rfl) rfl ?_
      rw [flags_set rfl, flags_update (by rw [hp]; rfl)]
      exact hd
    | false =>
      subst hrf
      obtain ⟨c, g, o, h3, h4, h5, h6⟩ := (h.record hs hall hnd hi (by rw [hp]; rfl)).2 a b side ht
      refine ⟨.fin true, { st.s with out := o }, B ++ [i], by simp [cStep, cWrite, h3, Except.map], ?_,
        fun _ => by simp [cWork]⟩
      refine h.recStep hi (by rw [hp]; rfl) (by simp [CPcOk, ht]) rfl ?_ ⟨c, g, h4, h5, h6⟩
      rw [flags_update (by rw [hp]; rfl), flags_update (by rw [hp]; rfl)]
      exact ⟨h.desc.eu, h.desc.ev, h.desc.RLen, h.desc.PLen, h.desc.P, h.desc.R⟩
  | fin b =>
    refine ⟨.fin b, st.s, B, rfl, ?_, fun h => absurd rfl (h b)⟩
    rw [← hp, Function.update_eq_self]
    exact h

theorem CPc.res_isSome {pc : CPc} : pc.res.isSome = true ↔ ∃ b, pc = .fin b := by
  cases pc <;> simp [CPc.res]

theorem frunC_ok (hs : CStart l n U V s0)
    (hall : ∀ ord, ord.Perm l → ∃ c s2, phase (commit rec) ord s0 = .ok (c, s2)) (hnd : l.Nodup)
    (sched : List (ℕ × Bool)) : ∀ (st : FSt CPc σ) (B : List ℕ), FCInv rec recFirst l n U V s0 st B →
    ∃ st' B', frun (cStep rec recFirst) l sched st = .ok st' ∧ FCInv rec recFirst l n U V s0 st' B' ∧
      ∀ i ∈ l, (∀ b, st'.pcs i ≠ .fin b) → (∀ b, st.pcs i ≠ .fin b) ∧ turns sched i + cWork (st'.pcs i) ≤ cWork (st.pcs i) := by
  induction sched with
  | nil => exact fun st B h => ⟨st, B, rfl, h, fun i _ hn => ⟨hn, by simp [turns]⟩⟩
  | cons e es ih =>
    intro st B h
    obtain ⟨j, spur⟩ := e
    by_cases hj : j ∈ l
    · obtain ⟨pc', s', B', h1, h2, h3⟩ := cStep_ok h hs hall hnd hj spur
      obtain ⟨st2, B2, h4, h5, h6⟩ := ih _ _ h2
      refine ⟨st2, B2, by simp only [frun, fstep, if_pos hj, h1, Except.map, Except.bind, h4], h5, ?_⟩
      intro i hi hn
      obtain ⟨h7, h8⟩ := h6 i hi hn
      by_cases e : j = i
      · subst e
        simp only [Function.update_self] at h7 h8
        have h9 : ∀ b, st.pcs j ≠ .fin b := by
          intro b hb
          rw [hb] at h1
          simp only [cStep, Except.ok.injEq, Prod.mk.injEq] at h1
          exact h7 b h1.1.symm
        refine ⟨h9, ?_⟩
        have := h3 h9
        have ht : turns ((j, spur) :: es) j = turns es j + 1 := by simp [turns]
        omega
      · have e' : i ≠ j := fun h => e h.symm
        simp only [Function.update_of_ne e'] at h7 h8
        have ht : turns ((j, spur) :: es) i = turns es i := by simp [turns, e]
        exact ⟨h7, by omega⟩
    · obtain ⟨st2, B2, h4, h5, h6⟩ := ih _ _ h
      refine ⟨st2, B2, by simp only [frun, fstep, if_neg hj, Except.bind, h4], h5, ?_⟩
      intro i hi hn
      obtain ⟨h7, h8⟩ := h6 i hi hn
      have e : j ≠ i := by rintro rfl; exact hj hi
      have ht : turns ((j, spur) :: es) i = turns es i := by simp [turns, e]
      exact ⟨h7, by omega⟩

/-- The commit loop, access by access: an unfinished schedule, or the memory of atomic commits in some order. -/
theorem commit_fine (hs : CStart l n U V s0)
    (hall : ∀ ord, ord.Perm l → ∃ c s2, phase (commit rec) ord s0 = .ok (c, s2)) (hnd : l.Nodup)
    (sched : List (ℕ × Bool)) :
    (fphase (cStep rec recFirst) CPc.res .start l sched s0 = .error .fuel ∧ ∃ i ∈ l, turns sched i < 5) ∨
      ∃ committed ord c s2, fphase (cStep rec recFirst) CPc.res .start l sched s0 = .ok (committed, s2) ∧
        ord.Perm l ∧ phase (commit rec) ord s0 = .ok (c, s2) ∧
        ∀ i, i ∈ committed ↔ i ∈ l ∧ (resOf s0 (U i) = some i ∨ resOf s0 (V i) = some i) := by
  obtain ⟨st, B, h1, h2, h3⟩ := frunC_ok hs hall hnd sched _ _ (FCInv.start rec recFirst hs)
  unfold fphase
  rw [h1]
  simp only [Except.bind]
  by_cases hf : l.all (fun i => (st.pcs i).res.isSome) = true
  · right
    rw [if_pos hf]
    rw [List.all_eq_true] at hf
    have hfin : ∀ i ∈ l, ∃ b, st.pcs i = .fin b := fun i hi => CPc.res_isSome.mp (hf i hi)
    have hB : ∀ i, i ∈ B ↔ i ∈ l := by
      intro i
      rw [h2.mem]
      constructor
      · intro hr
        by_contra hc
        rw [h2.out i hc] at hr
        simp [CPc.recd] at hr
      · intro hi
        obtain ⟨b, hb⟩ := hfin i hi
        rw [hb]; rfl
    obtain ⟨c, g, h4, h5, h6⟩ := h2.ghost
    have heq : g = st.s := by
      refine (h5.congr ?_ ?_).eq h2.desc h6
      · funext i
        by_cases hi : i ∈ l
        · obtain ⟨b, hb⟩ := hfin i hi
          simp [hB, hi, hb, CPc.linked]
        · simp [hB, hi, h2.out i hi, CPc.linked]
      · funext i
        by_cases hi : i ∈ l
        · obtain ⟨b, hb⟩ := hfin i hi
          simp [hB, hi, hb, CPc.wasReset]
        · simp [hB, hi, h2.out i hi, CPc.wasReset]
    subst heq
    refine ⟨_, B, c, st.s, rfl, (List.perm_ext_iff_of_nodup h2.nodup hnd).mpr hB, h4, ?_⟩
    intro i
    rw [List.mem_filter]
    refine and_congr_right fun hi => ?_
    obtain ⟨b, hb⟩ := hfin i hi
    have hp := h2.pc i hi
    rw [hb] at hp ⊢
    have hp : b = (target U V (resOf s0) i).isSome := hp
    subst hp
    simp only [CPc.res, Option.some.injEq, decide_eq_true_eq, target]
    split_ifs with e1 e2
    · simp [e1]
    · simp [e2]
    · simp [e1, e2]
  · left
    rw [if_neg hf]
    refine ⟨rfl, ?_⟩
    rw [List.all_eq_true] at hf
    push Not at hf
    obtain ⟨i, hi, hn⟩ := hf
    refine ⟨i, hi, ?_⟩
    obtain ⟨-, h4⟩ := h3 i hi (fun b hb => hn (CPc.res_isSome.mpr ⟨b, hb⟩))
    have h5 : 0 < cWork (st.pcs i) := by
      cases hp : st.pcs i with
      | fin b => exact absurd (CPc.res_isSome.mpr ⟨b, hp⟩) hn
      | _ => simp [cWork]
    have h6 : cWork (CPc.start) = 5 := rfl
    simp only [h6] at h4
    omega

end

end Verif.Mst
