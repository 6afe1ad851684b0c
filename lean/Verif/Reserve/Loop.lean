import Verif.Reserve.Props
import Mathlib.Data.List.Perm.Basic
import Mathlib.Data.List.MinMax

set_option linter.unusedSectionVars false
set_option linter.unusedVariables false

/-!
Model of the main loop of the incremental Delaunay triangulation,
`src/delaunayTriangulation/incremental/delaunay.cpp:228-301`, and C53: every vertex is inserted exactly once.
-/

namespace Verif.Reserve

variable {A : Type}

/-- `src/delaunayTriangulation/incremental/delaunay.cpp:232`: the maximal number of vertices tried in a round. -/
def maxBlock (n : ℕ) : ℕ := n / 1000 + 1

/-- `src/delaunayTriangulation/incremental/delaunay.cpp:264`: the number of vertices tried in this round. -/
def numRound (n numDone : ℕ) : ℕ := min (min (1 + numDone / 50) (n - numDone)) (maxBlock n)

/-- The variables `done` (its first `num_done` entries) and `remain` of
`src/delaunayTriangulation/incremental/delaunay.cpp:235-237`. -/
structure LState (A : Type) where
  /-- inserted vertices, in order -/
  done : List A
  /-- vertices that failed in the last round -/
  remain : List A

/-- Array access. -/
def getOr {A : Type} (l : List A) (i : ℕ) : Except Err A :=
  match l[i]? with
  | some a => .ok a
  | none => .error .ub

/-- `src/delaunayTriangulation/incremental/delaunay.cpp:271`: the vertices tried in a round. -/
def fillBuffer (v : List A) (s : LState A) : Except Err (List A) :=
  (List.range (numRound v.length s.done.length)).mapM fun j =>
    if j < s.remain.length then getOr s.remain j else getOr v (j + s.done.length)

/-- `src/delaunayTriangulation/incremental/delaunay.cpp:283-295`: pack the failed vertices (flag true) and append the
others to `done`. Writing behind the end of `done` (`n` entries) is undefined. -/
def packRound (n : ℕ) (s : LState A) (buffer : List A) (flags : List Bool) : Except Err (LState A) :=
  let bad := ((buffer.zip flags).filter fun a => a.2).map Prod.fst
  let good := ((buffer.zip flags).filter fun a => !a.2).map Prod.fst
  if s.done.length + good.length ≤ n then .ok ⟨s.done ++ good, bad⟩ else .error .ub

/-- `src/delaunayTriangulation/incremental/delaunay.cpp:252-297`. `flags` gives the outcome of the two parallel phases
(lines 269-277) for a buffer in a given state: one flag per vertex, true if it lost. The point location structure is not
part of this model. -/
def addLoop (v : List A) (flags : LState A → List A → List Bool) : ℕ → LState A → Except Err (LState A)
  | fuel, s =>
    if v.length ≤ s.done.length then .ok s
    else match fuel with
      | 0 => .error .fuel
      | fuel + 1 => (fillBuffer v s).bind fun b => (packRound v.length s b (flags s b)).bind fun s' =>
          addLoop v flags fuel s'

/-! ### C53 -/

/-- The vertices taken from `v` so far are exactly those inserted or left over. -/
structure LInv (v : List A) (s : LState A) : Prop where
  perm : (s.done ++ s.remain).Perm (v.take (s.done.length + s.remain.length))
  le : s.done.length + s.remain.length ≤ v.length
  fits : s.done.length < v.length → s.remain.length ≤ numRound v.length s.done.length

theorem mapM_ok {B : Type} (f : ℕ → Except Err B) (g : ℕ → B) (l : List ℕ) (h : ∀ j ∈ l, f j = .ok (g j)) :
    l.mapM f = .ok (l.map g) := by
  induction l with
  | nil => rfl
  | cons a l ih =>
    rw [List.mapM_cons, h a (by simp), ih fun j hj => h j (by simp [hj])]
    rfl

theorem fillBuffer_ok {v : List A} {s : LState A} (h : LInv v s) (hlt : s.done.length < v.length) :
    fillBuffer v s = .ok (s.remain ++
      ((v.drop (s.done.length + s.remain.length)).take (numRound v.length s.done.length - s.remain.length))) := by
  have hf := h.fits hlt
  have hle := h.le
  have hrn : numRound v.length s.done.length ≤ v.length - s.done.length := by
    unfold numRound
    omega
  unfold fillBuffer
  set b := s.remain ++
    ((v.drop (s.done.length + s.remain.length)).take (numRound v.length s.done.length - s.remain.length)) with hb
  have hbl : b.length = numRound v.length s.done.length := by
    rw [hb, List.length_append, List.length_take, List.length_drop]
    omega
  cases hv : v with
  | nil => simp [hv] at hlt
  | cons a0 v0 =>
  rw [← hv]
  rw [mapM_ok _ (fun j => b.getD j a0)]
  · congr 1
    apply List.ext_getElem
    · simp [hbl]
    · intro i h1 h2
      simp [List.getD_eq_getElem?_getD, List.getElem?_eq_getElem h2]
  · intro j hj
    rw [List.mem_range] at hj
    have hjb : j < b.length := by omega
    by_cases hjr : j < s.remain.length
    · rw [if_pos hjr]
      unfold getOr
      rw [List.getElem?_eq_getElem hjr]
      simp only [List.getD_eq_getElem?_getD, List.getElem?_eq_getElem hjb, Option.getD_some]
      congr 1
      simp [hb, List.getElem_append_left hjr]
    · rw [if_neg hjr]
      unfold getOr
      rw [List.getElem?_eq_getElem (by omega)]
      simp only [List.getD_eq_getElem?_getD, List.getElem?_eq_getElem hjb, Option.getD_some]
      congr 1
      simp only [hb]
      rw [List.getElem_append_right (by omega), List.getElem_take, List.getElem_drop]
      congr 1
      omega

theorem pack_perm (b : List A) (fl : List Bool) (h : fl.length = b.length) :
    (((b.zip fl).filter fun a => !a.2).map Prod.fst ++ ((b.zip fl).filter fun a => a.2).map Prod.fst).Perm b := by
  induction b generalizing fl with
  | nil => simp
  | cons x b ih =>
    cases fl with
    | nil => simp at h
    | cons f fl =>
      have := ih fl (by simpa using h)
      cases f with
      | false =>
        simp only [List.zip_cons_cons, List.filter_cons, Bool.not_false, if_true, Bool.false_eq_true, if_false,
          List.map_cons, List.cons_append]
        exact this.cons x
      | true =>
        simp only [List.zip_cons_cons, List.filter_cons, Bool.not_true, if_true, Bool.false_eq_true, if_false,
          List.map_cons]
        exact List.perm_middle.trans (this.cons x)

theorem packRound_ok {v : List A} {s : LState A} (h : LInv v s) (hlt : s.done.length < v.length) {b : List A}
    (hb : fillBuffer v s = .ok b) {fl : List Bool} (hfl : fl.length = b.length) (hsome : false ∈ fl) :
    ∃ s', packRound v.length s b fl = .ok s' ∧ LInv v s' ∧ s.done.length < s'.done.length := by
  rw [fillBuffer_ok h hlt] at hb
  simp only [Except.ok.injEq] at hb
  have hf := h.fits hlt
  have hle := h.le
  have hrn : numRound v.length s.done.length ≤ v.length - s.done.length := by
    unfold numRound
    omega
  have hbl : b.length = numRound v.length s.done.length := by
    rw [← hb, List.length_append, List.length_take, List.length_drop]
    omega
  have hp := pack_perm b fl hfl
  have hpl := hp.length_eq
  rw [List.length_append] at hpl
  set good := ((b.zip fl).filter fun a => !a.2).map Prod.fst with hgood
  set bad := ((b.zip fl).filter fun a => a.2).map Prod.fst with hbad
  have hpos : 0 < good.length := by
    obtain ⟨i, hi⟩ := List.mem_iff_getElem?.mp hsome
    have hi' : i < fl.length := (List.getElem?_eq_some_iff.mp hi).1
    rw [List.length_pos_iff_exists_mem]
    refine ⟨b[i]'(by omega), ?_⟩
    rw [hgood, List.mem_map]
    refine ⟨(b[i]'(by omega), false), ?_, rfl⟩
    rw [List.mem_filter]
    refine ⟨?_, rfl⟩
    rw [List.mem_iff_getElem?]
    refine ⟨i, ?_⟩
    rw [List.getElem?_zip_eq_some]
    exact ⟨List.getElem?_eq_getElem _, hi⟩
  refine ⟨⟨s.done ++ good, bad⟩, ?_, ?_, ?_⟩
  · unfold packRound
    rw [← hgood, ← hbad]
    simp only
    rw [if_pos (by omega)]
  · have hlen : s.done.length + good.length + bad.length = s.done.length + numRound v.length s.done.length := by omega
    refine ⟨?_, ?_, ?_⟩
    · simp only [List.length_append]
      rw [hlen, List.append_assoc]
      refine (List.Perm.append_left s.done hp).trans ?_
      rw [← hb, ← List.append_assoc]
      have e : v.take (s.done.length + numRound v.length s.done.length) =
          v.take (s.done.length + s.remain.length) ++
            ((v.drop (s.done.length + s.remain.length)).take (numRound v.length s.done.length - s.remain.length)) := by
        rw [← List.take_add]
        congr 1
        omega
      rw [e]
      exact h.perm.append_right _
    · simp only [List.length_append]
      omega
    · intro hlt'
      simp only [List.length_append] at hlt' ⊢
      have hbl2 : bad.length ≤ numRound v.length s.done.length := by omega
      unfold numRound at hbl2 ⊢
      have hdiv : s.done.length / 50 ≤ (s.done.length + good.length) / 50 := Nat.div_le_div_right (by omega)
      omega
  · simp only [List.length_append]
    omega

/-- C53. Whatever the outcomes of the rounds, if at least one vertex of each round succeeds then the loop ends after at
most `n` rounds, makes no access outside an array, and has inserted every vertex exactly once. -/
theorem c53_every_vertex_once (v : List A) (flags : LState A → List A → List Bool)
    (hlen : ∀ s b, (flags s b).length = b.length) (hsome : ∀ s b, b ≠ [] → false ∈ flags s b) :
    ∃ s, addLoop v flags v.length ⟨[], []⟩ = .ok s ∧ s.done.Perm v ∧ s.remain = [] := by
  have gen : ∀ (fuel : ℕ) (s : LState A), LInv v s → v.length ≤ s.done.length + fuel →
      ∃ s', addLoop v flags fuel s = .ok s' ∧ LInv v s' ∧ v.length ≤ s'.done.length := by
    intro fuel
    induction fuel with
    | zero =>
      intro s h hf
      rw [addLoop, if_pos (by omega)]
      exact ⟨s, rfl, h, by omega⟩
    | succ fuel ih =>
      intro s h hf
      rw [addLoop]
      by_cases hd : v.length ≤ s.done.length
      · rw [if_pos hd]
        exact ⟨s, rfl, h, hd⟩
      · rw [if_neg hd]
        obtain ⟨b, hb⟩ : ∃ b, fillBuffer v s = .ok b := ⟨_, fillBuffer_ok h (by omega)⟩
        have hne : b ≠ [] := by
          have hb' := hb
          rw [fillBuffer_ok h (by omega)] at hb'
          simp only [Except.ok.injEq] at hb'
          have hf' := h.fits (by omega)
          have hle := h.le
          have hr : 0 < numRound v.length s.done.length := by
            unfold numRound maxBlock
            omega
          have hrn : numRound v.length s.done.length ≤ v.length - s.done.length := by
            unfold numRound
            omega
          intro hnil
          have : b.length = numRound v.length s.done.length := by
            rw [← hb', List.length_append, List.length_take, List.length_drop]
            omega
          rw [hnil] at this
          simp at this
          omega
        obtain ⟨s', h1, h2, h3⟩ := packRound_ok h (by omega) hb (hlen s b) (hsome s b hne)
        rw [hb]
        show ∃ s'', (packRound v.length s b (flags s b)).bind _ = _ ∧ _
        rw [h1]
        exact ih s' h2 (by omega)
  obtain ⟨s, h1, h2, h3⟩ := gen v.length ⟨[], []⟩ ⟨by simp, by simp, by simp⟩ (by simp)
  refine ⟨s, h1, ?_, ?_⟩
  · have hle := h2.le
    have hrem : s.remain = [] := List.length_eq_zero_iff.mp (by omega)
    have := h2.perm
    rw [hrem] at this
    simp only [List.append_nil, List.length_nil, Nat.add_zero] at this
    rw [List.take_of_length_le (by omega)] at this
    exact this
  · have hle := h2.le
    exact List.length_eq_zero_iff.mp (by omega)

/-- C53. The hypothesis on the rounds: in every round with contenders, for every interleaving, one wins. -/
theorem c53_round_has_winner {V : Type} [LinearOrder V] {neutral : V} {cs : List (Contender V)} (hne : cs ≠ [])
    (hid : GoodIds neutral cs) (hnd : ∀ k ∈ cs, k.cells.Nodup) {s1 s2 : List ℕ}
    (hd : ∀ t, rdone cs (reserve neutral cs s1) t)
    (hd2 : CDone cs (check neutral cs (reserve neutral cs s1).mem s2)) :
    false ∈ (List.range cs.length).map fun t =>
      !((won cs (check neutral cs (reserve neutral cs s1).mem s2) t).getD false) := by
  have hmax : ∀ l : List (Contender V), l ≠ [] → ∃ k ∈ l, ∀ k' ∈ l, k'.id ≤ k.id := by
    intro l
    induction l with
    | nil => intro h; exact absurd rfl h
    | cons a l ih =>
      intro _
      by_cases hl : l = []
      · subst hl
        exact ⟨a, by simp, by simp⟩
      · obtain ⟨k, hk, h⟩ := ih hl
        by_cases hak : a.id ≤ k.id
        · refine ⟨k, by simp [hk], ?_⟩
          intro k' hk'
          rw [List.mem_cons] at hk'
          rcases hk' with rfl | hk'
          · exact hak
          · exact h k' hk'
        · refine ⟨a, by simp, ?_⟩
          intro k' hk'
          rw [List.mem_cons] at hk'
          rcases hk' with rfl | hk'
          · exact le_refl _
          · exact (h k' hk').trans (not_le.mp hak).le
  obtain ⟨k, hk, h⟩ := hmax cs hne
  obtain ⟨t, ht⟩ := List.mem_iff_getElem?.mp hk
  have hw := c40_highest_wins hid hnd hd hd2 ht h
  rw [List.mem_map]
  refine ⟨t, List.mem_range.mpr (List.getElem?_eq_some_iff.mp ht).1, ?_⟩
  rw [hw]
  rfl

/-! ### Concrete case -/

/-- In each round all vertices but the first fail. -/
def slow (s : LState ℕ) (b : List ℕ) : List Bool := b.zipIdx.map fun a => decide (0 < a.2)

example : (∀ s b, (slow s b).length = b.length) ∧ ∀ s b, b ≠ [] → false ∈ slow s b := by
  constructor
  · intro s b
    simp [slow]
  · intro s b hb
    cases b with
    | nil => exact absurd rfl hb
    | cons a b => simp [slow]

example : ((addLoop [7, 8, 9] slow 3 ⟨[], []⟩).map fun s => s.done) = .ok [7, 8, 9] := by decide +kernel

end Verif.Reserve
