import Verif.RandInc.Process

set_option linter.unusedSectionVars false
set_option linter.unusedVariables false

/-!
The insertion of one vertex keeps the invariant of the ring.
-/

namespace Verif.RandInc

open Verif Verif.Hull2d

variable {K : Type} [Field K] [LinearOrder K] [IsStrictOrderedRing K]

theorem mem_pts {h : ℕ → Option Fct} {M : List ℕ} {q : ℕ} :
    q ∈ pts h M ↔ ∃ i ∈ M, ∃ f, h i = some f ∧ q ∈ f.seen := by
  unfold pts
  simp only [List.mem_flatten, List.mem_map]
  constructor
  · rintro ⟨l, ⟨i, hi, rfl⟩, hq⟩
    cases hh : h i with
    | none => rw [hh] at hq; simp at hq
    | some f => rw [hh] at hq; exact ⟨i, hi, f, hh, by simpa using hq⟩
  · rintro ⟨i, hi, f, h1, h2⟩
    exact ⟨_, ⟨i, hi, rfl⟩, by rw [h1]; simpa using h2⟩

/-- A vertex about to be inserted and its run. -/
structure Ins (eps : K) (pos : ℕ → Point K 2) (n : ℕ) (Q : Fin 4 → ℕ) (C : Fin 4 → List ℕ) (s : St) (v : ℕ) (k : Fin 4)
    (A M B : List ℕ) (a e : ℕ) (fa fs fe : Fct) (x0 : ℕ) : Prop where
  inv : Inv eps pos n Q C s
  run : Run eps pos Q C s v k A M B a e
  see : s.see v = some x0
  mem : x0 ∈ M
  ha : s.heap a = some fa
  hs : s.heap (M.head run.vis.ne) = some fs
  he : s.heap e = some fe

/-- The chains after the insertion. -/
def newC (C : Fin 4 → List ℕ) (top : ℕ) (k : Fin 4) (A B : List ℕ) : Fin 4 → List ℕ :=
  Function.update C (k + 1) (A ++ top :: (top + 1) :: B)

theorem succ4 : ∀ i k : Fin 4, i + 1 = k + 1 → i = k := by decide

section
variable {eps : K} {pos : ℕ → Point K 2} {n : ℕ} {Q : Fin 4 → ℕ} {C : Fin 4 → List ℕ} {s : St} {v : ℕ} {k : Fin 4}
  {A M B : List ℕ} {a e : ℕ} {fa fs fe : Fct} {x0 : ℕ}

theorem Ins.mlt (h : Ins eps pos n Q C s v k A M B a e fa fs fe x0) : ∀ x ∈ M, x ∈ C (k + 1) ∧ x < s.top := by
  intro x hx
  have : x ∈ C (k + 1) := by rw [h.run.split]; simp [hx]
  exact ⟨this, h.inv.lt _ x this⟩

theorem Ins.amem (h : Ins eps pos n Q C s v k A M B a e fa fs fe x0) : a ∈ C k ++ A := by
  obtain ⟨A', hA⟩ := h.run.before
  rw [hA]; simp

theorem Ins.emem (h : Ins eps pos n Q C s v k A M B a e fa fs fe x0) : e ∈ B ++ C (k + 1 + 1) := by
  obtain ⟨B', hB⟩ := h.run.after
  rw [hB]; simp

theorem Ins.alt (h : Ins eps pos n Q C s v k A M B a e fa fs fe x0) : a < s.top := by
  rcases List.mem_append.mp h.amem with h1 | h1
  · exact h.inv.lt _ a h1
  · exact h.inv.lt (k + 1) a (by rw [h.run.split]; simp [h1])

theorem Ins.elt (h : Ins eps pos n Q C s v k A M B a e fa fs fe x0) : e < s.top := by
  rcases List.mem_append.mp h.emem with h1 | h1
  · exact h.inv.lt (k + 1) e (by rw [h.run.split]; simp [h1])
  · exact h.inv.lt _ e h1

theorem Ins.nd (h : Ins eps pos n Q C s v k A M B a e fa fs fe x0) : a ∉ M ∧ e ∉ M ∧ a ≠ e := by
  have hnd := h.run.vis.nodup
  refine ⟨fun hh => (List.nodup_cons.mp hnd).1 (by simp [hh]), fun hh => ?_, fun hh => ?_⟩
  · exact (List.nodup_append.mp (List.nodup_cons.mp hnd).2).2.2 e hh e (by simp) rfl
  · exact (List.nodup_cons.mp hnd).1 (by simp [hh])

theorem Ins.cnd (h : Ins eps pos n Q C s v k A M B a e fa fs fe x0) :
    (∀ x ∈ A, x ∉ M) ∧ (∀ x ∈ B, x ∉ M) ∧ (A ++ B).Nodup := by
  have := h.inv.nodup (k + 1)
  rw [h.run.split, List.append_assoc] at this
  obtain ⟨n1, n2, n3⟩ := List.nodup_append.mp this
  obtain ⟨n4, n5, n6⟩ := List.nodup_append.mp n2
  refine ⟨fun x hx hx' => n3 x hx x (by simp [hx']) rfl, fun x hx hx' => n6 x hx' x hx rfl, ?_⟩
  rw [List.nodup_append]
  exact ⟨n1, n5, fun x hx y hy => n3 x hx y (by simp [hy])⟩

theorem Ins.len (h : Ins eps pos n Q C s v k A M B a e fa fs fe x0) : M.length + 1 < s.top + 1 := by
  have hlt : ∀ y ∈ a :: (M ++ [e]), y < s.top := by
    intro y hy
    simp only [List.mem_cons, List.mem_append, List.not_mem_nil, or_false] at hy
    rcases hy with rfl | hy | rfl
    · exact h.alt
    · exact (h.mlt y hy).2
    · exact h.elt
  have := nodup_lt_length h.run.vis.nodup hlt
  simp at this
  omega

theorem Ins.process (h : Ins eps pos n Q C s v k A M B a e fa fs fe x0) :
    processOne eps pos s v = .ok (nx eps pos s v a M e fa fs fe) := by
  refine process_ok h.inv.tok h.see h.run.vis h.mem h.len ?_ h.ha h.hs h.he
  intro y hy
  simp only [List.mem_cons, List.mem_append, List.not_mem_nil, or_false] at hy
  rcases hy with rfl | hy | rfl
  · exact h.alt
  · exact (h.mlt y hy).2
  · exact h.elt

/-! The heap after the insertion. -/

theorem Ins.heap_M (h : Ins eps pos n Q C s v k A M B a e fa fs fe x0) {x : ℕ} (hx : x ∈ M) :
    (nx eps pos s v a M e fa fs fe).heap x = none := by
  simp only [nx]
  rw [if_pos hx]

theorem Ins.heap_n1 (h : Ins eps pos n Q C s v k A M B a e fa fs fe x0) :
    (nx eps pos s v a M e fa fs fe).heap s.top = some ⟨fs.p1, v, s.top + 1, a, none,
      (pts s.heap M).filter fun q => visible eps pos ⟨fs.p1, v, 0, 0, none, []⟩ q⟩ := by
  have h1 := h.alt
  have h2 := h.elt
  simp only [nx]
  rw [if_neg (fun hh => lt_irrefl _ (h.mlt _ hh).2), if_neg (by omega), if_neg (by omega), if_neg (by omega), if_pos trivial]

theorem Ins.heap_n2 (h : Ins eps pos n Q C s v k A M B a e fa fs fe x0) :
    (nx eps pos s v a M e fa fs fe).heap (s.top + 1) = some ⟨v, fe.p1, e, s.top, none,
      (pts s.heap M).filter fun q => !visible eps pos ⟨fs.p1, v, 0, 0, none, []⟩ q && visible eps pos ⟨v, fe.p1, 0, 0, none, []⟩ q⟩ := by
  have h1 := h.alt
  have h2 := h.elt
  simp only [nx]
  rw [if_neg (fun hh => absurd (h.mlt _ hh).2 (by omega)), if_neg (by omega), if_neg (by omega), if_pos trivial]

theorem Ins.heap_a (h : Ins eps pos n Q C s v k A M B a e fa fs fe x0) :
    (nx eps pos s v a M e fa fs fe).heap a = some { fa with next := s.top } := by
  simp only [nx]
  rw [if_neg h.nd.1, if_neg h.nd.2.2, if_pos trivial]

theorem Ins.heap_e (h : Ins eps pos n Q C s v k A M B a e fa fs fe x0) :
    (nx eps pos s v a M e fa fs fe).heap e = some { fe with prev := s.top + 1 } := by
  simp only [nx]
  rw [if_neg h.nd.2.1, if_pos trivial]

theorem Ins.heap_o (h : Ins eps pos n Q C s v k A M B a e fa fs fe x0) {x : ℕ} (hx : x ∉ M) (ha : x ≠ a) (he : x ≠ e)
    (hl : x ≠ s.top) (hl' : x ≠ s.top + 1) : (nx eps pos s v a M e fa fs fe).heap x = s.heap x := by
  simp only [nx]
  rw [if_neg hx, if_neg he, if_neg ha, if_neg hl', if_neg hl]

theorem Ins.old (h : Ins eps pos n Q C s v k A M B a e fa fs fe x0) {x : ℕ} (hx : x ∉ M) (hl : x < s.top) {g : Fct}
    (hg : s.heap x = some g) : ∃ g', (nx eps pos s v a M e fa fs fe).heap x = some g' ∧ g'.p1 = g.p1 ∧ g'.p2 = g.p2 ∧
      g'.seen = g.seen ∧ g'.token = g.token ∧ (x ≠ a → g'.next = g.next) ∧ (x ≠ e → g'.prev = g.prev) := by
  by_cases h1 : x = a
  · subst h1
    rw [h.ha, Option.some.injEq] at hg
    subst hg
    exact ⟨_, h.heap_a, rfl, rfl, rfl, rfl, fun hh => absurd rfl hh, fun _ => rfl⟩
  by_cases h2 : x = e
  · subst h2
    rw [h.he, Option.some.injEq] at hg
    subst hg
    exact ⟨_, h.heap_e, rfl, rfl, rfl, rfl, fun _ => rfl, fun hh => absurd rfl hh⟩
  exact ⟨g, by rw [h.heap_o hx h1 h2 (by omega) (by omega), hg], rfl, rfl, rfl, rfl, fun _ => rfl, fun _ => rfl⟩

/-- Backwards: what a live cell of the new heap was. -/
theorem Ins.back_old (h : Ins eps pos n Q C s v k A M B a e fa fs fe x0) {x : ℕ} (hl : x ≠ s.top) (hl' : x ≠ s.top + 1) {g' : Fct}
    (hg : (nx eps pos s v a M e fa fs fe).heap x = some g') : x ∉ M ∧ ∃ g, s.heap x = some g ∧ g'.p1 = g.p1 ∧ g'.p2 = g.p2 ∧
      g'.seen = g.seen ∧ g'.token = g.token := by
  have hM : x ∉ M := by
    intro hx; rw [h.heap_M hx] at hg; cases hg
  refine ⟨hM, ?_⟩
  by_cases h1 : x = a
  · subst h1
    rw [h.heap_a, Option.some.injEq] at hg
    subst hg
    exact ⟨fa, h.ha, rfl, rfl, rfl, rfl⟩
  by_cases h2 : x = e
  · subst h2
    rw [h.heap_e, Option.some.injEq] at hg
    subst hg
    exact ⟨fe, h.he, rfl, rfl, rfl, rfl⟩
  rw [h.heap_o hM h1 h2 hl hl'] at hg
  exact ⟨g', hg, rfl, rfl, rfl, rfl⟩

/-- Pointers between facets that stay. -/
theorem Ins.link_old (h : Ins eps pos n Q C s v k A M B a e fa fs fe x0) {x y : ℕ} (hx : x ∉ M) (hy : y ∉ M) (hxl : x < s.top)
    (hyl : y < s.top) (hl : Link s.heap x y) : Link (nx eps pos s v a M e fa fs fe).heap x y := by
  obtain ⟨⟨f, f1, f2⟩, g, g1, g2⟩ := hl
  have hch := h.run.vis.chain
  have hxa : x ≠ a := by
    rintro rfl
    obtain ⟨m, N, hmN⟩ := List.exists_cons_of_ne_nil h.run.vis.ne
    rw [hmN] at hch
    simp only [List.cons_append, List.isChain_cons_cons] at hch
    obtain ⟨⟨⟨u, u1, u2⟩, -⟩, -⟩ := hch
    rw [f1, Option.some.injEq] at u1
    subst u1
    exact hy (by rw [hmN, ← f2, u2]; simp)
  have hye : y ≠ e := by
    rintro rfl
    rw [← List.dropLast_append_getLast (l := M) h.run.vis.ne] at hch
    have e1 : a :: (M.dropLast ++ [M.getLast h.run.vis.ne] ++ [y]) = (a :: M.dropLast) ++ [M.getLast h.run.vis.ne, y] := by simp
    rw [e1] at hch
    have h2 := hch.right_of_append
    rw [List.isChain_cons_cons] at h2
    obtain ⟨⟨-, u, u1, u2⟩, -⟩ := h2
    rw [g1, Option.some.injEq] at u1
    subst u1
    exact hx (by rw [← g2, u2]; exact List.getLast_mem _)
  obtain ⟨f', a1, -, -, -, -, a2, -⟩ := h.old hx hxl f1
  obtain ⟨g', b1, -, -, -, -, -, b2⟩ := h.old hy hyl g1
  exact ⟨⟨f', a1, (a2 hxa).trans f2⟩, g', b1, (b2 hye).trans g2⟩

theorem Ins.chain_old (h : Ins eps pos n Q C s v k A M B a e fa fs fe x0) {l : List ℕ} (hl : ∀ x ∈ l, x ∉ M ∧ x < s.top)
    (hc : List.IsChain (Link s.heap) l) : List.IsChain (Link (nx eps pos s v a M e fa fs fe).heap) l := by
  induction l with
  | nil => exact .nil
  | cons x l ih =>
    cases l with
    | nil => exact List.isChain_singleton x
    | cons y l =>
      rw [List.isChain_cons_cons] at hc ⊢
      exact ⟨h.link_old (hl x (by simp)).1 (hl y (by simp)).1 (hl x (by simp)).2 (hl y (by simp)).2 hc.1,
        ih (fun z hz => hl z (by simp [hz])) hc.2⟩

theorem Ins.other (h : Ins eps pos n Q C s v k A M B a e fa fs fe x0) {i : Fin 4} (hi : i ≠ k + 1) :
    ∀ x ∈ C i, x ∉ M ∧ x < s.top :=
  fun x hx => ⟨fun hm => h.inv.disj i (k + 1) hi x hx (h.mlt x hm).1, h.inv.lt i x hx⟩

theorem Ins.abMem (h : Ins eps pos n Q C s v k A M B a e fa fs fe x0) {x : ℕ} (hx : x ∈ A ++ B) :
    x ∈ C (k + 1) ∧ x ∉ M ∧ x < s.top := by
  have hm : x ∈ C (k + 1) := by rw [h.run.split]; simp only [List.mem_append] at hx ⊢; tauto
  refine ⟨hm, ?_, h.inv.lt _ x hm⟩
  rcases List.mem_append.mp hx with h1 | h1
  · exact h.cnd.1 x h1
  · exact h.cnd.2.1 x h1

/-- The new chain with its neighbours. -/
theorem Ins.newLine (h : Ins eps pos n Q C s v k A M B a e fa fs fe x0) :
    List.IsChain (Link (nx eps pos s v a M e fa fs fe).heap) (C k ++ (A ++ s.top :: (s.top + 1) :: B) ++ C (k + 1 + 1)) := by
  obtain ⟨d1, d2, d3, d4, d5, d6⟩ := four k
  obtain ⟨A', hA'⟩ := h.run.before
  obtain ⟨B', hB'⟩ := h.run.after
  have hline := (h.inv.link k).append_overlap (h.inv.link (k + 1)) (h.inv.ne _)
  rw [h.run.split] at hline
  have e1 : C k ++ (A ++ M ++ B) ++ C (k + 1 + 1) = (C k ++ A) ++ (M ++ (B ++ C (k + 1 + 1))) := by simp
  rw [e1] at hline
  have c1 := h.chain_old (l := C k ++ A) (fun x hx => by
    rcases List.mem_append.mp hx with h1 | h1
    · exact h.other d1 x h1
    · exact (h.abMem (List.mem_append.mpr (.inl h1))).2) hline.left_of_append
  have c2 := h.chain_old (l := B ++ C (k + 1 + 1)) (fun x hx => by
    rcases List.mem_append.mp hx with h1 | h1
    · exact (h.abMem (List.mem_append.mpr (.inr h1))).2
    · exact h.other (Ne.symm d4) x h1) hline.right_of_append.right_of_append
  have e2 : C k ++ (A ++ s.top :: (s.top + 1) :: B) ++ C (k + 1 + 1) =
      (C k ++ A) ++ ([s.top, s.top + 1] ++ (B ++ C (k + 1 + 1))) := by simp
  rw [e2, hA', hB'] at *
  have l1 : Link (nx eps pos s v a M e fa fs fe).heap a s.top := ⟨⟨_, h.heap_a, rfl⟩, _, h.heap_n1, rfl⟩
  have l2 : Link (nx eps pos s v a M e fa fs fe).heap s.top (s.top + 1) := ⟨⟨_, h.heap_n1, rfl⟩, _, h.heap_n2, rfl⟩
  have l3 : Link (nx eps pos s v a M e fa fs fe).heap (s.top + 1) e := ⟨⟨_, h.heap_n2, rfl⟩, _, h.heap_e, rfl⟩
  have c3 : List.IsChain (Link (nx eps pos s v a M e fa fs fe).heap) ([a] ++ ([s.top, s.top + 1] ++ e :: B')) := by
    simp only [List.cons_append, List.nil_append, List.isChain_cons_cons]
    exact ⟨l1, l2, l3, c2⟩
  have := c1.append_overlap c3 (by simp)
  rwa [List.append_assoc] at this ⊢

/-- Which facet a vertex sees after the insertion. -/
theorem Ins.see_cases (h : Ins eps pos n Q C s v k A M B a e fa fs fe x0) (w : ℕ) :
    ((∃ y ∈ M, s.see w = some y) ∧ w ∈ pts s.heap M ∧
      (nx eps pos s v a M e fa fs fe).see w =
        (if visible eps pos ⟨fs.p1, v, 0, 0, none, []⟩ w then some s.top
         else if visible eps pos ⟨v, fe.p1, 0, 0, none, []⟩ w then some (s.top + 1) else none)) ∨
    ((∀ y ∈ M, s.see w ≠ some y) ∧ w ∉ pts s.heap M ∧ w ≠ v ∧ (nx eps pos s v a M e fa fs fe).see w = s.see w) := by
  have hiff : w ∈ pts s.heap M ↔ ∃ y ∈ M, s.see w = some y := by
    rw [mem_pts]
    constructor
    · rintro ⟨i, hi, f, h1, h2⟩
      exact ⟨i, hi, h.inv.seen (k + 1) i (h.mlt i hi).1 f h1 w h2⟩
    · rintro ⟨y, hy, h1⟩
      obtain ⟨-, i, -, -, f, h2, -, h3⟩ := h.inv.see w y h1
      exact ⟨y, hy, f, h2, h3⟩
  by_cases hw : w ∈ pts s.heap M
  · left
    refine ⟨hiff.mp hw, hw, ?_⟩
    simp only [nx, redistribute]
    rw [if_pos hw]
  · right
    have hwv : w ≠ v := by
      rintro rfl
      exact hw (hiff.mpr ⟨x0, h.mem, h.see⟩)
    refine ⟨fun y hy hh => hw (hiff.mpr ⟨y, hy, hh⟩), hw, hwv, ?_⟩
    simp only [nx, redistribute]
    rw [if_neg hw, Function.update_of_ne hwv]

theorem Ins.see_none (h : Ins eps pos n Q C s v k A M B a e fa fs fe x0) {w : ℕ} (hw : s.see w = none) :
    (nx eps pos s v a M e fa fs fe).see w = none := by
  rcases h.see_cases w with ⟨⟨y, -, h1⟩, -⟩ | ⟨-, -, -, h1⟩
  · rw [hw] at h1; cases h1
  · rw [h1, hw]

variable (heps : 0 ≤ eps)
include heps

theorem Ins.see_v (h : Ins eps pos n Q C s v k A M B a e fa fs fe x0) : (nx eps pos s v a M e fa fs fe).see v = none := by
  rcases h.see_cases v with ⟨-, -, h1⟩ | ⟨-, -, h1, -⟩
  · rw [h1, if_neg, if_neg]
    · rw [not_visible (le_trans _ heps)]; · simp
      unfold triArea; ring_nf; exact le_refl _
    · rw [not_visible (le_trans _ heps)]; · simp
      unfold triArea; ring_nf; exact le_refl _
  · exact absurd rfl h1

/-- The vertices at the ends of the run. -/
theorem Ins.ends (h : Ins eps pos n Q C s v k A M B a e fa fs fe x0) :
    Path s.heap (Q (k + 1)) A fs.p1 ∧ Path s.heap fs.p1 M fe.p1 ∧ Path s.heap fe.p1 B (Q (k + 1 + 1)) := by
  have hp := h.inv.path (k + 1)
  have hp2 := h.inv.path (k + 1 + 1)
  rw [h.run.split, path_append] at hp
  obtain ⟨m, h1, h2⟩ := hp
  rw [path_append] at h1
  obtain ⟨m', h3, h4⟩ := h1
  have e1 : m' = fs.p1 := by
    obtain ⟨x, N, hx⟩ := List.exists_cons_of_ne_nil h.run.vis.ne
    have hs := h.hs
    simp only [hx] at h4 hs
    obtain ⟨f, f1, f2, -⟩ := h4
    rw [List.head_cons, f1, Option.some.injEq] at hs
    rw [← f2, hs]
  have e2 : m = fe.p1 := by
    obtain ⟨B', hB'⟩ := h.run.after
    have : Path s.heap m (B ++ C (k + 1 + 1)) (Q (k + 1 + 1 + 1)) := path_append.mpr ⟨_, h2, hp2⟩
    rw [hB'] at this
    obtain ⟨f, f1, f2, -⟩ := this
    rw [h.he, Option.some.injEq] at f1
    rw [← f2, f1]
  subst e1 e2
  exact ⟨h3, h4, h2⟩

/-- Inserting a vertex keeps the invariant. -/
theorem Ins.next (h : Ins eps pos n Q C s v k A M B a e fa fs fe x0) :
    Inv eps pos n Q (newC C s.top k A B) (nx eps pos s v a M e fa fs fe) := by
  have hI := h.inv
  obtain ⟨d1, d2, d3, d4, d5, d6⟩ := four k
  have hself : newC C s.top k A B (k + 1) = A ++ s.top :: (s.top + 1) :: B := by unfold newC; rw [Function.update_self]
  have hoth : ∀ i, i ≠ k + 1 → newC C s.top k A B i = C i := fun i hi => by unfold newC; rw [Function.update_of_ne hi]
  have hmem : ∀ i x, x ∈ newC C s.top k A B i → (i = k + 1 ∧ (x = s.top ∨ x = s.top + 1)) ∨ (x ∈ C i ∧ x ∉ M ∧ x < s.top) := by
    intro i x hx
    by_cases hi : i = k + 1
    · subst hi
      rw [hself] at hx
      simp only [List.mem_append, List.mem_cons] at hx
      by_cases h1 : x = s.top
      · exact .inl ⟨rfl, .inl h1⟩
      by_cases h2 : x = s.top + 1
      · exact .inl ⟨rfl, .inr h2⟩
      exact .inr (h.abMem (by simp only [List.mem_append]; tauto))
    · rw [hoth i hi] at hx
      exact .inr ⟨hx, h.other hi x hx⟩
  have hin : ∀ i x, x ∈ C i → x ∉ M → x ∈ newC C s.top k A B i := by
    intro i x hx hM
    by_cases hi : i = k + 1
    · subst hi
      rw [hself]
      rw [h.run.split] at hx
      simp only [List.mem_append, List.mem_cons] at hx ⊢
      tauto
    · rw [hoth i hi]; exact hx
  have hn1 : s.top ∈ newC C s.top k A B (k + 1) := by rw [hself]; simp
  have hn2 : s.top + 1 ∈ newC C s.top k A B (k + 1) := by rw [hself]; simp
  have hvb := hI.see v x0 h.see
  obtain ⟨hvn, -⟩ := hvb
  have hbox := h.run.corner.1
  have hfs := hI.fac (k + 1) _ (h.mlt _ (List.head_mem h.run.vis.ne)).1 fs h.hs
  have hfe : fe.p1 < n ∧ InBox pos Q (k + 1) fe.p1 ∧ s.see fe.p1 = none := by
    obtain ⟨m, -⟩ : ∃ m, M = m := ⟨M, rfl⟩
    have hl : M.getLast h.run.vis.ne ∈ C (k + 1) := (h.mlt _ (List.getLast_mem _)).1
    have hp := (h.ends heps).2.1
    rw [← List.dropLast_append_getLast (l := M) h.run.vis.ne, path_append] at hp
    obtain ⟨u, -, f, f1, f2, f3⟩ := hp
    have f4 : f.p2 = fe.p1 := f3
    have := hI.fac (k + 1) _ hl f f1
    rw [f4] at this
    exact ⟨this.2.1, this.2.2.2.1, this.2.2.2.2.2⟩
  have hseev := h.see_v heps
  refine ⟨?_, ?_, ?_, ?_, ?_, ?_, ?_, ?_, ?_, ?_, ?_⟩
  · intro i
    by_cases hi : i = k + 1
    · subst hi; rw [hself]; simp
    · rw [hoth i hi]; exact hI.ne i
  · intro i
    by_cases hi : i = k + 1
    · subst hi
      rw [hself]
      have hAB := h.cnd.2.2
      have : (s.top :: (s.top + 1) :: (A ++ B)).Nodup := by
        rw [List.nodup_cons, List.nodup_cons]
        refine ⟨?_, ?_, hAB⟩
        · intro hh
          rcases List.mem_cons.mp hh with hh | hh
          · omega
          · exact absurd (h.abMem hh).2.2 (by omega)
        · intro hh; exact absurd (h.abMem hh).2.2 (by omega)
      refine (List.Perm.nodup_iff ?_).mpr this
      exact List.perm_middle.trans (List.Perm.cons _ List.perm_middle)
    · rw [hoth i hi]; exact hI.nodup i
  · intro i j hij x hx hx'
    rcases hmem i x hx with ⟨rfl, h1⟩ | ⟨h1, h2, h3⟩
    · rcases hmem j x hx' with ⟨rfl, h4⟩ | ⟨h4, h5, h6⟩
      · exact hij rfl
      · rcases h1 with rfl | rfl <;> omega
    · rcases hmem j x hx' with ⟨rfl, h4⟩ | ⟨h4, h5, h6⟩
      · rcases h4 with rfl | rfl <;> omega
      · exact hI.disj i j hij x h1 h4
  · intro i x hx
    show x < s.top + 2
    rcases hmem i x hx with ⟨-, rfl | rfl⟩ | ⟨-, -, h1⟩ <;> omega
  · intro i
    have hl := h.newLine
    by_cases hi : i = k + 1
    · subst hi
      rw [hself, hoth _ (Ne.symm d4)]
      rw [List.append_assoc] at hl
      exact hl.right_of_append
    · by_cases hi' : i = k
      · subst hi'
        rw [hself, hoth _ d1]
        exact hl.left_of_append
      · have hi2 : i + 1 ≠ k + 1 := by
          intro hh; exact hi' (succ4 i k hh)
        rw [hoth i hi, hoth _ hi2]
        refine h.chain_old (fun x hx => ?_) (hI.link i)
        rcases List.mem_append.mp hx with h1 | h1
        · exact h.other hi x h1
        · exact h.other hi2 x h1
  · intro i
    have hcg : ∀ l : List ℕ, (∀ x ∈ l, x ∉ M ∧ x < s.top) → ∀ x ∈ l, ∀ f, s.heap x = some f →
        ∃ f', (nx eps pos s v a M e fa fs fe).heap x = some f' ∧ f'.p1 = f.p1 ∧ f'.p2 = f.p2 := by
      intro l hl x hx f hf
      obtain ⟨f', a1, a2, a3, -⟩ := h.old (hl x hx).1 (hl x hx).2 hf
      exact ⟨f', a1, a2, a3⟩
    by_cases hi : i = k + 1
    · subst hi
      rw [hself]
      obtain ⟨e1, e2, e3⟩ := h.ends heps
      rw [path_append]
      refine ⟨fs.p1, path_congr e1 (hcg A fun x hx => (h.abMem (List.mem_append.mpr (.inl hx))).2), _, h.heap_n1, rfl, _, h.heap_n2, rfl, ?_⟩
      exact path_congr e3 (hcg B fun x hx => (h.abMem (List.mem_append.mpr (.inr hx))).2)
    · rw [hoth i hi]
      exact path_congr (hI.path i) (hcg _ (h.other hi))
  · intro i x hx g hg
    rcases hmem i x hx with ⟨rfl, rfl | rfl⟩ | ⟨h1, h2, h3⟩
    · rw [h.heap_n1, Option.some.injEq] at hg
      subst hg
      exact ⟨hfs.1, hvn, hfs.2.2.1, hbox, h.see_none hfs.2.2.2.2.1, hseev⟩
    · rw [h.heap_n2, Option.some.injEq] at hg
      subst hg
      exact ⟨hvn, hfe.1, hbox, hfe.2.1, hseev, h.see_none hfe.2.2⟩
    · obtain ⟨-, g0, b1, b2, b3, -⟩ := h.back_old (by omega) (by omega) hg
      have := hI.fac i x h1 g0 b1
      rw [← b2, ← b3] at this
      exact ⟨this.1, this.2.1, this.2.2.1, this.2.2.2.1, h.see_none this.2.2.2.2.1, h.see_none this.2.2.2.2.2⟩
  · intro w x hw
    rcases h.see_cases w with ⟨⟨y, hy, h1⟩, h2, h3⟩ | ⟨h1, h2, h3, h4⟩
    · obtain ⟨hwn, i, hi, hc, -⟩ := hI.see w y h1
      have hik : i = k + 1 := by
        by_contra hne
        exact hI.disj i (k + 1) hne y hi (h.mlt y hy).1
      subst hik
      refine ⟨hwn, k + 1, ?_⟩
      rw [h3] at hw
      by_cases v1 : visible eps pos ⟨fs.p1, v, 0, 0, none, []⟩ w
      · rw [if_pos v1, Option.some.injEq] at hw
        subst hw
        refine ⟨hn1, hc, _, h.heap_n1, v1, ?_⟩
        simp only [List.mem_filter]
        exact ⟨h2, v1⟩
      · rw [if_neg v1] at hw
        by_cases v2 : visible eps pos ⟨v, fe.p1, 0, 0, none, []⟩ w
        · rw [if_pos v2, Option.some.injEq] at hw
          subst hw
          refine ⟨hn2, hc, _, h.heap_n2, v2, ?_⟩
          simp only [List.mem_filter]
          exact ⟨h2, by simp only [v2, Bool.and_true, Bool.not_eq_true']; simpa using v1⟩
        · rw [if_neg v2] at hw; cases hw
    · rw [h4] at hw
      obtain ⟨hwn, i, hi, hc, f, f1, f2, f3⟩ := hI.see w x hw
      have hxM : x ∉ M := fun hh => h1 x hh hw
      obtain ⟨f', g1, g2, g3, g4, -⟩ := h.old hxM (hI.lt i x hi) f1
      refine ⟨hwn, i, hin i x hi hxM, hc, f', g1, ?_, by rw [g4]; exact f3⟩
      unfold visible at f2 ⊢
      rw [g2, g3]; exact f2
  · intro i x hx g hg w hw
    rcases hmem i x hx with ⟨rfl, rfl | rfl⟩ | ⟨h1, h2, h3⟩
    · rw [h.heap_n1, Option.some.injEq] at hg
      subst hg
      simp only [List.mem_filter] at hw
      rcases h.see_cases w with ⟨-, -, h3⟩ | ⟨-, h2, -⟩
      · rw [h3, if_pos hw.2]
      · exact absurd hw.1 h2
    · rw [h.heap_n2, Option.some.injEq] at hg
      subst hg
      simp only [List.mem_filter, Bool.and_eq_true, Bool.not_eq_true'] at hw
      rcases h.see_cases w with ⟨-, -, h3⟩ | ⟨-, h2, -⟩
      · rw [h3, if_neg (by rw [hw.2.1]; simp), if_pos hw.2.2]
      · exact absurd hw.1 h2
    · obtain ⟨-, g0, b1, -, -, b4, -⟩ := h.back_old (by omega) (by omega) hg
      rw [b4] at hw
      have hs := hI.seen i x h1 g0 b1 w hw
      rcases h.see_cases w with ⟨⟨y, hy, c1⟩, -⟩ | ⟨-, -, -, h4⟩
      · rw [hs, Option.some.injEq] at c1
        rw [← c1] at hy
        exact absurd hy h2
      · rw [h4, hs]
  · intro x g hg
    by_cases h1 : x = s.top
    · subst h1
      rw [h.heap_n1, Option.some.injEq] at hg
      subst hg; rfl
    by_cases h2 : x = s.top + 1
    · subst h2
      rw [h.heap_n2, Option.some.injEq] at hg
      subst hg; rfl
    obtain ⟨-, g0, b1, -, -, -, b5⟩ := h.back_old h1 h2 hg
    rw [b5]; exact hI.tok x g0 b1
  · exact ⟨k + 1, hn1⟩

end

end Verif.RandInc
