import Verif.DynKd.Model
import Verif.BatchKd.KnnLemmas
import Mathlib.Data.Multiset.Filter

set_option linter.unusedSectionVars false
set_option linter.unusedVariables false

/-! Lemmas on boxes, building, inserting and erasing of the dynamic kd-tree. -/

namespace Verif.DynKd

open Verif BatchKd

variable {α K : Type} {d : ℕ}

/-- No two listed positions agree in a dimension and also in the next one. -/
def NoDouble (M : Multiset (Point K d)) : Prop :=
  ∀ p q, ({p, q} : Multiset (Point K d)) ≤ M → ∀ i, p i = q i → p (next i) ≠ q (next i)

theorem NoDouble.mono {M N : Multiset (Point K d)} (h : NoDouble M) (hl : N ≤ M) : NoDouble N :=
  fun p q hpq => h p q (hpq.trans hl)

/-- Points whose flag is cleared. -/
def Node.dead : Node α K d → List α
  | .data items _ _ => (items.filter fun x => !x.2).map fun x => x.1
  | .node _ _ _ _ l r => l.dead ++ r.dead

section
variable [Field K] [LinearOrder K]

/-! ### Boxes -/

theorem update_mem_self (b : Box K d) (p : Point K d) (h : ∀ i, b.lo i ≤ b.hi i) : (update b p).Mem p := fun i =>
  ⟨min_le_left _ _, le_max_left _ _⟩

/-- `b` is part of `c`. -/
def Sub (b c : Box K d) : Prop := ∀ i, c.lo i ≤ b.lo i ∧ b.hi i ≤ c.hi i

theorem Sub.mem {b c : Box K d} (h : Sub b c) {p : Point K d} (hp : b.Mem p) : c.Mem p := fun i =>
  ⟨(h i).1.trans (hp i).1, (hp i).2.trans (h i).2⟩

theorem Sub.trans {a b c : Box K d} (h : Sub a b) (h' : Sub b c) : Sub a c := fun i =>
  ⟨(h' i).1.trans (h i).1, (h i).2.trans (h' i).2⟩

theorem Sub.refl (b : Box K d) : Sub b b := fun _ => ⟨le_rfl, le_rfl⟩

theorem sub_update (b : Box K d) (p : Point K d) : Sub b (update b p) := fun _ => ⟨min_le_right _ _, le_max_right _ _⟩

theorem update_sub {b c : Box K d} {p : Point K d} (h : Sub b c) (hp : c.Mem p) : Sub (update b p) c := fun i =>
  ⟨le_min (hp i).1 (h i).1, max_le (hp i).2 (h i).2⟩

variable {pos : α → Point K d}

theorem fold_sub (L : List α) (b : Box K d) : Sub b (L.foldl (fun b x => update b (pos x)) b) := by
  induction L generalizing b with
  | nil => exact Sub.refl b
  | cons x L ih => exact (sub_update b _).trans (ih _)

theorem fold_mem {L : List α} {b : Box K d} {x : α} (hx : x ∈ L) :
    (L.foldl (fun b x => update b (pos x)) b).Mem (pos x) := by
  induction L generalizing b with
  | nil => simp at hx
  | cons y L ih =>
    rcases List.mem_cons.1 hx with rfl | hx
    · exact (fold_sub L _).mem fun i => ⟨min_le_left _ _, le_max_left _ _⟩
    · exact ih hx

theorem fold_le {L : List α} {b c : Box K d} (hb : Sub b c) (h : ∀ x ∈ L, c.Mem (pos x)) :
    Sub (L.foldl (fun b x => update b (pos x)) b) c := by
  induction L generalizing b with
  | nil => exact hb
  | cons y L ih => exact ih (update_sub hb (h y (by simp))) fun x hx => h x (by simp [hx])

theorem boxOf_mem {L : List α} {x : α} (hx : x ∈ L) : (boxOf pos L).Mem (pos x) := by
  cases L with
  | nil => simp at hx
  | cons y L => exact fold_mem hx

theorem boxOf_le {L : List α} (hL : L ≠ []) {c : Box K d} (h : ∀ x ∈ L, c.Mem (pos x)) : Sub (boxOf pos L) c := by
  cases L with
  | nil => exact absurd rfl hL
  | cons y L => exact fold_le (fun i => h y (by simp) i) h

/-- The extreme coordinates of a box are taken by points. -/
theorem fold_lo (L : List α) (b : Box K d) (i : Fin d) :
    ((L.foldl (fun b x => update b (pos x)) b).lo i = b.lo i ∨
      ∃ x ∈ L, pos x i = (L.foldl (fun b x => update b (pos x)) b).lo i) ∧
    ((L.foldl (fun b x => update b (pos x)) b).hi i = b.hi i ∨
      ∃ x ∈ L, pos x i = (L.foldl (fun b x => update b (pos x)) b).hi i) := by
  induction L generalizing b with
  | nil => exact ⟨.inl rfl, .inl rfl⟩
  | cons y L ih =>
    obtain ⟨h1, h2⟩ := ih (update b (pos y))
    constructor
    · rcases h1 with h1 | ⟨x, hx, h1⟩
      · rcases min_choice (pos y i) (b.lo i) with hm | hm
        · exact .inr ⟨y, by simp, by rw [List.foldl_cons, h1]; exact hm.symm⟩
        · exact .inl (by rw [List.foldl_cons, h1]; exact hm)
      · exact .inr ⟨x, by simp [hx], h1⟩
    · rcases h2 with h2 | ⟨x, hx, h2⟩
      · rcases max_choice (pos y i) (b.hi i) with hm | hm
        · exact .inr ⟨y, by simp, by rw [List.foldl_cons, h2]; exact hm.symm⟩
        · exact .inl (by rw [List.foldl_cons, h2]; exact hm)
      · exact .inr ⟨x, by simp [hx], h2⟩

theorem boxOf_taken {L : List α} (hL : L ≠ []) (i : Fin d) :
    (∃ x ∈ L, pos x i = (boxOf pos L).lo i) ∧ ∃ x ∈ L, pos x i = (boxOf pos L).hi i := by
  cases L with
  | nil => exact absurd rfl hL
  | cons y L =>
    obtain ⟨h1, h2⟩ := fold_lo (pos := pos) (y :: L) ⟨pos y, pos y⟩ i
    exact ⟨h1.elim (fun h => ⟨y, by simp, h.symm⟩) id, h2.elim (fun h => ⟨y, by simp, h.symm⟩) id⟩

/-! ### Invariants -/

/-- Boxes contain the boxes of the children and the points. -/
def BoxOK (pos : α → Point K d) : Node α K d → Prop
  | .data items box _ => (∀ x ∈ items, box.Mem (pos x.1)) ∧ ∀ i, box.lo i ≤ box.hi i
  | .node _ _ box _ l r => BoxOK pos l ∧ BoxOK pos r ∧ Sub l.box box ∧ Sub r.box box

/-- The counters agree with the present points. -/
def Counted : Node α K d → Prop
  | .data items box n => n = ((Node.data items box n).live.length : ℤ)
  | .node dim split box n l r => Counted l ∧ Counted r ∧ n = ((l.live ++ r.live).length : ℤ)

/-- Present points are on the side where the split value sends them. -/
def Routed (pos : α → Point K d) : Node α K d → Prop
  | .data _ _ _ => True
  | .node dim split _ _ l r =>
    (∀ x ∈ l.live, pos x dim < split) ∧ (∀ x ∈ r.live, split ≤ pos x dim) ∧ Routed pos l ∧ Routed pos r

theorem Counted.size {t : Node α K d} (h : Counted t) : t.size = t.live.length := by
  cases t with
  | data items box n => exact h
  | node dim split box n l r => exact h.2.2

theorem BoxOK.le {t : Node α K d} (h : BoxOK pos t) : ∀ i, t.box.lo i ≤ t.box.hi i := by
  induction t with
  | data items box n => exact h.2
  | node dim split box n l r ihl ihr =>
    obtain ⟨h1, h2, h3, h4⟩ := h
    exact fun i => (h3 i).1.trans ((ihl h1 i).trans (h3 i).2)

theorem BoxOK.mem {t : Node α K d} (h : BoxOK pos t) : ∀ x ∈ t.live, t.box.Mem (pos x) := by
  induction t with
  | data items box n =>
    intro x hx
    unfold Node.live at hx
    obtain ⟨y, hy, rfl⟩ := List.mem_map.1 hx
    exact h.1 y (List.mem_filter.1 hy).1
  | node dim split box n l r ihl ihr =>
    obtain ⟨h1, h2, h3, h4⟩ := h
    intro x hx
    unfold Node.live at hx
    rcases List.mem_append.1 hx with hx | hx
    · exact h3.mem (ihl h1 x hx)
    · exact h4.mem (ihr h2 x hx)

theorem boxContains_iff {b : Box K d} {p : Point K d} : boxContains b p = true ↔ b.Mem p := by
  unfold boxContains Box.Mem
  simp [not_lt]

theorem BoxOK.check {t : Node α K d} (h : BoxOK pos t) : check pos t = true := by
  induction t with
  | data items box n =>
    unfold DynKd.check
    rw [List.all_eq_true]
    exact fun x hx => boxContains_iff.2 (h.1 x hx)
  | node dim split box n l r ihl ihr =>
    obtain ⟨h1, h2, h3, h4⟩ := h
    unfold DynKd.check
    rw [ihl h1, ihr h2, boxContains_iff.2 (h3.mem fun i => ⟨le_rfl, h1.le i⟩),
      boxContains_iff.2 (h3.mem fun i => ⟨h1.le i, le_rfl⟩)]
    rfl

theorem live_map_true (L : List α) (box : Box K d) (n : ℤ) :
    (Node.data (L.map fun x => (x, true)) box n).live = L := by
  unfold Node.live
  induction L with
  | nil => rfl
  | cons x L ih => simp only [List.map_cons, List.filter_cons, if_true, ih]

theorem dead_map_true (L : List α) (box : Box K d) (n : ℤ) :
    (Node.data (L.map fun x => (x, true)) box n).dead = [] := by
  unfold Node.dead
  induction L with
  | nil => rfl
  | cons x L ih => simp [List.filter_cons]

theorem leaf_spec (L : List α) (hL : L ≠ []) :
    BoxOK pos (leaf pos L) ∧ Counted (leaf pos L) ∧ (leaf pos L).live = L ∧ (leaf pos L).dead = [] ∧
      Routed pos (leaf pos L) ∧ (leaf pos L).box = boxOf pos L := by
  refine ⟨⟨?_, ?_⟩, ?_, live_map_true _ _ _, dead_map_true _ _ _, trivial, rfl⟩
  · intro x hx
    obtain ⟨y, hy, rfl⟩ := List.mem_map.1 hx
    exact boxOf_mem hy
  · intro i
    obtain ⟨⟨x, hx, hxi⟩, -⟩ := boxOf_taken (pos := pos) hL i
    rw [← hxi]
    exact (boxOf_mem hx i).2
  · show (L.length : ℤ) = _
    rw [live_map_true]

/-! ### Building -/

variable [IsStrictOrderedRing K] {thr : ℕ} {part : Fin d → K → List α → List α} {nth : Fin d → ℕ → List α → List α}

theorem coe_map_le {L M : List α} (h : L.Subperm M) : ((L.map pos : List _) : Multiset (Point K d)) ≤ (M.map pos : List _) :=
  Multiset.map_le_map (f := pos) (Multiset.coe_le.2 h)

theorem nodouble_pair {L A B : List α} (hp : (A ++ B).Perm L) {x y : α} (hx : x ∈ A) (hy : y ∈ B) :
    ({pos x, pos y} : Multiset (Point K d)) ≤ ((L.map pos : List _) : Multiset (Point K d)) := by
  have h1 : [x].Sublist A := List.singleton_sublist.2 hx
  have h2 : [y].Sublist B := List.singleton_sublist.2 hy
  exact coe_map_le (L := [x, y]) ((h1.append h2).subperm.trans hp.subperm)

/-- What building and inserting give. -/
structure Made (pos : α → Point K d) (t : Node α K d) (L : List α) : Prop where
  box : BoxOK pos t
  counted : Counted t
  live : t.live.Perm L
  dead : t.dead = []
  routed : NoDouble ((L.map pos : List _) : Multiset (Point K d)) → Routed pos t
  inbox : t.box = boxOf pos L

theorem made_node {dim : Fin d} {split : K} {l r : Node α K d} {A B L : List α} (hl : Made pos l A) (hr : Made pos r B)
    (hA : A ≠ []) (hB : B ≠ []) (hp : (A ++ B).Perm L)
    (hs : NoDouble ((L.map pos : List _) : Multiset (Point K d)) →
      (∀ x ∈ A, pos x dim < split) ∧ ∀ x ∈ B, split ≤ pos x dim) :
    Made pos (.node dim split (boxOf pos L) L.length l r) L := by
  have hpl := (hl.live.append hr.live).trans hp
  have hmem : ∀ x, x ∈ A ∨ x ∈ B → (boxOf pos L).Mem (pos x) := fun x hx =>
    boxOf_mem (hp.subset (List.mem_append.2 hx))
  refine ⟨⟨hl.box, hr.box, ?_, ?_⟩, ⟨hl.counted, hr.counted, ?_⟩, hpl, ?_, fun hN => ?_, rfl⟩
  · rw [hl.inbox]
    exact boxOf_le hA fun x hx => hmem x (.inl hx)
  · rw [hr.inbox]
    exact boxOf_le hB fun x hx => hmem x (.inr hx)
  · rw [hpl.length_eq]
  · show l.dead ++ r.dead = []
    rw [hl.dead, hr.dead]
    rfl
  · obtain ⟨h1, h2⟩ := hs hN
    refine ⟨fun x hx => h1 x (hl.live.subset hx), fun x hx => h2 x (hr.live.subset hx), hl.routed (hN.mono ?_),
      hr.routed (hN.mono ?_)⟩
    · exact coe_map_le ((List.sublist_append_left A B).subperm.trans hp.subperm)
    · exact coe_map_le ((List.sublist_append_right A B).subperm.trans hp.subperm)

theorem build_ok (hthr : 2 ≤ thr) (hpart : PartItems part pos) (hnth : NthItems nth pos) :
    ∀ (fuel : ℕ) (dim : Fin d) (L : List α), L.length ≤ fuel → 2 ≤ L.length →
      ∃ t, build pos thr part nth fuel dim L = .ok t ∧ Made pos t L ∧ ∃ dim split box n l r, t = .node dim split box n l r := by
  intro fuel
  induction fuel with
  | zero => intro dim L h1 h2; omega
  | succ fuel ih =>
    intro dim L h1 h2
    have hne : L ≠ [] := by rintro rfl; simp at h2
    -- children
    have hchild : ∀ (nd : Fin d) (C : List α), C ≠ [] → C.length < L.length →
        ∃ t, (if C.length < thr then Except.ok (leaf pos C) else build pos thr part nth fuel nd C) = .ok t ∧
          Made pos t C := by
      intro nd C hC hlt
      by_cases ht : C.length < thr
      · rw [if_pos ht]
        obtain ⟨a, b, c, e, f, g⟩ := leaf_spec (pos := pos) C hC
        exact ⟨_, rfl, a, b, by rw [c], e, fun _ => f, g⟩
      · rw [if_neg ht]
        obtain ⟨t, e1, e2, -⟩ := ih nd C (by omega) (by omega)
        exact ⟨t, e1, e2⟩
    rw [build, if_neg (by omega)]
    obtain ⟨pp, ptake, pdrop⟩ := hpart dim (((boxOf pos L).hi dim + (boxOf pos L).lo dim) / 2) L
    set mid := ((boxOf pos L).hi dim + (boxOf pos L).lo dim) / 2 with hmid
    set P := part dim mid L with hP
    set m := L.countP (fun x => decide (pos x dim < mid)) with hm
    have hPl := pp.length_eq
    have hmle : m ≤ L.length := List.countP_le_length
    show ∃ t, (if m = 0 ∨ m = L.length then _ else _) = Except.ok t ∧ _
    by_cases hcase : m = 0 ∨ m = L.length
    · rw [if_pos hcase]
      -- all points agree in this dimension
      have hagree : ∀ x ∈ L, ∀ y ∈ L, pos x dim = pos y dim := by
        obtain ⟨⟨a, ha, hlo⟩, ⟨b, hb, hhi⟩⟩ := boxOf_taken (pos := pos) hne dim
        have hab : (boxOf pos L).hi dim ≤ (boxOf pos L).lo dim := by
          rcases hcase with h0 | h0
          · have := List.countP_eq_zero.1 (hm.symm.trans h0) a ha
            simp only [decide_eq_true_eq, not_lt] at this
            rw [hlo, hmid, div_le_iff₀ (by norm_num)] at this
            linarith
          · have hall := List.countP_eq_length.1 (hm.symm.trans h0) b hb
            simp only [decide_eq_true_eq] at hall
            rw [hhi, hmid, lt_div_iff₀ (by norm_num)] at hall
            linarith
        have hval : ∀ x ∈ L, pos x dim = (boxOf pos L).lo dim := fun x hx =>
          le_antisymm ((boxOf_mem hx dim).2.trans hab) (boxOf_mem hx dim).1
        intro x hx y hy
        rw [hval x hx, hval y hy]
      have hh : L.length / 2 < P.length := by omega
      obtain ⟨qp, qs⟩ := hnth (next dim) (L.length / 2) P hh
      set Q := nth (next dim) (L.length / 2) P with hQ
      have hQl := qp.length_eq
      obtain ⟨c, hc⟩ : ∃ c, Q[L.length / 2]? = some c := ⟨_, List.getElem?_eq_getElem (by omega)⟩
      obtain ⟨qt, qd⟩ := qs c hc
      have hcmem : c ∈ Q.drop (L.length / 2) := by
        rw [List.mem_iff_getElem?]
        exact ⟨0, by rw [List.getElem?_drop]; exact hc⟩
      have hpp : (Q.take (L.length / 2) ++ Q.drop (L.length / 2)).Perm L := by
        rw [List.take_append_drop]
        exact qp.trans pp
      have hA : Q.take (L.length / 2) ≠ [] := by
        intro e
        have := congrArg List.length e
        rw [List.length_take, List.length_nil] at this
        omega
      have hB : Q.drop (L.length / 2) ≠ [] := List.ne_nil_of_mem hcmem
      obtain ⟨l, el, ml⟩ := hchild (next (next dim)) (Q.take (L.length / 2)) hA (by rw [List.length_take]; omega)
      obtain ⟨r, er, mr⟩ := hchild (next (next dim)) (Q.drop (L.length / 2)) hB (by rw [List.length_drop]; omega)
      refine ⟨_, ?_, made_node ml mr hA hB hpp fun hN => ⟨fun x hx => ?_, fun x hx => qd x hx⟩,
        next dim, pos c (next dim), _, _, l, r, rfl⟩
      · show (match Q[L.length / 2]? with
          | none => Except.error Err.ub
          | some c =>
            Except.bind (if (Q.take (L.length / 2)).length < thr then Except.ok (leaf pos (Q.take (L.length / 2)))
              else build pos thr part nth fuel (next (next dim)) (Q.take (L.length / 2))) fun l =>
            Except.bind (if (Q.drop (L.length / 2)).length < thr then Except.ok (leaf pos (Q.drop (L.length / 2)))
              else build pos thr part nth fuel (next (next dim)) (Q.drop (L.length / 2))) fun r =>
            Except.ok (Node.node (next dim) (pos c (next dim)) (boxOf pos L) L.length l r)) = _
        rw [hc, el, er]
        rfl
      · have h3 := hN _ _ (nodouble_pair hpp hx hcmem) dim (hagree x (hpp.subset (List.mem_append_left _ hx)) c
          (hpp.subset (List.mem_append_right _ hcmem)))
        exact lt_of_le_of_ne (qt x hx) h3
    · rw [if_neg hcase]
      have hpp : (P.take m ++ P.drop m).Perm L := by
        rw [List.take_append_drop]
        exact pp
      have hA : P.take m ≠ [] := by
        intro e
        have := congrArg List.length e
        rw [List.length_take, List.length_nil] at this
        omega
      have hB : P.drop m ≠ [] := by
        intro e
        have := congrArg List.length e
        rw [List.length_drop, List.length_nil] at this
        omega
      obtain ⟨l, el, ml⟩ := hchild (next dim) (P.take m) hA (by rw [List.length_take]; omega)
      obtain ⟨r, er, mr⟩ := hchild (next dim) (P.drop m) hB (by rw [List.length_drop]; omega)
      refine ⟨_, ?_, made_node ml mr hA hB hpp fun _ => ⟨ptake, pdrop⟩, dim, mid, _, _, l, r, rfl⟩
      show (Except.bind (if (P.take m).length < thr then Except.ok (leaf pos (P.take m))
              else build pos thr part nth fuel (next dim) (P.take m)) fun l =>
            Except.bind (if (P.drop m).length < thr then Except.ok (leaf pos (P.drop m))
              else build pos thr part nth fuel (next dim) (P.drop m)) fun r =>
            Except.ok (Node.node dim mid (boxOf pos L) L.length l r)) = _
      rw [el, er]
      rfl

/-! ### Inserting -/

theorem live_append (items : List (α × Bool)) (L : List α) (box box' : Box K d) (n n' : ℤ) :
    (Node.data (items ++ L.map fun x => (x, true)) box n).live = (Node.data items box' n').live ++ L := by
  have := live_map_true L box n
  unfold Node.live at this ⊢
  rw [List.filter_append, List.map_append, this]

theorem dead_append (items : List (α × Bool)) (L : List α) (box box' : Box K d) (n n' : ℤ) :
    (Node.data (items ++ L.map fun x => (x, true)) box n).dead = (Node.data items box' n').dead := by
  have := dead_map_true L box n
  unfold Node.dead at this ⊢
  rw [List.filter_append, List.map_append, this, List.append_nil]

/-- What an insertion does. -/
structure Ins (pos : α → Point K d) (t t' : Node α K d) (L : List α) : Prop where
  box : BoxOK pos t'
  inbox : ∀ c : Box K d, Sub t.box c → (∀ x ∈ L, c.Mem (pos x)) → Sub t'.box c
  live : t'.live.Perm (t.live ++ L)
  dead : t'.dead.Sublist t.dead
  counted : Counted t → Counted t'
  routed : NoDouble (((t.live ++ L).map pos : List _) : Multiset (Point K d)) → Routed pos t → Routed pos t'

theorem ins_data {items : List (α × Bool)} {box : Box K d} {n : ℤ} {L : List α} (hb : BoxOK pos (.data items box n)) :
    Ins pos (.data items box n)
      (.data (items ++ L.map fun x => (x, true)) (L.foldl (fun b x => update b (pos x)) box) (n + L.length)) L := by
  have hl := live_append items L (L.foldl (fun b x => update b (pos x)) box) box (n + L.length) n
  refine ⟨⟨?_, ?_⟩, ?_, ?_, ?_, ?_, fun _ _ => trivial⟩
  · intro x hx
    rcases List.mem_append.1 hx with hx | hx
    · exact (fold_sub L box).mem (hb.1 x hx)
    · obtain ⟨y, hy, rfl⟩ := List.mem_map.1 hx
      exact fold_mem hy
  · exact fun i => ((fold_sub (pos := pos) L box) i).1.trans ((hb.2 i).trans ((fold_sub (pos := pos) L box) i).2)
  · exact fun c hc hL => fold_le hc hL
  · rw [hl]
  · rw [dead_append items L _ box _ n]
  · intro hc
    show n + (L.length : ℤ) = _
    rw [hl, List.length_append]
    have : n = _ := hc
    push_cast
    omega

theorem insert_spec (hthr : 2 ≤ thr) (hpart : PartItems part pos) (hnth : NthItems nth pos) (d0 : Fin d) :
    ∀ (t : Node α K d), BoxOK pos t → ∀ L : List α,
      (∀ t', insert pos thr part nth d0 t L = .ok t' → Ins pos t t' L) ∧
      (Counted t → ∃ t', insert pos thr part nth d0 t L = .ok t') := by
  intro t
  induction t with
  | data items box n =>
    intro hb L
    by_cases h : (thr : ℤ) ≤ L.length + n
    · by_cases hn : (((Node.data items box n).live.length : ℕ) : ℤ) = n
      · have hlen : 2 ≤ (L ++ (Node.data items box n).live).length := by
          rw [List.length_append]
          omega
        obtain ⟨t', e, hm, -⟩ := build_ok (pos := pos) hthr hpart hnth _ d0 (L ++ (Node.data items box n).live) le_rfl hlen
        have he : insert pos thr part nth d0 (.data items box n) L = .ok t' := by
          rw [insert, if_pos h]
          beta_reduce
          show (if _ then _ else _) = _
          rw [if_pos hn, e]
        refine ⟨fun t2 h2 => ?_, fun _ => ⟨t', he⟩⟩
        rw [he] at h2
        cases h2
        have hp := List.perm_append_comm (l₁ := L) (l₂ := (Node.data items box n).live)
        refine ⟨hm.box, fun c hc hL => ?_, hm.live.trans hp, by rw [hm.dead]; exact List.nil_sublist _, fun _ => hm.counted,
          fun hN _ => hm.routed ?_⟩
        · rw [hm.inbox]
          refine boxOf_le (by rintro e; rw [e] at hlen; simp at hlen) fun x hx => ?_
          rcases List.mem_append.1 hx with hx | hx
          · exact hL x hx
          · exact hc.mem (hb.mem x hx)
        · exact hN.mono (coe_map_le hp.subperm)
      · have he : insert pos thr part nth d0 (.data items box n) L = .error .ub := by
          rw [insert, if_pos h]
          show (if _ then _ else _) = _
          rw [if_neg hn]
        refine ⟨fun t2 h2 => ?_, fun hc => absurd hc.symm hn⟩
        rw [he] at h2
        cases h2
    · have he : insert pos thr part nth d0 (.data items box n) L = .ok (.data (items ++ L.map fun x => (x, true))
          (L.foldl (fun b x => update b (pos x)) box) (n + L.length)) := by
        rw [insert, if_neg h]
      refine ⟨fun t2 h2 => ?_, fun _ => ⟨_, he⟩⟩
      rw [he] at h2
      cases h2
      exact ins_data hb
  | node dim split box n l r ihl ihr =>
    intro hb L
    obtain ⟨pp, ptake, pdrop⟩ := hpart dim split L
    set P := part dim split L with hP
    set m := L.countP (fun x => decide (pos x dim < split)) with hm
    have hpp : (P.take m ++ P.drop m).Perm L := by
      rw [List.take_append_drop]
      exact pp
    obtain ⟨b1, b2, b3, b4⟩ := hb
    obtain ⟨il, ol⟩ := ihl b1 (P.take m)
    obtain ⟨ir, or⟩ := ihr b2 (P.drop m)
    have he : insert pos thr part nth d0 (.node dim split box n l r) L =
        (insert pos thr part nth d0 l (P.take m)).bind fun l' =>
          (insert pos thr part nth d0 r (P.drop m)).bind fun r' =>
            .ok (.node dim split (L.foldl (fun b x => update b (pos x)) box) (n + L.length) l' r') := by
      rw [insert]
    constructor
    · intro t2 h2
      rw [he] at h2
      cases hl : insert pos thr part nth d0 l (P.take m) with
      | error e => rw [hl] at h2; cases h2
      | ok l' =>
        cases hr : insert pos thr part nth d0 r (P.drop m) with
        | error e => rw [hl] at h2; change Except.bind _ _ = _ at h2; rw [hr] at h2; cases h2
        | ok r' =>
          rw [hl] at h2
          change Except.bind _ _ = _ at h2
          rw [hr] at h2
          cases h2
          have gl := il l' hl
          have gr := ir r' hr
          have hmem : ∀ x, x ∈ P.take m ∨ x ∈ P.drop m →
              (L.foldl (fun b x => update b (pos x)) box).Mem (pos x) := fun x hx =>
            fold_mem (hpp.subset (List.mem_append.2 hx))
          have hlive : (l'.live ++ r'.live).Perm ((l.live ++ r.live) ++ L) := by
            refine (gl.live.append gr.live).trans (List.Perm.trans ?_ (hpp.append_left _))
            rw [List.append_assoc, List.append_assoc]
            refine List.Perm.append_left _ ?_
            rw [← List.append_assoc, ← List.append_assoc]
            exact List.perm_append_comm.append_right _
          refine ⟨⟨gl.box, gr.box, ?_, ?_⟩, fun c hc hL => fold_le hc hL, hlive, gl.dead.append gr.dead, ?_, ?_⟩
          · exact gl.inbox _ (b3.trans (fold_sub L box)) fun x hx => hmem x (.inl hx)
          · exact gr.inbox _ (b4.trans (fold_sub L box)) fun x hx => hmem x (.inr hx)
          · rintro ⟨c1, c2, c3⟩
            refine ⟨gl.counted c1, gr.counted c2, ?_⟩
            rw [hlive.length_eq, List.length_append]
            push_cast
            omega
          · rintro hN ⟨r1, r2, r3, r4⟩
            have hsub1 : (l.live ++ P.take m).Subperm ((l.live ++ r.live) ++ L) :=
              List.Subperm.trans (((List.sublist_append_left _ _).append (List.sublist_append_left _ _)).subperm)
                ((hpp.append_left (l.live ++ r.live)).subperm)
            have hsub2 : (r.live ++ P.drop m).Subperm ((l.live ++ r.live) ++ L) :=
              List.Subperm.trans (((List.sublist_append_right _ _).append (List.sublist_append_right _ _)).subperm)
                ((hpp.append_left (l.live ++ r.live)).subperm)
            refine ⟨fun x hx => ?_, fun x hx => ?_, gl.routed (hN.mono (coe_map_le hsub1)) r3,
              gr.routed (hN.mono (coe_map_le hsub2)) r4⟩
            · rcases List.mem_append.1 (gl.live.subset hx) with hx | hx
              · exact r1 x hx
              · exact ptake x hx
            · rcases List.mem_append.1 (gr.live.subset hx) with hx | hx
              · exact r2 x hx
              · exact pdrop x hx
    · rintro ⟨c1, c2, c3⟩
      obtain ⟨l', hl⟩ := ol c1
      obtain ⟨r', hr⟩ := or c2
      refine ⟨.node dim split (L.foldl (fun b x => update b (pos x)) box) (n + L.length) l' r', ?_⟩
      rw [he, hl]
      show Except.bind _ _ = _
      rw [hr]
      rfl

/-! ### Erasing -/

/-- Positions listed. -/
def listed (pos : α → Point K d) (L : List α) (x : α) : Bool := L.any fun y => decide (pos x = pos y)

theorem listed_iff {L : List α} {x : α} : listed pos L x = true ↔ pos x ∈ L.map pos := by
  unfold listed
  rw [List.any_eq_true]
  constructor
  · rintro ⟨y, hy, h⟩
    exact List.mem_map.2 ⟨y, hy, (of_decide_eq_true h).symm⟩
  · intro h
    obtain ⟨y, hy, h⟩ := List.mem_map.1 h
    exact ⟨y, hy, decide_eq_true h.symm⟩

theorem sum_countP_nodup (items : List α) : ∀ L : List α, (L.map pos).Nodup →
    (L.map fun y => items.countP fun x => decide (pos x = pos y)).sum = items.countP (listed pos L)
  | [], _ => by
    have : items.countP (listed pos []) = 0 := List.countP_eq_zero.2 fun x _ => by simp [listed]
    rw [this]
    rfl
  | y :: L, h => by
    rw [List.map_cons, List.nodup_cons] at h
    rw [List.map_cons, List.sum_cons, sum_countP_nodup items L h.2]
    have hd : ∀ x ∈ items, ¬ (decide (pos x = pos y) = true ∧ listed pos L x = true) := by
      rintro x - ⟨h1, h2⟩
      rw [listed_iff, of_decide_eq_true h1] at h2
      exact h.1 h2
    have hor : ∀ x, listed pos (y :: L) x = (decide (pos x = pos y) || listed pos L x) := fun x => by
      unfold listed; rw [List.any_cons]
    clear h
    induction items with
    | nil => rfl
    | cons z items ih =>
      have ih := ih fun x hx => hd x (by simp [hx])
      have hz := hd z (by simp)
      rw [List.countP_cons, List.countP_cons, List.countP_cons, ← ih, hor]
      cases h1 : decide (pos z = pos y) <;> cases h2 : listed pos L z <;> simp_all <;> omega

theorem filter_map_live (items : List (α × Bool)) (g : α → Bool) (box : Box K d) (n n' : ℤ) :
    (Node.data (items.map fun x => (x.1, x.2 && !(g x.1))) box n').live =
      (Node.data items box n).live.filter fun x => !(g x) := by
  unfold Node.live
  induction items with
  | nil => rfl
  | cons z items ih =>
    obtain ⟨z, f⟩ := z
    cases f <;> cases hg : g z <;> simp [hg, List.filter_cons] at ih ⊢ <;> exact ih

theorem mem_dead_data {items : List (α × Bool)} {box : Box K d} {n : ℤ} {x : α} :
    x ∈ (Node.data items box n).dead ↔ (x, false) ∈ items := by
  unfold Node.dead
  constructor
  · intro h
    obtain ⟨⟨y, f⟩, hy, rfl⟩ := List.mem_map.1 h
    obtain ⟨h1, h2⟩ := List.mem_filter.1 hy
    cases f
    · exact h1
    · simp at h2
  · intro h
    exact List.mem_map.2 ⟨(x, false), List.mem_filter.2 ⟨h, rfl⟩, rfl⟩

/-- What an erasure does. -/
structure Era (pos : α → Point K d) (t : Node α K d) (L : List α) : Prop where
  box : BoxOK pos (erase pos part t L).1
  inbox : (erase pos part t L).1.box = t.box
  sub : (erase pos part t L).1.live.Sublist t.live
  removed : ∃ R, t.live.Perm ((erase pos part t L).1.live ++ R) ∧ ∀ x ∈ R, pos x ∈ L.map pos
  dead : ∀ x ∈ (erase pos part t L).1.dead, x ∈ t.dead ∨ pos x ∈ L.map pos
  routed : Routed pos t → Routed pos (erase pos part t L).1 ∧
    (erase pos part t L).1.live = t.live.filter fun x => !(listed pos L x)
  counted : Counted t → (L.map pos).Nodup → (∀ x ∈ t.dead, pos x ∉ L.map pos) →
    Counted (erase pos part t L).1 ∧ (t.live.length : ℤ) = (erase pos part t L).1.live.length + (erase pos part t L).2

theorem filter_perm_split (L : List α) (g : α → Bool) : L.Perm ((L.filter fun x => !(g x)) ++ L.filter g) :=
  ((List.perm_append_comm.trans (List.filter_append_perm g L))).symm

theorem era_nil (t : Node α K d) (hb : BoxOK pos t) : Era (part := part) pos t [] := by
  have he : erase pos part t [] = (t, 0) := by
    cases t with
    | data items box n => rw [erase]; exact if_pos rfl
    | node dim split box n l r => rw [erase]; exact if_pos rfl
  constructor
  · rw [he]; exact hb
  · rw [he]
  · rw [he]
  · rw [he]; exact ⟨[], by simp, by simp⟩
  · rw [he]; exact fun x hx => .inl hx
  · rw [he]
    refine fun h => ⟨h, ?_⟩
    simp [listed]
  · rw [he]
    exact fun h _ _ => ⟨h, by simp⟩

theorem era_data {items : List (α × Bool)} {box : Box K d} {n : ℤ} {L : List α} (hb : BoxOK pos (.data items box n))
    (hL : L ≠ []) : Era (part := part) pos (.data items box n) L := by
  have hl0 : L.length ≠ 0 := fun h => hL (List.eq_nil_of_length_eq_zero h)
  have he : erase pos part (.data items box n) L =
      (.data (items.map fun x => (x.1, x.2 && !(listed pos L x.1))) box
        (n - (((L.map fun y => items.countP fun x => decide (pos x.1 = pos y)).sum : ℕ) : ℤ)),
        (((L.map fun y => items.countP fun x => decide (pos x.1 = pos y)).sum : ℕ) : ℤ)) := by
    rw [erase, if_neg hl0]
    rfl
  have hlive := filter_map_live items (listed pos L) box n
    (n - (((L.map fun y => items.countP fun x => decide (pos x.1 = pos y)).sum : ℕ) : ℤ))
  have hperm := filter_perm_split (Node.data items box n).live (listed pos L)
  constructor
  · rw [he]
    refine ⟨fun x hx => ?_, hb.2⟩
    obtain ⟨y, hy, rfl⟩ := List.mem_map.1 hx
    exact hb.1 y hy
  · rw [he]; rfl
  · rw [he]
    show (Node.data _ _ _).live.Sublist _
    rw [hlive]
    exact List.filter_sublist
  · rw [he]
    refine ⟨(Node.data items box n).live.filter (listed pos L), ?_, fun x hx => listed_iff.1 (List.mem_filter.1 hx).2⟩
    exact hperm.trans (List.Perm.of_eq (by rw [hlive]))
  · rw [he]
    intro x hx
    obtain ⟨⟨y, f⟩, hy, e⟩ := List.mem_map.1 (mem_dead_data.1 hx)
    simp only [Prod.mk.injEq] at e
    obtain ⟨rfl, e⟩ := e
    cases f
    · exact .inl (mem_dead_data.2 hy)
    · right
      simp only [Bool.true_and, Bool.not_eq_false'] at e
      exact listed_iff.1 e
  · rw [he]
    exact fun _ => ⟨trivial, hlive⟩
  · rw [he]
    intro hc hN hD
    have hcount : (L.map fun y => items.countP fun x => decide (pos x.1 = pos y)).sum =
        (Node.data items box n).live.countP (listed pos L) := by
      have h1 : ∀ y, (items.countP fun x => decide (pos x.1 = pos y)) =
          (items.map fun x => x.1).countP fun x => decide (pos x = pos y) := fun y => by
        rw [List.countP_map]; rfl
      simp only [h1]
      rw [sum_countP_nodup _ L hN, List.countP_map]
      unfold Node.live
      rw [List.countP_map, List.countP_filter]
      refine List.countP_congr fun x hx => ?_
      obtain ⟨x, f⟩ := x
      cases f with
      | true => simp
      | false =>
        have := hD x (mem_dead_data.2 hx)
        rw [← listed_iff, Bool.not_eq_true] at this
        simp [this]
    have hlen := hperm.length_eq
    rw [List.length_append, ← List.countP_eq_length_filter (p := listed pos L)] at hlen
    have hn : n = _ := hc
    constructor
    · show n - _ = _
      rw [hlive, hcount]
      omega
    · show _ = ((Node.data _ _ _).live.length : ℤ) + _
      rw [hlive, hcount]
      omega

theorem erase_spec (hpart : PartItems part pos) : ∀ (t : Node α K d), BoxOK pos t → ∀ L : List α,
    Era (part := part) pos t L := by
  intro t
  induction t with
  | data items box n =>
    intro hb L
    by_cases hL : L = []
    · subst hL
      exact era_nil _ hb
    · exact era_data hb hL
  | node dim split box n l r ihl ihr =>
    intro hb L
    by_cases hL : L = []
    · subst hL
      exact era_nil _ hb
    have hl0 : L.length ≠ 0 := fun h => hL (List.eq_nil_of_length_eq_zero h)
    obtain ⟨pp, ptake, pdrop⟩ := hpart dim split L
    set P := part dim split L with hP
    set m := L.countP (fun x => decide (pos x dim < split)) with hm
    have hpp : (P.take m ++ P.drop m).Perm L := by
      rw [List.take_append_drop]
      exact pp
    obtain ⟨b1, b2, b3, b4⟩ := hb
    have gl := ihl b1 (P.take m)
    have gr := ihr b2 (P.drop m)
    have he : erase pos part (.node dim split box n l r) L =
        (.node dim split box (n - ((erase pos part l (P.take m)).2 + (erase pos part r (P.drop m)).2))
          (erase pos part l (P.take m)).1 (erase pos part r (P.drop m)).1,
          (erase pos part l (P.take m)).2 + (erase pos part r (P.drop m)).2) := by
      rw [erase, if_neg hl0]
    have hmap : ∀ p, p ∈ L.map pos ↔ p ∈ (P.take m).map pos ∨ p ∈ (P.drop m).map pos := fun p => by
      rw [← List.mem_append, ← List.map_append]
      exact (hpp.map pos).mem_iff.symm
    constructor
    · rw [he]
      refine ⟨gl.box, gr.box, ?_, ?_⟩
      · rw [gl.inbox]; exact b3
      · rw [gr.inbox]; exact b4
    · rw [he]; rfl
    · rw [he]
      exact gl.sub.append gr.sub
    · rw [he]
      obtain ⟨R1, h1, h2⟩ := gl.removed
      obtain ⟨R2, h3, h4⟩ := gr.removed
      refine ⟨R1 ++ R2, ?_, ?_⟩
      · refine (h1.append h3).trans ?_
        show List.Perm (_ ++ _ ++ (_ ++ _)) (_ ++ _ ++ (_ ++ _))
        rw [List.append_assoc, List.append_assoc]
        refine List.Perm.append_left _ ?_
        rw [← List.append_assoc, ← List.append_assoc]
        exact List.perm_append_comm.append_right _
      · intro x hx
        rw [hmap]
        rcases List.mem_append.1 hx with hx | hx
        · exact .inl (h2 x hx)
        · exact .inr (h4 x hx)
    · rw [he]
      intro x hx
      rw [hmap]
      rcases List.mem_append.1 hx with hx | hx
      · rcases gl.dead x hx with h | h
        · exact .inl (List.mem_append_left _ h)
        · exact .inr (.inl h)
      · rcases gr.dead x hx with h | h
        · exact .inl (List.mem_append_right _ h)
        · exact .inr (.inr h)
    · rintro ⟨r1, r2, r3, r4⟩
      obtain ⟨s1, s2⟩ := gl.routed r3
      obtain ⟨s3, s4⟩ := gr.routed r4
      rw [he]
      refine ⟨⟨fun x hx => r1 x (gl.sub.subset hx), fun x hx => r2 x (gr.sub.subset hx), s1, s3⟩, ?_⟩
      show _ ++ _ = List.filter _ (_ ++ _)
      rw [List.filter_append, s2, s4]
      congr 1
      · refine List.filter_congr fun x hx => ?_
        congr 1
        rw [Bool.eq_iff_iff, listed_iff, listed_iff, hmap]
        refine ⟨.inl, ?_⟩
        rintro (h | h)
        · exact h
        · obtain ⟨y, hy, e⟩ := List.mem_map.1 h
          have := pdrop y hy
          rw [e] at this
          exact absurd (r1 x hx) (not_lt.2 this)
      · refine List.filter_congr fun x hx => ?_
        congr 1
        rw [Bool.eq_iff_iff, listed_iff, listed_iff, hmap]
        refine ⟨.inr, ?_⟩
        rintro (h | h)
        · obtain ⟨y, hy, e⟩ := List.mem_map.1 h
          have := ptake y hy
          rw [e] at this
          exact absurd this (not_lt.2 (r2 x hx))
        · exact h
    · rintro ⟨c1, c2, c3⟩ hN hD
      have hN' : ((P.take m).map pos ++ (P.drop m).map pos).Nodup := by
        rw [← List.map_append]
        exact (hpp.map pos).nodup_iff.2 hN
      obtain ⟨n1, n2, -⟩ := List.nodup_append.1 hN'
      obtain ⟨d1, d2⟩ := gl.counted c1 n1 fun x hx h => hD x (List.mem_append_left _ hx) ((hmap _).2 (.inl h))
      obtain ⟨d3, d4⟩ := gr.counted c2 n2 fun x hx h => hD x (List.mem_append_right _ hx) ((hmap _).2 (.inr h))
      rw [he]
      rw [List.length_append] at c3
      refine ⟨⟨d1, d3, ?_⟩, ?_⟩
      · rw [List.length_append]
        push_cast at c3 ⊢
        omega
      · show (((l.live ++ r.live).length : ℕ) : ℤ) = ((_ ++ _ : List α).length : ℤ) + _
        rw [List.length_append, List.length_append]
        push_cast at c3 ⊢
        omega

end

end Verif.DynKd
