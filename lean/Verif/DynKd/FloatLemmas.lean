import Verif.DynKd.KnnLemmas
import Verif.DynKd.FloatModel
import Verif.BatchKd.SplitFloatLemmas
import Verif.BatchKd.KnnFloatLemmas

set_option linter.unusedSectionVars false
set_option linter.unusedVariables false

/-! Lemmas on the dynamic kd-tree in rounded arithmetic. -/

namespace Verif.DynKd

open Verif BatchKd
open Verif.Float
open Verif.KdTree (distFl distFl_nonneg)
open Verif.KnnBuf (KSmallest)

variable {α : Type} {d : ℕ} {fl : ℝ → ℝ} {pos : α → Point ℝ d} {thr : ℕ} {part : Fin d → ℝ → List α → List α}
  {nth : Fin d → ℕ → List α → List α}

/-- `v` is strictly between `a` and `b`. -/
def Between (a b v : ℝ) : Prop := min a b < v ∧ v < max a b

/-- Computed middles are not above the larger number, and above the smaller one if a floating-point number is between. -/
def MidOK (fl : ℝ → ℝ) : Prop := ∀ a b, fl a = a → fl b = b → a ≤ b →
  midFl fl a b ≤ b ∧ ∀ v, fl v = v → a < v → v < b → a < midFl fl a b

theorem midOK_rne {p : ℕ} (hp : 1 ≤ p) : MidOK (rne p) := fun a b ha hb h =>
  ⟨(midFl_between hp ha hb h).2, fun v hv h1 h2 => midFl_gt hp hv h1 h2⟩

/-- Positions with floating-point coordinates, no two of which agree or are neighbours in a dimension and agree in the next. -/
structure Fit (fl : ℝ → ℝ) (M : Multiset (Point ℝ d)) : Prop where
  mid : MidOK fl
  repr : ∀ p ∈ M, ∀ i, fl (p i) = p i
  apart : ∀ p q, ({p, q} : Multiset (Point ℝ d)) ≤ M → ∀ i, (∀ v, fl v = v → ¬ Between (p i) (q i) v) →
    p (next i) ≠ q (next i)

theorem Fit.mono {M N : Multiset (Point ℝ d)} (h : Fit fl M) (hl : N ≤ M) : Fit fl N :=
  ⟨h.mid, fun p hp => h.repr p (Multiset.mem_of_le hl hp), fun p q hpq => h.apart p q (hpq.trans hl)⟩

/-! ### Building -/

/-- What building and inserting give. -/
structure MadeFl (fl : ℝ → ℝ) (pos : α → Point ℝ d) (t : Node α ℝ d) (L : List α) : Prop where
  box : BoxOK pos t
  counted : Counted t
  live : t.live.Perm L
  dead : t.dead = []
  routed : Fit fl ((L.map pos : List _) : Multiset (Point ℝ d)) → Routed pos t
  inbox : t.box = boxOf pos L

theorem made_nodeFl {dim : Fin d} {split : ℝ} {l r : Node α ℝ d} {A B L : List α} (hl : MadeFl fl pos l A) (hr : MadeFl fl pos r B)
    (hA : A ≠ []) (hB : B ≠ []) (hp : (A ++ B).Perm L)
    (hs : Fit fl ((L.map pos : List _) : Multiset (Point ℝ d)) →
      (∀ x ∈ A, pos x dim < split) ∧ ∀ x ∈ B, split ≤ pos x dim) :
    MadeFl fl pos (.node dim split (boxOf pos L) L.length l r) L := by
  have hpl := (hl.live.append hr.live).trans hp
  have hmem : ∀ x, x ∈ A ∨ x ∈ B → (boxOf pos L).Mem (pos x) := fun x hx =>
    boxOf_mem (hp.subset (List.mem_append.2 hx))
  refine ⟨⟨hl.box, hr.box, ?_, ?_⟩, ⟨hl.counted, hr.counted, ?_⟩, hpl, ?_, fun hN => ?_, rfl⟩
  · rw [hl.inbox]
    exact boxOf_le hA fun x hx => hmem x (.inl hx)
  · rw [hr.inbox]
    exact boxOf_le hB fun x hx => hmem x (.inr hx)
  · rw [hpl.length_eq]
  · show l.dead ++ r.dead = []
    rw [hl.dead, hr.dead]
    rfl
  · obtain ⟨h1, h2⟩ := hs hN
    refine ⟨fun x hx => h1 x (hl.live.subset hx), fun x hx => h2 x (hr.live.subset hx), hl.routed (hN.mono ?_),
      hr.routed (hN.mono ?_)⟩
    · exact coe_map_le ((List.sublist_append_left A B).subperm.trans hp.subperm)
    · exact coe_map_le ((List.sublist_append_right A B).subperm.trans hp.subperm)

theorem buildFl_ok (hthr : 2 ≤ thr) (hpart : PartItems part pos) (hnth : NthItems nth pos) :
    ∀ (fuel : ℕ) (dim : Fin d) (L : List α), L.length ≤ fuel → 2 ≤ L.length →
      ∃ t, buildFl fl pos thr part nth fuel dim L = .ok t ∧ MadeFl fl pos t L ∧ ∃ dim split box n l r, t = .node dim split box n l r := by
  intro fuel
  induction fuel with
  | zero => intro dim L h1 h2; omega
  | succ fuel ih =>
    intro dim L h1 h2
    have hne : L ≠ [] := by rintro rfl; simp at h2
    -- children
    have hchild : ∀ (nd : Fin d) (C : List α), C ≠ [] → C.length < L.length →
        ∃ t, (if C.length < thr then Except.ok (leaf pos C) else buildFl fl pos thr part nth fuel nd C) = .ok t ∧
          MadeFl fl pos t C := by
      intro nd C hC hlt
      by_cases ht : C.length < thr
      · rw [if_pos ht]
        obtain ⟨a, b, c, e, f, g⟩ := leaf_spec (pos := pos) C hC
        exact ⟨_, rfl, a, b, by rw [c], e, fun _ => f, g⟩
      · rw [if_neg ht]
        obtain ⟨t, e1, e2, -⟩ := ih nd C (by omega) (by omega)
        exact ⟨t, e1, e2⟩
    rw [buildFl, if_neg (by omega)]
    obtain ⟨pp, ptake, pdrop⟩ := hpart dim (midFl fl ((boxOf pos L).lo dim) ((boxOf pos L).hi dim)) L
    set mid := midFl fl ((boxOf pos L).lo dim) ((boxOf pos L).hi dim) with hmid
    set P := part dim mid L with hP
    set m := L.countP (fun x => decide (pos x dim < mid)) with hm
    have hPl := pp.length_eq
    have hmle : m ≤ L.length := List.countP_le_length
    show ∃ t, (if m = 0 ∨ m = L.length then _ else _) = Except.ok t ∧ _
    by_cases hcase : m = 0 ∨ m = L.length
    · rw [if_pos hcase]
      -- no floating-point number is between two coordinates
      have hagree : Fit fl ((L.map pos : List _) : Multiset (Point ℝ d)) →
          ∀ x ∈ L, ∀ y ∈ L, ∀ v, fl v = v → ¬ Between (pos x dim) (pos y dim) v := by
        intro hF x hx y hy v hv hb
        obtain ⟨⟨a, ha, hlo⟩, ⟨b, hb', hhi⟩⟩ := boxOf_taken (pos := pos) hne dim
        have hra := hF.repr _ (Multiset.mem_coe.2 (List.mem_map.2 ⟨a, ha, rfl⟩)) dim
        have hrb := hF.repr _ (Multiset.mem_coe.2 (List.mem_map.2 ⟨b, hb', rfl⟩)) dim
        rw [hlo] at hra
        rw [hhi] at hrb
        have hx' := boxOf_mem (pos := pos) hx dim
        have hy' := boxOf_mem (pos := pos) hy dim
        have h1 : (boxOf pos L).lo dim < v := lt_of_le_of_lt (le_min hx'.1 hy'.1) hb.1
        have h2 : v < (boxOf pos L).hi dim := lt_of_lt_of_le hb.2 (max_le hx'.2 hy'.2)
        have hM := hF.mid _ _ hra hrb (h1.trans h2).le
        rcases hcase with h0 | h0
        · have := List.countP_eq_zero.1 (hm.symm.trans h0) a ha
          simp only [decide_eq_true_eq, not_lt] at this
          rw [hlo, hmid] at this
          exact absurd (hM.2 v hv h1 h2) (not_lt.2 this)
        · have hall := List.countP_eq_length.1 (hm.symm.trans h0) b hb'
          simp only [decide_eq_true_eq] at hall
          rw [hhi, hmid] at hall
          exact absurd hall (not_lt.2 hM.1)
      have hh : L.length / 2 < P.length := by omega
      obtain ⟨qp, qs⟩ := hnth (next dim) (L.length / 2) P hh
      set Q := nth (next dim) (L.length / 2) P with hQ
      have hQl := qp.length_eq
      obtain ⟨c, hc⟩ : ∃ c, Q[L.length / 2]? = some c := ⟨_, List.getElem?_eq_getElem (by omega)⟩
      obtain ⟨qt, qd⟩ := qs c hc
      have hcmem : c ∈ Q.drop (L.length / 2) := by
        rw [List.mem_iff_getElem?]
        exact ⟨0, by rw [List.getElem?_drop]; exact hc⟩
      have hpp : (Q.take (L.length / 2) ++ Q.drop (L.length / 2)).Perm L := by
        rw [List.take_append_drop]
        exact qp.trans pp
      have hA : Q.take (L.length / 2) ≠ [] := by
        intro e
        have := congrArg List.length e
        rw [List.length_take, List.length_nil] at this
        omega
      have hB : Q.drop (L.length / 2) ≠ [] := List.ne_nil_of_mem hcmem
      obtain ⟨l, el, ml⟩ := hchild (next (next dim)) (Q.take (L.length / 2)) hA (by rw [List.length_take]; omega)
      obtain ⟨r, er, mr⟩ := hchild (next (next dim)) (Q.drop (L.length / 2)) hB (by rw [List.length_drop]; omega)
      refine ⟨_, ?_, made_nodeFl ml mr hA hB hpp fun hN => ⟨fun x hx => ?_, fun x hx => qd x hx⟩,
        next dim, pos c (next dim), _, _, l, r, rfl⟩
      · show (match Q[L.length / 2]? with
          | none => Except.error Err.ub
          | some c =>
            Except.bind (if (Q.take (L.length / 2)).length < thr then Except.ok (leaf pos (Q.take (L.length / 2)))
              else buildFl fl pos thr part nth fuel (next (next dim)) (Q.take (L.length / 2))) fun l =>
            Except.bind (if (Q.drop (L.length / 2)).length < thr then Except.ok (leaf pos (Q.drop (L.length / 2)))
              else buildFl fl pos thr part nth fuel (next (next dim)) (Q.drop (L.length / 2))) fun r =>
            Except.ok (Node.node (next dim) (pos c (next dim)) (boxOf pos L) L.length l r)) = _
        rw [hc, el, er]
        rfl
      · have h3 := hN.apart _ _ (nodouble_pair hpp hx hcmem) dim (hagree hN x (hpp.subset (List.mem_append_left _ hx)) c
          (hpp.subset (List.mem_append_right _ hcmem)))
        exact lt_of_le_of_ne (qt x hx) h3
    · rw [if_neg hcase]
      have hpp : (P.take m ++ P.drop m).Perm L := by
        rw [List.take_append_drop]
        exact pp
      have hA : P.take m ≠ [] := by
        intro e
        have := congrArg List.length e
        rw [List.length_take, List.length_nil] at this
        omega
      have hB : P.drop m ≠ [] := by
        intro e
        have := congrArg List.length e
        rw [List.length_drop, List.length_nil] at this
        omega
      obtain ⟨l, el, ml⟩ := hchild (next dim) (P.take m) hA (by rw [List.length_take]; omega)
      obtain ⟨r, er, mr⟩ := hchild (next dim) (P.drop m) hB (by rw [List.length_drop]; omega)
      refine ⟨_, ?_, made_nodeFl ml mr hA hB hpp fun _ => ⟨ptake, pdrop⟩, dim, mid, _, _, l, r, rfl⟩
      show (Except.bind (if (P.take m).length < thr then Except.ok (leaf pos (P.take m))
              else buildFl fl pos thr part nth fuel (next dim) (P.take m)) fun l =>
            Except.bind (if (P.drop m).length < thr then Except.ok (leaf pos (P.drop m))
              else buildFl fl pos thr part nth fuel (next dim) (P.drop m)) fun r =>
            Except.ok (Node.node dim mid (boxOf pos L) L.length l r)) = _
      rw [el, er]
      rfl

/-! ### Inserting -/

/-- What an insertion does. -/
structure InsFl (fl : ℝ → ℝ) (pos : α → Point ℝ d) (t t' : Node α ℝ d) (L : List α) : Prop where
  box : BoxOK pos t'
  inbox : ∀ c : Box ℝ d, Sub t.box c → (∀ x ∈ L, c.Mem (pos x)) → Sub t'.box c
  live : t'.live.Perm (t.live ++ L)
  dead : t'.dead.Sublist t.dead
  counted : Counted t → Counted t'
  routed : Fit fl (((t.live ++ L).map pos : List _) : Multiset (Point ℝ d)) → Routed pos t → Routed pos t'

theorem ins_dataFl {items : List (α × Bool)} {box : Box ℝ d} {n : ℤ} {L : List α} (hb : BoxOK pos (.data items box n)) :
    InsFl fl pos (.data items box n)
      (.data (items ++ L.map fun x => (x, true)) (L.foldl (fun b x => update b (pos x)) box) (n + L.length)) L := by
  have hl := live_append items L (L.foldl (fun b x => update b (pos x)) box) box (n + L.length) n
  refine ⟨⟨?_, ?_⟩, ?_, ?_, ?_, ?_, fun _ _ => trivial⟩
  · intro x hx
    rcases List.mem_append.1 hx with hx | hx
    · exact (fold_sub L box).mem (hb.1 x hx)
    · obtain ⟨y, hy, rfl⟩ := List.mem_map.1 hx
      exact fold_mem hy
  · exact fun i => ((fold_sub (pos := pos) L box) i).1.trans ((hb.2 i).trans ((fold_sub (pos := pos) L box) i).2)
  · exact fun c hc hL => fold_le hc hL
  · rw [hl]
  · rw [dead_append items L _ box _ n]
  · intro hc
    show n + (L.length : ℤ) = _
    rw [hl, List.length_append]
    have : n = _ := hc
    push_cast
    omega

theorem insertFl_spec (hthr : 2 ≤ thr) (hpart : PartItems part pos) (hnth : NthItems nth pos) (d0 : Fin d) :
    ∀ (t : Node α ℝ d), BoxOK pos t → ∀ L : List α,
      (∀ t', insertFl fl pos thr part nth d0 t L = .ok t' → InsFl fl pos t t' L) ∧
      (Counted t → ∃ t', insertFl fl pos thr part nth d0 t L = .ok t') := by
  intro t
  induction t with
  | data items box n =>
    intro hb L
    by_cases h : (thr : ℤ) ≤ L.length + n
    · by_cases hn : (((Node.data items box n).live.length : ℕ) : ℤ) = n
      · have hlen : 2 ≤ (L ++ (Node.data items box n).live).length := by
          rw [List.length_append]
          omega
        obtain ⟨t', e, hm, -⟩ := buildFl_ok (pos := pos) hthr hpart hnth _ d0 (L ++ (Node.data items box n).live) le_rfl hlen
        have he : insertFl fl pos thr part nth d0 (.data items box n) L = .ok t' := by
          rw [insertFl, if_pos h]
          beta_reduce
          show (if _ then _ else _) = _
          rw [if_pos hn, e]
        refine ⟨fun t2 h2 => ?_, fun _ => ⟨t', he⟩⟩
        rw [he] at h2
        cases h2
        have hp := List.perm_append_comm (l₁ := L) (l₂ := (Node.data items box n).live)
        refine ⟨hm.box, fun c hc hL => ?_, hm.live.trans hp, by rw [hm.dead]; exact List.nil_sublist _, fun _ => hm.counted,
          fun hN _ => hm.routed ?_⟩
        · rw [hm.inbox]
          refine boxOf_le (by rintro e; rw [e] at hlen; simp at hlen) fun x hx => ?_
          rcases List.mem_append.1 hx with hx | hx
          · exact hL x hx
          · exact hc.mem (hb.mem x hx)
        · exact hN.mono (coe_map_le hp.subperm)
      · have he : insertFl fl pos thr part nth d0 (.data items box n) L = .error .ub := by
          rw [insertFl, if_pos h]
          show (if _ then _ else _) = _
          rw [if_neg hn]
        refine ⟨fun t2 h2 => ?_, fun hc => absurd hc.symm hn⟩
        rw [he] at h2
        cases h2
    · have he : insertFl fl pos thr part nth d0 (.data items box n) L = .ok (.data (items ++ L.map fun x => (x, true))
          (L.foldl (fun b x => update b (pos x)) box) (n + L.length)) := by
        rw [insertFl, if_neg h]
      refine ⟨fun t2 h2 => ?_, fun _ => ⟨_, he⟩⟩
      rw [he] at h2
      cases h2
      exact ins_dataFl hb
  | node dim split box n l r ihl ihr =>
    intro hb L
    obtain ⟨pp, ptake, pdrop⟩ := hpart dim split L
    set P := part dim split L with hP
    set m := L.countP (fun x => decide (pos x dim < split)) with hm
    have hpp : (P.take m ++ P.drop m).Perm L := by
      rw [List.take_append_drop]
      exact pp
    obtain ⟨b1, b2, b3, b4⟩ := hb
    obtain ⟨il, ol⟩ := ihl b1 (P.take m)
    obtain ⟨ir, or⟩ := ihr b2 (P.drop m)
    have he : insertFl fl pos thr part nth d0 (.node dim split box n l r) L =
        (insertFl fl pos thr part nth d0 l (P.take m)).bind fun l' =>
          (insertFl fl pos thr part nth d0 r (P.drop m)).bind fun r' =>
            .ok (.node dim split (L.foldl (fun b x => update b (pos x)) box) (n + L.length) l' r') := by
      rw [insertFl]
    constructor
    · intro t2 h2
      rw [he] at h2
      cases hl : insertFl fl pos thr part nth d0 l (P.take m) with
      | error e => rw [hl] at h2; cases h2
      | ok l' =>
        cases hr : insertFl fl pos thr part nth d0 r (P.drop m) with
        | error e => rw [hl] at h2; change Except.bind _ _ = _ at h2; rw [hr] at h2; cases h2
        | ok r' =>
          rw [hl] at h2
          change Except.bind _ _ = _ at h2
          rw [hr] at h2
          cases h2
          have gl := il l' hl
          have gr := ir r' hr
          have hmem : ∀ x, x ∈ P.take m ∨ x ∈ P.drop m →
              (L.foldl (fun b x => update b (pos x)) box).Mem (pos x) := fun x hx =>
            fold_mem (hpp.subset (List.mem_append.2 hx))
          have hlive : (l'.live ++ r'.live).Perm ((l.live ++ r.live) ++ L) := by
            refine (gl.live.append gr.live).trans (List.Perm.trans ?_ (hpp.append_left _))
            rw [List.append_assoc, List.append_assoc]
            refine List.Perm.append_left _ ?_
            rw [← List.append_assoc, ← List.append_assoc]
            exact List.perm_append_comm.append_right _
          refine ⟨⟨gl.box, gr.box, ?_, ?_⟩, fun c hc hL => fold_le hc hL, hlive, gl.dead.append gr.dead, ?_, ?_⟩
          · exact gl.inbox _ (b3.trans (fold_sub L box)) fun x hx => hmem x (.inl hx)
          · exact gr.inbox _ (b4.trans (fold_sub L box)) fun x hx => hmem x (.inr hx)
          · rintro ⟨c1, c2, c3⟩
            refine ⟨gl.counted c1, gr.counted c2, ?_⟩
            rw [hlive.length_eq, List.length_append]
            push_cast
            omega
          · rintro hN ⟨r1, r2, r3, r4⟩
            have hsub1 : (l.live ++ P.take m).Subperm ((l.live ++ r.live) ++ L) :=
              List.Subperm.trans (((List.sublist_append_left _ _).append (List.sublist_append_left _ _)).subperm)
                ((hpp.append_left (l.live ++ r.live)).subperm)
            have hsub2 : (r.live ++ P.drop m).Subperm ((l.live ++ r.live) ++ L) :=
              List.Subperm.trans (((List.sublist_append_right _ _).append (List.sublist_append_right _ _)).subperm)
                ((hpp.append_left (l.live ++ r.live)).subperm)
            refine ⟨fun x hx => ?_, fun x hx => ?_, gl.routed (hN.mono (coe_map_le hsub1)) r3,
              gr.routed (hN.mono (coe_map_le hsub2)) r4⟩
            · rcases List.mem_append.1 (gl.live.subset hx) with hx | hx
              · exact r1 x hx
              · exact ptake x hx
            · rcases List.mem_append.1 (gr.live.subset hx) with hx | hx
              · exact r2 x hx
              · exact pdrop x hx
    · rintro ⟨c1, c2, c3⟩
      obtain ⟨l', hl⟩ := ol c1
      obtain ⟨r', hr⟩ := or c2
      refine ⟨.node dim split (L.foldl (fun b x => update b (pos x)) box) (n + L.length) l' r', ?_⟩
      rw [he, hl]
      show Except.bind _ _ = _
      rw [hr]
      rfl

/-! ### Nearest neighbours -/

section
variable {pop : List (ℝ × α) → Option ((ℝ × α) × List (ℝ × α))}

theorem exclude_farFl (hf : IsRootRounding fl) {q p : Point ℝ d} {r : ℝ} (h0 : 0 ≤ r) (hr : fl r = r) {box : Box ℝ d}
    (h : compare ⟨fun i => fl (q i - r), fun i => fl (q i + r)⟩ box = .exclude) (hp : box.Mem p)
    (hrep : ∀ i, fl (p i) = p i) : r ≤ distFl fl q p := by
  unfold compare at h
  split at h
  · rename_i hex
    obtain ⟨i, hi⟩ := hex
    have hm := hp i
    apply le_distFl hf h0 hr (i := i)
    rcases hi with hi | hi
    · have hi : fl (q i + r) < box.lo i := hi
      have h1 : q i + r < p i := by
        by_contra hc
        have := hf.mono (not_lt.mp hc)
        rw [hrep] at this
        linarith
      have h2 := hf.mono (by linarith : r ≤ -(q i - p i))
      rw [hr, hf.odd] at h2
      exact h2.trans (neg_le_abs _)
    · have hi : box.hi i < fl (q i - r) := hi
      have h1 : p i < q i - r := by
        by_contra hc
        have := hf.mono (not_lt.mp hc)
        rw [hrep] at this
        linarith
      have h2 := hf.mono (by linarith : r ≤ q i - p i)
      rw [hr] at h2
      exact h2.trans (le_abs_self _)
  · split at h <;> cases h

theorem rangeFl_ok (hq : IsQueue pop) (hf : IsRootRounding fl) (k : ℕ) (q : Point ℝ d) {radius : ℝ} (h0 : 0 ≤ radius)
    (hrad : fl radius = radius) : ∀ (t : Node α ℝ d), BoxOK pos t → ReprAll fl pos t.live →
    ∀ (I : List α) (b : List (ℝ × α)), Top k (fun x => distFl fl q (pos x)) I b →
    (k ≤ I.countP fun x => decide (distFl fl q (pos x) ≤ radius)) →
    ∃ I', Top k (fun x => distFl fl q (pos x)) I' (rangeFl fl pos pop k q radius t b) ∧
      Ext k (fun x => distFl fl q (pos x)) I I' t.live := by
  intro t
  unfold rangeFl
  induction t with
  | data items box n =>
    intro _ _ I b h hr
    exact insertNear_ok hq k q radius _ I b h hr
  | node dim split box n l r ihl ihr =>
    intro hb hrep I b h hr
    rw [rangeHelper]
    have hrl : ReprAll fl pos l.live := fun x hx => hrep x (List.mem_append_left _ hx)
    have hrr : ReprAll fl pos r.live := fun x hx => hrep x (List.mem_append_right _ hx)
    cases hc : compare ⟨fun i => fl (q i - radius), fun i => fl (q i + radius)⟩ box with
    | «include» => exact insertNear_ok hq k q radius _ I b h hr
    | overlap =>
      obtain ⟨I1, h1, e1⟩ := ihl hb.1 hrl I b h hr
      obtain ⟨I2, h2, e2⟩ := ihr hb.2.1 hrr I1 _ h1 (hr.trans (e1.mono _))
      exact ⟨I2, h2, e1.trans e2⟩
    | exclude =>
      refine ⟨I, h, Ext.none fun y hy => ?_⟩
      exact hr.trans (countP_le_mono (exclude_farFl hf h0 hrad hc (hb.mem y hy) (hrep y hy)))

theorem visitSiblinFl_ok (hq : IsQueue pop) (hf : IsRootRounding fl) {k : ℕ} (hk : 1 ≤ k) (q : Point ℝ d)
    {t : Node α ℝ d} (hb : BoxOK pos t) (hrep : ReprAll fl pos t.live) {I : List α} {b : List (ℝ × α)}
    (h : Top k (fun x => distFl fl q (pos x)) I b) :
    ∃ b' I', visitSiblinFl fl pos pop k q t b = .ok b' ∧ Top k (fun x => distFl fl q (pos x)) I' b' ∧
      Ext k (fun x => distFl fl q (pos x)) I I' t.live := by
  unfold visitSiblinFl
  by_cases hlen : k ≤ b.length
  · rw [if_pos hlen]
    have hne : b ≠ [] := by rintro rfl; simp at hlen; omega
    obtain ⟨m, r, e, hm, hmax⟩ := hq.2 b hne
    rw [e]
    obtain ⟨x, hx⟩ : ∃ x, m.1 = distFl fl q (pos x) := by
      obtain ⟨hl, lost, hp, hlt⟩ := h
      obtain ⟨x, -, hx⟩ := List.mem_map.1 (hp.subset (List.mem_append_left _ (hm.subset (List.mem_cons_self ..))))
      exact ⟨x, by rw [← hx]⟩
    have hr : k ≤ I.countP fun x => decide (distFl fl q (pos x) ≤ m.1) := by
      obtain ⟨hl, lost, hp, hlt⟩ := h
      have h1 : (I.countP fun x => decide (distFl fl q (pos x) ≤ m.1)) =
          (I.map fun x => (distFl fl q (pos x), x)).countP fun e => decide (e.1 ≤ m.1) := by
        rw [List.countP_map]; rfl
      rw [h1, ← hp.countP_eq, List.countP_append]
      have h2 : b.countP (fun e => decide (e.1 ≤ m.1)) = b.length := by
        rw [List.countP_eq_length]
        intro a ha
        rcases List.mem_cons.1 (hm.symm.subset ha) with rfl | ha
        · simp
        · simpa using hmax a ha
      omega
    obtain ⟨I', h1, h2⟩ := rangeFl_ok hq hf k q (radius := m.1)
      (by rw [hx]; exact distFl_nonneg hf.toIsMonoRounding _ _) (by rw [hx]; exact hf.idem _) t hb hrep I b h hr
    exact ⟨_, I', rfl, h1, h2⟩
  · rw [if_neg hlen]
    exact ⟨_, _, rfl, insertAll_ok hq k q _ I b h, Ext.all _ _ _ _⟩

theorem helperFl_ok (hq : IsQueue pop) (hf : IsRootRounding fl) {k : ℕ} (hk : 1 ≤ k) (q : Point ℝ d) :
    ∀ (t : Node α ℝ d), BoxOK pos t → ReprAll fl pos t.live → ∀ s : Node α ℝ d, BoxOK pos s → ReprAll fl pos s.live →
    ∀ (I : List α) (b : List (ℝ × α)), Top k (fun x => distFl fl q (pos x)) I b →
    ∃ b' I', helperFl fl pos pop k q t s b = .ok b' ∧ Top k (fun x => distFl fl q (pos x)) I' b' ∧
      Ext k (fun x => distFl fl q (pos x)) I I' (t.live ++ s.live) := by
  intro t
  induction t with
  | data items box n =>
    intro _ _ s hs hsr I b h
    obtain ⟨b', I', h1, h2, h3⟩ := visitSiblinFl_ok hq hf hk q hs hsr
      (insertAll_ok hq k q (Node.data items box n).live I b h)
    exact ⟨b', I', h1, h2, (Ext.all _ _ _ _).trans h3⟩
  | node dim split box n l r ihl ihr =>
    intro hb hrep s hs hsr I b h
    have hrl : ReprAll fl pos l.live := fun x hx => hrep x (List.mem_append_left _ hx)
    have hrr : ReprAll fl pos r.live := fun x hx => hrep x (List.mem_append_right _ hx)
    rw [helperFl]
    by_cases hside : q dim < split
    · rw [if_pos hside]
      obtain ⟨b1, I1, h1, h2, h3⟩ := ihl hb.1 hrl r hb.2.1 hrr I b h
      obtain ⟨b2, I2, h4, h5, h6⟩ := visitSiblinFl_ok hq hf hk q hs hsr h2
      refine ⟨b2, I2, ?_, h5, h3.trans h6⟩
      rw [h1]
      exact h4
    · rw [if_neg hside]
      obtain ⟨b1, I1, h1, h2, h3⟩ := ihr hb.2.1 hrr l hb.1 hrl I b h
      obtain ⟨b2, I2, h4, h5, h6⟩ := visitSiblinFl_ok hq hf hk q hs hsr h2
      refine ⟨b2, I2, ?_, h5, (h3.perm List.perm_append_comm).trans h6⟩
      rw [h1]
      exact h4

theorem kNNFl_ok (hq : IsQueue pop) (hf : IsRootRounding fl) {k : ℕ} (hk : 1 ≤ k) (q : Point ℝ d) {t : Node α ℝ d}
    (hb : BoxOK pos t) (hrep : ReprAll fl pos t.live)
    (hroot : ∃ dim split box n l r, t = .node dim split box n l r) :
    ∃ res, kNNFl fl pos pop t q k = .ok res ∧
      KSmallest (fun x => distFl fl q (pos x)) (min k t.live.length) t.live res ∧
      (res.map fun x => distFl fl q (pos x)).Pairwise (· ≤ ·) := by
  obtain ⟨dim, split, box, n, l, r, rfl⟩ := hroot
  have hrl : ReprAll fl pos l.live := fun x hx => hrep x (List.mem_append_left _ hx)
  have hrr : ReprAll fl pos r.live := fun x hx => hrep x (List.mem_append_right _ hx)
  unfold kNNFl
  by_cases hside : q dim < split
  · obtain ⟨b, I, h1, h2, h3⟩ := helperFl_ok hq hf hk q l hb.1 hrl r hb.2.1 hrr [] [] (Top.nil k _)
    refine ⟨(drain pop b.length b).map fun e => e.2, ?_, ?_⟩
    · show Except.map _ (if _ then _ else _) = _
      rw [if_pos hside, h1]
      rfl
    · rw [List.map_map]
      exact result_ok hq h2 h3
  · obtain ⟨b, I, h1, h2, h3⟩ := helperFl_ok hq hf hk q r hb.2.1 hrr l hb.1 hrl [] [] (Top.nil k _)
    refine ⟨(drain pop b.length b).map fun e => e.2, ?_, ?_⟩
    · show Except.map _ (if _ then _ else _) = _
      rw [if_neg hside, h1]
      rfl
    · rw [List.map_map]
      exact result_ok hq h2 (h3.perm List.perm_append_comm)

end

end Verif.DynKd
