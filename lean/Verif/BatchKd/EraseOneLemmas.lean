import Verif.BatchKd.StateLemmas
import Verif.BatchKd.EraseOneModel

set_option linter.unusedSectionVars false
set_option linter.unusedVariables false

/-! Erasing one point: effect on a subtree and on the whole tree. -/

namespace Verif.BatchKd

variable {α K : Type} {d : ℕ}

section
variable [Field K] [LinearOrder K]
variable {pos : α → Point K d} {items : List α}

/-- `c` can stand in for the subtree `t`: it lies in its slice and holds all present items of it. -/
structure Stands (pos : α → Point K d) (items : List α) (p : List Bool) (t c : BT K d) : Prop where
  good : Good pos items p c
  lo : t.start ≤ c.start
  hi : c.stop ≤ t.stop
  gapL : live items p t.start c.start = []
  gapR : live items p c.stop t.stop = []

theorem Stands.same {p : List Bool} {t c : BT K d} (h : Good pos items p c) (hs : c.start = t.start)
    (he : c.stop = t.stop) : Stands pos items p t c := by
  refine ⟨h, hs.ge, he.le, ?_, ?_⟩
  · rw [hs]; exact live_self _ _ _
  · rw [he]; exact live_self _ _ _

theorem Stands.live {p : List Bool} {t c : BT K d} (h : Stands pos items p t c) :
    live items p t.start t.stop = live items p c.start c.stop := by
  have := h.good.le
  rw [live_append items p t.start c.start t.stop h.lo (by have := h.hi; omega), h.gapL, List.nil_append,
    live_append items p c.start c.stop t.stop this.1 h.hi, h.gapR, List.append_nil]

theorem Erased.nothing (p : List Bool) (s e : ℕ) (pts : List (Point K d)) :
    Erased pos items p p s e pts 0 :=
  ⟨rfl, fun _ _ => rfl, List.Sublist.refl _, by simp, ⟨[], by simp, by simp⟩⟩

section Node
variable {idx s e : ℕ} {dim : Fin d} {val : K} {b : Box K d} {l r : BT K d} {p p' : List Bool}
  {pts : List (Point K d)} {k : ℕ}

/-- A change of the left child. -/
theorem node_left (h : Good pos items p (.node idx s e dim val b l r))
    (hE : Erased pos items p p' l.start l.stop pts k) :
    Erased pos items p p' s e pts k ∧ Good pos items p' r ∧
    live items p' s l.start = [] ∧ live items p' l.stop r.start = [] ∧ live items p' r.stop e = [] ∧
    live items p' s e = live items p' l.start l.stop ++ live items p r.start r.stop ∧
    live items p' r.start r.stop = live items p r.start r.stop := by
  have hnl := h.node_live
  obtain ⟨g0, gl, gr, g3, g4, g5, g6, g7, g8, g9⟩ := h
  have hl := gl.le
  have hr := gr.le
  have hR : live items p' r.start r.stop = live items p r.start r.stop := hE.live_out (Or.inr (by omega))
  have hS : live items p' s l.start = [] := (hE.live_out (Or.inl le_rfl)).trans g7
  have hM : live items p' l.stop r.start = [] := (hE.live_out (Or.inr le_rfl)).trans g8
  have hEn : live items p' r.stop e = [] := (hE.live_out (Or.inr (by omega))).trans g9
  have hlive : live items p' s e = live items p' l.start l.stop ++ live items p r.start r.stop := by
    rw [live_append items p' s l.start e g3 (by omega), hS, List.nil_append,
      live_append items p' l.start l.stop e hl.1 (by omega),
      live_append items p' l.stop r.start e g4 (by omega), hM, List.nil_append,
      live_append items p' r.start r.stop e hr.1 g5, hEn, List.append_nil, hR]
  refine ⟨⟨hE.len, fun j hj => hE.out j (by omega), ?_, ?_, ?_⟩, ?_, hS, hM, hEn, hlive, hR⟩
  · rw [hlive, hnl]
    exact hE.sub.append (List.Sublist.refl _)
  · have := hE.count
    rw [hlive, hnl, List.length_append, List.length_append]
    omega
  · obtain ⟨R, q1, q2⟩ := hE.only
    refine ⟨R, ?_, q2⟩
    rw [hlive, hnl]
    refine (q1.append_right _).trans ?_
    rw [List.append_assoc, List.append_assoc]
    exact List.Perm.append_left _ List.perm_append_comm
  · exact gr.congr fun j h1 h2 => (hE.out j (by omega)).symm

/-- A change of the right child. -/
theorem node_right (h : Good pos items p (.node idx s e dim val b l r))
    (hE : Erased pos items p p' r.start r.stop pts k) :
    Erased pos items p p' s e pts k ∧ Good pos items p' l ∧
    live items p' s l.start = [] ∧ live items p' l.stop r.start = [] ∧ live items p' r.stop e = [] ∧
    live items p' s e = live items p l.start l.stop ++ live items p' r.start r.stop ∧
    live items p' l.start l.stop = live items p l.start l.stop := by
  have hnl := h.node_live
  obtain ⟨g0, gl, gr, g3, g4, g5, g6, g7, g8, g9⟩ := h
  have hl := gl.le
  have hr := gr.le
  have hL : live items p' l.start l.stop = live items p l.start l.stop := hE.live_out (Or.inl (by omega))
  have hS : live items p' s l.start = [] := (hE.live_out (Or.inl (by omega))).trans g7
  have hM : live items p' l.stop r.start = [] := (hE.live_out (Or.inl le_rfl)).trans g8
  have hEn : live items p' r.stop e = [] := (hE.live_out (Or.inr le_rfl)).trans g9
  have hlive : live items p' s e = live items p l.start l.stop ++ live items p' r.start r.stop := by
    rw [live_append items p' s l.start e g3 (by omega), hS, List.nil_append,
      live_append items p' l.start l.stop e hl.1 (by omega),
      live_append items p' l.stop r.start e g4 (by omega), hM, List.nil_append,
      live_append items p' r.start r.stop e hr.1 g5, hEn, List.append_nil, hL]
  refine ⟨⟨hE.len, fun j hj => hE.out j (by omega), ?_, ?_, ?_⟩, ?_, hS, hM, hEn, hlive, hL⟩
  · rw [hlive, hnl]
    exact (List.Sublist.refl _).append hE.sub
  · have := hE.count
    rw [hlive, hnl, List.length_append, List.length_append]
    omega
  · obtain ⟨R, q1, q2⟩ := hE.only
    refine ⟨R, ?_, q2⟩
    rw [hlive, hnl, List.append_assoc]
    exact q1.append_left _
  · exact gl.congr fun j h1 h2 => (hE.out j (by omega)).symm

/-- The node with a replaced left child; the box may stay or be recomputed. -/
theorem node_left_good (h : Good pos items p (.node idx s e dim val b l r))
    (hE : Erased pos items p p' l.start l.stop pts k) {c : BT K d} (hc : Stands pos items p' l c) :
    Good pos items p' (.node idx s e dim val b c r) ∧
    Good pos items p' (.node idx s e dim val (recomputeBox b c r) c r) := by
  obtain ⟨hE', gr', hS, hM, hEn, hlive, hR⟩ := node_left h hE
  obtain ⟨g0, gl, gr, g3, g4, g5, g6, g7, g8, g9⟩ := h
  have hl := gl.le
  have hcl := hc.good.le
  have h1 := hc.lo
  have h2 := hc.hi
  have gaps : live items p' s c.start = [] ∧ live items p' c.stop r.start = [] := by
    constructor
    · rw [live_append items p' s l.start c.start g3 h1, hS, hc.gapL]; rfl
    · rw [live_append items p' c.stop l.stop r.start h2 g4, hc.gapR, hM]; rfl
  refine ⟨⟨fun x hx => g0 x (hE'.sub.subset hx), hc.good, gr', by omega, by omega, g5, g6, gaps.1, gaps.2,
    hEn⟩, ⟨?_, hc.good, gr', by omega, by omega, g5, g6, gaps.1, gaps.2, hEn⟩⟩
  obtain ⟨b1, hb1, m1⟩ := hc.good.box
  obtain ⟨b2, hb2, m2⟩ := gr'.box
  rw [hlive, hc.live, ← hR]
  unfold recomputeBox
  rw [hb1, hb2]
  intro x hx
  rcases List.mem_append.1 hx with hx | hx
  · exact joinBox_left (m1 x hx)
  · exact joinBox_right (m2 x hx)

/-- The node with a replaced right child. -/
theorem node_right_good (h : Good pos items p (.node idx s e dim val b l r))
    (hE : Erased pos items p p' r.start r.stop pts k) {c : BT K d} (hc : Stands pos items p' r c) :
    Good pos items p' (.node idx s e dim val b l c) ∧
    Good pos items p' (.node idx s e dim val (recomputeBox b l c) l c) := by
  obtain ⟨hE', gl', hS, hM, hEn, hlive, hL⟩ := node_right h hE
  obtain ⟨g0, gl, gr, g3, g4, g5, g6, g7, g8, g9⟩ := h
  have hr := gr.le
  have hcl := hc.good.le
  have h1 := hc.lo
  have h2 := hc.hi
  have gaps : live items p' l.stop c.start = [] ∧ live items p' c.stop e = [] := by
    constructor
    · rw [live_append items p' l.stop r.start c.start g4 h1, hM, hc.gapL]; rfl
    · rw [live_append items p' c.stop r.stop e h2 g5, hc.gapR, hEn]; rfl
  refine ⟨⟨fun x hx => g0 x (hE'.sub.subset hx), gl', hc.good, g3, by omega, by omega, g6, hS, gaps.1,
    gaps.2⟩, ⟨?_, gl', hc.good, g3, by omega, by omega, g6, hS, gaps.1, gaps.2⟩⟩
  obtain ⟨b1, hb1, m1⟩ := gl'.box
  obtain ⟨b2, hb2, m2⟩ := hc.good.box
  rw [hlive, hc.live, ← hL]
  unfold recomputeBox
  rw [hb1, hb2]
  intro x hx
  rcases List.mem_append.1 hx with hx | hx
  · exact joinBox_left (m1 x hx)
  · exact joinBox_right (m2 x hx)

theorem node_left_search (h : Good pos items p (.node idx s e dim val b l r))
    (hs : Searchable pos items p (.node idx s e dim val b l r))
    (hE : Erased pos items p p' l.start l.stop pts k) {c : BT K d} (hc : Stands pos items p' l c)
    (hcs : Searchable pos items p' c) (b' : Box K d) :
    Searchable pos items p' (.node idx s e dim val b' c r) := by
  obtain ⟨hE', gr', hS, hM, hEn, hlive, hR⟩ := node_left h hE
  obtain ⟨x1, x2, x3, x4⟩ := hs
  refine ⟨fun x hx => ?_, fun x hx => ?_, hcs, ?_⟩
  · rw [← hc.live] at hx
    exact x1 x (hE.sub.subset hx)
  · rw [hR] at hx
    exact x2 x hx
  · obtain ⟨g0, gl, gr, g3, g4, g5, g6, g7, g8, g9⟩ := h
    exact x4.congr gr fun j h1 h2 => (hE.out j (by omega)).symm

theorem node_right_search (h : Good pos items p (.node idx s e dim val b l r))
    (hs : Searchable pos items p (.node idx s e dim val b l r))
    (hE : Erased pos items p p' r.start r.stop pts k) {c : BT K d} (hc : Stands pos items p' r c)
    (hcs : Searchable pos items p' c) (b' : Box K d) :
    Searchable pos items p' (.node idx s e dim val b' l c) := by
  obtain ⟨hE', gl', hS, hM, hEn, hlive, hL⟩ := node_right h hE
  obtain ⟨x1, x2, x3, x4⟩ := hs
  refine ⟨fun x hx => ?_, fun x hx => ?_, ?_, hcs⟩
  · rw [hL] at hx
    exact x1 x hx
  · rw [← hc.live] at hx
    exact x2 x (hE.sub.subset hx)
  · obtain ⟨g0, gl, gr, g3, g4, g5, g6, g7, g8, g9⟩ := h
    exact x3.congr gl fun j h1 h2 => (hE.out j (by omega)).symm

end Node

/-- The subtree as it stands after the walk, when nothing is cut out. -/
def Out.self (t : BT K d) : Out K d → BT K d
  | .absent => t
  | .kept c => c
  | .emptied c => c
  | .cut _ _ c => c

/-- The subtree that the node above ends up with. -/
def Out.repl (t : BT K d) : Out K d → BT K d
  | .cut sib _ _ => sib
  | o => o.self t

/-- What the walk does to a subtree. -/
structure WalkOut (pos : α → Point K d) (items : List α) (p : List Bool) (q : Point K d) (t : BT K d)
    (p' : List Bool) (o : Out K d) : Prop where
  er : Erased pos items p p' t.start t.stop [q] (if o.found then 1 else 0)
  same : o.found = false → p' = p
  start : (o.self t).start = t.start
  stop : (o.self t).stop = t.stop
  good : Good pos items p' (o.self t)
  repl : Stands pos items p' t (o.repl t)
  emptied : ∀ c, o = .emptied c → live items p' t.start t.stop = []
  half : ∀ sib lf c, o = .cut sib lf c → ∃ idx s e dim val b l r, c = .node idx s e dim val b l r ∧
    live items p' (if lf then l else r).start (if lf then l else r).stop = []
  exact : Searchable pos items p t →
    live items p' t.start t.stop = (live items p t.start t.stop).eraseP (fun x => decide (pos x = q)) ∧
    (o.found = true ↔ ∃ x ∈ live items p t.start t.stop, pos x = q) ∧
    Searchable pos items p' (o.self t) ∧ Searchable pos items p' (o.repl t)

theorem eraseP_right {A B : List α} {q : Point K d} (h : ∀ x ∈ A, pos x ≠ q) :
    (A ++ B).eraseP (fun x => decide (pos x = q)) = A ++ B.eraseP fun x => decide (pos x = q) := by
  have := eraseAll_right pos [q] A B (fun p hp x hx => by
    rw [List.mem_singleton] at hp
    rw [hp]; exact h x hx)
  exact this

theorem eraseP_left {A B : List α} {q : Point K d} (h : ∀ x ∈ B, pos x ≠ q) :
    (A ++ B).eraseP (fun x => decide (pos x = q)) = A.eraseP (fun x => decide (pos x = q)) ++ B := by
  have := eraseAll_left pos [q] A B (fun p hp x hx => by
    rw [List.mem_singleton] at hp
    rw [hp]; exact h x hx)
  exact this

theorem eraseWalk_spec (q : Point K d) (t : BT K d) (p : List Bool) (hlen : items.length ≤ p.length)
    (h : Good pos items p t) :
    ∃ p' o, eraseWalk pos items p q t = .ok (p', o) ∧ WalkOut pos items p q t p' o := by
  induction t with
  | nil => exact absurd h (by simp [Good])
  | leaf idx s e cnt b =>
    obtain ⟨p', o, ho⟩ : ∃ p' o, eraseInLeaf pos items p q idx s e cnt b = (p', o) := ⟨_, _, rfl⟩
    refine ⟨p', o, by rw [eraseWalk, ho], ?_⟩
    have hg := h
    obtain ⟨g1, g2, g3, g4⟩ := h
    have hspec := eraseOne_spec (pos := pos) q p 0 s e hlen g2
    unfold eraseOne at hspec
    unfold eraseInLeaf at ho
    cases hf : findInLeaf pos q (slots items p s e) with
    | none =>
      rw [hf] at hspec
      obtain ⟨_, _, a3, _⟩ := hspec
      rw [hf] at ho
      simp only [Prod.mk.injEq] at a3 ho
      obtain ⟨rfl, rfl⟩ := ho
      refine ⟨Erased.nothing _ _ _ _, fun _ => rfl, rfl, rfl, hg, Stands.same hg rfl rfl,
        fun c hc => (by cases hc), fun _ _ c hc => (by cases hc), fun _ => ⟨a3, ?_, trivial, trivial⟩⟩
      simp only [Out.found, Bool.false_eq_true, false_iff, not_exists, not_and]
      intro x hx hxq
      have : ((slots items p s e).any fun x => x.2 && decide (pos x.1 = q)) = true :=
        (slots_any q s e).2 ⟨x, hx, hxq⟩
      unfold findInLeaf at hf
      rw [List.findIdx?_eq_none_iff] at hf
      rw [List.any_eq_true] at this
      obtain ⟨y, hy, hb⟩ := this
      rw [hf y hy] at hb
      cases hb
    | some j =>
      rw [hf] at hspec
      obtain ⟨a1, a2, a3, a4⟩ := hspec
      rw [hf] at ho
      simp only [Nat.zero_add] at a1 a2 a3 a4 ho
      have hex : ∃ x ∈ live items p s e, pos x = q := by
        rw [← slots_any q s e]
        unfold findInLeaf at hf
        rw [← List.findIdx?_isSome, hf]
        rfl
      have hE : Erased pos items p (p.set (s + j) false) s e [q] 1 := by
        refine ⟨a1, a2, ?_, a4, ?_⟩
        · rw [a3]; exact List.eraseP_sublist
        · have := eraseAll_only (pos := pos) [q] (live items p s e)
          rw [a3]
          exact this
      have hcnt : cnt - 1 = (live items (p.set (s + j) false) s e).length := by omega
      by_cases hc : cnt - 1 = 0
      · rw [if_pos hc, Prod.mk.injEq] at ho
        obtain ⟨rfl, rfl⟩ := ho
        have hg0 : Good pos items (p.set (s + j) false) (.leaf idx s e (cnt - 1) b) :=
          ⟨g1, g2, hcnt, fun x hx => g4 x (hE.sub.subset hx)⟩
        refine ⟨hE, fun h => (by cases h), rfl, rfl, hg0, Stands.same hg0 rfl rfl, fun _ _ => ?_,
          fun _ _ c hc => (by cases hc), fun _ => ⟨a3, ?_, trivial, trivial⟩⟩
        · exact List.eq_nil_of_length_eq_zero (hcnt.symm.trans hc)
        · simp only [Out.found, true_iff]
          exact hex
      · rw [if_neg hc, Prod.mk.injEq] at ho
        obtain ⟨rfl, rfl⟩ := ho
        have hg1 : Good pos items (p.set (s + j) false) (.leaf idx s e (cnt - 1)
            (leafBoxLive b ((live items (p.set (s + j) false) s e).map pos))) :=
          ⟨g1, g2, hcnt, leafBoxLive_mem b _⟩
        refine ⟨hE, fun h => (by cases h), rfl, rfl, hg1, Stands.same hg1 rfl rfl, fun c hc => (by cases hc),
          fun _ _ c hc => (by cases hc), fun _ => ⟨a3, ?_, trivial, trivial⟩⟩
        simp only [Out.found, true_iff]
        exact hex
  | node idx s e dim val b l r ihl ihr =>
    have hnl := h.node_live
    have hn : (l.isNil && r.isNil) = false := by rw [h.2.1.not_nil]; rfl
    simp only [eraseWalk, hn, Bool.false_eq_true, if_false]
    by_cases hq : q dim < val
    · rw [if_pos hq]
      obtain ⟨p', o, e1, W⟩ := ihl h.2.1
      rw [e1]
      refine ⟨p', _, rfl, ?_⟩
      obtain ⟨hE', gr', hS, hM, hEn, hlive, hR⟩ := node_left h W.er
      have hself : Stands pos items p' l (o.self l) := Stands.same W.good W.start W.stop
      have hex : Searchable pos items p (.node idx s e dim val b l r) →
          live items p' s e = (live items p s e).eraseP (fun x => decide (pos x = q)) ∧
          (o.found = true ↔ ∃ x ∈ live items p s e, pos x = q) := by
        intro hs
        obtain ⟨y1, y2, y3, y4⟩ := W.exact hs.2.2.1
        have hne : ∀ x ∈ live items p r.start r.stop, pos x ≠ q := fun x hx hxq => by
          have := hs.2.1 x hx
          rw [hxq] at this
          exact absurd hq (not_lt.2 this)
        constructor
        · rw [hlive, hnl, eraseP_left hne, y1]
        · rw [y2, hnl]
          constructor
          · rintro ⟨x, hx, e⟩
            exact ⟨x, List.mem_append_left _ hx, e⟩
          · rintro ⟨x, hx, e⟩
            rcases List.mem_append.1 hx with hx | hx
            · exact ⟨x, hx, e⟩
            · exact absurd e (hne x hx)
      cases o with
      | absent =>
        have hp := W.same rfl
        subst hp
        refine ⟨Erased.nothing _ _ _ _, fun _ => rfl, rfl, rfl, h, Stands.same h rfl rfl,
          fun c hc => (by cases hc), fun _ _ c hc => (by cases hc), fun hs => ?_⟩
        exact ⟨(hex hs).1, (hex hs).2, hs, hs⟩
      | kept c =>
        have hg := (node_left_good h W.er hself).1
        refine ⟨hE', fun h => (by cases h), rfl, rfl, hg, Stands.same hg rfl rfl,
          fun c hc => (by cases hc), fun _ _ c hc => (by cases hc), fun hs => ?_⟩
        have := node_left_search h hs W.er hself (W.exact hs.2.2.1).2.2.1 b
        exact ⟨(hex hs).1, (hex hs).2, this, this⟩
      | emptied c =>
        have hg := (node_left_good h W.er hself).1
        have hl0 := W.emptied c rfl
        obtain ⟨g0, gl, gr, g3, g4, g5, g6, g7, g8, g9⟩ := id h
        have := gl.le
        have := gr.le
        refine ⟨hE', fun h => (by cases h), rfl, rfl, hg, ?_,
          fun c hc => (by cases hc), fun sib lf c' hc => ?_, fun hs => ?_⟩
        · refine ⟨gr', ?_, g5, ?_, hEn⟩
          · show s ≤ r.start
            omega
          · show live items p' s r.start = []
            rw [live_append items p' s l.start r.start g3 (by omega), hS,
              live_append items p' l.start l.stop r.start (by omega) g4, hl0, hM]
            rfl
        · simp only [upLeft, Out.cut.injEq] at hc
          obtain ⟨_, h2, h3⟩ := hc
          refine ⟨_, _, _, _, _, _, _, _, h3.symm, ?_⟩
          rw [← h2]
          simp only [if_true]
          have e1 : c.start = l.start := W.start
          have e2 : c.stop = l.stop := W.stop
          rw [e1, e2]
          exact hl0
        · have := node_left_search h hs W.er hself (W.exact hs.2.2.1).2.2.1 b
          exact ⟨(hex hs).1, (hex hs).2, this, this.2.2.2⟩
      | cut sib lf c =>
        have hg := (node_left_good h W.er W.repl).2
        refine ⟨hE', fun h => (by cases h), rfl, rfl, hg, Stands.same hg rfl rfl,
          fun c hc => (by cases hc), fun _ _ c hc => (by cases hc), fun hs => ?_⟩
        have := node_left_search h hs W.er W.repl (W.exact hs.2.2.1).2.2.2 (recomputeBox b sib r)
        exact ⟨(hex hs).1, (hex hs).2, this, this⟩
    · rw [if_neg hq]
      obtain ⟨p', o, e1, W⟩ := ihr h.2.2.1
      rw [e1]
      refine ⟨p', _, rfl, ?_⟩
      obtain ⟨hE', gl', hS, hM, hEn, hlive, hL⟩ := node_right h W.er
      have hself : Stands pos items p' r (o.self r) := Stands.same W.good W.start W.stop
      have hex : Searchable pos items p (.node idx s e dim val b l r) →
          live items p' s e = (live items p s e).eraseP (fun x => decide (pos x = q)) ∧
          (o.found = true ↔ ∃ x ∈ live items p s e, pos x = q) := by
        intro hs
        obtain ⟨y1, y2, y3, y4⟩ := W.exact hs.2.2.2
        have hne : ∀ x ∈ live items p l.start l.stop, pos x ≠ q := fun x hx hxq => by
          have := hs.1 x hx
          rw [hxq] at this
          exact hq this
        constructor
        · rw [hlive, hnl, eraseP_right hne, y1]
        · rw [y2, hnl]
          constructor
          · rintro ⟨x, hx, e⟩
            exact ⟨x, List.mem_append_right _ hx, e⟩
          · rintro ⟨x, hx, e⟩
            rcases List.mem_append.1 hx with hx | hx
            · exact absurd e (hne x hx)
            · exact ⟨x, hx, e⟩
      cases o with
      | absent =>
        have hp := W.same rfl
        subst hp
        refine ⟨Erased.nothing _ _ _ _, fun _ => rfl, rfl, rfl, h, Stands.same h rfl rfl,
          fun c hc => (by cases hc), fun _ _ c hc => (by cases hc), fun hs => ?_⟩
        exact ⟨(hex hs).1, (hex hs).2, hs, hs⟩
      | kept c =>
        have hg := (node_right_good h W.er hself).1
        refine ⟨hE', fun h => (by cases h), rfl, rfl, hg, Stands.same hg rfl rfl,
          fun c hc => (by cases hc), fun _ _ c hc => (by cases hc), fun hs => ?_⟩
        have := node_right_search h hs W.er hself (W.exact hs.2.2.2).2.2.1 b
        exact ⟨(hex hs).1, (hex hs).2, this, this⟩
      | emptied c =>
        have hg := (node_right_good h W.er hself).1
        have hl0 := W.emptied c rfl
        obtain ⟨g0, gl, gr, g3, g4, g5, g6, g7, g8, g9⟩ := id h
        have := gl.le
        have := gr.le
        refine ⟨hE', fun h => (by cases h), rfl, rfl, hg, ?_,
          fun c hc => (by cases hc), fun sib lf c' hc => ?_, fun hs => ?_⟩
        · refine ⟨gl', g3, ?_, hS, ?_⟩
          · show l.stop ≤ e
            omega
          · show live items p' l.stop e = []
            rw [live_append items p' l.stop r.start e g4 (by omega), hM,
              live_append items p' r.start r.stop e (by omega) g5, hl0, hEn]
            rfl
        · simp only [upRight, Out.cut.injEq] at hc
          obtain ⟨_, h2, h3⟩ := hc
          refine ⟨_, _, _, _, _, _, _, _, h3.symm, ?_⟩
          rw [← h2]
          simp only [Bool.false_eq_true, if_false]
          have e1 : c.start = r.start := W.start
          have e2 : c.stop = r.stop := W.stop
          rw [e1, e2]
          exact hl0
        · have := node_right_search h hs W.er hself (W.exact hs.2.2.2).2.2.1 b
          exact ⟨(hex hs).1, (hex hs).2, this, this.2.2.1⟩
      | cut sib lf c =>
        have hg := (node_right_good h W.er W.repl).2
        refine ⟨hE', fun h => (by cases h), rfl, rfl, hg, Stands.same hg rfl rfl,
          fun c hc => (by cases hc), fun _ _ c hc => (by cases hc), fun hs => ?_⟩
        have := node_right_search h hs W.er W.repl (W.exact hs.2.2.2).2.2.2 (recomputeBox b l sib)
        exact ⟨(hex hs).1, (hex hs).2, this, this⟩

/-- A tree with the same arrays and sizes. -/
structure SameShape (t t' : Tree α K d) : Prop where
  items : t'.items = t.items
  lenP : t'.present.length = t.present.length
  bs : t'.buildSize = t.buildSize
  ms : t'.maxSize = t.maxSize

/-- Erasing one point with `log_tree`. -/
theorem erasePoint_spec {t : Tree α K d} (hQ : QInv pos t) (hlen : t.items.length ≤ t.present.length)
    (q : Point K d) :
    ∃ f t', erasePoint pos true t q = .ok (f, t') ∧ QInv pos t' ∧ SameShape t t' ∧
      (content t').Sublist (content t) ∧
      (∃ R : List α, (content t).Perm (content t' ++ R) ∧ (R.map pos).Subperm [q] ∧
        (f = true ↔ R ≠ [])) ∧
      (SearchableT pos t → SearchableT pos t' ∧
        content t' = (content t).eraseP (fun x => decide (pos x = q)) ∧
        (f = true ↔ ∃ x ∈ content t, pos x = q)) ∧
      (t.curSize = 0 → t' = t) := by
  unfold erasePoint
  by_cases h0 : t.curSize = 0
  · rw [if_pos h0]
    have hct : content t = [] := List.eq_nil_of_length_eq_zero (hQ.size.symm.trans h0)
    refine ⟨false, t, rfl, hQ, ⟨rfl, rfl, rfl, rfl⟩, List.Sublist.refl _, ⟨[], by simp, by simp, by simp⟩,
      fun h => ⟨h, ?_, ?_⟩, fun _ => rfl⟩
    · rw [hct]; rfl
    · rw [hct]; simp
  · rw [if_neg h0]
    obtain ⟨hg, hs, he⟩ := hQ.good h0
    have hsz := hQ.size
    obtain ⟨p', o, e1, W⟩ := eraseWalk_spec q t.root t.present hlen hg
    rw [e1]
    have hfin : finishRoot true t.root o = .ok (o.self t.root) := by cases o <;> rfl
    simp only [Except.bind, hfin, Except.map]
    have hE := W.er
    rw [hs, he] at hE
    have hcount := hE.count
    have hct : content { t with
        present := p'
        root := o.self t.root
        curSize := if o.found then t.curSize - 1 else t.curSize } = live t.items p' 0 t.buildSize := by
      rw [content_eq]
    rw [content_eq] at hsz
    refine ⟨o.found, _, rfl, ⟨fun _ => ⟨W.good, W.start.trans hs, W.stop.trans he⟩, ?_⟩,
      ⟨rfl, hE.len, rfl, rfl⟩, ?_, ?_, ?_, fun h => absurd h h0⟩
    · rw [hct]
      show (if o.found then t.curSize - 1 else t.curSize) = _
      split at hcount <;> (simp_all; try omega)
    · rw [hct, content_eq]
      exact hE.sub
    · rw [hct, content_eq]
      obtain ⟨R, q1, q2⟩ := hE.only
      refine ⟨R, q1, q2, ?_⟩
      have := q1.length_eq
      rw [List.length_append] at this
      cases hf : o.found with
      | false =>
        rw [hf] at hcount
        simp only [Bool.false_eq_true, if_false] at hcount
        have : R.length = 0 := by omega
        simp [List.eq_nil_of_length_eq_zero this]
      | true =>
        rw [hf] at hcount
        simp only [if_true] at hcount
        have : R.length = 1 := by omega
        simp only [true_iff]
        rintro rfl
        simp at this
    · intro hS
      obtain ⟨u1, u2, u3, _⟩ := W.exact (hS h0)
      rw [hs, he] at u1 u2
      refine ⟨fun _ => u3, ?_, ?_⟩
      · rw [hct, content_eq]
        exact u1
      · rw [content_eq]
        exact u2

/-- Erasing a list of points, one after the other, with `log_tree`. -/
theorem erasePoints_q (pts : List (Point K d)) {t : Tree α K d} (hQ : QInv pos t)
    (hlen : t.items.length ≤ t.present.length) :
    ∃ t', erasePoints pos true t pts = .ok t' ∧ QInv pos t' ∧ SameShape t t' ∧
      (content t').Sublist (content t) ∧
      (∃ R : List α, (content t).Perm (content t' ++ R) ∧ (R.map pos).Subperm pts) ∧
      (SearchableT pos t → SearchableT pos t' ∧ content t' = eraseAll pos pts (content t)) ∧
      (t.curSize = 0 → t' = t) := by
  induction pts generalizing t with
  | nil => exact ⟨t, rfl, hQ, ⟨rfl, rfl, rfl, rfl⟩, List.Sublist.refl _, ⟨[], by simp, by simp⟩,
      fun h => ⟨h, rfl⟩, fun _ => rfl⟩
  | cons q pts ih =>
    obtain ⟨f, t1, e1, I1, m1, s1, ⟨R1, r1, r2, _⟩, x1, z1⟩ := erasePoint_spec hQ hlen q
    obtain ⟨t2, e2, I2, m2, s2, ⟨R2, r3, r4⟩, x2, z2⟩ := ih I1 (by rw [m1.items, m1.lenP]; exact hlen)
    refine ⟨t2, by simp only [erasePoints, e1, Except.bind, e2], I2,
      ⟨m2.items.trans m1.items, m2.lenP.trans m1.lenP, m2.bs.trans m1.bs, m2.ms.trans m1.ms⟩, s2.trans s1,
      ⟨R2 ++ R1, ?_, ?_⟩, fun h => ?_, fun h => ?_⟩
    · rw [← List.append_assoc]
      exact r1.trans (r3.append_right _)
    · rw [List.map_append]
      exact ((List.perm_append_comm.subperm).trans (r2.append r4))
    · obtain ⟨y1, y2, _⟩ := x1 h
      obtain ⟨w1, w2⟩ := x2 y1
      refine ⟨w1, ?_⟩
      rw [w2, y2]
      rfl
    · have := z1 h
      subst this
      exact z2 h

/-- The same with the invariant of a tree. -/
theorem erasePoints_spec (pts : List (Point K d)) {t : Tree α K d} (hI : Inv pos t) :
    ∃ t', erasePoints pos true t pts = .ok t' ∧ Inv pos t' ∧ t'.maxSize = t.maxSize ∧
      (content t').Sublist (content t) ∧
      (∃ R : List α, (content t).Perm (content t' ++ R) ∧ (R.map pos).Subperm pts) ∧
      (SearchableT pos t → SearchableT pos t' ∧ content t' = eraseAll pos pts (content t)) ∧
      (t.curSize = 0 → t' = t) := by
  obtain ⟨t', e1, I1, m1, rest⟩ := erasePoints_q pts hI.q (hI.lenI.trans hI.lenP.symm).le
  exact ⟨t', e1, ⟨by rw [m1.items, m1.ms]; exact hI.lenI, by rw [m1.lenP, m1.ms]; exact hI.lenP,
    by rw [m1.bs, m1.ms]; exact hI.bs, I1.good, I1.size⟩, m1.ms, rest⟩

end

end Verif.BatchKd
