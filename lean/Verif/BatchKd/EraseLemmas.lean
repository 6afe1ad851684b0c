import Verif.BatchKd.BuildLemmas

set_option linter.unusedSectionVars false
set_option linter.unusedVariables false

/-! Erasing from the batch kd-tree. -/

namespace Verif.BatchKd

variable {α K : Type} {d : ℕ}

section
variable [Field K] [LinearOrder K]
variable {pos : α → Point K d} {items : List α}

/-- What erasing `pts` from a slice does to the flags. -/
structure Erased (pos : α → Point K d) (items : List α) (p p' : List Bool) (s e : ℕ)
    (pts : List (Point K d)) (k : ℕ) : Prop where
  len : p'.length = p.length
  out : ∀ j, (j < s ∨ e ≤ j) → p'[j]? = p[j]?
  sub : (live items p' s e).Sublist (live items p s e)
  count : k + (live items p' s e).length = (live items p s e).length
  only : ∃ R : List α, (live items p s e).Perm (live items p' s e ++ R) ∧ (R.map pos).Subperm pts

theorem eraseP_only (P : Point K d) (L : List α) :
    (∃ x, pos x = P ∧ L.Perm ((L.eraseP fun x => decide (pos x = P)) ++ [x]) ) ∨
      (L.eraseP fun x => decide (pos x = P)) = L := by
  rcases List.exists_or_eq_self_of_eraseP (fun x => decide (pos x = P)) L with h | ⟨a, l1, l2, _, ha, h1, h2⟩
  · exact Or.inr h
  · refine Or.inl ⟨a, by simpa using ha, ?_⟩
    rw [h2]
    subst h1
    refine List.Perm.trans (List.perm_middle) ?_
    rw [← List.cons_append]
    exact (List.perm_append_comm (l₁ := [a])).trans (by simp)

theorem eraseOne_spec (p : Point K d) (present : List Bool) (n s e : ℕ)
    (hlen : items.length ≤ present.length) (he : e ≤ items.length) :
    let r := eraseOne pos items s e p (present, n)
    r.1.length = present.length ∧ (∀ j, (j < s ∨ e ≤ j) → r.1[j]? = present[j]?) ∧
    live items r.1 s e = (live items present s e).eraseP (fun x => decide (pos x = p)) ∧
    r.2 + (live items r.1 s e).length = n + (live items present s e).length := by
  intro r
  have hr : r = eraseOne pos items s e p (present, n) := rfl
  unfold eraseOne at hr
  simp only at hr
  cases hf : findInLeaf pos p (slots items present s e) with
  | none =>
    rw [hf] at hr
    simp only at hr
    rw [hr]
    refine ⟨rfl, fun _ _ => rfl, ?_, rfl⟩
    exact (eraseP_not_found (fun x => decide (pos x = p)) _ hf).symm
  | some j =>
    rw [hf] at hr
    simp only at hr
    rw [hr]
    have hf' := hf
    unfold findInLeaf at hf
    rw [List.findIdx?_eq_some_iff_getElem] at hf
    obtain ⟨hlt, hx, _⟩ := hf
    have hje : j < e - s := by
      rw [slots_length _ _ _ _ hlen he] at hlt
      exact hlt
    have hl : live items (present.set (s + j) false) s e =
        (live items present s e).eraseP (fun x => decide (pos x = p)) := by
      unfold live
      rw [slots_set_in items present s e j hje (by omega)]
      exact filter_clear_first (fun x => decide (pos x = p)) _ j hf'
    refine ⟨List.length_set, ?_, hl, ?_⟩
    · intro i hi
      rw [List.getElem?_set_ne (by omega)]
    · simp only [hl]
      simp only [Bool.and_eq_true, decide_eq_true_eq] at hx
      have hmem : (slots items present s e)[j].1 ∈ live items present s e := by
        unfold live
        rw [List.mem_map]
        exact ⟨_, List.mem_filter.2 ⟨List.getElem_mem hlt, hx.1⟩, rfl⟩
      rw [List.length_eraseP_of_mem hmem (by simpa using hx.2)]
      have := List.length_pos_of_mem hmem
      omega

/-- Erasing a batch inside one slice. -/
theorem eraseFold_spec (pts : List (Point K d)) : ∀ (present : List Bool) (n s e : ℕ)
    (hlen : items.length ≤ present.length) (he : e ≤ items.length),
    let r := pts.foldl (fun st p => eraseOne pos items s e p st) (present, n)
    r.1.length = present.length ∧ (∀ j, (j < s ∨ e ≤ j) → r.1[j]? = present[j]?) ∧
    live items r.1 s e = eraseAll pos pts (live items present s e) ∧
    r.2 + (live items r.1 s e).length = n + (live items present s e).length := by
  induction pts with
  | nil => exact fun present n s e hlen he => ⟨rfl, fun _ _ => rfl, rfl, rfl⟩
  | cons p pts ih =>
    intro present n s e hlen he r
    obtain ⟨a1, a2, a3, a4⟩ := eraseOne_spec (pos := pos) p present n s e hlen he
    have hr : r = pts.foldl (fun st p => eraseOne pos items s e p st)
      ((eraseOne pos items s e p (present, n)).1, (eraseOne pos items s e p (present, n)).2) := rfl
    obtain ⟨b1, b2, b3, b4⟩ := ih (eraseOne pos items s e p (present, n)).1
      (eraseOne pos items s e p (present, n)).2 s e (hlen.trans a1.symm.le) he
    rw [← hr] at b1 b2 b3 b4
    refine ⟨b1.trans a1, fun j hj => (b2 j hj).trans (a2 j hj), ?_, by omega⟩
    rw [b3, a3]
    rfl

theorem eraseAll_only (pts : List (Point K d)) (L : List α) :
    ∃ R : List α, L.Perm (eraseAll pos pts L ++ R) ∧ (R.map pos).Subperm pts := by
  induction pts generalizing L with
  | nil => exact ⟨[], by simp [eraseAll], by simp⟩
  | cons p pts ih =>
    obtain ⟨R, h1, h2⟩ := ih (L.eraseP fun x => decide (pos x = p))
    have he : eraseAll pos (p :: pts) L = eraseAll pos pts (L.eraseP fun x => decide (pos x = p)) := rfl
    rw [he]
    rcases eraseP_only (pos := pos) p L with ⟨x, hx, hp⟩ | h
    · refine ⟨R ++ [x], ?_, ?_⟩
      · rw [← List.append_assoc]
        exact hp.trans (h1.append_right [x])
      · rw [List.map_append, List.map_cons, List.map_nil, hx]
        exact (List.perm_append_comm (l₂ := [p])).subperm.trans ((List.subperm_cons p).2 h2)
    · refine ⟨R, ?_, h2.trans (List.sublist_cons_self _ _).subperm⟩
      rw [h] at h1 ⊢
      exact h1

theorem leafBoxLive_mem (old : Box K d) (L : List α) :
    ∀ x ∈ L, (leafBoxLive old (L.map pos)).Mem (pos x) := by
  cases L with
  | nil => simp
  | cons y L =>
    intro x hx
    have h := leafBox_mem pos (pos y) (y :: L) x hx
    have he : leafBoxLive old ((y :: L).map pos) = L.foldl (fun b x => joinBox b (pointBox (pos x)))
        (pointBox (pos y)) := by
      simp only [List.map_cons, leafBoxLive, List.foldl_map]
    rw [he]
    have hj : joinBox (pointBox (pos y)) (pointBox (pos y)) = pointBox (pos y) := by
      unfold joinBox pointBox
      simp
    unfold leafBox at h
    rw [List.foldl_cons, hj] at h
    exact h

/-- The state left behind by erasing from a subtree. -/
structure EraseOut (pos : α → Point K d) (items : List α) (p : List Bool) (pts : List (Point K d))
    (t : BT K d) (p' : List Bool) (k : ℕ) (st ret : BT K d) : Prop where
  er : Erased pos items p p' t.start t.stop pts k
  start : st.start = t.start
  stop : st.stop = t.stop
  good : Good pos items p' st
  retNil : ret.isNil = true → live items p' t.start t.stop = []
  retGood : ret.isNil = false → Good pos items p' ret ∧ t.start ≤ ret.start ∧ ret.stop ≤ t.stop ∧
    live items p' t.start ret.start = [] ∧ live items p' ret.stop t.stop = [] ∧
    live items p' t.start t.stop ≠ []
  exact : Searchable pos items p t → live items p' t.start t.stop =
    eraseAll pos pts (live items p t.start t.stop) ∧
    Searchable pos items p' st ∧ (ret.isNil = false → Searchable pos items p' ret)

theorem Erased.start_zero {p p' : List Bool} {s e : ℕ} {pts : List (Point K d)} {k : ℕ}
    (h : Erased pos items p p' s e pts k) : k ≤ (live items p s e).length := by
  have := h.count
  omega

theorem live_sub_of_le {items : List α} {p : List Bool} {s e s' e' : ℕ} (h1 : s ≤ s') (h2 : s' ≤ e')
    (h3 : e' ≤ e) : (live items p s' e').Sublist (live items p s e) := by
  rw [live_append items p s s' e h1 (by omega), live_append items p s' e' e h2 h3]
  exact (List.sublist_append_left _ _).trans (List.sublist_append_right _ _)

theorem live_nil_of_le {items : List α} {p : List Bool} {s e s' e' : ℕ} (h1 : s ≤ s') (h2 : s' ≤ e')
    (h3 : e' ≤ e) (h : live items p s e = []) : live items p s' e' = [] := by
  have := live_sub_of_le (items := items) (p := p) h1 h2 h3
  rw [h] at this
  exact List.sublist_nil.1 this

/-- Slices other than the erased one keep their live items. -/
theorem Erased.live_out {p p' : List Bool} {s e : ℕ} {pts : List (Point K d)} {k : ℕ}
    (h : Erased pos items p p' s e pts k) {s' e' : ℕ} (hd : e' ≤ s ∨ e ≤ s') :
    live items p' s' e' = live items p s' e' :=
  live_congr (fun j h1 h2 => h.out j (by omega)) le_rfl le_rfl

theorem eraseAt_spec {part : Fin d → K → List (Point K d) → List (Point K d)}
    (hpart : PartItems part (id : Point K d → Point K d)) (t : BT K d) :
    ∀ (p : List Bool) (pts : List (Point K d)), items.length ≤ p.length → Good pos items p t →
    ∃ p' k st ret, eraseAt pos part items p pts t = .ok (p', k, st, ret) ∧
      EraseOut pos items p pts t p' k st ret := by
  induction t with
  | nil => exact fun p pts _ h => absurd h (by simp [Good])
  | leaf idx s e cnt b =>
    intro p pts hlen h
    obtain ⟨g1, g2, g3, g4⟩ := h
    obtain ⟨a1, a2, a3, a4⟩ := eraseFold_spec (pos := pos) pts p 0 s e hlen g2
    obtain ⟨p', k, hst⟩ : ∃ p' k, pts.foldl (fun st p => eraseOne pos items s e p st) (p, 0) = (p', k) :=
      ⟨_, _, rfl⟩
    simp only [eraseAt, eraseLeaf]
    simp only [hst] at a1 a2 a3 a4 ⊢
    have hE : Erased pos items p p' s e pts k := by
      refine ⟨a1, a2, by rw [a3]; exact eraseAll_sublist pos pts _, by omega, ?_⟩
      rw [a3]
      exact eraseAll_only pts _
    have hcnt : cnt - k = (live items p' s e).length := by
      have := hE.count
      omega
    have hsubset := hE.sub.subset
    have hg0 : Good pos items p' (.leaf idx s e (cnt - k) b) :=
      ⟨g1, g2, hcnt, fun x hx => g4 x (hsubset hx)⟩
    by_cases hc : cnt - k = 0
    · rw [if_pos hc]
      refine ⟨p', k, _, _, rfl, hE, rfl, rfl, hg0, fun _ => ?_, fun h => ?_, fun _ => ⟨a3, trivial, ?_⟩⟩
      · exact List.eq_nil_of_length_eq_zero (hcnt.symm.trans hc)
      · simp [BT.isNil] at h
      · intro h
        simp [BT.isNil] at h
    · rw [if_neg hc]
      have hne : live items p' s e ≠ [] := fun h => hc (by rw [hcnt, h]; rfl)
      split
      · have hg1 : Good pos items p'
            (.leaf idx s e (cnt - k) (leafBoxLive b ((live items p' s e).map pos))) :=
          ⟨g1, g2, hcnt, leafBoxLive_mem b _⟩
        refine ⟨p', k, _, _, rfl, hE, rfl, rfl, hg1, fun h => ?_, fun _ => ?_,
          fun _ => ⟨a3, trivial, fun _ => trivial⟩⟩
        · simp [BT.isNil] at h
        · exact ⟨hg1, le_rfl, le_rfl, live_self _ _ _, live_self _ _ _, hne⟩
      · refine ⟨p', k, _, _, rfl, hE, rfl, rfl, hg0, fun h => ?_, fun _ => ?_,
          fun _ => ⟨a3, trivial, fun _ => trivial⟩⟩
        · simp [BT.isNil] at h
        · exact ⟨hg0, le_rfl, le_rfl, live_self _ _ _, live_self _ _ _, hne⟩
  | node idx s e dim val b l r ihl ihr =>
    intro p pts hlen h
    have hnl := h.node_live
    obtain ⟨g0, gl, gr, g3, g4, g5, g6, g7, g8, g9⟩ := h
    have hl := gl.le
    have hr := gr.le
    obtain ⟨hperm, hlow, hhigh⟩ := hpart dim val pts
    simp only [id_eq] at hlow hhigh
    set m := pts.countP fun p => decide (p dim < val) with hm
    obtain ⟨p1, k1, st1, ret1, e1, O1⟩ := ihl p ((part dim val pts).take m) hlen gl
    have gr1 : Good pos items p1 r := gr.congr fun j h1 h2 => (O1.er.out j (by omega)).symm
    obtain ⟨p2, k2, st2, ret2, e2, O2⟩ := ihr p1 ((part dim val pts).drop m)
      (hlen.trans O1.er.len.symm.le) gr1
    have hrn : l.isNil = false := gl.not_nil
    -- live items of the parts after both
    have hL2 : live items p2 l.start l.stop = live items p1 l.start l.stop :=
      O2.er.live_out (Or.inl (by omega))
    have hR1 : live items p1 r.start r.stop = live items p r.start r.stop :=
      O1.er.live_out (Or.inr (by omega))
    have hgap : ∀ s' e', (e' ≤ l.start ∨ l.stop ≤ s') → (e' ≤ r.start ∨ r.stop ≤ s') →
        live items p2 s' e' = live items p s' e' := fun s' e' h1 h2 =>
      (O2.er.live_out h2).trans (O1.er.live_out h1)
    have hgapS : live items p2 s l.start = [] := (hgap _ _ (Or.inl le_rfl) (Or.inl (by omega))).trans g7
    have hgapM : live items p2 l.stop r.start = [] :=
      (hgap _ _ (Or.inr le_rfl) (Or.inl le_rfl)).trans g8
    have hgapE : live items p2 r.stop e = [] := (hgap _ _ (Or.inr (by omega)) (Or.inr le_rfl)).trans g9
    have hlive2 : live items p2 s e =
        live items p2 l.start l.stop ++ live items p2 r.start r.stop := by
      rw [live_append items p2 s l.start e g3 (by omega), hgapS, List.nil_append,
        live_append items p2 l.start l.stop e hl.1 (by omega),
        live_append items p2 l.stop r.start e g4 (by omega), hgapM, List.nil_append,
        live_append items p2 r.start r.stop e hr.1 g5, hgapE, List.append_nil]
    have hE : Erased pos items p p2 s e pts (k1 + k2) := by
      refine ⟨O2.er.len.trans O1.er.len, fun j hj => ?_, ?_, ?_, ?_⟩
      · rw [O2.er.out j (by omega), O1.er.out j (by omega)]
      · rw [hlive2, hnl, hL2, ← hR1]
        exact O1.er.sub.append O2.er.sub
      · have c1 := O1.er.count
        have c2 := O2.er.count
        rw [hlive2, hnl, hL2, List.length_append, List.length_append, ← hR1]
        omega
      · obtain ⟨R1, q1, q2⟩ := O1.er.only
        obtain ⟨R2, q3, q4⟩ := O2.er.only
        refine ⟨R1 ++ R2, ?_, ?_⟩
        · rw [hlive2, hnl, hL2, ← hR1]
          refine (q1.append q3).trans ?_
          rw [List.append_assoc, List.append_assoc]
          refine List.Perm.append_left _ ?_
          rw [← List.append_assoc, ← List.append_assoc]
          exact List.Perm.append_right _ List.perm_append_comm
        · rw [List.map_append]
          refine (q2.append q4).trans ?_
          rw [List.take_append_drop]
          exact hperm.subperm
    -- states after the second recursive call
    have hst1 : Good pos items p2 st1 := O1.good.congr fun j h1 h2 => by
      rw [O1.start] at h1
      rw [O1.stop] at h2
      exact (O2.er.out j (by omega)).symm
    have hret1 : ret1.isNil = false → Good pos items p2 ret1 := fun h => by
      obtain ⟨w1, w2, w3, _⟩ := O1.retGood h
      exact w1.congr fun j h1 h2 => (O2.er.out j (by omega)).symm
    have hstate : Good pos items p2 (.node idx s e dim val b st1 st2) := by
      have s1 := O1.start
      have s2 := O1.stop
      have s3 := O2.start
      have s4 := O2.stop
      refine ⟨fun x hx => g0 x (hE.sub.subset hx), hst1, O2.good, by omega, by omega, by omega, g6, ?_, ?_, ?_⟩
      · rw [s1]; exact hgapS
      · rw [s2, s3]; exact hgapM
      · rw [s4]; exact hgapE
    have hexact : Searchable pos items p (.node idx s e dim val b l r) →
        live items p2 s e = eraseAll pos pts (live items p s e) ∧
        Searchable pos items p2 (.node idx s e dim val b st1 st2) ∧
        (ret1.isNil = false → Searchable pos items p2 ret1) ∧
        (ret2.isNil = false → Searchable pos items p2 ret2) ∧
        (ret1.isNil = false → ret2.isNil = false → ∀ b',
          Searchable pos items p2 (.node idx s e dim val b' ret1 ret2)) := by
      rintro ⟨x1, x2, x3, x4⟩
      obtain ⟨y1, y2, y3⟩ := O1.exact x3
      obtain ⟨z1, z2, z3⟩ := O2.exact (x4.congr gr fun j h1 h2 => (O1.er.out j (by omega)).symm)
      rw [hR1] at z1
      have hsl : ∀ x ∈ live items p2 l.start l.stop, pos x dim < val := fun x hx => by
        rw [hL2] at hx
        exact x1 x (O1.er.sub.subset hx)
      have hsr : ∀ x ∈ live items p2 r.start r.stop, val ≤ pos x dim := fun x hx => by
        have := O2.er.sub.subset hx
        rw [hR1] at this
        exact x2 x this
      have hs1 : Searchable pos items p2 st1 := y2.congr O1.good fun j h1 h2 => by
        rw [O1.start] at h1
        rw [O1.stop] at h2
        exact (O2.er.out j (by omega)).symm
      have hs2 : ret1.isNil = false → Searchable pos items p2 ret1 := fun h => by
        obtain ⟨w1, w2, w3, _⟩ := O1.retGood h
        exact (y3 h).congr w1 fun j h1 h2 => (O2.er.out j (by omega)).symm
      refine ⟨?_, ⟨?_, ?_, hs1, z2⟩, hs2, z3, ?_⟩
      · rw [hlive2, hnl, hL2, y1, z1]
        rw [← eraseAll_perm pos hperm, ← List.take_append_drop m (part dim val pts), eraseAll_append]
        rw [eraseAll_left, eraseAll_right]
        · rw [List.take_append_drop]
        · intro q hq x hx hxq
          have h1 := hhigh q hq
          have h2 := x1 x ((eraseAll_sublist pos _ _).subset hx)
          rw [← hxq] at h1
          exact absurd h2 (not_lt.2 h1)
        · intro q hq x hx hxq
          have h1 := hlow q hq
          have h2 := x2 x hx
          rw [← hxq] at h1
          exact absurd h1 (not_lt.2 h2)
      · rw [O1.start, O1.stop]; exact hsl
      · rw [O2.start, O2.stop]; exact hsr
      · intro n1 n2 b'
        obtain ⟨w1, w2, w3, _⟩ := O1.retGood n1
        obtain ⟨v1, v2, v3, _⟩ := O2.retGood n2
        exact ⟨fun x hx => hsl x ((live_sub_of_le w2 w1.le.1 w3).subset hx),
          fun x hx => hsr x ((live_sub_of_le v2 v1.le.1 v3).subset hx), hs2 n1, z3 n2⟩
    simp only [eraseAt, hrn, Bool.false_and, Bool.false_eq_true, if_false, ← hm, e1, Except.bind, e2,
      Except.map]
    cases n1 : ret1.isNil with
    | false =>
      obtain ⟨w1, w2, w3, w4, w5, w6⟩ := O1.retGood n1
      have w4' : live items p2 l.start ret1.start = [] := by
        rw [O2.er.live_out (Or.inl (by have := w1.le; omega))]
        exact w4
      have w5' : live items p2 ret1.stop l.stop = [] := by
        rw [O2.er.live_out (Or.inl (by omega))]
        exact w5
      have wne : live items p2 l.start l.stop ≠ [] := by rw [hL2]; exact w6
      have wle := w1.le
      cases n2 : ret2.isNil with
      | false =>
        obtain ⟨v1, v2, v3, v4, v5, v6⟩ := O2.retGood n2
        have vle := v1.le
        have hgood : Good pos items p2
            (.node idx s e dim val (recomputeBox b ret1 ret2) ret1 ret2) := by
          obtain ⟨b1, hb1, m1⟩ := (hret1 n1).box
          obtain ⟨b2, hb2, m2⟩ := v1.box
          have hparts : live items p2 s e =
              live items p2 ret1.start ret1.stop ++ live items p2 ret2.start ret2.stop := by
            rw [hlive2, live_append items p2 l.start ret1.start l.stop w2 (by omega), w4',
              List.nil_append, live_append items p2 ret1.start ret1.stop l.stop wle.1 w3, w5',
              List.append_nil, live_append items p2 r.start ret2.start r.stop v2 (by omega), v4,
              List.nil_append, live_append items p2 ret2.start ret2.stop r.stop vle.1 v3, v5,
              List.append_nil]
          refine ⟨?_, hret1 n1, v1, by omega, by omega, by omega, g6, ?_, ?_, ?_⟩
          · rw [hparts]
            unfold recomputeBox
            rw [hb1, hb2]
            intro x hx
            rcases List.mem_append.1 hx with hx | hx
            · exact joinBox_left (m1 x hx)
            · exact joinBox_right (m2 x hx)
          · rw [live_append items p2 s l.start ret1.start g3 w2, hgapS, w4']
            rfl
          · rw [live_append items p2 ret1.stop l.stop ret2.start w3 (by omega), w5',
              live_append items p2 l.stop r.start ret2.start g4 v2, hgapM, v4]
            rfl
          · rw [live_append items p2 ret2.stop r.stop e v3 g5, v5, hgapE]
            rfl
        rw [if_pos ⟨rfl, rfl⟩]
        refine ⟨p2, k1 + k2, _, _, rfl, hE, rfl, rfl, hgood, fun h => ?_, fun _ => ?_, fun hs => ?_⟩
        · simp [BT.isNil] at h
        · refine ⟨hgood, le_rfl, le_rfl, live_self _ _ _, live_self _ _ _, ?_⟩
          show live items p2 s e ≠ []
          rw [hlive2]
          simp [wne]
        · obtain ⟨u1, u2, u3, u4, u5⟩ := hexact hs
          exact ⟨u1, u5 n1 n2 _, fun _ => u5 n1 n2 _⟩
      | true =>
        have vnil := O2.retNil n2
        rw [if_neg (by simp), if_neg (by simp), if_neg (by simp)]
        refine ⟨p2, k1 + k2, _, _, rfl, hE, rfl, rfl, hstate, fun h => ?_, fun _ => ?_, fun hs => ?_⟩
        · rw [n1] at h
          cases h
        · refine ⟨hret1 n1, ?_, ?_, ?_, ?_, ?_⟩
          · show s ≤ ret1.start
            omega
          · show ret1.stop ≤ e
            omega
          · show live items p2 s ret1.start = []
            rw [live_append items p2 s l.start ret1.start g3 w2, hgapS, w4']
            rfl
          · show live items p2 ret1.stop e = []
            rw [live_append items p2 ret1.stop l.stop e w3 (by omega), w5',
              live_append items p2 l.stop r.start e g4 (by omega), hgapM,
              live_append items p2 r.start r.stop e hr.1 g5, vnil, hgapE]
            rfl
          · show live items p2 s e ≠ []
            rw [hlive2]
            simp [wne]
        · obtain ⟨u1, u2, u3, u4, u5⟩ := hexact hs
          exact ⟨u1, u2, u3⟩
    | true =>
      have wnil : live items p2 l.start l.stop = [] := by rw [hL2]; exact O1.retNil n1
      cases n2 : ret2.isNil with
      | false =>
        obtain ⟨v1, v2, v3, v4, v5, v6⟩ := O2.retGood n2
        have vle := v1.le
        rw [if_neg (by simp), if_neg (by simp), if_pos rfl]
        refine ⟨p2, k1 + k2, _, _, rfl, hE, rfl, rfl, hstate, fun h => ?_, fun _ => ?_, fun hs => ?_⟩
        · rw [n2] at h
          cases h
        · refine ⟨v1, ?_, ?_, ?_, ?_, ?_⟩
          · show s ≤ ret2.start
            omega
          · show ret2.stop ≤ e
            omega
          · show live items p2 s ret2.start = []
            rw [live_append items p2 s l.start ret2.start g3 (by omega), hgapS,
              live_append items p2 l.start l.stop ret2.start hl.1 (by omega), wnil,
              live_append items p2 l.stop r.start ret2.start g4 v2, hgapM, v4]
            rfl
          · show live items p2 ret2.stop e = []
            rw [live_append items p2 ret2.stop r.stop e v3 g5, v5, hgapE]
            rfl
          · show live items p2 s e ≠ []
            rw [hlive2]
            simp [v6]
        · obtain ⟨u1, u2, u3, u4, u5⟩ := hexact hs
          exact ⟨u1, u2, u4⟩
      | true =>
        rw [if_neg (by simp), if_pos ⟨rfl, rfl⟩]
        refine ⟨p2, k1 + k2, _, _, rfl, hE, rfl, rfl, hstate, fun _ => ?_, fun h => ?_, fun hs => ?_⟩
        · show live items p2 s e = []
          rw [hlive2, wnil, O2.retNil n2]
          rfl
        · simp [BT.isNil] at h
        · obtain ⟨u1, u2, u3, u4, u5⟩ := hexact hs
          exact ⟨u1, u2, fun h => by simp [BT.isNil] at h⟩

end

end Verif.BatchKd
