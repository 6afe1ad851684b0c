import Verif.BatchKd.Props

set_option linter.unusedSectionVars false
set_option linter.unusedVariables false

/-!
Property C74: erasing points one at a time (`erase(point)`, `erase(sequence)`). Histories in which such
erasures (with `log_tree`) are mixed with insertions and batch erasures are in C28 (`Op.eraseEach`); all
states reached with them are in C23, C24 and C25 (`Reach.eraseEach`).
-/

namespace Verif.BatchKd

variable {α K : Type} {d : ℕ}

section
variable [Field K] [LinearOrder K]
variable {pos : α → Point K d} {c : Cfg α K d} {d0 : Fin d}
  {part : Fin d → K → List (Point K d) → List (Point K d)}

/-- **C74, all states** (equal coordinates and repeated points allowed), `log_tree`. Erasing one point
returns. The answer is that of `contains` before. If it is false nothing changes in the stored items; if it
is true exactly one item is gone, and it is at the given position. The size is the number of stored items
and every box still contains the items of its slice. -/
theorem c74_erase_one (hc : SplitOK c) (hpart : PartItems part (id : Point K d → Point K d))
    {t : Tree α K d} (h : Reach pos c d0 part t) (p : Point K d) :
    ∃ f t', erasePoint pos true t p = .ok (f, t') ∧ contains pos t p = .ok f ∧
      (f = false → content t' = content t) ∧
      (f = true → ∃ x, pos x = p ∧ (content t).Perm (x :: content t')) ∧
      t'.curSize = (content t').length ∧
      (t'.curSize ≠ 0 → ∀ n ∈ t'.root.boxes, ∀ x ∈ live t'.items t'.present n.1 n.2.1, n.2.2.Mem (pos x)) := by
  have hI := h.inv hc hpart
  obtain ⟨f, t', e1, Q1, _, s1, ⟨R, r1, r2, r3⟩, _, _⟩ :=
    erasePoint_spec hI.q (hI.lenI.trans hI.lenP.symm).le p
  have hRlen : R.length ≤ 1 := by
    have := r2.length_le
    simpa using this
  refine ⟨f, t', e1, ?_, fun hf => ?_, fun hf => ?_, Q1.size, fun h0 => (Q1.good h0).1.boxes⟩
  · unfold erasePoint at e1
    unfold contains
    by_cases h0 : t.curSize = 0
    · rw [if_pos h0, Except.ok.injEq, Prod.mk.injEq] at e1
      rw [if_pos h0, ← e1.1]
    · rw [if_neg h0] at e1 ⊢
      have key : ∀ (r : BT K d) (pr : List Bool), Good pos t.items pr r → ∀ p' (o : Out K d),
          eraseWalk pos t.items pr p r = .ok (p', o) → containsAt pos t.items pr p r = .ok o.found := by
        intro r pr hg
        induction r with
        | nil => exact absurd hg (by simp [Good])
        | leaf idx s e cnt b =>
          intro p' o he
          simp only [eraseWalk, Except.ok.injEq] at he
          unfold eraseInLeaf at he
          simp only [containsAt, Except.ok.injEq]
          rw [← List.findIdx?_isSome]
          show (findInLeaf pos p (slots t.items pr s e)).isSome = _
          cases hf : findInLeaf pos p (slots t.items pr s e) with
          | none =>
            rw [hf] at he
            cases he
            rfl
          | some j =>
            rw [hf] at he
            simp only at he
            split at he <;> (cases he; rfl)
        | node idx s e dim val b l r ihl ihr =>
          intro p' o he
          simp only [eraseWalk, containsAt, hg.2.1.not_nil, Bool.false_and, Bool.false_eq_true, if_false] at he ⊢
          split at he
          · rename_i hlt
            rw [if_pos hlt]
            cases hw : eraseWalk pos t.items pr p l with
            | error e => rw [hw] at he; cases he
            | ok x =>
              rw [hw] at he
              simp only [Except.map, Except.ok.injEq, Prod.mk.injEq] at he
              rw [ihl hg.2.1 x.1 x.2 hw, ← he.2]
              cases x.2 <;> rfl
          · rename_i hlt
            rw [if_neg hlt]
            cases hw : eraseWalk pos t.items pr p r with
            | error e => rw [hw] at he; cases he
            | ok x =>
              rw [hw] at he
              simp only [Except.map, Except.ok.injEq, Prod.mk.injEq] at he
              rw [ihr hg.2.2.1 x.1 x.2 hw, ← he.2]
              cases x.2 <;> rfl
      cases hw : eraseWalk pos t.items t.present p t.root with
      | error e => rw [hw] at e1; cases e1
      | ok x =>
        rw [hw] at e1
        simp only [Except.bind] at e1
        rw [key t.root t.present (hI.good h0).1 x.1 x.2 hw]
        cases hfr : finishRoot true t.root x.2 with
        | error e => rw [hfr] at e1; cases e1
        | ok y =>
          rw [hfr] at e1
          simp only [Except.map, Except.ok.injEq, Prod.mk.injEq] at e1
          rw [e1.1]
  · have hR : R = [] := by
      by_contra hne
      rw [r3.2 hne] at hf
      cases hf
    subst hR
    rw [List.append_nil] at r1
    exact s1.eq_of_length r1.length_eq.symm
  · have hR := r3.1 hf
    match R, hR, hRlen with
    | [x], _, _ =>
      refine ⟨x, ?_, r1.trans (List.perm_append_comm.trans (by simp))⟩
      have := r2.subset (List.mem_singleton_self (pos x) : pos x ∈ [x].map pos)
      simpa using this

/-- **C74, `log_tree`.** After any allowed history, erasing any points one after the other returns, and
leaves what one batch erasure of the same points leaves: the size, `contains`, the answer of the next
erasure and box queries see exactly the multiset of stored positions minus the given points. -/
theorem c74_erase_each (hc : CfgGood pos c) (hpart : PartItems part (id : Point K d → Point K d))
    (blank : α) (log2size : ℕ) (ops : List (Op α K d)) (hA : Allowed pos (2 ^ log2size) true 0 ops)
    (ps : List (Point K d)) :
    ∃ t t', run pos c d0 part (emptyTree blank log2size) ops = .ok t ∧ erasePoints pos true t ps = .ok t' ∧
      t'.curSize = Multiset.card (spec pos 0 ops - (ps : Multiset (Point K d))) ∧
      (∀ p, ∃ f t'', erasePoint pos true t' p = .ok (f, t'') ∧ contains pos t' p = .ok f ∧
        (f = true ↔ p ∈ spec pos 0 ops - (ps : Multiset (Point K d)))) ∧
      (∀ q, (((orthogonalQuery pos t' q).map pos : List (Point K d)) : Multiset (Point K d)) =
        (spec pos 0 ops - (ps : Multiset (Point K d))).filter fun p => ∀ i, q.lo i ≤ p i ∧ p i ≤ q.hi i) ∧
      ∃ t₁, bulkErase pos part t ps = .ok t₁ ∧ content t₁ = content t' := by
  obtain ⟨t, e, hI, hS, hM⟩ := run_state (d0 := d0) hc hpart blank log2size ops hA
  obtain ⟨t', e1, I1, m1, s1, r1, x1, _⟩ := erasePoints_spec ps hI
  obtain ⟨S1, c1⟩ := x1 hS
  obtain ⟨t₁, e2, _, _, _, _, x2, _⟩ := bulkErase_spec hpart hI ps
  have hM' : (((content t').map pos : List (Point K d)) : Multiset (Point K d)) =
      spec pos 0 ops - (ps : Multiset (Point K d)) := by
    rw [c1, eraseAll_positions, hM]
  refine ⟨t, t', e, e1, ?_, fun p => ?_, fun q => ?_, t₁, e2, ((x2 hS).2).trans c1.symm⟩
  · rw [I1.size, ← hM', Multiset.coe_card, List.length_map]
  · obtain ⟨f, t'', f1, _, _, _, _, f2, _⟩ := erasePoint_spec I1.q (I1.lenI.trans I1.lenP.symm).le p
    obtain ⟨_, _, f3⟩ := f2 S1
    have hmem : f = true ↔ p ∈ spec pos 0 ops - (ps : Multiset (Point K d)) := by
      rw [f3, ← hM', Multiset.mem_coe, List.mem_map]
    refine ⟨f, t'', f1, ?_, hmem⟩
    unfold contains
    by_cases h0 : t'.curSize = 0
    · rw [if_pos h0]
      have hct : content t' = [] := List.eq_nil_of_length_eq_zero (I1.size.symm.trans h0)
      have : f = false := by
        rw [Bool.eq_false_iff]
        intro hf
        obtain ⟨x, hx, _⟩ := f3.1 hf
        rw [hct] at hx
        cases hx
      rw [this]
    · rw [if_neg h0]
      obtain ⟨g, hs, he⟩ := I1.good h0
      obtain ⟨r, h1, h2⟩ := containsAt_eq g (S1 h0) p
      rw [h1]
      congr 1
      rw [hs, he, ← content_eq, ← f3] at h2
      exact Bool.eq_iff_iff.2 h2
  · rw [orthogonalQuery_inv I1, ← hM', Multiset.filter_coe, Multiset.coe_eq_coe, List.filter_map]
    rfl

/-! ### Without `log_tree` -/

/-- Specification: the root split has a stored item on both sides; if there is no split, an item is stored. -/
def BothSides (pos : α → Point K d) (t : Tree α K d) : Prop :=
  match t.root with
  | .node _ _ _ dim val _ _ _ => (∃ x ∈ content t, pos x dim < val) ∧ ∃ y ∈ content t, val ≤ pos y dim
  | _ => content t ≠ []

/-- Split dimension and value of a node. -/
def BT.split? : BT K d → Option (Fin d × K)
  | .node _ _ _ dim val _ _ _ => some (dim, val)
  | _ => none

theorem BothSides.mono {t t' : Tree α K d} (hs : t'.root.split? = t.root.split?)
    (hsub : content t' ⊆ content t) (h : BothSides pos t') : BothSides pos t := by
  unfold BothSides at *
  rcases t with ⟨i, p, r, c, b, m⟩
  rcases t' with ⟨i', p', r', c', b', m'⟩
  cases r with
  | nil =>
    cases r' with
    | node => simp [BT.split?] at hs
    | nil => exact fun h0 => h (List.eq_nil_of_subset_nil (h0 ▸ hsub))
    | leaf => exact fun h0 => h (List.eq_nil_of_subset_nil (h0 ▸ hsub))
  | leaf =>
    cases r' with
    | node => simp [BT.split?] at hs
    | nil => exact fun h0 => h (List.eq_nil_of_subset_nil (h0 ▸ hsub))
    | leaf => exact fun h0 => h (List.eq_nil_of_subset_nil (h0 ▸ hsub))
  | node =>
    cases r' with
    | nil => simp [BT.split?] at hs
    | leaf => simp [BT.split?] at hs
    | node =>
      simp only [BT.split?, Option.some.injEq, Prod.mk.injEq] at hs
      obtain ⟨rfl, rfl⟩ := hs
      obtain ⟨⟨x, hx, h1⟩, y, hy, h2⟩ := h
      exact ⟨⟨x, hsub hx, h1⟩, y, hsub hy, h2⟩

theorem eraseWalk_split {items : List α} {p p' : List Bool} {q : Point K d} {t : BT K d} {o : Out K d}
    (h : eraseWalk pos items p q t = .ok (p', o)) : (o.self t).split? = t.split? := by
  cases t with
  | nil => cases h
  | leaf idx s e cnt b =>
    simp only [eraseWalk, Except.ok.injEq] at h
    unfold eraseInLeaf at h
    split at h
    · cases h; rfl
    · split at h <;> (cases h; rfl)
  | node idx s e dim val b l r =>
    simp only [eraseWalk] at h
    split at h
    · cases h
    · split at h
      · cases hw : eraseWalk pos items p q l with
        | error e => rw [hw] at h; cases h
        | ok x =>
          rw [hw] at h
          simp only [Except.map, Except.ok.injEq, Prod.mk.injEq] at h
          rw [← h.2]
          cases x.2 <;> rfl
      · cases hw : eraseWalk pos items p q r with
        | error e => rw [hw] at h; cases h
        | ok x =>
          rw [hw] at h
          simp only [Except.map, Except.ok.injEq, Prod.mk.injEq] at h
          rw [← h.2]
          cases x.2 <;> rfl

/-- One step: both versions agree as long as no side of the root runs empty. -/
theorem erasePoint_keep {t t' : Tree α K d} (hI : Inv pos t) (hS : SearchableT pos t) {q : Point K d} {f : Bool}
    (he : erasePoint pos true t q = .ok (f, t')) :
    t'.root.split? = t.root.split? ∧ (BothSides pos t' → erasePoint pos false t q = .ok (f, t')) := by
  unfold erasePoint at *
  by_cases h0 : t.curSize = 0
  · rw [if_pos h0] at he ⊢
    cases he
    exact ⟨rfl, fun _ => rfl⟩
  · rw [if_neg h0] at he ⊢
    obtain ⟨hg, hs, hst⟩ := hI.good h0
    obtain ⟨p', o, e1, W⟩ := eraseWalk_spec q t.root t.present (hI.lenI.trans hI.lenP.symm).le hg
    have hsp := eraseWalk_split e1
    rw [e1] at he ⊢
    have hfin : finishRoot true t.root o = .ok (o.self t.root) := by cases o <;> rfl
    simp only [Except.bind, hfin, Except.map, Except.ok.injEq, Prod.mk.injEq] at he ⊢
    obtain ⟨rfl, ht⟩ := he
    refine ⟨by rw [← ht]; exact hsp, fun hB => ?_⟩
    have hct : content t' = live t.items p' t.root.start t.root.stop := by
      rw [content_eq, ← ht, hs, hst]
    cases o with
    | absent => rw [← ht]; rfl
    | kept c => rw [← ht]; rfl
    | emptied c =>
      exfalso
      have hnil := W.emptied c rfl
      rw [← hct] at hnil
      unfold BothSides at hB
      cases hr : t'.root with
      | nil => rw [hr] at hB; exact hB hnil
      | leaf => rw [hr] at hB; exact hB hnil
      | node =>
        rw [hr] at hB
        obtain ⟨x, hx, _⟩ := hB.1
        rw [hnil] at hx
        cases hx
    | cut sib lf c =>
      exfalso
      obtain ⟨idx, s, e, dim, val, b, l, r, rfl, hnil⟩ := W.half sib lf _ rfl
      have hroot : t'.root = .node idx s e dim val b l r := by rw [← ht]; rfl
      have hgood := W.good
      have hstart := W.start
      have hstop := W.stop
      have hsr := (W.exact (hS h0)).2.2.1
      have hstart : s = t.root.start := hstart
      have hstop : e = t.root.stop := hstop
      simp only [Out.self] at hgood hsr
      have hnl := hgood.node_live
      rw [hstart, hstop, ← hct] at hnl
      unfold BothSides at hB
      rw [hroot] at hB
      obtain ⟨⟨x, hx, hxl⟩, y, hy, hyr⟩ := hB
      cases lf with
      | true =>
        simp only [if_true] at hnil
        rw [hnl, hnil, List.nil_append] at hx
        exact absurd hxl (not_lt.2 (hsr.2.1 x hx))
      | false =>
        simp only [Bool.false_eq_true, if_false] at hnil
        rw [hnl, hnil, List.append_nil] at hy
        exact absurd (hsr.1 y hy) (not_lt.2 hyr)

/-- **C74 without `log_tree`, partial.** After any allowed history, erasing points one after the other gives
the same tree as with `log_tree` if at the end the root split still has a stored point on both sides (or
the root is a leaf that still has a point). Missing: erasures that empty a side (`c74_half_false`) or the
tree (`c74_last_point_false`). -/
theorem c74_keep_partial (hc : CfgGood pos c) (hpart : PartItems part (id : Point K d → Point K d))
    (blank : α) (log2size : ℕ) (ops : List (Op α K d)) (hA : Allowed pos (2 ^ log2size) true 0 ops)
    (ps : List (Point K d)) :
    ∃ t t', run pos c d0 part (emptyTree blank log2size) ops = .ok t ∧ erasePoints pos true t ps = .ok t' ∧
      (BothSides pos t' → erasePoints pos false t ps = .ok t') := by
  obtain ⟨t, e, hI, hS, hM⟩ := run_state (d0 := d0) hc hpart blank log2size ops hA
  have key : ∀ (ps : List (Point K d)) (t : Tree α K d), Inv pos t → SearchableT pos t →
      ∃ t', erasePoints pos true t ps = .ok t' ∧ t'.root.split? = t.root.split? ∧ content t' ⊆ content t ∧
        (BothSides pos t' → erasePoints pos false t ps = .ok t') := by
    intro ps
    induction ps with
    | nil => exact fun t _ _ => ⟨t, rfl, rfl, List.Subset.refl _, fun _ => rfl⟩
    | cons q ps ih =>
      intro t hI hS
      obtain ⟨f, t1, e1, Q1, m1, s1, _, x1, _⟩ := erasePoint_spec hI.q (hI.lenI.trans hI.lenP.symm).le q
      have I1 : Inv pos t1 := ⟨by rw [m1.items, m1.ms]; exact hI.lenI, by rw [m1.lenP, m1.ms]; exact hI.lenP,
        by rw [m1.bs, m1.ms]; exact hI.bs, Q1.good, Q1.size⟩
      obtain ⟨t2, e2, r2, c2, b2⟩ := ih t1 I1 (x1 hS).1
      obtain ⟨k1, k2⟩ := erasePoint_keep hI hS e1
      refine ⟨t2, by simp only [erasePoints, e1, Except.bind, e2], r2.trans k1, List.Subset.trans c2 s1.subset, fun hB => ?_⟩
      simp only [erasePoints, k2 (hB.mono r2 c2), Except.bind]
      exact b2 hB
  obtain ⟨t', h1, _, _, h4⟩ := key ps t hI hS
  exact ⟨t, t', e, h1, h4⟩

/-- **C74 fails without `log_tree`: a small tree cannot be emptied.** For every build of at least one and at most
`leafSize` points, erasing all of them one after the other dereferences a null pointer. -/
theorem c74_last_point_false (hc : SplitOK c) (blank : α) (log2size : ℕ) {pts : List α} (hne : pts ≠ [])
    (hlen : pts.length ≤ 2 ^ log2size) (hleaf : pts.length ≤ c.leafSize) :
    ∃ t, buildPoints pos c d0 (emptyTree blank log2size) pts = .ok t ∧ t.curSize = pts.length ∧
      erasePoints pos false t (pts.map pos) = .error .ub := by
  have key : ∀ (ps : List (Point K d)) (t : Tree α K d), Inv pos t → t.curSize ≠ 0 →
      (∃ idx s e cnt b, t.root = .leaf idx s e cnt b) → eraseAll pos ps (content t) = [] →
      erasePoints pos false t ps = .error .ub := by
    intro ps
    induction ps with
    | nil =>
      intro t hI h0 _ he
      have : content t = [] := he
      have hs := hI.size
      rw [this] at hs
      exact absurd hs h0
    | cons q ps ih =>
      rintro t hI h0 ⟨idx, s, e, cnt, b, hr⟩ he
      obtain ⟨f, t1, e1, Q1, m1, s1, _, x1, _⟩ := erasePoint_spec hI.q (hI.lenI.trans hI.lenP.symm).le q
      have I1 : Inv pos t1 := ⟨by rw [m1.items, m1.ms]; exact hI.lenI, by rw [m1.lenP, m1.ms]; exact hI.lenP,
        by rw [m1.bs, m1.ms]; exact hI.bs, Q1.good, Q1.size⟩
      have hS : SearchableT pos t := fun _ => by rw [hr]; trivial
      have hc1 := (x1 hS).2.1
      have he1 : eraseAll pos ps (content t1) = [] := by rw [hc1]; exact he
      unfold erasePoint at e1
      simp only [erasePoints]
      unfold erasePoint
      rw [if_neg h0] at e1 ⊢
      rw [hr] at e1 ⊢
      simp only [eraseWalk, Except.bind] at e1 ⊢
      unfold eraseInLeaf at e1 ⊢
      cases hf : findInLeaf pos q (slots t.items t.present s e) with
      | none =>
        rw [hf] at e1
        simp only [finishRoot, Except.map, Out.found, Except.ok.injEq, Prod.mk.injEq] at e1 ⊢
        obtain ⟨_, rfl⟩ := e1
        exact ih _ I1 h0 ⟨idx, s, e, cnt, b, rfl⟩ he1
      | some j =>
        rw [hf] at e1
        simp only at e1 ⊢
        by_cases hcnt : cnt - 1 = 0
        · simp only [if_pos hcnt]
          rfl
        · simp only [if_neg hcnt] at e1 ⊢
          simp only [finishRoot, Except.map, Out.found, Except.ok.injEq, Prod.mk.injEq] at e1 ⊢
          obtain ⟨_, rfl⟩ := e1
          refine ih _ I1 ?_ ⟨idx, s, e, _, _, rfl⟩ he1
          obtain ⟨hg, hs, hst⟩ := hI.good h0
          rw [hr] at hg hs hst
          simp only [BT.start, BT.stop] at hs hst
          have h3 := hg.2.2.1
          have h4 := hI.size
          rw [content_eq] at h4
          rw [hs, hst] at h3
          show (if true = true then t.curSize - 1 else t.curSize) ≠ 0
          simp only [if_true]
          omega
  obtain ⟨hI0, hC0⟩ := emptyTree_inv (pos := pos) blank log2size
  have hb : ∃ t, buildPoints pos c d0 (emptyTree blank log2size) pts = .ok t ∧
      ∃ idx s e cnt b, t.root = .leaf idx s e cnt b := by
    unfold buildPoints buildAll
    rw [if_neg (by simp [emptyTree]; omega)]
    simp only [List.take_left, buildRec, hleaf, if_true, Except.map]
    exact ⟨_, rfl, _, _, _, _, _, rfl⟩
  obtain ⟨t, h1, h2⟩ := hb
  obtain ⟨I1, p1, c1, _⟩ := buildPoints_inv hc (t := emptyTree blank log2size) hI0.lenI hI0.lenP
    (by simp only [emptyTree]; exact take_replicate_true hlen) hlen h1
  refine ⟨t, h1, c1, key _ t I1 ?_ h2 ?_⟩
  · rw [c1]
    exact fun h => hne (List.eq_nil_of_length_eq_zero h)
  · have := eraseAll_positions (pos := pos) (pts.map pos) (content t)
    rw [Multiset.coe_eq_coe.2 (p1.map pos), tsub_self, Multiset.coe_eq_zero, List.map_eq_nil_iff] at this
    exact this

end

/-! ### Concrete cases and counterexamples -/

section Examples

/-- What a run of single erasures shows. -/
def observeEach (logTree : Bool) (es : List (ℚ × ℚ)) (ps : List (ℚ × ℚ)) (q : Box ℚ 2)
    (r : Except Err (Tree (ℚ × ℚ) ℚ 2)) : Option (ℕ × List (Option Bool) × List (ℚ × ℚ)) :=
  observe ps q (r.bind fun t => erasePoints ppos logTree t (es.map ppos))

/-- With `log_tree` a side of the root may run empty. -/
example : observeEach true [(1, 4), (2, 3), (9, 9)] [(1, 4), (2, 3), (3, 2), (4, 1)] ⟨pt 0 0, pt 9 9⟩
    (run ppos cfgO 0 (stablePart id) four [.insert [(1, 4), (2, 3), (3, 2), (4, 1)]]) =
    some (2, [some false, some false, some true, some true], [(4, 1), (3, 2)]) := by decide +kernel

/-- Without `log_tree`, points left on both sides: nodes are cut out further down. -/
example : observeEach false [(1, 4), (4, 1)] [(1, 4), (2, 3), (3, 2), (4, 1)] ⟨pt 0 0, pt 9 9⟩
    (run ppos cfgO 0 (stablePart id) four [.insert [(1, 4), (2, 3), (3, 2), (4, 1)]]) =
    some (2, [some false, some true, some true, some false], [(2, 3), (3, 2)]) := by decide +kernel

/-- **C74 fails without `log_tree` when a side of the root runs empty.** Four points are stored and the two on
the left are erased; then `contains` of an erased point dereferences a null pointer, while box queries still
work. -/
theorem c74_half_false :
    observeEach false [(1, 4), (2, 3)] [(1, 4), (2, 3), (3, 2), (4, 1)] ⟨pt 0 0, pt 9 9⟩
      (run ppos cfgO 0 (stablePart id) four [.insert [(1, 4), (2, 3), (3, 2), (4, 1)]]) =
      some (2, [none, none, some true, some true], [(4, 1), (3, 2)]) := by decide +kernel

/-- The hypotheses of the theorems hold: an allowed history, after which `BothSides` holds. -/
example : ∃ t t', run ppos cfgO 0 (stablePart id) four [.insert [(1, 4), (2, 3), (3, 2), (4, 1)]] = .ok t ∧
    erasePoints ppos false t [pt 1 4] = .ok t' ∧ t'.curSize = 3 := by
  have hA : Allowed ppos (2 ^ 2) true 0 [.insert [(1, 4), (2, 3), (3, 2), (4, 1)]] := by
    refine ⟨fun _ => rfl, by simp [specStep], ?_, trivial⟩
    simp only [specStep, zero_add]
    refine (distinct_iff _).2 ?_
    intro dim
    fin_cases dim <;> decide
  obtain ⟨t, t', h1, h2, h3⟩ := c74_keep_partial (d0 := 0) cfgO_good (stablePart_ok _) ((0, 0) : ℚ × ℚ) 2 _ hA [pt 1 4]
  obtain ⟨u, u', k1, k2, k3, _⟩ := c74_erase_each (d0 := 0) cfgO_good (stablePart_ok _) ((0, 0) : ℚ × ℚ) 2 _ hA [pt 1 4]
  rw [h1] at k1
  cases k1
  rw [h2] at k2
  cases k2
  refine ⟨t, t', h1, h3 ?_, ?_⟩
  · have hrun : (run ppos cfgO 0 (stablePart id) four [.insert [(1, 4), (2, 3), (3, 2), (4, 1)]]).bind
        (fun t => (erasePoints ppos true t [pt 1 4]).map fun t => (t.root.split?, content t)) =
        .ok (some (0, 3), [(2, 3), (4, 1), (3, 2)]) := by
      have : ((run ppos cfgO 0 (stablePart id) four [.insert [(1, 4), (2, 3), (3, 2), (4, 1)]]).bind
        (fun t => (erasePoints ppos true t [pt 1 4]).map fun t => (t.root.split?, content t))).toOption =
        some (some (0, 3), [(2, 3), (4, 1), (3, 2)]) := by decide +kernel
      revert this
      generalize (run ppos cfgO 0 (stablePart id) four [.insert [(1, 4), (2, 3), (3, 2), (4, 1)]]).bind
        (fun t => (erasePoints ppos true t [pt 1 4]).map fun t => (t.root.split?, content t)) = r
      intro h
      cases r with
      | error e => cases h
      | ok x => simp only [Except.toOption, Option.some.injEq] at h; rw [h]
    have h1' : run ppos cfgO 0 (stablePart id) four [.insert [(1, 4), (2, 3), (3, 2), (4, 1)]] = .ok t := h1
    rw [h1'] at hrun
    simp only [Except.bind, h2, Except.map, Except.ok.injEq, Prod.mk.injEq] at hrun
    obtain ⟨s1, s2⟩ := hrun
    unfold BothSides
    cases hr : t'.root with
    | nil => rw [hr] at s1; cases s1
    | leaf => rw [hr] at s1; cases s1
    | node idx s e dim val b l r =>
      rw [hr] at s1
      simp only [BT.split?, Option.some.injEq, Prod.mk.injEq] at s1
      obtain ⟨rfl, rfl⟩ := s1
      simp only [s2]
      exact ⟨⟨(2, 3), by simp, by decide⟩, (3, 2), by simp, by decide⟩
  · rw [k3]
    decide +kernel

/-- The builds of `c74_last_point_false`: three points, leaves of up to sixteen. -/
example : ∃ t, buildPoints ppos (objectCfg 16 (fun _ => false) (nthBySort ppos)
      (fun dim L => L.insertionSort fun x y => ppos x dim ≤ ppos y dim) ppos) 0 four [(1, 4), (5, 1), (5, 1)] = .ok t ∧
    t.curSize = 3 ∧ erasePoints ppos false t ([(1, 4), (5, 1), (5, 1)].map ppos) = .error .ub :=
  c74_last_point_false (objectCfg_ok (nthBySort_ok _) (sortBy_ok _) (by omega)) (0, 0) 2 (by simp) (by decide)
    (by show 3 ≤ 16; omega)

end Examples

end Verif.BatchKd
