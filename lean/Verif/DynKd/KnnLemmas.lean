import Verif.DynKd.Lemmas

set_option linter.unusedSectionVars false
set_option linter.unusedVariables false

/-! Lemmas on the nearest neighbour search of the dynamic kd-tree. -/

namespace Verif.DynKd

open Verif BatchKd
open Verif.KnnBuf (KSmallest)

variable {α K : Type} {d : ℕ}

section
variable [Field K] [LinearOrder K] [IsStrictOrderedRing K] {pos : α → Point K d} {dist : Point K d → Point K d → K}
  {pop : List (K × α) → Option ((K × α) × List (K × α))}

/-- The queue holds the `k` (or all) cheapest of the items inserted. -/
def Top (k : ℕ) (cost : α → K) (I : List α) (b : List (K × α)) : Prop :=
  b.length = min k I.length ∧ ∃ lost, (b ++ lost).Perm (I.map fun x => (cost x, x)) ∧ ∀ e ∈ b, ∀ f ∈ lost, e.1 ≤ f.1

theorem Top.nil (k : ℕ) (cost : α → K) : Top k cost [] [] := ⟨by simp, [], by simp, by simp⟩

theorem Top.insert (hq : IsQueue pop) {k : ℕ} {cost : α → K} {I : List α} {b : List (K × α)} (h : Top k cost I b) (x : α) :
    Top k cost (I ++ [x]) (insertK pop k b (cost x, x)) := by
  obtain ⟨hl, lost, hp, hlt⟩ := h
  have hlen := hp.length_eq
  rw [List.length_append, List.length_map] at hlen
  have hp2 : (((cost x, x) :: b) ++ lost).Perm ((I ++ [x]).map fun x => (cost x, x)) := by
    rw [List.map_append]
    exact (List.Perm.cons _ hp).trans (List.perm_append_comm (l₁ := [(cost x, x)]))
  unfold insertK
  show Top _ _ _ (if k < ((cost x, x) :: b).length then _ else _)
  by_cases hk : k < ((cost x, x) :: b).length
  · rw [if_pos hk]
    obtain ⟨m, r, e, hm, hmax⟩ := hq.2 ((cost x, x) :: b) (by simp)
    rw [e]
    rw [List.length_cons] at hk
    have hml := hm.length_eq
    rw [List.length_cons, List.length_cons] at hml
    refine ⟨?_, m :: lost, ?_, ?_⟩
    · show r.length = _
      rw [List.length_append, List.length_singleton]
      omega
    · show List.Perm (r ++ m :: lost) _
      refine List.perm_middle.trans (List.Perm.trans ?_ hp2)
      exact hm.append_right lost
    · intro a ha f hf
      rcases List.mem_cons.1 hf with rfl | hf'
      · exact hmax a ha
      · rcases List.mem_cons.1 (hm.subset (List.mem_cons_self ..)) with rfl | hmb
        · exact hlt a (((List.perm_cons _).1 hm).subset ha) f hf'
        · exact (hmax a ha).trans (hlt m hmb f hf')
  · rw [if_neg hk]
    rw [List.length_cons] at hk
    have hz : lost = [] := List.eq_nil_of_length_eq_zero (by omega)
    subst hz
    refine ⟨?_, [], hp2, by simp⟩
    rw [List.length_cons, List.length_append, List.length_singleton]
    omega

theorem insertAll_ok (hq : IsQueue pop) (k : ℕ) (q : Point K d) : ∀ (L I : List α) (b : List (K × α)),
    Top k (fun x => dist q (pos x)) I b → Top k (fun x => dist q (pos x)) (I ++ L) (insertAll pos dist pop k q b L)
  | [], I, b, h => by rw [List.append_nil]; exact h
  | x :: L, I, b, h => by
    have := insertAll_ok hq k q L (I ++ [x]) _ (h.insert hq x)
    rw [List.append_assoc] at this
    exact this

theorem insertNear_ok (hq : IsQueue pop) (k : ℕ) (q : Point K d) (radius : K) : ∀ (L I : List α) (b : List (K × α)),
    Top k (fun x => dist q (pos x)) I b → (k ≤ I.countP fun x => decide (dist q (pos x) ≤ radius)) →
    ∃ I', Top k (fun x => dist q (pos x)) I' (insertNear pos dist pop k q radius b L) ∧
      Ext k (fun x => dist q (pos x)) I I' L
  | [], I, b, h, _ => ⟨I, h, Ext.none (by simp)⟩
  | x :: L, I, b, h, hr => by
    unfold insertNear
    rw [List.foldl_cons]
    by_cases hx : dist q (pos x) ≤ radius
    · rw [if_pos hx]
      have e1 := Ext.all k (fun x => dist q (pos x)) I [x]
      obtain ⟨I', h1, h2⟩ := insertNear_ok hq k q radius L (I ++ [x]) _ (h.insert hq x) (hr.trans (e1.mono _))
      exact ⟨I', h1, e1.trans h2⟩
    · rw [if_neg hx]
      obtain ⟨I', h1, h2⟩ := insertNear_ok hq k q radius L I b h hr
      refine ⟨I', h1, Ext.trans (L1 := [x]) (Ext.none fun y hy => ?_) h2⟩
      rw [List.mem_singleton] at hy
      subst hy
      exact hr.trans (countP_le_mono (not_le.1 hx).le)

end

section
variable [Field K] [LinearOrder K] [IsStrictOrderedRing K] {pos : α → Point K d} {dist : Point K d → Point K d → K}
  {pop : List (K × α) → Option ((K × α) × List (K × α))}

theorem exclude_far (hd : IsCoordDist dist) {q p : Point K d} {radius : K} {box : Box K d}
    (h : compare ⟨fun i => q i - radius, fun i => q i + radius⟩ box = .exclude) (hp : box.Mem p) : radius < dist q p := by
  unfold compare at h
  split at h
  · rename_i hex
    obtain ⟨i, hi⟩ := hex
    refine lt_of_lt_of_le ?_ (hd.coord q p i)
    rw [lt_abs]
    rcases hi with hi | hi
    · right
      have : q i + radius < box.lo i := hi
      linarith [(hp i).1]
    · left
      have : box.hi i < q i - radius := hi
      linarith [(hp i).2]
  · split at h <;> cases h

theorem rangeHelper_ok (hq : IsQueue pop) (hd : IsCoordDist dist) (k : ℕ) (q : Point K d) (radius : K) :
    ∀ (t : Node α K d), BoxOK pos t → ∀ (I : List α) (b : List (K × α)),
    Top k (fun x => dist q (pos x)) I b → (k ≤ I.countP fun x => decide (dist q (pos x) ≤ radius)) →
    ∃ I', Top k (fun x => dist q (pos x)) I'
        (rangeHelper pos dist pop k q radius ⟨fun i => q i - radius, fun i => q i + radius⟩ t b) ∧
      Ext k (fun x => dist q (pos x)) I I' t.live := by
  intro t
  induction t with
  | data items box n =>
    intro _ I b h hr
    exact insertNear_ok hq k q radius _ I b h hr
  | node dim split box n l r ihl ihr =>
    intro hb I b h hr
    rw [rangeHelper]
    cases hc : compare ⟨fun i => q i - radius, fun i => q i + radius⟩ box with
    | «include» => exact insertNear_ok hq k q radius _ I b h hr
    | overlap =>
      obtain ⟨I1, h1, e1⟩ := ihl hb.1 I b h hr
      obtain ⟨I2, h2, e2⟩ := ihr hb.2.1 I1 _ h1 (hr.trans (e1.mono _))
      exact ⟨I2, h2, e1.trans e2⟩
    | exclude =>
      refine ⟨I, h, Ext.none fun y hy => ?_⟩
      exact hr.trans (countP_le_mono (exclude_far hd hc (hb.mem y hy)).le)

theorem visitSiblin_ok (hq : IsQueue pop) (hd : IsCoordDist dist) {k : ℕ} (hk : 1 ≤ k) (q : Point K d)
    {t : Node α K d} (hb : BoxOK pos t) {I : List α} {b : List (K × α)} (h : Top k (fun x => dist q (pos x)) I b) :
    ∃ b' I', visitSiblin pos dist pop k q t b = .ok b' ∧ Top k (fun x => dist q (pos x)) I' b' ∧
      Ext k (fun x => dist q (pos x)) I I' t.live := by
  unfold visitSiblin
  by_cases hlen : k ≤ b.length
  · rw [if_pos hlen]
    have hne : b ≠ [] := by rintro rfl; simp at hlen; omega
    obtain ⟨m, r, e, hm, hmax⟩ := hq.2 b hne
    rw [e]
    have hr : k ≤ I.countP fun x => decide (dist q (pos x) ≤ m.1) := by
      obtain ⟨hl, lost, hp, hlt⟩ := h
      have h1 : (I.countP fun x => decide (dist q (pos x) ≤ m.1)) =
          (I.map fun x => (dist q (pos x), x)).countP fun e => decide (e.1 ≤ m.1) := by
        rw [List.countP_map]; rfl
      rw [h1, ← hp.countP_eq, List.countP_append]
      have h2 : b.countP (fun e => decide (e.1 ≤ m.1)) = b.length := by
        rw [List.countP_eq_length]
        intro a ha
        rcases List.mem_cons.1 (hm.symm.subset ha) with rfl | ha
        · simp
        · simpa using hmax a ha
      omega
    obtain ⟨I', h1, h2⟩ := rangeHelper_ok hq hd k q m.1 t hb I b h hr
    exact ⟨_, I', rfl, h1, h2⟩
  · rw [if_neg hlen]
    exact ⟨_, _, rfl, insertAll_ok hq k q _ I b h, Ext.all _ _ _ _⟩

theorem helper_ok (hq : IsQueue pop) (hd : IsCoordDist dist) {k : ℕ} (hk : 1 ≤ k) (q : Point K d) :
    ∀ (t : Node α K d), BoxOK pos t → ∀ s : Node α K d, BoxOK pos s → ∀ (I : List α) (b : List (K × α)),
    Top k (fun x => dist q (pos x)) I b →
    ∃ b' I', helper pos dist pop k q t s b = .ok b' ∧ Top k (fun x => dist q (pos x)) I' b' ∧
      Ext k (fun x => dist q (pos x)) I I' (t.live ++ s.live) := by
  intro t
  induction t with
  | data items box n =>
    intro _ s hs I b h
    obtain ⟨b', I', h1, h2, h3⟩ := visitSiblin_ok hq hd hk q hs (insertAll_ok hq k q (Node.data items box n).live I b h)
    exact ⟨b', I', h1, h2, (Ext.all _ _ _ _).trans h3⟩
  | node dim split box n l r ihl ihr =>
    intro hb s hs I b h
    rw [helper]
    by_cases hside : q dim < split
    · rw [if_pos hside]
      obtain ⟨b1, I1, h1, h2, h3⟩ := ihl hb.1 r hb.2.1 I b h
      obtain ⟨b2, I2, h4, h5, h6⟩ := visitSiblin_ok hq hd hk q hs h2
      refine ⟨b2, I2, ?_, h5, h3.trans h6⟩
      rw [h1]
      exact h4
    · rw [if_neg hside]
      obtain ⟨b1, I1, h1, h2, h3⟩ := ihr hb.2.1 l hb.1 I b h
      obtain ⟨b2, I2, h4, h5, h6⟩ := visitSiblin_ok hq hd hk q hs h2
      refine ⟨b2, I2, ?_, h5, (h3.perm List.perm_append_comm).trans h6⟩
      rw [h1]
      exact h4

theorem drain_ok (hq : IsQueue pop) : ∀ (fuel : ℕ) (b : List (K × α)), b.length ≤ fuel →
    (drain pop fuel b).Perm b ∧ (drain pop fuel b).Pairwise fun x y => x.1 ≤ y.1
  | 0, b, h => by
    rw [List.eq_nil_of_length_eq_zero (Nat.le_zero.1 h)]
    exact ⟨List.Perm.refl _, List.Pairwise.nil⟩
  | fuel + 1, b, h => by
    rw [drain]
    by_cases hb : b = []
    · subst hb
      rw [hq.1]
      exact ⟨List.Perm.refl _, List.Pairwise.nil⟩
    · obtain ⟨m, r, e, hm, hmax⟩ := hq.2 b hb
      have hl := hm.length_eq
      rw [List.length_cons] at hl
      rw [e]
      obtain ⟨h1, h2⟩ := drain_ok hq fuel r (by omega)
      refine ⟨?_, ?_⟩
      · exact ((h1.append_right [m]).trans List.perm_append_comm).trans hm
      · show (drain pop fuel r ++ [m]).Pairwise _
        rw [List.pairwise_append]
        refine ⟨h2, List.pairwise_singleton _ _, fun a ha c hc => ?_⟩
        rw [List.mem_singleton] at hc
        subst hc
        exact hmax a (h1.subset ha)

/-- The result of a search from what its queue holds. -/
theorem result_ok (hq : IsQueue pop) {k : ℕ} {cost : α → K} {I all : List α} {b : List (K × α)} (h : Top k cost I b)
    (he : Ext k cost [] I all) :
    KSmallest cost (min k all.length) all ((drain pop b.length b).map fun e => e.2) ∧
      ((drain pop b.length b).map fun e => cost e.2).Pairwise (· ≤ ·) := by
  obtain ⟨h1, h2⟩ := drain_ok hq b.length b le_rfl
  obtain ⟨hl, lost, hp, hlt⟩ := h
  have hcost : ∀ e ∈ b ++ lost, e.1 = cost e.2 := by
    intro e he
    obtain ⟨x, _, rfl⟩ := List.mem_map.1 (hp.subset he)
    rfl
  constructor
  · obtain ⟨S, R, e1, e2, e3⟩ := he
    rw [List.nil_append] at e1
    have hall : (((drain pop b.length b).map fun e => e.2) ++ lost.map fun e => e.2).Perm I := by
      rw [← List.map_append]
      have := (((h1.append_right lost).trans hp).map fun e => e.2)
      rw [List.map_map] at this
      refine this.trans (List.Perm.of_eq ?_)
      exact List.map_id I
    have hlen1 := e1.length_eq
    have hlen2 := e2.length_eq
    rw [List.length_append] at hlen2
    have hcnt : ∀ y ∈ R, k ≤ I.length := fun y hy => (e3 y hy).trans List.countP_le_length
    have hle : min k I.length = min k all.length := by
      cases R with
      | nil => simp at hlen2; omega
      | cons y R =>
        have := hcnt y (by simp)
        rw [List.length_cons] at hlen2
        omega
    refine ⟨?_, lost.map (fun e => e.2) ++ R, ?_, ?_⟩
    · rw [List.length_map, h1.length_eq, hl, hle]
    · rw [← List.append_assoc]
      exact ((hall.append_right R).trans (e1.append_right R)).trans e2
    · intro x hx y hy
      obtain ⟨e, hem, rfl⟩ := List.mem_map.1 hx
      have heb := h1.subset hem
      rw [← hcost e (List.mem_append_left _ heb)]
      have hlost : ∀ f ∈ lost, e.1 ≤ cost f.2 := fun f hf => by
        rw [← hcost f (List.mem_append_right _ hf)]
        exact hlt e heb f hf
      rcases List.mem_append.1 hy with hy | hy
      · obtain ⟨f, hf, rfl⟩ := List.mem_map.1 hy
        exact hlost f hf
      · -- at least `k` inserted items are as close as `y`; one of them is not cheaper than `e`
        by_contra hno
        rw [not_le] at hno
        have hk := e3 y hy
        have hc1 : (I.countP fun x => decide (cost x ≤ cost y)) =
            (b ++ lost).countP fun e => decide (e.1 ≤ cost y) := by
          rw [hp.countP_eq, List.countP_map]; rfl
        rw [hc1, List.countP_append] at hk
        have hz : lost.countP (fun e => decide (e.1 ≤ cost y)) = 0 := by
          rw [List.countP_eq_zero]
          intro f hf
          have := hlt e heb f hf
          simp only [decide_eq_true_eq, not_le]
          exact lt_of_lt_of_le hno this
        have hb : b.countP (fun e => decide (e.1 ≤ cost y)) < b.length := by
          rw [List.countP_lt_length_iff]
          exact ⟨e, heb, by simpa using hno⟩
        omega
  · rw [List.pairwise_map]
    refine h2.imp_of_mem fun {x y} hx hy hxy => ?_
    rw [← hcost x (List.mem_append_left _ (h1.subset hx)), ← hcost y (List.mem_append_left _ (h1.subset hy))]
    exact hxy

theorem kNN_ok (hq : IsQueue pop) (hd : IsCoordDist dist) {k : ℕ} (hk : 1 ≤ k) (q : Point K d) {t : Node α K d}
    (hb : BoxOK pos t) (hroot : ∃ dim split box n l r, t = .node dim split box n l r) :
    ∃ res, kNN pos dist pop t q k = .ok res ∧ KSmallest (fun x => dist q (pos x)) (min k t.live.length) t.live res ∧
      (res.map fun x => dist q (pos x)).Pairwise (· ≤ ·) := by
  obtain ⟨dim, split, box, n, l, r, rfl⟩ := hroot
  unfold kNN
  by_cases hside : q dim < split
  · obtain ⟨b, I, h1, h2, h3⟩ := helper_ok hq hd hk q l hb.1 r hb.2.1 [] [] (Top.nil k _)
    refine ⟨(drain pop b.length b).map fun e => e.2, ?_, ?_⟩
    · show Except.map _ (if _ then _ else _) = _
      rw [if_pos hside, h1]
      rfl
    · rw [List.map_map]
      exact result_ok hq h2 h3
  · obtain ⟨b, I, h1, h2, h3⟩ := helper_ok hq hd hk q r hb.2.1 l hb.1 [] [] (Top.nil k _)
    refine ⟨(drain pop b.length b).map fun e => e.2, ?_, ?_⟩
    · show Except.map _ (if _ then _ else _) = _
      rw [if_neg hside, h1]
      rfl
    · rw [List.map_map]
      exact result_ok hq h2 (h3.perm List.perm_append_comm)

end

end Verif.DynKd
