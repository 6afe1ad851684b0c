import Verif.DynKd.FloatLemmas
import Verif.DynKd.Props
import Verif.BatchKd.SplitFloatProps

set_option linter.unusedSectionVars false
set_option linter.unusedVariables false

/-!
Property C102: the dynamic kd-tree in rounded arithmetic.
-/

namespace Verif.DynKd

open Verif BatchKd
open Verif.Float
open Verif.KdTree (distFl)
open Verif.KnnBuf (KSmallest)

variable {α : Type} {d : ℕ} {fl : ℝ → ℝ} {pos : α → Point ℝ d} {thr : ℕ} {part : Fin d → ℝ → List α → List α}
  {nth : Fin d → ℕ → List α → List α} {d0 : Fin d}

/-! ### Any history -/

/-- Trees after construction and any insert and erase batches that returned, in rounded arithmetic. -/
inductive ReachFl (fl : ℝ → ℝ) (pos : α → Point ℝ d) (thr : ℕ) (part : Fin d → ℝ → List α → List α)
    (nth : Fin d → ℕ → List α → List α) (d0 : Fin d) : Node α ℝ d → Prop
  | build {t : Node α ℝ d} (L : List α) (h : buildFl fl pos thr part nth L.length d0 L = .ok t) :
      ReachFl fl pos thr part nth d0 t
  | insert {t t' : Node α ℝ d} (L : List α) (h : ReachFl fl pos thr part nth d0 t)
      (he : insertFl fl pos thr part nth d0 t L = .ok t') : ReachFl fl pos thr part nth d0 t'
  | erase {t : Node α ℝ d} (L : List α) (h : ReachFl fl pos thr part nth d0 t) :
      ReachFl fl pos thr part nth d0 (erase pos part t L).1

theorem buildFl_two {t : Node α ℝ d} {L : List α} (h : buildFl fl pos thr part nth L.length d0 L = .ok t) :
    2 ≤ L.length := by
  by_contra hno
  cases hl : L.length with
  | zero => rw [hl] at h; cases h
  | succ n =>
    rw [hl, buildFl, if_pos (by omega)] at h
    cases h

theorem ReachFl.inv (hthr : 2 ≤ thr) (hpart : PartItems part pos) (hnth : NthItems nth pos) {t : Node α ℝ d}
    (h : ReachFl fl pos thr part nth d0 t) :
    BoxOK pos t ∧ ∃ dim split box n l r, t = .node dim split box n l r := by
  induction h with
  | build L h =>
    obtain ⟨t', e, hm, hr⟩ := buildFl_ok (fl := fl) hthr hpart hnth L.length d0 L le_rfl (buildFl_two h)
    rw [h] at e
    cases e
    exact ⟨hm.box, hr⟩
  | @insert t t' L h he ih =>
    obtain ⟨hb, dim, split, box, n, l, r, rfl⟩ := ih
    refine ⟨((insertFl_spec hthr hpart hnth d0 _ hb L).1 t' he).box, ?_⟩
    rw [insertFl] at he
    revert he
    generalize insertFl fl pos thr part nth d0 l _ = a
    generalize insertFl fl pos thr part nth d0 r _ = b
    intro he
    cases a with
    | error e => cases he
    | ok l' =>
      cases b with
      | error e => cases he
      | ok r' =>
        cases he
        exact ⟨_, _, _, _, _, _, rfl⟩
  | @erase t L h ih =>
    obtain ⟨hb, dim, split, box, n, l, r, rfl⟩ := ih
    refine ⟨(erase_spec hpart _ hb L).box, ?_⟩
    rw [DynKd.erase]
    split
    · exact ⟨_, _, _, _, _, _, rfl⟩
    · exact ⟨_, _, _, _, _, _, rfl⟩

/-- **C102, nearest neighbours.** In every state reached in rounded arithmetic, for every query and `k ≥ 1`, `kNN` returns
`min k N` of the `N` present points; none of the others has a smaller computed distance, and the computed distances ascend. -/
theorem c102_kNN (hf : IsRootRounding fl) (hthr : 2 ≤ thr) (hpart : PartItems part pos) (hnth : NthItems nth pos)
    {pop : List (ℝ × α) → Option ((ℝ × α) × List (ℝ × α))} (hq : IsQueue pop) {t : Node α ℝ d}
    (h : ReachFl fl pos thr part nth d0 t) (hrep : ReprAll fl pos t.live) (q : Point ℝ d) {k : ℕ} (hk : 1 ≤ k) :
    ∃ res, kNNFl fl pos pop t q k = .ok res ∧
      KSmallest (fun x => distFl fl q (pos x)) (min k t.live.length) t.live res ∧
      (res.map fun x => distFl fl q (pos x)).Pairwise (· ≤ ·) := by
  obtain ⟨hb, hr⟩ := h.inv hthr hpart hnth
  exact kNNFl_ok hq hf hk q hb hrep hr

/-- **C102, any points and any rounding.** Construction from two or more points returns and stores them; in every reachable
state `check` succeeds; an insertion that returns adds exactly the points of the batch; an erasure removes only points whose
position is listed. -/
theorem c102_steps (fl : ℝ → ℝ) (hthr : 2 ≤ thr) (hpart : PartItems part pos) (hnth : NthItems nth pos) :
    (∀ L : List α, 2 ≤ L.length → ∃ t, buildFl fl pos thr part nth L.length d0 L = .ok t ∧ t.live.Perm L) ∧
    ∀ t : Node α ℝ d, ReachFl fl pos thr part nth d0 t → check pos t = true ∧
      (∀ L t', insertFl fl pos thr part nth d0 t L = .ok t' → t'.live.Perm (t.live ++ L)) ∧
      ∀ L, (erase pos part t L).1.live.Sublist t.live ∧
        ∃ R, t.live.Perm ((erase pos part t L).1.live ++ R) ∧ ∀ x ∈ R, ∃ y ∈ L, pos x = pos y := by
  constructor
  · intro L h
    obtain ⟨t, e, hm, -⟩ := buildFl_ok (fl := fl) hthr hpart hnth L.length d0 L le_rfl h
    exact ⟨t, e, hm.live⟩
  · intro t h
    obtain ⟨hb, hr⟩ := h.inv hthr hpart hnth
    refine ⟨hb.check, fun L t' he => ((insertFl_spec hthr hpart hnth d0 t hb L).1 t' he).live, fun L => ?_⟩
    obtain ⟨-, -, h3, ⟨R, h4, h5⟩, -⟩ := erase_spec hpart t hb L
    refine ⟨h3, R, h4, fun x hx => ?_⟩
    obtain ⟨y, hy, e⟩ := List.mem_map.1 (h5 x hx)
    exact ⟨y, hy, e.symm⟩

/-! ### Histories with a ghost multiset -/

/-- Positions whose coordinates have `p` bits, no two of which agree or are neighbours in one dimension and agree in the
next: if no number of `p` bits is strictly between their coordinates in a dimension, those in the next differ. -/
def Roomy (p : ℕ) (M : Multiset (Point ℝ d)) : Prop :=
  (∀ x ∈ M, ∀ i, rne p (x i) = x i) ∧
  ∀ x y, ({x, y} : Multiset (Point ℝ d)) ≤ M → ∀ i, (¬ ∃ v, rne p v = v ∧ min (x i) (y i) < v ∧ v < max (x i) (y i)) →
    x (next i) ≠ y (next i)

theorem Roomy.fit {p : ℕ} (hp : 1 ≤ p) {M : Multiset (Point ℝ d)} (h : Roomy p M) : Fit (rne p) M :=
  ⟨midOK_rne hp, h.1, fun x y hxy i hno => h.2 x y hxy i fun ⟨v, h1, h2⟩ => hno v h1 h2⟩

theorem Roomy.mono {p : ℕ} {M N : Multiset (Point ℝ d)} (h : Roomy p M) (hl : N ≤ M) : Roomy p N :=
  ⟨fun x hx => h.1 x (Multiset.mem_of_le hl hx), fun x y hxy => h.2 x y (hxy.trans hl)⟩

/-- Histories in rounded arithmetic with the multiset `M` of positions that should be stored and the list `E` of positions
erased so far. The stored positions are `Roomy`, and no position is erased twice. -/
inductive HistFl (p : ℕ) (pos : α → Point ℝ d) (thr : ℕ) (part : Fin d → ℝ → List α → List α)
    (nth : Fin d → ℕ → List α → List α) (d0 : Fin d) : Multiset (Point ℝ d) → List (Point ℝ d) → Node α ℝ d → Prop
  | build {t : Node α ℝ d} (L : List α) (hN : Roomy p ((L.map pos : List _) : Multiset (Point ℝ d)))
      (h : buildFl (rne p) pos thr part nth L.length d0 L = .ok t) :
      HistFl p pos thr part nth d0 ((L.map pos : List _)) [] t
  | insert {M : Multiset (Point ℝ d)} {E : List (Point ℝ d)} {t t' : Node α ℝ d} (L : List α)
      (h : HistFl p pos thr part nth d0 M E t) (hN : Roomy p (M + ((L.map pos : List _) : Multiset (Point ℝ d))))
      (he : insertFl (rne p) pos thr part nth d0 t L = .ok t') :
      HistFl p pos thr part nth d0 (M + ((L.map pos : List _) : Multiset (Point ℝ d))) E t'
  | erase {M : Multiset (Point ℝ d)} {E : List (Point ℝ d)} {t : Node α ℝ d} (L : List α)
      (h : HistFl p pos thr part nth d0 M E t) (hE : (E ++ L.map pos).Nodup) :
      HistFl p pos thr part nth d0 (M.filter fun x => x ∉ L.map pos) (E ++ L.map pos) (erase pos part t L).1

theorem HistFl.spec {p : ℕ} (hp : 1 ≤ p) (hthr : 2 ≤ thr) (hpart : PartItems part pos) (hnth : NthItems nth pos)
    {M : Multiset (Point ℝ d)} {E : List (Point ℝ d)} {t : Node α ℝ d} (h : HistFl p pos thr part nth d0 M E t) :
    BoxOK pos t ∧ Counted t ∧ Routed pos t ∧ ((t.live.map pos : List _) : Multiset (Point ℝ d)) = M ∧ Roomy p M ∧
      (∀ x ∈ t.dead, pos x ∈ E) ∧ ReachFl (rne p) pos thr part nth d0 t := by
  induction h with
  | build L hN h =>
    obtain ⟨t', e, hm, hr⟩ := buildFl_ok (fl := rne p) hthr hpart hnth L.length d0 L le_rfl (buildFl_two h)
    rw [h] at e
    cases e
    exact ⟨hm.box, hm.counted, hm.routed (hN.fit hp), Multiset.coe_eq_coe.2 (hm.live.map pos), hN, by simp [hm.dead],
      .build L h⟩
  | @insert M E t t' L h hN he ih =>
    obtain ⟨h1, h2, h3, h4, h5, h6, h7⟩ := ih
    have hi := (insertFl_spec hthr hpart hnth d0 t h1 L).1 t' he
    refine ⟨hi.box, hi.counted h2, hi.routed ?_ h3, ?_, hN, fun x hx => h6 x (hi.dead.subset hx), h7.insert L he⟩
    · rw [List.map_append, ← Multiset.coe_add, h4]
      exact hN.fit hp
    · rw [Multiset.coe_eq_coe.2 (hi.live.map pos), List.map_append, ← Multiset.coe_add, h4]
  | @erase M E t L h hE ih =>
    obtain ⟨h1, h2, h3, h4, h5, h6, h7⟩ := ih
    have hi := erase_spec hpart t h1 L
    obtain ⟨n1, n2, n3⟩ := List.nodup_append.1 hE
    obtain ⟨r1, r2⟩ := hi.routed h3
    refine ⟨hi.box, (hi.counted h2 n2 fun x hx hxL => n3 _ (h6 x hx) _ hxL rfl).1, r1, ?_,
      h5.mono (Multiset.filter_le _ _), fun x hx => ?_, h7.erase L⟩
    · rw [r2, ← h4, Multiset.filter_coe, Multiset.coe_eq_coe]
      refine List.Perm.of_eq ?_
      rw [List.filter_map]
      congr 1
      refine List.filter_congr fun x hx => ?_
      rw [Bool.eq_iff_iff, Bool.not_eq_true', Bool.eq_false_iff, Ne, listed_iff]
      simp
    · rcases hi.dead x hx with h | h
      · exact List.mem_append_left _ (h6 x h)
      · exact List.mem_append_right _ h

/-- **C102, multiset (partial).** For histories in which no two stored positions agree or are neighbours in a dimension and
agree in the next, and no position is erased twice: the stored positions are exactly those inserted and not erased, `size` is
their number, the next insertion returns, and nearest neighbour queries are exact for the computed distance. -/
theorem c102_history_partial {p : ℕ} (hp : 1 ≤ p) (hthr : 2 ≤ thr) (hpart : PartItems part pos) (hnth : NthItems nth pos)
    {M : Multiset (Point ℝ d)} {E : List (Point ℝ d)} {t : Node α ℝ d} (h : HistFl p pos thr part nth d0 M E t) :
    ((t.live.map pos : List _) : Multiset (Point ℝ d)) = M ∧ t.size = Multiset.card M ∧
      (∀ L, ∃ t', insertFl (rne p) pos thr part nth d0 t L = .ok t') ∧
      ∀ (pop : List (ℝ × α) → Option ((ℝ × α) × List (ℝ × α))), IsQueue pop → ∀ (q : Point ℝ d) (k : ℕ), 1 ≤ k →
        ∃ res, kNNFl (rne p) pos pop t q k = .ok res ∧
          KSmallest (fun x => distFl (rne p) q (pos x)) (min k t.live.length) t.live res := by
  obtain ⟨h1, h2, h3, h4, h5, h6, h7⟩ := h.spec hp hthr hpart hnth
  refine ⟨h4, ?_, fun L => (insertFl_spec hthr hpart hnth d0 t h1 L).2 h2, fun pop hq q k hk => ?_⟩
  · rw [h2.size, ← h4, Multiset.coe_card, List.length_map]
  · have hrep : ReprAll (rne p) pos t.live := fun x hx i =>
      h5.1 (pos x) (by rw [← h4]; exact Multiset.mem_coe.2 (List.mem_map.2 ⟨x, hx, rfl⟩)) i
    obtain ⟨res, e, hres, -⟩ := c102_kNN (isRootRounding_rne hp) hthr hpart hnth hq h7 hrep q hk
    exact ⟨res, e, hres⟩

/-! ### Neighbouring coordinates -/

/-- **C102 fails for neighbouring coordinates.** Two different points of the plane, in double precision: whatever the library
routines do, the tree built over them has a point that cannot be erased. In exact arithmetic both can (`c19_history_partial`). -/
theorem c102_erase_false {part : Fin 2 → ℝ → List (ℝ × ℝ) → List (ℝ × ℝ)}
    {nth : Fin 2 → ℕ → List (ℝ × ℝ) → List (ℝ × ℝ)} (hthr : 2 ≤ thr) (hpart : PartItems part rpos)
    (hnth : NthItems nth rpos) :
    ReprAll (rne 53) rpos [((2 : ℝ) ^ 53, (0 : ℝ)), (2 ^ 53 + 2, 0)] ∧
    ∃ t, buildFl (rne 53) rpos thr part nth 2 0 [((2 : ℝ) ^ 53, (0 : ℝ)), (2 ^ 53 + 2, 0)] = .ok t ∧
      t.live.Perm [((2 : ℝ) ^ 53, (0 : ℝ)), (2 ^ 53 + 2, 0)] ∧
      ∃ x ∈ t.live, x ∈ (erase rpos part t [x]).1.live := by
  set L : List (ℝ × ℝ) := [((2 : ℝ) ^ 53, (0 : ℝ)), (2 ^ 53 + 2, 0)] with hL
  have h0 : rne 53 (0 : ℝ) = 0 := (isRootRounding_rne (p := 53) (by norm_num)).toIsMonoRounding.zero
  refine ⟨?_, ?_⟩
  · have hd := diag_repr (m := 1) (by norm_num)
    have hd' : diag 1 = [((2 : ℝ) ^ 53, (2 : ℝ) ^ 53), (2 ^ 53 + 2, 2 ^ 53 + 2)] := by
      simp [diag, List.range_succ]
    rw [hd'] at hd
    have e1 := hd ((2 : ℝ) ^ 53, (2 : ℝ) ^ 53) (by simp) 0
    have e2 := hd ((2 : ℝ) ^ 53 + 2, (2 : ℝ) ^ 53 + 2) (by simp) 0
    simp only [rpos, if_true] at e1 e2
    intro x hx i
    simp only [hL, List.mem_cons, List.not_mem_nil, or_false] at hx
    rcases hx with rfl | rfl <;> fin_cases i <;> simp [rpos, h0, e1, e2]
  · obtain ⟨t, e, hm, -⟩ := buildFl_ok (fl := rne 53) hthr hpart hnth 2 (0 : Fin 2) L (by simp [hL]) (by simp [hL])
    refine ⟨t, e, hm.live, ?_⟩
    have hlo : (boxOf rpos L).lo 0 = 2 ^ 53 := by
      simp [hL, boxOf, update, rpos]
    have hhi : (boxOf rpos L).hi 0 = 2 ^ 53 + 2 := by
      simp [hL, boxOf, update, rpos]
    have hnext : next (0 : Fin 2) = 1 := rfl
    have hcount : L.countP (fun x => decide (rpos x 0 < (2 : ℝ) ^ 53)) = 0 := by
      simp [hL, rpos]
    rw [buildFl, if_neg (by simp [hL])] at e
    simp only [hlo, hhi, mid_neighbours, hcount, true_or, if_true, hnext] at e
    obtain ⟨pp, -, -⟩ := hpart 0 ((2 : ℝ) ^ 53) L
    have hPl : (part 0 (2 ^ 53) L).length = 2 := pp.length_eq
    obtain ⟨qp, -⟩ := hnth 1 1 (part 0 (2 ^ 53) L) (by rw [hPl]; omega)
    have hlen : L.length / 2 = 1 := by simp [hL]
    rw [hlen] at e
    have hQl := qp.length_eq
    rw [hPl] at hQl
    obtain ⟨a, b, hab⟩ := List.length_eq_two.1 hQl
    have hmem : ∀ x ∈ [a, b], rpos x 1 = 0 := by
      intro x hx
      rw [← hab] at hx
      have := pp.subset (qp.subset hx)
      simp only [hL, List.mem_cons, List.not_mem_nil, or_false] at this
      rcases this with rfl | rfl <;> simp [rpos]
    rw [hab] at e
    simp only [List.getElem?_cons_succ, List.getElem?_cons_zero, List.take_succ_cons, List.take_zero,
      List.drop_succ_cons, List.drop_zero, List.length_singleton] at e
    have h1 : 1 < thr := by omega
    simp only [h1, if_true] at e
    cases e
    have hsa : rpos b 1 = 0 := hmem b (by simp)
    have haa : rpos a 1 = 0 := hmem a (by simp)
    have hla : (leaf rpos [a]).live = [a] := live_map_true _ _ _
    refine ⟨a, ?_, ?_⟩
    · show a ∈ (leaf rpos [a]).live ++ (leaf rpos [b]).live
      rw [hla]
      simp
    · rw [erase, if_neg (by simp)]
      show a ∈ (erase rpos part (leaf rpos [a]) _).1.live ++ _
      refine List.mem_append_left _ ?_
      have hc : [a].countP (fun x => decide (rpos x 1 < rpos b 1)) = 0 := by
        simp [hsa, haa]
      rw [hc, List.take_zero]
      have : erase rpos part (leaf rpos [a]) [] = (leaf rpos [a], 0) := by
        unfold leaf
        rw [erase]
        exact if_pos rfl
      rw [this, hla]
      simp

/-! ### Concrete cases -/

/-- The contracts can be met over the reals. -/
example : PartItems (stablePart rpos) rpos ∧ NthItems (nthBySort rpos) rpos ∧ IsQueue (popMax : List (ℝ × (ℝ × ℝ)) → _) :=
  ⟨stablePart_ok _, nthBySort_ok _, popMax_ok⟩

/-- Positions that differ pairwise in every dimension are roomy. -/
theorem roomy_of_distinct {p : ℕ} {L : List α} (hrep : ReprAll (rne p) pos L) (hd : DistinctCoords pos L) :
    Roomy p ((L.map pos : List _) : Multiset (Point ℝ d)) := by
  constructor
  · intro x hx i
    obtain ⟨y, hy, rfl⟩ := List.mem_map.1 (Multiset.mem_coe.1 hx)
    exact hrep y hy i
  · intro x y hxy i _ heq
    have h1 := Multiset.map_le_map (f := fun z : Point ℝ d => z (next i)) hxy
    have h2 : (Multiset.map (fun z : Point ℝ d => z (next i)) ((L.map pos : List _) : Multiset (Point ℝ d))).Nodup := by
      rw [Multiset.map_coe, List.map_map]
      exact hd (next i)
    have h3 := Multiset.nodup_of_le h1 h2
    simp [heq] at h3

/-- A history in double precision: build over three points, insert one, erase one. -/
example : ∃ t, HistFl 53 rpos 16 (stablePart rpos) (nthBySort rpos) 0
    (((([(0, 3), (4, 1), (2, 2)].map rpos : List _) : Multiset (Point ℝ 2)) +
      (([(7, 5)].map rpos : List _) : Multiset (Point ℝ 2))).filter fun x => x ∉ [(4, 1)].map rpos)
    ([] ++ [(4, 1)].map rpos) t := by
  have hi : ∀ n : ℕ, n < 2 ^ 53 → rne 53 (n : ℝ) = n := fun n hn => rne_repr (by norm_num) (repr_nat hn)
  have h0 := hi 0 (by norm_num)
  have h1 := hi 1 (by norm_num)
  have h2 := hi 2 (by norm_num)
  have h3 := hi 3 (by norm_num)
  have h4 := hi 4 (by norm_num)
  have h5 := hi 5 (by norm_num)
  have h7 := hi 7 (by norm_num)
  push_cast at h0 h1 h2 h3 h4 h5 h7
  have g : Roomy 53 (([(0, 3), (4, 1), (2, 2), (7, 5)].map rpos : List (Point ℝ 2)) : Multiset (Point ℝ 2)) := by
    refine roomy_of_distinct ?_ ?_
    · intro x hx i
      simp only [List.mem_cons, List.not_mem_nil, or_false] at hx
      rcases hx with rfl | rfl | rfl | rfl <;> fin_cases i <;> simp [rpos, *]
    · intro dim
      fin_cases dim <;> simp [rpos]
  have g2 : Roomy 53 ((([(0, 3), (4, 1), (2, 2)].map rpos : List (Point ℝ 2)) : Multiset (Point ℝ 2)) +
      (([(7, 5)].map rpos : List (Point ℝ 2)) : Multiset (Point ℝ 2))) := g
  obtain ⟨t, e, -⟩ := (c102_steps (thr := 16) (d0 := 0) (rne 53) (by omega) (stablePart_ok rpos) (nthBySort_ok rpos)).1
    [(0, 3), (4, 1), (2, 2)] (by simp)
  have a1 := HistFl.build _ (g2.mono (Multiset.le_add_right _ _)) e
  obtain ⟨t', e'⟩ := (c102_history_partial (by norm_num) (by omega) (stablePart_ok rpos) (nthBySort_ok rpos) a1).2.2.1
    [(7, 5)]
  exact ⟨_, ((a1.insert _ g2 e').erase [(4, 1)] (by simp))⟩

end Verif.DynKd
