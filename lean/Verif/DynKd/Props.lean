import Verif.DynKd.KnnLemmas
import Verif.BatchKd.Props

set_option linter.unusedSectionVars false
set_option linter.unusedVariables false

/-!
Properties C19 and C20: the dynamic kd-tree as a multiset of positions, and its nearest neighbour search.

`thr` is the leaf threshold (16 in the code); all theorems hold for any value from 2 on.
-/

namespace Verif.DynKd

open Verif BatchKd
open Verif.KnnBuf (KSmallest)

variable {α K : Type} {d : ℕ} [Field K] [LinearOrder K] [IsStrictOrderedRing K] {pos : α → Point K d} {thr : ℕ}
  {part : Fin d → K → List α → List α} {nth : Fin d → ℕ → List α → List α} {d0 : Fin d}

/-! ### Any history -/

/-- Trees after construction and any insert and erase batches that returned, whatever the points. -/
inductive Reach (pos : α → Point K d) (thr : ℕ) (part : Fin d → K → List α → List α)
    (nth : Fin d → ℕ → List α → List α) (d0 : Fin d) : Node α K d → Prop
  | build {t : Node α K d} (L : List α) (h : build pos thr part nth L.length d0 L = .ok t) : Reach pos thr part nth d0 t
  | insert {t t' : Node α K d} (L : List α) (h : Reach pos thr part nth d0 t)
      (he : insert pos thr part nth d0 t L = .ok t') : Reach pos thr part nth d0 t'
  | erase {t : Node α K d} (L : List α) (h : Reach pos thr part nth d0 t) : Reach pos thr part nth d0 (erase pos part t L).1

theorem Reach.inv (hthr : 2 ≤ thr) (hpart : PartItems part pos) (hnth : NthItems nth pos) {t : Node α K d}
    (h : Reach pos thr part nth d0 t) :
    BoxOK pos t ∧ ∃ dim split box n l r, t = .node dim split box n l r := by
  induction h with
  | build L h =>
    have hlen : 2 ≤ L.length := by
      by_contra hno
      cases hl : L.length with
      | zero => rw [hl] at h; cases h
      | succ n =>
        rw [hl, DynKd.build, if_pos (by omega)] at h
        cases h
    obtain ⟨t', e, hm, hr⟩ := build_ok hthr hpart hnth L.length d0 L le_rfl hlen
    rw [h] at e
    cases e
    exact ⟨hm.box, hr⟩
  | @insert t t' L h he ih =>
    obtain ⟨hb, dim, split, box, n, l, r, rfl⟩ := ih
    refine ⟨((insert_spec hthr hpart hnth d0 _ hb L).1 t' he).box, ?_⟩
    rw [DynKd.insert] at he
    revert he
    generalize DynKd.insert pos thr part nth d0 l _ = a
    generalize DynKd.insert pos thr part nth d0 r _ = b
    intro he
    cases a with
    | error e => cases he
    | ok l' =>
      cases b with
      | error e => cases he
      | ok r' =>
        cases he
        exact ⟨_, _, _, _, _, _, rfl⟩
  | @erase t L h ih =>
    obtain ⟨hb, dim, split, box, n, l, r, rfl⟩ := ih
    refine ⟨(erase_spec hpart _ hb L).box, ?_⟩
    rw [DynKd.erase]
    split
    · exact ⟨_, _, _, _, _, _, rfl⟩
    · exact ⟨_, _, _, _, _, _, rfl⟩

/-- **C20.** In every reachable state, for every query and `k ≥ 1`, `kNN` returns `min k N` of the `N` present points, none of
the others is nearer, and their distances ascend. Ties in the queue may be broken in any way. -/
theorem c20_kNN_exact (hthr : 2 ≤ thr) (hpart : PartItems part pos) (hnth : NthItems nth pos)
    {dist : Point K d → Point K d → K} (hd : IsCoordDist dist)
    {pop : List (K × α) → Option ((K × α) × List (K × α))} (hq : IsQueue pop) {t : Node α K d}
    (h : Reach pos thr part nth d0 t) (q : Point K d) {k : ℕ} (hk : 1 ≤ k) :
    ∃ res, kNN pos dist pop t q k = .ok res ∧ KSmallest (fun x => dist q (pos x)) (min k t.live.length) t.live res ∧
      (res.map fun x => dist q (pos x)).Pairwise (· ≤ ·) := by
  obtain ⟨hb, hr⟩ := h.inv hthr hpart hnth
  exact kNN_ok hq hd hk q hb hr

/-- C20 for the Euclidean distance of the code. -/
theorem c20_kNN_euclidean {pos : α → Point ℝ d} {part : Fin d → ℝ → List α → List α}
    {nth : Fin d → ℕ → List α → List α} (hpart : PartItems part pos) (hnth : NthItems nth pos)
    {pop : List (ℝ × α) → Option ((ℝ × α) × List (ℝ × α))} (hq : IsQueue pop) {t : Node α ℝ d}
    (h : Reach pos 16 part nth d0 t) (q : Point ℝ d) {k : ℕ} (hk : 1 ≤ k) :
    ∃ res, kNN pos eucl pop t q k = .ok res ∧ KSmallest (fun x => eucl q (pos x)) (min k t.live.length) t.live res ∧
      (res.map fun x => eucl q (pos x)).Pairwise (· ≤ ·) :=
  c20_kNN_exact (by omega) hpart hnth eucl_isCoordDist hq h q hk

theorem insertAll_zero {dist : Point K d → Point K d → K} {pop : List (K × α) → Option ((K × α) × List (K × α))}
    (hq : IsQueue pop) (q : Point K d) : ∀ L : List α, insertAll pos dist pop 0 q [] L = []
  | [] => rfl
  | x :: L => by
    obtain ⟨m, r, e, hm, -⟩ := hq.2 [(dist q (pos x), x)] (by simp)
    have hl := hm.length_eq
    have hr : r = [] := List.eq_nil_of_length_eq_zero (by simpa using hl)
    have : insertK pop 0 [] (dist q (pos x), x) = [] := by
      unfold insertK
      simp only [List.length_cons, Nat.zero_lt_succ, if_true]
      rw [e, hr]
    unfold insertAll
    rw [List.foldl_cons, this]
    exact insertAll_zero hq q L

/-- Asking for no neighbours is undefined behaviour in every state: the top of an empty queue is read. -/
theorem c20_zero_ub (hthr : 2 ≤ thr) (hpart : PartItems part pos) (hnth : NthItems nth pos)
    {dist : Point K d → Point K d → K} {pop : List (K × α) → Option ((K × α) × List (K × α))} (hq : IsQueue pop)
    {t : Node α K d} (h : Reach pos thr part nth d0 t) (q : Point K d) : kNN pos dist pop t q 0 = .error .ub := by
  have hh : ∀ t s : Node α K d, helper pos dist pop 0 q t s [] = .error .ub := by
    intro t
    induction t with
    | data items box n =>
      intro s
      rw [helper, insertAll_zero hq]
      unfold visitSiblin
      rw [if_pos (Nat.zero_le _), hq.1]
    | node dim split box n l r ihl ihr =>
      intro s
      rw [helper]
      split
      · rw [ihl]; rfl
      · rw [ihr]; rfl
  obtain ⟨-, dim, split, box, n, l, r, rfl⟩ := h.inv hthr hpart hnth
  unfold kNN
  by_cases hs : q dim < split
  · show Except.map _ (if _ then _ else _) = _
    rw [if_pos hs, hh]
    rfl
  · show Except.map _ (if _ then _ else _) = _
    rw [if_neg hs, hh]
    rfl

/-- **C19, any points.** In every reachable state `check` succeeds; an insertion that returns adds exactly the points of the
batch; an erasure removes only points whose position is listed. -/
theorem c19_steps (hthr : 2 ≤ thr) (hpart : PartItems part pos) (hnth : NthItems nth pos) {t : Node α K d}
    (h : Reach pos thr part nth d0 t) :
    check pos t = true ∧
    (∀ L t', insert pos thr part nth d0 t L = .ok t' → t'.live.Perm (t.live ++ L)) ∧
    ∀ L, (erase pos part t L).1.live.Sublist t.live ∧
      ∃ R, t.live.Perm ((erase pos part t L).1.live ++ R) ∧ ∀ x ∈ R, ∃ y ∈ L, pos x = pos y := by
  obtain ⟨hb, hr⟩ := h.inv hthr hpart hnth
  refine ⟨hb.check, fun L t' he => ((insert_spec hthr hpart hnth d0 t hb L).1 t' he).live, fun L => ?_⟩
  obtain ⟨-, -, h3, ⟨R, h4, h5⟩, -⟩ := erase_spec hpart t hb L
  refine ⟨h3, R, h4, fun x hx => ?_⟩
  obtain ⟨y, hy, e⟩ := List.mem_map.1 (h5 x hx)
  exact ⟨y, hy, e.symm⟩

/-! ### Histories with a ghost multiset -/

/-- Histories with the multiset `M` of positions that should be stored and the list `E` of positions erased so far. No two
stored positions agree in two successive dimensions, and no position is erased twice. -/
inductive Hist (pos : α → Point K d) (thr : ℕ) (part : Fin d → K → List α → List α)
    (nth : Fin d → ℕ → List α → List α) (d0 : Fin d) : Multiset (Point K d) → List (Point K d) → Node α K d → Prop
  | build {t : Node α K d} (L : List α) (hN : NoDouble ((L.map pos : List _) : Multiset (Point K d)))
      (h : build pos thr part nth L.length d0 L = .ok t) : Hist pos thr part nth d0 ((L.map pos : List _)) [] t
  | insert {M : Multiset (Point K d)} {E : List (Point K d)} {t t' : Node α K d} (L : List α)
      (h : Hist pos thr part nth d0 M E t) (hN : NoDouble (M + ((L.map pos : List _) : Multiset (Point K d))))
      (he : insert pos thr part nth d0 t L = .ok t') :
      Hist pos thr part nth d0 (M + ((L.map pos : List _) : Multiset (Point K d))) E t'
  | erase {M : Multiset (Point K d)} {E : List (Point K d)} {t : Node α K d} (L : List α)
      (h : Hist pos thr part nth d0 M E t) (hE : (E ++ L.map pos).Nodup) :
      Hist pos thr part nth d0 (M.filter fun p => p ∉ L.map pos) (E ++ L.map pos) (erase pos part t L).1

theorem Hist.spec (hthr : 2 ≤ thr) (hpart : PartItems part pos) (hnth : NthItems nth pos) {M : Multiset (Point K d)}
    {E : List (Point K d)} {t : Node α K d} (h : Hist pos thr part nth d0 M E t) :
    BoxOK pos t ∧ Counted t ∧ Routed pos t ∧ ((t.live.map pos : List _) : Multiset (Point K d)) = M ∧ NoDouble M ∧
      (∀ x ∈ t.dead, pos x ∈ E) ∧ Reach pos thr part nth d0 t := by
  induction h with
  | build L hN h =>
    have hlen : 2 ≤ L.length := by
      by_contra hno
      cases hl : L.length with
      | zero => rw [hl] at h; cases h
      | succ n =>
        rw [hl, DynKd.build, if_pos (by omega)] at h
        cases h
    obtain ⟨t', e, hm, hr⟩ := build_ok hthr hpart hnth L.length d0 L le_rfl hlen
    rw [h] at e
    cases e
    exact ⟨hm.box, hm.counted, hm.routed hN, Multiset.coe_eq_coe.2 (hm.live.map pos), hN, by simp [hm.dead], .build L h⟩
  | @insert M E t t' L h hN he ih =>
    obtain ⟨h1, h2, h3, h4, h5, h6, h7⟩ := ih
    have hi := (insert_spec hthr hpart hnth d0 t h1 L).1 t' he
    refine ⟨hi.box, hi.counted h2, hi.routed ?_ h3, ?_, hN, fun x hx => h6 x (hi.dead.subset hx), h7.insert L he⟩
    · rw [List.map_append, ← Multiset.coe_add, h4]
      exact hN
    · rw [Multiset.coe_eq_coe.2 (hi.live.map pos), List.map_append, ← Multiset.coe_add, h4]
  | @erase M E t L h hE ih =>
    obtain ⟨h1, h2, h3, h4, h5, h6, h7⟩ := ih
    have hi := erase_spec hpart t h1 L
    obtain ⟨n1, n2, n3⟩ := List.nodup_append.1 hE
    obtain ⟨r1, r2⟩ := hi.routed h3
    refine ⟨hi.box, (hi.counted h2 n2 fun x hx hxL => n3 _ (h6 x hx) _ hxL rfl).1, r1, ?_,
      h5.mono (Multiset.filter_le _ _), fun x hx => ?_, h7.erase L⟩
    · rw [r2, ← h4, Multiset.filter_coe, Multiset.coe_eq_coe]
      refine List.Perm.of_eq ?_
      rw [List.filter_map]
      congr 1
      refine List.filter_congr fun x hx => ?_
      rw [Bool.eq_iff_iff, Bool.not_eq_true', Bool.eq_false_iff, Ne, listed_iff]
      simp
    · rcases hi.dead x hx with h | h
      · exact List.mem_append_left _ (h6 x h)
      · exact List.mem_append_right _ h

/-- **C19 (partial).** For histories in which no two stored positions agree in two successive dimensions (in the plane: no
position is stored twice) and no position is erased twice: the stored positions are exactly those inserted and not erased,
`size` is their number, and the next insertion of points that keep the condition returns. -/
theorem c19_history_partial (hthr : 2 ≤ thr) (hpart : PartItems part pos) (hnth : NthItems nth pos)
    {M : Multiset (Point K d)} {E : List (Point K d)} {t : Node α K d} (h : Hist pos thr part nth d0 M E t) :
    ((t.live.map pos : List _) : Multiset (Point K d)) = M ∧ t.size = Multiset.card M ∧
      ∀ L, ∃ t', insert pos thr part nth d0 t L = .ok t' := by
  obtain ⟨h1, h2, h3, h4, h5, h6, h7⟩ := h.spec hthr hpart hnth
  refine ⟨h4, ?_, fun L => (insert_spec hthr hpart hnth d0 t h1 L).2 h2⟩
  rw [h2.size, ← h4, Multiset.coe_card, List.length_map]

/-- In the plane the condition says that no position is stored twice. -/
theorem noDouble_plane {M : Multiset (Point K 2)} : NoDouble M ↔ M.Nodup := by
  have hnext : ∀ i : Fin 2, next (next i) = i ∧ (i = 0 ∨ i = 1) ∧ next 0 = (1 : Fin 2) ∧ next 1 = (0 : Fin 2) := by decide
  constructor
  · intro h
    rw [Multiset.nodup_iff_le]
    intro p hp
    exact h p p hp 0 rfl rfl
  · intro h p q hpq i hi hn
    have e : p = q := by
      funext j
      obtain ⟨-, hj, h0, h1⟩ := hnext j
      obtain ⟨-, hi', -, -⟩ := hnext i
      rcases hi' with rfl | rfl <;> rcases hj with rfl | rfl
      · exact hi
      · rw [h0] at hn; exact hn
      · rw [h1] at hn; exact hn
      · exact hi
    subst e
    exact (Multiset.nodup_iff_le.1 h) p hpq

/-- Construction needs two points and then returns. -/
theorem c19_build (hthr : 2 ≤ thr) (hpart : PartItems part pos) (hnth : NthItems nth pos) (L : List α) :
    (2 ≤ L.length → ∃ t, build pos thr part nth L.length d0 L = .ok t ∧ t.live.Perm L) ∧
      (L.length = 1 → build pos thr part nth L.length d0 L = .error .throws) := by
  constructor
  · intro h
    obtain ⟨t, e, hm, -⟩ := build_ok hthr hpart hnth L.length d0 L le_rfl h
    exact ⟨t, e, hm.live⟩
  · intro h
    rw [h, build, if_pos (by omega)]

/-! ### Examples and failures -/

/-- A priority queue as a list: `pop` searches the largest element (for examples). -/
def popMax : List (K × α) → Option ((K × α) × List (K × α))
  | [] => none
  | e :: L =>
    match popMax L with
    | none => some (e, [])
    | some (m, r) => if m.1 ≤ e.1 then some (e, m :: r) else some (m, e :: r)

theorem popMax_ok : IsQueue (popMax : List (K × α) → _) := by
  refine ⟨rfl, fun L => ?_⟩
  induction L with
  | nil => exact fun h => absurd rfl h
  | cons e L ih =>
    intro _
    rw [popMax]
    by_cases hL : L = []
    · subst hL
      exact ⟨e, [], rfl, List.Perm.refl _, by simp⟩
    · obtain ⟨m, r, h1, h2, h3⟩ := ih hL
      rw [h1]
      by_cases hm : m.1 ≤ e.1
      · refine ⟨e, m :: r, by simp [hm], h2.cons e, fun x hx => ?_⟩
        rcases List.mem_cons.1 hx with rfl | hx
        · exact hm
        · exact (h3 x hx).trans hm
      · refine ⟨m, e :: r, by simp [hm], (List.Perm.swap e m r).trans (h2.cons e), fun x hx => ?_⟩
        rcases List.mem_cons.1 hx with rfl | hx
        · exact (not_le.1 hm).le
        · exact h3 x hx

section Examples

/-- The contracts can be met. -/
example : PartItems (stablePart ppos) ppos ∧ NthItems (nthBySort ppos) ppos ∧
    IsQueue (popMax : List (ℚ × (ℚ × ℚ)) → _) := ⟨stablePart_ok _, nthBySort_ok _, popMax_ok⟩

/-- Operations in the plane, one after the other (for examples): insert (`inl`), erase (`inr`). -/
def run2 : List (List (ℚ × ℚ) ⊕ List (ℚ × ℚ)) → Node (ℚ × ℚ) ℚ 2 → Except Err (Node (ℚ × ℚ) ℚ 2)
  | [], t => .ok t
  | .inl L :: ops, t => (insert ppos 16 (stablePart ppos) (nthBySort ppos) 0 t L).bind (run2 ops)
  | .inr L :: ops, t => run2 ops (erase ppos (stablePart ppos) t L).1

/-- Build and run; size and points of the result. -/
def show2 (L : List (ℚ × ℚ)) (ops : List (List (ℚ × ℚ) ⊕ List (ℚ × ℚ))) : Option (ℤ × List (ℚ × ℚ)) :=
  ((build ppos 16 (stablePart ppos) (nthBySort ppos) L.length 0 L).bind (run2 ops)).toOption.map fun t => (t.size, t.live)

/-- A history as in `c19_history_partial`: all points have equal first coordinates, so the middle element of the second
dimension splits. -/
example : show2 [(0, 3), (0, 1), (0, 2)] [.inl [(0, 5)], .inr [(0, 1)]] = some (3, [(0, 2), (0, 3), (0, 5)]) := by
  decide +kernel

/-- Its hypotheses hold. -/
example : ∃ t, Hist ppos 16 (stablePart ppos) (nthBySort ppos) 0
    (((([(0, 3), (0, 1), (0, 2)].map ppos : List _) : Multiset (Point ℚ 2)) +
      (([(0, 5)].map ppos : List _) : Multiset (Point ℚ 2))).filter fun p => p ∉ [(0, 1)].map ppos)
    ([] ++ [(0, 1)].map ppos) t := by
  have h1 : NoDouble (([(0, 3), (0, 1), (0, 2)].map ppos : List (Point ℚ 2)) : Multiset (Point ℚ 2)) := by
    rw [noDouble_plane]
    decide +kernel
  have h2 : NoDouble ((([(0, 3), (0, 1), (0, 2)].map ppos : List (Point ℚ 2)) : Multiset (Point ℚ 2)) +
      (([(0, 5)].map ppos : List (Point ℚ 2)) : Multiset (Point ℚ 2))) := by
    rw [noDouble_plane]
    decide +kernel
  obtain ⟨t, e, -⟩ := (c19_build (thr := 16) (d0 := 0) (by omega) (stablePart_ok ppos) (nthBySort_ok ppos)
    [(0, 3), (0, 1), (0, 2)]).1 (by decide)
  have g1 := Hist.build _ h1 e
  obtain ⟨t', e'⟩ := (c19_history_partial (by omega) (stablePart_ok ppos) (nthBySort_ok ppos) g1).2.2 [(0, 5)]
  exact ⟨_, ((g1.insert _ h2 e').erase [(0, 1)] (by decide +kernel))⟩

/-- **C19 fails for copies.** Of two copies in an otherwise empty tree one stays after erasing the position. -/
theorem c19_copies_false : show2 [(0, 0), (0, 0)] [.inr [(0, 0)]] = some (1, [(0, 0)]) := by
  decide +kernel

/-- **C19 fails for repeated erasures.** Erasing a position twice counts twice: one point is stored and `size` is 0. -/
theorem c19_double_false : show2 [(0, 0), (1, 1)] [.inr [(0, 0)], .inr [(0, 0)]] = some (0, [(1, 1)]) := by
  decide +kernel

/-- Erasing a point, inserting it again and erasing it again also counts the first copy twice. -/
theorem c19_again_false : show2 [(0, 0), (1, 1)] [.inr [(0, 0)], .inl [(0, 0)], .inr [(0, 0)]] = some (0, [(1, 1)]) := by
  decide +kernel

/-- After such an erasure an insertion can write behind its container: the counter of the leaf is too small. -/
theorem c19_overflow_false :
    show2 [(0, 0), (100, 100)] [.inl ((List.range 14).map fun i => (1, (i : ℚ))), .inr [(0, 0)], .inr [(0, 0)]] =
      some (14, (List.range 14).map (fun i => (1, (i : ℚ))) ++ [(100, 100)]) ∧
    show2 [(0, 0), (100, 100)] [.inl ((List.range 14).map fun i => (1, (i : ℚ))), .inr [(0, 0)], .inr [(0, 0)],
      .inl [(2, 0), (2, 1), (2, 2)]] = none := by
  decide +kernel

/-- Positions in space. -/
def pos3 (a : ℚ × ℚ × ℚ) : Point ℚ 3 := fun i => if i = 0 then a.1 else if i = 1 then a.2.1 else a.2.2

/-- **C19 fails for distinct points in space.** Two points that agree in the first two dimensions: one of them cannot be
erased. -/
theorem c19_ties_false :
    ((build pos3 16 (stablePart pos3) (nthBySort pos3) 2 0 [(0, 0, 0), (0, 0, 1)]).toOption.map fun t =>
      (erase pos3 (stablePart pos3) t [(0, 0, 0)]).1.live) = some [(0, 0, 0), (0, 0, 1)] := by
  decide +kernel

/-- Nearest neighbours of a small tree. -/
example : ((build ppos 16 (stablePart ppos) (nthBySort ppos) 4 0 [(0, 0), (5, 5), (1, 1), (9, 9)]).bind fun t =>
    kNN ppos (fun p q => |p 0 - q 0| + |p 1 - q 1|) popMax t (pt 2 2) 2).toOption = some [(1, 1), (0, 0)] := by
  decide +kernel

end Examples

end Verif.DynKd
