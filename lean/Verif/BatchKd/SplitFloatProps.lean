import Verif.BatchKd.SplitFloatLemmas
import Verif.BatchKd.KnnFloatProps

set_option linter.unusedSectionVars false
set_option linter.unusedVariables false

/-!
Property C101: building a batch kd-tree over points with pairwise different coordinates, and looking for a point
in it, in rounded arithmetic.
-/

namespace Verif.BatchKd

open Verif.Float

variable {α : Type} {d p : ℕ} {pos : α → Point ℝ d} {d0 : Fin d}

/-- What a caller relies on after a build over `pts`: the build returned `t`, and `contains` and `find` see
exactly the points of the build. -/
def Sees (pos : α → Point ℝ d) (pts : List α) (r : Except Err (Tree α ℝ d)) : Prop :=
  ∃ t, r = .ok t ∧ (content t).Perm pts ∧ ∀ q, ∃ f, find pos t q = .ok f ∧ contains pos t q = .ok f.isSome ∧
    (f.isSome = true ↔ ∃ x ∈ pts, pos x = q)

theorem sees_of {c : Cfg α ℝ d} (hc : SplitOK c) (P : List α → Prop)
    (hP : ∀ L L' : List α, L'.Subperm L → P L → P L')
    (hst : ∀ dim L, P L → c.leafSize < L.length →
      (∀ x ∈ (c.split dim L).1.take (c.split dim L).2.2, pos x dim < (c.split dim L).2.1) ∧
      (∀ x ∈ (c.split dim L).1.drop (c.split dim L).2.2, (c.split dim L).2.1 ≤ pos x dim))
    (hm : ∀ dim L, P L → c.leafSize < L.length →
      0 < (c.split dim L).2.2 ∧ (c.split dim L).2.2 < L.length)
    (blank : α) (log2size : ℕ) {pts : List α} (hlen : pts.length ≤ 2 ^ log2size) (hpts : P pts) :
    Sees pos pts (buildPoints pos c d0 (emptyTree blank log2size) pts) := by
  obtain ⟨t, h⟩ := buildPoints_ok (pos := pos) (d0 := d0) (t := emptyTree blank log2size) hc P hP hm
    (by simpa [emptyTree] using hlen) hpts
  obtain ⟨-, hperm, -⟩ := buildPoints_inv hc (by simp [emptyTree]) (by simp [emptyTree])
    (by
      show (List.replicate _ true).take _ = _
      exact take_replicate_true hlen) hlen h
  refine ⟨t, h, hperm, fun q => ?_⟩
  obtain ⟨r, h1, h2, h3, -⟩ := contains_after_build hc P hP hst blank log2size hlen hpts h q
  exact ⟨r, h1, h2, h3⟩

/-- **C101, object median.** Points with floating-point coordinates, different in every dimension, no two of
them neighbours among the floating-point numbers in a dimension: the build returns, whichever slices are split
in parallel, and exactly the points of the build are seen. -/
theorem c101_object_partial (hp : 1 ≤ p) {nth : Fin d → ℕ → List α → List α} {srt : Fin d → List α → List α}
    {leafSize : ℕ} {par : ℕ → Bool} (hn : NthItems nth pos) (hs : SortItems srt pos) (hl : 1 ≤ leafSize)
    (blank : α) (log2size : ℕ) {pts : List α} (hlen : pts.length ≤ 2 ^ log2size) (hpts : Spaced p pos pts) :
    Sees pos pts
      (buildPoints pos (objectCfgFl (rne p) leafSize par nth srt pos) d0 (emptyTree blank log2size) pts) := by
  refine sees_of (objectCfgFl_ok _ hn hs hl) (Spaced p pos) Spaced.sub (objectCfgFl_strict hp hn hs hl)
    (fun dim L _ hL => ?_) blank log2size hlen hpts
  rw [objectCfgFl_split_snd]
  have : leafSize < L.length := hL
  omega

/-- **C101, object median, serial build.** Without parallel splits a build does no arithmetic: different
coordinates are enough. -/
theorem c101_serial_partial {fl : ℝ → ℝ} {nth : Fin d → ℕ → List α → List α} {srt : Fin d → List α → List α}
    {leafSize : ℕ} (hn : NthItems nth pos) (hs : SortItems srt pos) (hl : 1 ≤ leafSize)
    (blank : α) (log2size : ℕ) {pts : List α} (hlen : pts.length ≤ 2 ^ log2size) (hpts : DistinctCoords pos pts) :
    Sees pos pts
      (buildPoints pos (objectCfgFl fl leafSize (fun _ => false) nth srt pos) d0 (emptyTree blank log2size) pts) := by
  have he : objectCfgFl fl leafSize (fun _ => false) nth srt pos = objectCfg leafSize (fun _ => false) nth srt pos := by
    unfold objectCfgFl objectCfg
    simp
  rw [he]
  have hg := objectCfg_good (par := fun _ => false) hn hs hl
  exact sees_of hg.ok (DistinctCoords pos) DistinctCoords.sub hg.strict hg.sides blank log2size hlen hpts

/-- **C101, spatial median.** -/
theorem c101_spatial_partial (hp : 1 ≤ p) {leafSize : ℕ} {prt : Fin d → ℝ → List α → List α}
    (hprt : PartItems prt pos) (hl : 1 ≤ leafSize) (blank : α) (log2size : ℕ) {pts : List α}
    (hlen : pts.length ≤ 2 ^ log2size) (hpts : Spaced p pos pts) :
    Sees pos pts
      (buildPoints pos (spatialCfgFl (rne p) leafSize prt pos) d0 (emptyTree blank log2size) pts) := by
  refine sees_of (spatialCfgFl_ok _ hprt) (Spaced p pos) Spaced.sub (fun dim L _ _ => spatialCfgFl_strict _ hprt dim L)
    (fun dim L hS hL => ?_) blank log2size hlen hpts
  have h1 : leafSize < L.length := hL
  exact ⟨spatialCfgFl_pos hp dim L hS (by omega), spatialCfgFl_lt hp dim L (by
    rintro rfl
    simp at h1) hS.repr⟩

theorem spatialCfgFl_pos_three (hp1 : 1 ≤ p) {leafSize : ℕ} {prt : Fin d → ℝ → List α → List α} (dim : Fin d)
    (L : List α) (hP : DistinctCoords pos L) (hr : ReprAll (rne p) pos L) (hL : 3 ≤ L.length) :
    0 < ((spatialCfgFl (rne p) leafSize prt pos).split dim L).2.2 := by
  show 0 < L.countP (fun x => decide (pos x dim < midFl (rne p) (minCoord pos dim L) (maxCoord pos dim L)))
  rw [List.countP_pos_iff]
  have hne : L ≠ [] := by
    rintro rfl
    simp at hL
  obtain ⟨h1, x, hx, hmin⟩ := minCoord_spec (pos := pos) dim L hne
  obtain ⟨h2, y, hy, hmax⟩ := maxCoord_spec (pos := pos) dim L hne
  refine ⟨x, hx, ?_⟩
  rw [decide_eq_true_iff, ← hmin]
  -- a third coordinate
  obtain ⟨z, hz, z1, z2⟩ : ∃ z ∈ L, pos z dim ≠ minCoord pos dim L ∧ pos z dim ≠ maxCoord pos dim L := by
    by_contra hno
    push Not at hno
    have hsub : (L.map fun x => pos x dim) ⊆ [minCoord pos dim L, maxCoord pos dim L] := by
      intro v hv
      obtain ⟨w, hw, rfl⟩ := List.mem_map.1 hv
      by_cases he : pos w dim = minCoord pos dim L
      · simp [he]
      · simp [hno w hw he]
    have := ((hP dim).subperm hsub).length_le
    simp at this
    omega
  exact midFl_gt hp1 (hr z hz dim) (lt_of_le_of_ne (h1 z hz) (Ne.symm z1)) (lt_of_le_of_ne (h2 z hz) z2)

/-- **C101, spatial median with leaves of two or more points.** Different floating-point coordinates are enough:
a slice that is split has at least three of them, so its extent has a floating-point number inside. -/
theorem c101_spatial_coarse_partial (hp : 1 ≤ p) {leafSize : ℕ} {prt : Fin d → ℝ → List α → List α}
    (hprt : PartItems prt pos) (hl : 2 ≤ leafSize) (blank : α) (log2size : ℕ) {pts : List α}
    (hlen : pts.length ≤ 2 ^ log2size) (hpts : DistinctCoords pos pts) (hrep : ReprAll (rne p) pos pts) :
    Sees pos pts
      (buildPoints pos (spatialCfgFl (rne p) leafSize prt pos) d0 (emptyTree blank log2size) pts) := by
  refine sees_of (spatialCfgFl_ok _ hprt) (fun L => DistinctCoords pos L ∧ ReprAll (rne p) pos L)
    (fun L L' h hL => ⟨hL.1.sub L L' h, fun x hx => hL.2 x (h.subset hx)⟩)
    (fun dim L _ _ => spatialCfgFl_strict _ hprt dim L)
    (fun dim L hS hL => ?_) blank log2size hlen ⟨hpts, hrep⟩
  have h1 : leafSize < L.length := hL
  refine ⟨spatialCfgFl_pos_three hp dim L hS.1 hS.2 (by omega), spatialCfgFl_lt hp dim L (by
    rintro rfl
    simp at h1) hS.2⟩

/-! ### Neighbouring coordinates -/

theorem mem_slice_of_live {items : List α} {present : List Bool} {s e : ℕ} {x : α}
    (h : x ∈ live items present s e) : x ∈ (items.drop s).take (e - s) := by
  have h1 := (mem_live_iff x s e).1 h
  unfold slots at h1
  rw [List.zip_eq_zipWith, List.drop_zipWith, List.take_zipWith, ← List.zip_eq_zipWith] at h1
  exact (List.of_mem_zip h1).1

/-- A point that the root sends to the right while it is stored on the left is not seen. -/
theorem contains_missed {c : Cfg α ℝ d} (hc : SplitOK c) (blank : α) (log2size : ℕ) {pts : List α}
    (hlen : pts.length ≤ 2 ^ log2size) (hbig : c.leafSize < pts.length) {t : Tree α ℝ d}
    (h : buildPoints pos c d0 (emptyTree blank log2size) pts = .ok t) {q : Point ℝ d}
    (hv : (c.split d0 pts).2.1 ≤ q d0)
    (hq : ∀ x ∈ (c.split d0 pts).1.drop (c.split d0 pts).2.2, pos x ≠ q) : contains pos t q = .ok false := by
  obtain ⟨hI, hperm, hcur, -⟩ := buildPoints_inv hc (by simp [emptyTree]) (by simp [emptyTree])
    (by
      show (List.replicate _ true).take _ = _
      exact take_replicate_true hlen) hlen h
  have h0 : t.curSize ≠ 0 := by omega
  obtain ⟨g, -, -⟩ := hI.good h0
  obtain ⟨r, -, hr⟩ := findAt_contains g q none none
  unfold contains
  rw [if_neg h0, hr]
  cases hs : r.isSome with
  | false => rfl
  | true =>
    exfalso
    rw [hs] at hr
    unfold buildPoints at h
    rw [if_neg (by simp only [emptyTree, List.length_replicate]; omega)] at h
    unfold buildAll at h
    simp only [List.take_left] at h
    rw [buildRec, if_neg (by omega)] at h
    simp only at h
    split at h
    · cases h
    · cases ha : buildRec c pos (stalePos pos (pts ++ (emptyTree blank log2size : Tree α ℝ d).items.drop pts.length))
        pts.length (c.kids 0 (c.split d0 pts).2.2).1 0 (nextDim d0)
          ((c.split d0 pts).1.take (c.split d0 pts).2.2) with
      | error e =>
        rw [ha] at h
        cases h
      | ok a =>
        cases hb : buildRec c pos (stalePos pos (pts ++ (emptyTree blank log2size : Tree α ℝ d).items.drop pts.length))
          pts.length (c.kids 0 (c.split d0 pts).2.2).2 (0 + (c.split d0 pts).2.2) (nextDim d0)
            ((c.split d0 pts).1.drop (c.split d0 pts).2.2) with
        | error e =>
          rw [ha] at h
          simp only [Except.bind] at h
          rw [hb] at h
          cases h
        | ok b =>
          rw [ha] at h
          simp only [Except.bind] at h
          rw [hb] at h
          simp only [Except.map, Except.ok.injEq] at h
          obtain ⟨a1, a2, a3⟩ := buildRec_shape hc (t := a.1) (out := a.2) ha
          obtain ⟨b1, b2, b3⟩ := buildRec_shape hc (t := b.1) (out := b.2) hb
          subst h
          simp only at g hr
          simp only [containsAt, g.2.1.not_nil, Bool.false_and, Bool.false_eq_true, if_false, not_lt.mpr hv] at hr
          obtain ⟨x, hx, e⟩ := containsAt_sound g.2.2.1 hr
          refine hq x (b1.mem_iff.1 ?_) e
          have hm : (c.split d0 pts).2.2 ≤ pts.length := hc.le d0 pts hbig
          have hl : (c.split d0 pts).1.length = pts.length := (hc.perm d0 pts hbig).length_eq
          have hal : a.2.length = (c.split d0 pts).2.2 := by
            rw [a1.length_eq, List.length_take]
            omega
          have hbl : b.2.length = ((c.split d0 pts).1.drop (c.split d0 pts).2.2).length := b1.length_eq
          have hx' := mem_slice_of_live hx
          rw [b2, b3, Nat.zero_add, Nat.add_sub_cancel_left, ← hbl, ← hal, List.append_assoc, List.drop_left,
            List.take_left] at hx'
          exact hx'

/-- The middle of these neighbours is computed as the smaller one. -/
theorem mid_neighbours : midFl (rne 53) (2 ^ 53) (2 ^ 53 + 2) = 2 ^ 53 := by
  rw [midFl_eq (by norm_num), rne_eval 1 (by norm_num) (by norm_num)]
  rw [rhe_tie_even (2 ^ 52) (by norm_num) (by norm_num)]
  norm_num

/-- `2 m` points on the diagonal with coordinates `2^53 - 2 (m - 1), ..., 2^53 - 2, 2^53, 2^53 + 2, ...`. -/
noncomputable def diag (m : ℕ) : List (ℝ × ℝ) :=
  (List.range (2 * m)).map fun i : ℕ => (2 ^ 53 + 2 * (i : ℝ) - 2 * ((m : ℝ) - 1), 2 ^ 53 + 2 * (i : ℝ) - 2 * ((m : ℝ) - 1))

theorem diag_coord (m : ℕ) (dim : Fin 2) :
    ((diag m).map fun x => rpos x dim) = (List.range (2 * m)).map fun i : ℕ => (2 ^ 53 + 2 * (i : ℝ) - 2 * ((m : ℝ) - 1)) := by
  unfold diag
  rw [List.map_map]
  apply List.map_congr_left
  intro i _
  fin_cases dim <;> simp [rpos]

theorem diag_distinct (m : ℕ) : DistinctCoords rpos (diag m) := by
  intro dim
  rw [diag_coord]
  refine List.Nodup.map (fun i j h => ?_) List.nodup_range
  have : (i : ℝ) = j := by linarith
  exact_mod_cast this

theorem diag_repr {m : ℕ} (hm : m ≤ 2 ^ 51) : ReprAll (rne 53) rpos (diag m) := by
  intro x hx dim
  have hx' : rpos x dim ∈ (diag m).map fun x => rpos x dim := List.mem_map.2 ⟨x, hx, rfl⟩
  rw [diag_coord] at hx'
  obtain ⟨i, hi, e⟩ := List.mem_map.1 hx'
  rw [← e]
  have hi := List.mem_range.1 hi
  apply rne_repr (by norm_num)
  refine ⟨2 ^ 52 + i - (m - 1), 1, ?_, ?_⟩
  · rw [abs_lt]
    constructor <;> omega
  · push_cast
    ring

theorem diag_sorted {srt : Fin 2 → List (ℝ × ℝ) → List (ℝ × ℝ)} (hs : SortItems srt rpos) (m : ℕ) :
    ∀ (i : ℕ) (hi : i < 2 * m),
      (((srt 0 (diag m))[i]?).map fun x => rpos x 0) = some (2 ^ 53 + 2 * (i : ℝ) - 2 * ((m : ℝ) - 1)) := by
  -- the sorted coordinates are the coordinates in their order
  obtain ⟨hp, hsort⟩ := hs 0 (diag m)
  have hco : ((srt 0 (diag m)).map fun x => rpos x 0) = (diag m).map fun x => rpos x 0 := by
    refine List.Perm.eq_of_pairwise (le := fun a b : ℝ => a ≤ b) (fun a b _ _ h1 h2 => le_antisymm h1 h2) ?_ ?_ (hp.map _)
    · rw [List.pairwise_map]
      exact hsort
    · rw [diag_coord, List.pairwise_map]
      refine List.pairwise_lt_range.imp fun {a b} h => ?_
      have : (a : ℝ) < b := by exact_mod_cast h
      linarith
  intro i hi
  rw [← List.getElem?_map, hco, diag_coord, List.getElem?_map, List.getElem?_range hi]
  rfl

/-- The parallel split of these points sends the two in the middle to the right, and keeps the smaller on the left. -/
theorem diag_split {nth : Fin 2 → ℕ → List (ℝ × ℝ) → List (ℝ × ℝ)} {srt : Fin 2 → List (ℝ × ℝ) → List (ℝ × ℝ)}
    {leafSize m : ℕ} {par : ℕ → Bool} (hs : SortItems srt rpos) (hm : 1 ≤ m) (hpar : par (2 * m) = true) :
    (objectCfgFl (rne 53) leafSize par nth srt rpos).split 0 (diag m) = (srt 0 (diag m), 2 ^ 53, m) := by
  have hlen : (diag m).length = 2 * m := by simp [diag]
  have hget := diag_sorted hs m
  unfold objectCfgFl parallelMedianFl
  simp only [hlen, hpar, if_true]
  have e1 : 2 * m / 2 = m := by omega
  rw [e1, hget (m - 1) (by omega), hget m (by omega)]
  simp only [Option.getD_some]
  have e2 : ((m - 1 : ℕ) : ℝ) = (m : ℝ) - 1 := by
    rw [Nat.cast_sub (by omega), Nat.cast_one]
  have e3 : (2 : ℝ) ^ 53 + 2 * ((m - 1 : ℕ) : ℝ) - 2 * ((m : ℝ) - 1) = 2 ^ 53 := by
    rw [e2]
    ring
  have e4 : (2 : ℝ) ^ 53 + 2 * (m : ℝ) - 2 * ((m : ℝ) - 1) = 2 ^ 53 + 2 := by ring
  rw [e3, e4, mid_neighbours]

theorem diag_drop {srt : Fin 2 → List (ℝ × ℝ) → List (ℝ × ℝ)} {m : ℕ} (hs : SortItems srt rpos) :
    ∀ x ∈ (srt 0 (diag m)).drop m, rpos x ≠ rpos ((2 : ℝ) ^ 53, (2 : ℝ) ^ 53) := by
  have hlen : (diag m).length = 2 * m := by simp [diag]
  have hget := diag_sorted hs m
  have hp := (hs 0 (diag m)).1
  intro x hx e
  rw [List.mem_drop_iff_getElem] at hx
  obtain ⟨i, hi, rfl⟩ := hx
  have hi2 : m + i < 2 * m := by
    have := hp.length_eq
    omega
  have hg := hget (m + i) hi2
  rw [List.getElem?_eq_getElem (by
    have := hp.length_eq
    omega)] at hg
  simp only [Option.map_some, Option.some.injEq] at hg
  have h0 := congrFun e 0
  rw [h0] at hg
  simp only [rpos, if_true] at hg
  push_cast at hg
  have : (0 : ℝ) ≤ i := Nat.cast_nonneg i
  linarith

theorem diag_mem {m : ℕ} (hm : 1 ≤ m) : ((2 : ℝ) ^ 53, (2 : ℝ) ^ 53) ∈ diag m := by
  refine List.mem_map.2 ⟨m - 1, List.mem_range.2 (by omega), ?_⟩
  rw [Nat.cast_sub (by omega), Nat.cast_one]
  ext <;> simp

/-- **C101 fails for a parallel build (object median).** Double precision, whatever the number `2 m` of points
from which on a slice is split in parallel, whatever the leaf size below it, whatever the library's sorting and
selection: there are `2 m` points with pairwise different coordinates such that the build returns, one of the
points is stored, and `contains` denies it. -/
theorem c101_object_false {nth : Fin 2 → ℕ → List (ℝ × ℝ) → List (ℝ × ℝ)} {srt : Fin 2 → List (ℝ × ℝ) → List (ℝ × ℝ)}
    {leafSize m : ℕ} {par : ℕ → Bool} (hn : NthItems nth rpos) (hs : SortItems srt rpos) (hl : 1 ≤ leafSize)
    (hm : leafSize < 2 * m) (hm2 : m ≤ 2 ^ 51) (hpar : par (2 * m) = true) (blank : ℝ × ℝ) {log2size : ℕ}
    (hcap : 2 * m ≤ 2 ^ log2size) :
    ∃ pts : List (ℝ × ℝ), pts.length = 2 * m ∧ DistinctCoords rpos pts ∧ ReprAll (rne 53) rpos pts ∧
      ∃ t, buildPoints rpos (objectCfgFl (rne 53) leafSize par nth srt rpos) 0 (emptyTree blank log2size) pts = .ok t ∧
        ∃ x ∈ pts, x ∈ content t ∧ contains rpos t (rpos x) = .ok false := by
  have hlen : (diag m).length = 2 * m := by simp [diag]
  refine ⟨diag m, hlen, diag_distinct m, diag_repr hm2, ?_⟩
  have hok := objectCfgFl_ok (par := par) (rne 53) hn hs hl
  obtain ⟨t, ht⟩ := buildPoints_ok (pos := rpos) (d0 := (0 : Fin 2)) (t := emptyTree blank log2size) hok (fun _ => True)
    (fun _ _ _ _ => trivial) (fun dim L _ hL => by
      rw [objectCfgFl_split_snd]
      have : leafSize < L.length := hL
      omega) (pts := diag m) (by simpa [emptyTree, hlen] using hcap) trivial
  obtain ⟨-, hperm, -⟩ := buildPoints_inv hok (by simp [emptyTree]) (by simp [emptyTree])
    (by
      show (List.replicate _ true).take _ = _
      exact take_replicate_true (by rw [hlen]; exact hcap)) (by rw [hlen]; exact hcap) ht
  refine ⟨t, ht, ((2 : ℝ) ^ 53, (2 : ℝ) ^ 53), diag_mem (by omega), hperm.mem_iff.2 (diag_mem (by omega)), ?_⟩
  have hsplit := diag_split (nth := nth) (leafSize := leafSize) (par := par) hs (show 1 ≤ m by omega) hpar
  refine contains_missed hok blank log2size (by rw [hlen]; exact hcap) (by rw [hlen]; exact hm) ht ?_ ?_
  · rw [hsplit]
    simp [rpos]
  · rw [hsplit]
    exact diag_drop hs

/-- **C101 fails for the spatial median with leaves of one point.** Two points whose coordinates are neighbours:
the left side of the split is empty, which the code does not handle (see `buildRec`). -/
theorem c101_spatial_false {prt : Fin 2 → ℝ → List (ℝ × ℝ) → List (ℝ × ℝ)} (blank : ℝ × ℝ) {log2size : ℕ}
    (hcap : 2 ≤ 2 ^ log2size) :
    DistinctCoords rpos [((2 : ℝ) ^ 53, (2 : ℝ) ^ 53), (2 ^ 53 + 2, 2 ^ 53 + 2)] ∧
    ReprAll (rne 53) rpos [((2 : ℝ) ^ 53, (2 : ℝ) ^ 53), (2 ^ 53 + 2, 2 ^ 53 + 2)] ∧
    buildPoints rpos (spatialCfgFl (rne 53) 1 prt rpos) 0 (emptyTree blank log2size)
      [((2 : ℝ) ^ 53, (2 : ℝ) ^ 53), (2 ^ 53 + 2, 2 ^ 53 + 2)] = .error .ub := by
  have hd : diag 1 = [((2 : ℝ) ^ 53, (2 : ℝ) ^ 53), (2 ^ 53 + 2, 2 ^ 53 + 2)] := by
    simp [diag, List.range_succ]
  refine ⟨hd ▸ diag_distinct 1, hd ▸ diag_repr (by norm_num), ?_⟩
  unfold buildPoints
  rw [if_neg (by simp only [emptyTree, List.length_replicate, List.length_cons, List.length_nil]; omega)]
  unfold buildAll
  simp only [List.take_left]
  rw [buildRec, if_neg (by simp [spatialCfgFl])]
  simp only
  rw [if_pos]
  · rfl
  · show List.countP (fun x : ℝ × ℝ => decide (rpos x 0 < midFl (rne 53) _ _)) _ = 0
    have h1 : minCoord rpos 0 [((2 : ℝ) ^ 53, (2 : ℝ) ^ 53), (2 ^ 53 + 2, 2 ^ 53 + 2)] = 2 ^ 53 := by
      simp [minCoord, rpos]
    have h2 : maxCoord rpos 0 [((2 : ℝ) ^ 53, (2 : ℝ) ^ 53), (2 ^ 53 + 2, 2 ^ 53 + 2)] = 2 ^ 53 + 2 := by
      simp [maxCoord, rpos]
    rw [h1, h2, mid_neighbours]
    simp [rpos]

/-! ### Concrete cases -/

/-- Three points that are spaced in double precision: both builds see exactly them. -/
example : Spaced 53 rpos [((0 : ℝ), (3 : ℝ)), (2, 1), (5, 7)] ∧
    Sees rpos [((0 : ℝ), (3 : ℝ)), (2, 1), (5, 7)]
      (buildPoints rpos (objectCfgFl (rne 53) 1 (fun _ => true) (nthBySort rpos)
        (fun dim L => L.insertionSort fun x y => rpos x dim ≤ rpos y dim) rpos) 0 (emptyTree (0, 0) 2)
        [((0 : ℝ), (3 : ℝ)), (2, 1), (5, 7)]) ∧
    Sees rpos [((0 : ℝ), (3 : ℝ)), (2, 1), (5, 7)]
      (buildPoints rpos (spatialCfgFl (rne 53) 1 (stablePart rpos) rpos) 0 (emptyTree (0, 0) 2)
        [((0 : ℝ), (3 : ℝ)), (2, 1), (5, 7)]) := by
  have hi : ∀ n : ℕ, n < 2 ^ 53 → rne 53 (n : ℝ) = n := fun n hn => rne_repr (by norm_num) (repr_nat hn)
  have hS : Spaced 53 rpos [((0 : ℝ), (3 : ℝ)), (2, 1), (5, 7)] := by
    have h0 := hi 0 (by norm_num)
    have h1 := hi 1 (by norm_num)
    have h2 := hi 2 (by norm_num)
    have h3 := hi 3 (by norm_num)
    have h4 := hi 4 (by norm_num)
    have h5 := hi 5 (by norm_num)
    have h7 := hi 7 (by norm_num)
    push_cast at h0 h1 h2 h3 h4 h5 h7
    refine ⟨?_, ?_, ?_⟩
    · intro dim
      fin_cases dim <;> simp [rpos]
    · intro x hx i
      simp only [List.mem_cons, List.not_mem_nil, or_false] at hx
      rcases hx with rfl | rfl | rfl <;> fin_cases i <;> simp [rpos, *]
    · intro x hx y hy i hlt
      simp only [List.mem_cons, List.not_mem_nil, or_false] at hx hy
      rcases hx with rfl | rfl | rfl <;> rcases hy with rfl | rfl | rfl <;> fin_cases i <;>
        simp only [rpos, Fin.zero_eta, Fin.mk_one, if_true, one_ne_zero, if_false] at hlt ⊢ <;>
        first
          | (exfalso; revert hlt; norm_num; done)
          | (refine ⟨1, h1, ?_, ?_⟩ <;> norm_num <;> done)
          | (refine ⟨2, h2, ?_, ?_⟩ <;> norm_num <;> done)
          | (refine ⟨3, h3, ?_, ?_⟩ <;> norm_num <;> done)
          | (refine ⟨4, h4, ?_, ?_⟩ <;> norm_num <;> done)
          | (refine ⟨5, h5, ?_, ?_⟩ <;> norm_num <;> done)
  exact ⟨hS, c101_object_partial (by norm_num) (nthBySort_ok _) (sortBy_ok _) le_rfl _ _ (by norm_num) hS,
    c101_spatial_partial (by norm_num) (stablePart_ok _) le_rfl _ _ (by norm_num) hS⟩

/-- The hypotheses of the counterexample can be met: parallel from 1000 points on, leaves of 16 points. -/
example : ∃ pts : List (ℝ × ℝ), pts.length = 1000 ∧ DistinctCoords rpos pts ∧ ReprAll (rne 53) rpos pts ∧
    ∃ t, buildPoints rpos (objectCfgFl (rne 53) 16 (fun n => decide (1000 ≤ n)) (nthBySort rpos)
      (fun dim L => L.insertionSort fun x y => rpos x dim ≤ rpos y dim) rpos) 0 (emptyTree (0, 0) 10) pts = .ok t ∧
      ∃ x ∈ pts, x ∈ content t ∧ contains rpos t (rpos x) = .ok false :=
  c101_object_false (m := 500) (nthBySort_ok _) (sortBy_ok _) (by norm_num) (by norm_num) (by norm_num) (by simp) _
    (by norm_num)

end Verif.BatchKd
