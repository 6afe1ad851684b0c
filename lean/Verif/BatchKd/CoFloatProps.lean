import Verif.BatchKd.CoFloatModel
import Verif.BatchKd.CoProps
import Verif.BatchKd.SplitFloatProps

set_option linter.unusedSectionVars false
set_option linter.unusedVariables false

/-!
Property C101 for the cache-oblivious kd-tree: building over points with pairwise different coordinates, and
looking for a point, in rounded arithmetic.
-/

namespace Verif.BatchKd

open Verif.Float

variable {α : Type} {d p : ℕ} {pos : α → Point ℝ d} {d0 : Fin d}

theorem objectCfgFl_half {fl : ℝ → ℝ} {ls : ℕ} {par : ℕ → Bool} {nth : Fin d → ℕ → List α → List α}
    {srt : Fin d → List α → List α} (hn : NthItems nth pos) (hs : SortItems srt pos) :
    Half (objectCfgFl fl ls par nth srt pos).split := by
  intro dim L h
  refine ⟨?_, objectCfgFl_split_snd fl dim L⟩
  unfold objectCfgFl
  simp only
  split
  · exact (hs dim L).1
  · exact (hn dim (L.length / 2) L (by omega)).1

/-- The build in rounded arithmetic, given that its splits are strict on the points. -/
theorem coBuildFl_sees {fl : ℝ → ℝ} {parallel : Bool} {ls thr : ℕ} {nth : Fin d → ℕ → List α → List α}
    {srt : Fin d → List α → List α} (hn : NthItems nth pos) (hs : SortItems srt pos) {ord : ℕ → ℕ → Bool → List ℕ}
    (hls : 1 ≤ ls) (hthr : ls < thr)
    (hord : ∀ base levels top, (ord base levels top).Perm (List.range (2 ^ (levels - bottomNumLevels levels))))
    (P : List α → Prop) (hP : ∀ L L' : List α, L'.Subperm L → P L → P L')
    (hst : ∀ dim L, P L → ls < L.length →
      let s := (objectCfgFl fl ls (fun n => parallel && decide (thr ≤ n)) nth srt pos).split dim L
      (∀ x ∈ s.1.take s.2.2, pos x dim < s.2.1) ∧ (∀ x ∈ s.1.drop s.2.2, s.2.1 ≤ pos x dim))
    (mem0 : Mem ℝ d) (blank : α) (log2size : ℕ) {pts : List α} (hne : pts ≠ [])
    (hlen : pts.length ≤ 2 ^ log2size) (hbig : pts.length ≤ 2 ^ 47) (hpts : P pts) :
    Sees pos pts (coBuildFl fl parallel ls thr nth srt pos ord d0 mem0 (emptyTree blank log2size) pts) := by
  obtain ⟨t, h, hperm, hcont, -, hcur, hbs, -, g, hs0, he0, -, hS⟩ := coBuildWith_state (parallel := parallel) (thr := thr)
    (nth := nth) (med := parallelMedianFl fl srt pos) (pos := pos) (d0 := d0)
    (c := objectCfgFl fl ls (fun n => parallel && decide (thr ≤ n)) nth srt pos) rfl (objectCfgFl_half hn hs)
    (fun dim M hM => by simp only [objectCfgFl, hM]; rfl) (fun dim M hM => by simp only [objectCfgFl, hM]; rfl)
    (objectCfgFl_ok fl hn hs hls) hls hthr hord mem0 (emptyTree blank log2size) pts hne
    (by simpa [emptyTree] using hlen) hbig (by simp [emptyTree])
  have hS := hS P hP hst hpts
  refine ⟨t, h, hcont ▸ hperm, fun q => ?_⟩
  have h0 : t.curSize ≠ 0 := by
    have := List.length_pos_iff.mpr hne
    omega
  unfold find contains
  rw [if_neg h0, if_neg h0]
  obtain ⟨r, h1, h2⟩ := findAt_contains g q none none
  obtain ⟨r', h3, h4⟩ := containsAt_eq g hS q
  rw [h2] at h3
  cases h3
  refine ⟨r, h1, h2, ?_⟩
  have hl : live t.items t.present t.root.start t.root.stop = t.items := by
    rw [hs0, he0, ← hbs, ← content_eq, hcont]
  rw [h4, hl]
  constructor
  · rintro ⟨x, hx, e⟩
    exact ⟨x, hperm.mem_iff.1 hx, e⟩
  · rintro ⟨x, hx, e⟩
    exact ⟨x, hperm.mem_iff.2 hx, e⟩

/-- **C101, cache-oblivious build.** Points with floating-point coordinates, different in every dimension, no two
of them neighbours among the floating-point numbers in a dimension: the build returns, whichever slices are split
in parallel and in whatever order the parallel loops run, and exactly the points of the build are seen. -/
theorem c101_co_partial (hp : 1 ≤ p) {parallel : Bool} {ls thr : ℕ} {nth : Fin d → ℕ → List α → List α}
    {srt : Fin d → List α → List α} (hn : NthItems nth pos) (hs : SortItems srt pos) {ord : ℕ → ℕ → Bool → List ℕ}
    (hls : 1 ≤ ls) (hthr : ls < thr)
    (hord : ∀ base levels top, (ord base levels top).Perm (List.range (2 ^ (levels - bottomNumLevels levels))))
    (mem0 : Mem ℝ d) (blank : α) (log2size : ℕ) {pts : List α} (hne : pts ≠ [])
    (hlen : pts.length ≤ 2 ^ log2size) (hbig : pts.length ≤ 2 ^ 47) (hpts : Spaced p pos pts) :
    Sees pos pts (coBuildFl (rne p) parallel ls thr nth srt pos ord d0 mem0 (emptyTree blank log2size) pts) :=
  coBuildFl_sees hn hs hls hthr hord (Spaced p pos) Spaced.sub (objectCfgFl_strict hp hn hs hls) mem0 blank log2size hne
    hlen hbig hpts

/-- **C101, serial cache-oblivious build.** Without parallel splits the build does no arithmetic: different
coordinates are enough. -/
theorem c101_co_serial_partial {fl : ℝ → ℝ} {ls thr : ℕ} {nth : Fin d → ℕ → List α → List α}
    {srt : Fin d → List α → List α} (hn : NthItems nth pos) (hs : SortItems srt pos) {ord : ℕ → ℕ → Bool → List ℕ}
    (hls : 1 ≤ ls) (hthr : ls < thr)
    (hord : ∀ base levels top, (ord base levels top).Perm (List.range (2 ^ (levels - bottomNumLevels levels))))
    (mem0 : Mem ℝ d) (blank : α) (log2size : ℕ) {pts : List α} (hne : pts ≠ [])
    (hlen : pts.length ≤ 2 ^ log2size) (hbig : pts.length ≤ 2 ^ 47) (hpts : DistinctCoords pos pts) :
    Sees pos pts (coBuildFl fl false ls thr nth srt pos ord d0 mem0 (emptyTree blank log2size) pts) := by
  refine coBuildFl_sees hn hs hls hthr hord (DistinctCoords pos) DistinctCoords.sub ?_ mem0 blank log2size hne
    hlen hbig hpts
  have he : objectCfgFl fl ls (fun n => false && decide (thr ≤ n)) nth srt pos = objectCfg ls (fun _ => false) nth srt pos := by
    unfold objectCfgFl objectCfg
    simp
  rw [he]
  exact (objectCfg_good (par := fun _ => false) hn hs hls).strict

/-! ### Neighbouring coordinates -/

/-- A point that the root sends to the right while it is stored on the left is not seen, wherever the nodes are
kept. -/
theorem containsAt_missed {c : Cfg α ℝ d} (hc : SplitOK c) {stale : Point ℝ d} {pts : List α}
    (hbig : c.leafSize < pts.length) {root : BT ℝ d} {items : List α} {present : List Bool}
    (h : buildRec c pos stale (pts.length + 1) 0 0 d0 pts = .ok (root, items)) {rt : BT ℝ d}
    (hst : rt.strip = root.strip) (g : Good pos items present rt) {q : Point ℝ d}
    (hv : (c.split d0 pts).2.1 ≤ q d0)
    (hq : ∀ x ∈ (c.split d0 pts).1.drop (c.split d0 pts).2.2, pos x ≠ q) : containsAt pos items present q rt = .ok false := by
  obtain ⟨r, -, hr⟩ := findAt_contains g q none none
  rw [hr]
  cases hs : r.isSome with
  | false => rfl
  | true =>
    exfalso
    rw [hs] at hr
    rw [buildRec, if_neg (by omega)] at h
    simp only at h
    split at h
    · cases h
    · cases ha : buildRec c pos stale pts.length (c.kids 0 (c.split d0 pts).2.2).1 0 (nextDim d0)
          ((c.split d0 pts).1.take (c.split d0 pts).2.2) with
      | error e =>
        rw [ha] at h
        cases h
      | ok a =>
        cases hb : buildRec c pos stale pts.length (c.kids 0 (c.split d0 pts).2.2).2 (0 + (c.split d0 pts).2.2) (nextDim d0)
            ((c.split d0 pts).1.drop (c.split d0 pts).2.2) with
        | error e =>
          rw [ha] at h
          simp only [Except.bind] at h
          rw [hb] at h
          cases h
        | ok b =>
          rw [ha] at h
          simp only [Except.bind] at h
          rw [hb] at h
          simp only [Except.map, Except.ok.injEq, Prod.mk.injEq] at h
          obtain ⟨hroot, hitems⟩ := h
          obtain ⟨a1, a2, a3⟩ := buildRec_shape hc (t := a.1) (out := a.2) ha
          obtain ⟨b1, b2, b3⟩ := buildRec_shape hc (t := b.1) (out := b.2) hb
          subst hroot
          cases rt with
          | nil => cases hst
          | leaf i s e n bx => cases hst
          | node i s e dim v bx l r' =>
            simp only [BT.strip, BT.node.injEq] at hst
            obtain ⟨-, -, -, rfl, rfl, -, -, hst⟩ := hst
            simp only [containsAt, g.2.1.not_nil, Bool.false_and, Bool.false_eq_true, if_false, not_lt.mpr hv] at hr
            obtain ⟨x, hx, e⟩ := containsAt_sound g.2.2.1 hr
            refine hq x (b1.mem_iff.1 ?_) e
            have hm : (c.split dim pts).2.2 ≤ pts.length := hc.le dim pts hbig
            have hl : (c.split dim pts).1.length = pts.length := (hc.perm dim pts hbig).length_eq
            have hal : a.2.length = (c.split dim pts).2.2 := by
              rw [a1.length_eq, List.length_take]
              omega
            have hbl : b.2.length = ((c.split dim pts).1.drop (c.split dim pts).2.2).length := b1.length_eq
            have hx' := mem_slice_of_live hx
            have e1 : r'.start = 0 + (c.split dim pts).2.2 := by rw [← BT.strip_start, hst, BT.strip_start, b2]
            have e2 : r'.stop = 0 + (c.split dim pts).2.2 + ((c.split dim pts).1.drop (c.split dim pts).2.2).length := by
              rw [← BT.strip_stop, hst, BT.strip_stop, b3]
            rw [e1, e2, Nat.zero_add, Nat.add_sub_cancel_left, ← hbl, ← hal, ← hitems, List.drop_left,
              List.take_length] at hx'
            exact hx'

/-- **C101 fails for a parallel cache-oblivious build.** Double precision, whatever the number `2 m` of points
from which on a slice is split in parallel, whatever the leaf size below it, whatever the library's sorting and
selection and the order of the parallel loops: there are `2 m` points with pairwise different coordinates such
that the build returns, one of the points is stored, and `contains` denies it. -/
theorem c101_co_false {nth : Fin 2 → ℕ → List (ℝ × ℝ) → List (ℝ × ℝ)} {srt : Fin 2 → List (ℝ × ℝ) → List (ℝ × ℝ)}
    {ls m thr : ℕ} (hn : NthItems nth rpos) (hs : SortItems srt rpos) {ord : ℕ → ℕ → Bool → List ℕ} (hls : 1 ≤ ls)
    (hthr : ls < thr) (hm : thr ≤ 2 * m) (hm2 : 2 * m ≤ 2 ^ 47)
    (hord : ∀ base levels top, (ord base levels top).Perm (List.range (2 ^ (levels - bottomNumLevels levels))))
    (mem0 : Mem ℝ 2) (blank : ℝ × ℝ) {log2size : ℕ} (hcap : 2 * m ≤ 2 ^ log2size) :
    ∃ pts : List (ℝ × ℝ), pts.length = 2 * m ∧ DistinctCoords rpos pts ∧ ReprAll (rne 53) rpos pts ∧
      ∃ t, coBuildFl (rne 53) true ls thr nth srt rpos ord 0 mem0 (emptyTree blank log2size) pts = .ok t ∧
        ∃ x ∈ pts, x ∈ content t ∧ contains rpos t (rpos x) = .ok false := by
  have hlen : (diag m).length = 2 * m := by simp [diag]
  have hm1 : 1 ≤ m := by omega
  refine ⟨diag m, hlen, diag_distinct m, diag_repr (by omega), ?_⟩
  have hok := objectCfgFl_ok (par := fun n => true && decide (thr ≤ n)) (rne 53) hn hs hls
  obtain ⟨t, h, hperm, hcont, -, hcur, -, -, g, -, -, ⟨root, hroot, hstrip⟩, -⟩ := coBuildWith_state (parallel := true)
    (thr := thr) (nth := nth) (med := parallelMedianFl (rne 53) srt rpos) (pos := rpos) (d0 := 0)
    (c := objectCfgFl (rne 53) ls (fun n => true && decide (thr ≤ n)) nth srt rpos) rfl (objectCfgFl_half hn hs)
    (fun dim M hM => by simp only [objectCfgFl, hM]; rfl) (fun dim M hM => by simp only [objectCfgFl, hM]; rfl)
    hok hls hthr hord mem0 (emptyTree blank log2size) (diag m) (List.length_pos_iff.1 (by omega))
    (by simpa [emptyTree, hlen] using hcap) (by rw [hlen]; exact hm2) (by simp [emptyTree])
  refine ⟨t, h, ((2 : ℝ) ^ 53, (2 : ℝ) ^ 53), diag_mem hm1, ?_, ?_⟩
  · rw [hcont]
    exact hperm.mem_iff.2 (diag_mem hm1)
  · unfold contains
    rw [if_neg (by omega)]
    have hsplit := diag_split (nth := nth) (leafSize := ls) (par := fun n => true && decide (thr ≤ n)) hs hm1 (by simpa using hm)
    refine containsAt_missed hok (by rw [hlen]; exact lt_of_lt_of_le hthr hm) hroot hstrip g ?_ ?_
    · rw [hsplit]
      simp [rpos]
    · rw [hsplit]
      exact diag_drop hs

/-! ### Concrete cases -/

/-- The hypotheses can be met: leaves of 16 points, parallel from 1000 points on, the loops run backwards. -/
example : ∃ pts : List (ℝ × ℝ), pts.length = 1000 ∧ DistinctCoords rpos pts ∧ ReprAll (rne 53) rpos pts ∧
    ∃ t, coBuildFl (rne 53) true 16 1000 (nthBySort rpos)
      (fun dim L => L.insertionSort fun x y => rpos x dim ≤ rpos y dim) rpos lastFirst 0 (fun _ => none)
      (emptyTree (0, 0) 10) pts = .ok t ∧
      ∃ x ∈ pts, x ∈ content t ∧ contains rpos t (rpos x) = .ok false :=
  c101_co_false (m := 500) (nthBySort_ok _) (sortBy_ok _) (by norm_num) (by norm_num) (by norm_num) (by norm_num)
    (fun _ _ _ => List.reverse_perm _) _ _ (by norm_num)

/-- The same points in a serial build are seen. -/
example : Sees rpos (diag 500) (coBuildFl (rne 53) false 16 1000 (nthBySort rpos)
    (fun dim L => L.insertionSort fun x y => rpos x dim ≤ rpos y dim) rpos lastFirst 0 (fun _ => none)
    (emptyTree (0, 0) 10) (diag 500)) :=
  c101_co_serial_partial (nthBySort_ok _) (sortBy_ok _) (by norm_num) (by norm_num) (fun _ _ _ => List.reverse_perm _) _ _ _
    (List.length_pos_iff.1 (by simp [diag])) (by simp [diag]) (by simp [diag]) (diag_distinct 500)

end Verif.BatchKd
