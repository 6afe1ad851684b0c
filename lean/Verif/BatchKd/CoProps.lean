import Mathlib.Algebra.Order.Ring.Rat
import Mathlib.Data.Rat.Defs
import Verif.BatchKd.CoLemmas
import Verif.BatchKd.KnnProps

set_option linter.unusedSectionVars false
set_option linter.unusedVariables false

/-!
Property C69: the cache-oblivious build makes the tree of repeated median splitting.
-/

namespace Verif.BatchKd

open Verif.KnnBuf (KSmallest)

variable {α K : Type} {d : ℕ}

section
variable [Field K] [LinearOrder K]

theorem objectCfg_half {ls : ℕ} {par : ℕ → Bool} {nth : Fin d → ℕ → List α → List α} {srt : Fin d → List α → List α}
    {pos : α → Point K d} (hn : NthItems nth pos) (hs : SortItems srt pos) :
    Half (objectCfg ls par nth srt pos).split := by
  intro dim L h
  refine ⟨?_, objectCfg_split_snd dim L⟩
  unfold objectCfg
  simp only
  split
  · exact (hs dim L).1
  · exact (hn dim _ L (by omega)).1

/-- The build with any way of splitting into halves. -/
theorem coBuildWith_ok {parallel : Bool} {ls thr : ℕ} {nth : Fin d → ℕ → List α → List α}
    {med : Fin d → List α → List α × K × ℕ} {pos : α → Point K d} {c : Cfg α K d} (hcls : c.leafSize = ls) (hsp : Half c.split)
    (hser : ∀ dim M, (parallel && decide (thr ≤ M.length)) = false → c.split dim M = serialMedian nth pos dim M)
    (hpar : ∀ dim M, (parallel && decide (thr ≤ M.length)) = true → c.split dim M = med dim M)
    {ord : ℕ → ℕ → Bool → List ℕ} {d0 : Fin d} {stale : Point K d} (hls : 1 ≤ ls) (hthr : ls < thr)
    (hord : ∀ base levels top, (ord base levels top).Perm (List.range (2 ^ (levels - bottomNumLevels levels))))
    (mem0 : Mem K d) (t : Tree α K d) (pts : List α) (hne : pts ≠ []) (hcap : pts.length ≤ t.maxSize)
    (hbig : pts.length ≤ 2 ^ 47) :
    ∃ t' root, coBuildWith parallel ls thr nth med pos ord d0 mem0 t pts = .ok t' ∧
      buildRec c pos stale (pts.length + 1) 0 0 d0 pts = .ok (root, t'.items) ∧
      t'.root.strip = root.strip ∧ t'.root.indices.Nodup ∧ (∀ j ∈ t'.root.indices, j < 2 * pts.length - 1) ∧
      t'.present = t.present ∧ t'.curSize = pts.length ∧ t'.buildSize = pts.length ∧ t'.maxSize = t.maxSize := by
  have hpos := List.length_pos_iff.mpr hne
  have hlev : numLevels ls pts.length ≤ 48 := by
    have h1 : (pts.length + (ls - 1)) / ls ≤ 2 ^ 47 := by
      rw [ceil_le_iff hls]
      exact hbig.trans (Nat.le_mul_of_pos_left _ hls)
    have h2 := Nat.clog_le_of_le_pow h1
    unfold numLevels
    omega
  have hbuilt : ∃ mem' out pt,
      (if parallel then coParWith (2 * t.maxSize - 1) ls thr nth med pos ord (numLevels ls pts.length) false mem0 0 0 d0
          (numLevels ls pts.length) pts
        else (coRec (2 * t.maxSize - 1) ls nth pos (numLevels ls pts.length) false mem0 0 0 d0 (numLevels ls pts.length)
          pts).map fun r => (r.1, r.2.1)) = .ok (mem', out) ∧
      Built mem0 mem' 0 (2 * pts.length - 1) pt ∧ IsBuild c.split ls pos pt d0 0 pts out := by
    cases hp : parallel with
    | true =>
      obtain ⟨mem', out, pt, hr, hB, hI⟩ := (coPar_ok (cap := 2 * t.maxSize - 1) (thr := thr) (nth := nth) (med := med) (pos := pos) hord hsp hls hthr
        (fun dim M hM => hser dim M (by simp [Nat.not_le.mpr hM]))
        (fun dim M hM => hpar dim M (by simp [hp, hM]))
        (numLevels ls pts.length) mem0 0 0 d0 (numLevels ls pts.length) pts le_rfl hlev).2 rfl hne (by omega)
      exact ⟨mem', out, pt, by simpa using hr, hB, hI⟩
    | false =>
      obtain ⟨mem', out, used, pt, hr, hu, hB, hI⟩ := (coRec_ok (cap := 2 * t.maxSize - 1) (nth := nth) (pos := pos) hsp hls (N := pts.length)
        (fun dim M hM => hser dim M (by simp [hp]))
        (numLevels ls pts.length) mem0 0 0 d0 (numLevels ls pts.length) pts le_rfl hlev le_rfl).2 rfl hne (by omega)
      refine ⟨mem', out, pt, ?_, hB.mono hu, hI⟩
      simp only [Bool.false_eq_true, if_false]
      rw [hr]
      rfl
  obtain ⟨mem', out, pt, hr, hB, hI⟩ := hbuilt
  obtain ⟨hdep, hho⟩ := hI.depth hsp hls
  obtain ⟨m2, hf, hE, _⟩ := fixBoxes_ok (fuel := pts.length + 1) hho hB.enc hB.nodup (by omega) (hB.root _)
  have hv := view_ok (fuel := pts.length + 1) hho hE (by omega) (hB.root _)
  rw [← hcls] at hI
  obtain ⟨r, hbr, hst⟩ := hI.buildRec (stale := stale) hsp (by omega) (pts.length + 1) 0 (by omega)
  refine ⟨{ t with items := out, curSize := pts.length, buildSize := pts.length, root := pt.toBT }, r, ?_, hbr, hst.symm, ?_, ?_,
    rfl, rfl, rfl, rfl⟩
  · rw [coBuildWith, if_neg (by omega)]
    simp only
    rw [hr]
    simp only [Except.bind]
    rw [hf]
    simp only
    rw [hv]
    rfl
  · rw [hI.indices]
    exact hB.nodup
  · rw [hI.indices]
    intro j hj
    have := hB.inR j hj
    omega

/-- C69. For every non-empty set of at most `2 ^ 47` items within the capacity, whatever the node array held before, with or
without the parallel build, and for every order in which the iterations of the parallel loops take place: the build returns;
the order of the items and the tree, apart from the places of its nodes, are those of splitting at the median again and
again (the binary-heap build of the same items); and the nodes take different places among the first `2 n - 1` of the
array. -/
theorem c69_build {parallel : Bool} {ls thr : ℕ} {nth : Fin d → ℕ → List α → List α} {srt : Fin d → List α → List α}
    {pos : α → Point K d} {ord : ℕ → ℕ → Bool → List ℕ} {d0 : Fin d} {stale : Point K d} (hn : NthItems nth pos)
    (hs : SortItems srt pos) (hls : 1 ≤ ls) (hthr : ls < thr)
    (hord : ∀ base levels top, (ord base levels top).Perm (List.range (2 ^ (levels - bottomNumLevels levels))))
    (mem0 : Mem K d) (t : Tree α K d) (pts : List α) (hne : pts ≠ []) (hcap : pts.length ≤ t.maxSize)
    (hbig : pts.length ≤ 2 ^ 47) :
    ∃ t' root, coBuild parallel ls thr nth srt pos ord d0 mem0 t pts = .ok t' ∧
      buildRec (objectCfg ls (fun n => parallel && decide (thr ≤ n)) nth srt pos) pos stale (pts.length + 1) 0 0 d0 pts =
        .ok (root, t'.items) ∧
      t'.root.strip = root.strip ∧ t'.root.indices.Nodup ∧ (∀ j ∈ t'.root.indices, j < 2 * pts.length - 1) ∧
      t'.present = t.present ∧ t'.curSize = pts.length ∧ t'.buildSize = pts.length ∧ t'.maxSize = t.maxSize := by
  exact coBuildWith_ok (c := objectCfg ls (fun n => parallel && decide (thr ≤ n)) nth srt pos) rfl (objectCfg_half hn hs)
    (fun dim M hM => by simp only [objectCfg, hM]; rfl) (fun dim M hM => by simp only [objectCfg, hM]; rfl) hls hthr hord mem0 t pts hne hcap hbig

/-- The order in which the iterations of the parallel loops take place, and what the node array held before, do not change the
items or the tree the queries see. -/
theorem c69_order {parallel : Bool} {ls thr : ℕ} {nth : Fin d → ℕ → List α → List α} {srt : Fin d → List α → List α}
    {pos : α → Point K d} {ord ord' : ℕ → ℕ → Bool → List ℕ} {d0 : Fin d} (hn : NthItems nth pos)
    (hs : SortItems srt pos) (hls : 1 ≤ ls) (hthr : ls < thr)
    (hord : ∀ base levels top, (ord base levels top).Perm (List.range (2 ^ (levels - bottomNumLevels levels))))
    (hord' : ∀ base levels top, (ord' base levels top).Perm (List.range (2 ^ (levels - bottomNumLevels levels))))
    (mem0 mem0' : Mem K d) (t : Tree α K d) (pts : List α) (hne : pts ≠ []) (hcap : pts.length ≤ t.maxSize)
    (hbig : pts.length ≤ 2 ^ 47) :
    ∃ t1 t2, coBuild parallel ls thr nth srt pos ord d0 mem0 t pts = .ok t1 ∧
      coBuild parallel ls thr nth srt pos ord' d0 mem0' t pts = .ok t2 ∧ t1.items = t2.items ∧
      t1.root.strip = t2.root.strip := by
  obtain ⟨t1, r1, a1, a2, a3, _⟩ := c69_build (parallel := parallel) (d0 := d0) (stale := fun _ => 0) hn hs hls hthr hord mem0 t pts
    hne hcap hbig
  obtain ⟨t2, r2, b1, b2, b3, _⟩ := c69_build (parallel := parallel) (d0 := d0) (stale := fun _ => 0) hn hs hls hthr hord' mem0' t pts
    hne hcap hbig
  rw [a2] at b2
  simp only [Except.ok.injEq, Prod.mk.injEq] at b2
  refine ⟨t1, t2, a1, b1, b2.2, ?_⟩
  rw [a3, b3, b2.1]

/-! ### Queries on the tree -/

theorem zip_take_self (items : List α) (present : List Bool) :
    items.zip (present.take items.length) = items.zip present := by
  induction items generalizing present with
  | nil => rfl
  | cons x l ih =>
    cases present with
    | nil => rfl
    | cons b p => simp [ih]

theorem live_take (items : List α) (present : List Bool) (s e : ℕ) :
    live items (present.take items.length) s e = live items present s e := by
  simp only [live, slots, zip_take_self]

theorem Good.of_take {pos : α → Point K d} {items : List α} {present : List Bool} {t : BT K d}
    (h : Good pos items (present.take items.length) t) : Good pos items present t := by
  induction t with
  | nil => exact h
  | leaf idx s e cnt b => simpa only [Good, live_take] using h
  | node idx s e dim v b l r ihl ihr =>
    simp only [Good, live_take] at h ⊢
    exact ⟨h.1, ihl h.2.1, ihr h.2.2.1, h.2.2.2⟩

theorem Searchable.of_take {pos : α → Point K d} {items : List α} {present : List Bool} {t : BT K d}
    (h : Searchable pos items (present.take items.length) t) : Searchable pos items present t := by
  induction t with
  | nil => exact h
  | leaf idx s e cnt b => trivial
  | node idx s e dim v b l r ihl ihr =>
    simp only [Searchable, live_take] at h ⊢
    exact ⟨h.1, h.2.1, ihl h.2.2.1, ihr h.2.2.2⟩

theorem BT.strip_start (t : BT K d) : t.strip.start = t.start := by
  cases t <;> rfl

theorem BT.strip_stop (t : BT K d) : t.strip.stop = t.stop := by
  cases t <;> rfl

theorem good_strip {pos : α → Point K d} {items : List α} {present : List Bool} (t : BT K d) :
    Good pos items present t.strip ↔ Good pos items present t := by
  induction t with
  | nil => rfl
  | leaf idx s e cnt b => rfl
  | node idx s e dim v b l r ihl ihr =>
    simp only [BT.strip, Good, ihl, ihr, BT.strip_start, BT.strip_stop]

theorem searchable_strip {pos : α → Point K d} {items : List α} {present : List Bool} (t : BT K d) :
    Searchable pos items present t.strip ↔ Searchable pos items present t := by
  induction t with
  | nil => rfl
  | leaf idx s e cnt b => rfl
  | node idx s e dim v b l r ihl ihr =>
    simp only [BT.strip, Searchable, ihl, ihr, BT.strip_start, BT.strip_stop]

variable [IsStrictOrderedRing K]

/-- The state after a build into fresh flags, with any way of splitting into halves. -/
theorem coBuildWith_state {parallel : Bool} {ls thr : ℕ} {nth : Fin d → ℕ → List α → List α}
    {med : Fin d → List α → List α × K × ℕ} {pos : α → Point K d} {c : Cfg α K d} (hcls : c.leafSize = ls) (hsp : Half c.split)
    (hser : ∀ dim M, (parallel && decide (thr ≤ M.length)) = false → c.split dim M = serialMedian nth pos dim M)
    (hpar : ∀ dim M, (parallel && decide (thr ≤ M.length)) = true → c.split dim M = med dim M) (hok : SplitOK c)
    {ord : ℕ → ℕ → Bool → List ℕ} {d0 : Fin d} (hls : 1 ≤ ls) (hthr : ls < thr)
    (hord : ∀ base levels top, (ord base levels top).Perm (List.range (2 ^ (levels - bottomNumLevels levels))))
    (mem0 : Mem K d) (t : Tree α K d) (pts : List α) (hne : pts ≠ []) (hcap : pts.length ≤ t.maxSize)
    (hbig : pts.length ≤ 2 ^ 47) (hfl : t.present = List.replicate t.maxSize true) :
    ∃ t', coBuildWith parallel ls thr nth med pos ord d0 mem0 t pts = .ok t' ∧ t'.items.Perm pts ∧ content t' = t'.items ∧
      t'.present = t.present ∧ t'.curSize = pts.length ∧ t'.buildSize = pts.length ∧ t'.maxSize = t.maxSize ∧
      Good pos t'.items t'.present t'.root ∧ t'.root.start = 0 ∧ t'.root.stop = pts.length ∧
      (∃ root, buildRec c pos (fun _ => 0) (pts.length + 1) 0 0 d0 pts = .ok (root, t'.items) ∧ t'.root.strip = root.strip) ∧
      ∀ P : List α → Prop, (∀ L L' : List α, L'.Subperm L → P L → P L') →
        (∀ dim L, P L → c.leafSize < L.length →
          (∀ x ∈ (c.split dim L).1.take (c.split dim L).2.2, pos x dim < (c.split dim L).2.1) ∧
          (∀ x ∈ (c.split dim L).1.drop (c.split dim L).2.2, (c.split dim L).2.1 ≤ pos x dim)) →
        P pts → Searchable pos t'.items t'.present t'.root := by
  have hpos := List.length_pos_iff.mpr hne
  obtain ⟨t', root, h1, h2, h3, _, _, h6, h7, h8, h9⟩ := coBuildWith_ok (parallel := parallel) (d0 := d0) (stale := fun _ => 0) hcls hsp
    hser hpar hls hthr hord mem0 t pts hne hcap hbig
  obtain ⟨hperm, hst, hsp⟩ := buildRec_shape hok h2
  have hlen : t'.items.length = pts.length := hperm.length_eq
  have hpr : t'.present.take t'.items.length = List.replicate pts.length true := by
    rw [h6, hfl, hlen, List.take_replicate, Nat.min_eq_left hcap]
  have hsl : slots t'.items (t'.present.take t'.items.length) 0 (0 + pts.length) = t'.items.map fun x => (x, true) := by
    rw [hpr, slots, List.drop_zero, Nat.zero_add, Nat.sub_zero, ← hlen]
    rw [List.take_of_length_le (by simp)]
    generalize t'.items = l
    induction l with
    | nil => rfl
    | cons x l ih => simp [List.replicate_succ, ih]
  have hse := fun (P : List α → Prop) hP => buildRec_good hok P hP h2 (items := t'.items)
    (present := t'.present.take t'.items.length) (by rw [hpr]; simp [hlen]) (by omega) hsl
  have hg := (hse (fun _ => True) fun _ _ _ _ => trivial).1
  have hG : Good pos t'.items t'.present t'.root := by
    rw [← good_strip, h3, good_strip]
    exact hg.of_take
  have e1 : t'.root.start = 0 := by rw [← BT.strip_start, h3, BT.strip_start, hst]
  have e2 : t'.root.stop = pts.length := by rw [← BT.strip_stop, h3, BT.strip_stop, hsp, Nat.zero_add]
  have hcont : content t' = t'.items := by
    rw [content_eq, ← live_take, h8]
    rw [Nat.zero_add] at hsl
    exact live_of_slots hsl
  refine ⟨t', h1, hperm, hcont, h6, h7, h8, h9, hG, e1, e2, ⟨root, h2, h3⟩, fun P hP hst hD => ?_⟩
  rw [← searchable_strip, h3, searchable_strip]
  exact ((hse P hP).2 hst hD).of_take

/-- The state after a build into fresh flags. -/
theorem coBuild_state {parallel : Bool} {ls thr : ℕ} {nth : Fin d → ℕ → List α → List α} {srt : Fin d → List α → List α}
    {pos : α → Point K d} {ord : ℕ → ℕ → Bool → List ℕ} {d0 : Fin d} (hn : NthItems nth pos)
    (hs : SortItems srt pos) (hls : 1 ≤ ls) (hthr : ls < thr)
    (hord : ∀ base levels top, (ord base levels top).Perm (List.range (2 ^ (levels - bottomNumLevels levels))))
    (mem0 : Mem K d) (t : Tree α K d) (pts : List α) (hne : pts ≠ []) (hcap : pts.length ≤ t.maxSize)
    (hbig : pts.length ≤ 2 ^ 47) (hfl : t.present = List.replicate t.maxSize true) :
    ∃ t', coBuild parallel ls thr nth srt pos ord d0 mem0 t pts = .ok t' ∧ t'.items.Perm pts ∧ content t' = t'.items ∧
      t'.present = t.present ∧ t'.curSize = pts.length ∧ t'.buildSize = pts.length ∧ t'.maxSize = t.maxSize ∧
      Good pos t'.items t'.present t'.root ∧ t'.root.start = 0 ∧ t'.root.stop = pts.length ∧
      (DistinctCoords pos pts → Searchable pos t'.items t'.present t'.root) := by
  obtain ⟨t', h1, h2, h3, h4, h5, h6, h7, h8, h9, h10, -, h11⟩ := coBuildWith_state
    (parallel := parallel) (thr := thr) (nth := nth) (med := parallelMedian srt pos) (pos := pos)
    (c := objectCfg ls (fun n => parallel && decide (thr ≤ n)) nth srt pos) rfl (objectCfg_half hn hs)
    (fun dim M hM => by simp only [objectCfg, hM]; rfl) (fun dim M hM => by simp only [objectCfg, hM]; rfl)
    (objectCfg_ok hn hs hls) (d0 := d0) hls hthr hord mem0 t pts hne hcap hbig hfl
  exact ⟨t', h1, h2, h3, h4, h5, h6, h7, h8, h9, h10, h11 (DistinctCoords pos) DistinctCoords.sub
    fun dim L hP hl => objectCfg_strict hn hs hls dim L hP hl⟩

/-- C69, queries. On a tree built that way into fresh flags: the stored items are the given ones, the box query returns exactly
the stored items in the box, the `k` nearest neighbours are exact for every `k` from 1 to the number of items, and if no two
items share a coordinate, `contains` is exact. -/
theorem c69_queries {parallel : Bool} {ls thr : ℕ} {nth : Fin d → ℕ → List α → List α} {srt : Fin d → List α → List α}
    {pos : α → Point K d} {ord : ℕ → ℕ → Bool → List ℕ} {d0 : Fin d} (hn : NthItems nth pos)
    (hs : SortItems srt pos) (hls : 1 ≤ ls) (hthr : ls < thr)
    (hord : ∀ base levels top, (ord base levels top).Perm (List.range (2 ^ (levels - bottomNumLevels levels))))
    (mem0 : Mem K d) (t : Tree α K d) (pts : List α) (hne : pts ≠ []) (hcap : pts.length ≤ t.maxSize)
    (hbig : pts.length ≤ 2 ^ 47) (hfl : t.present = List.replicate t.maxSize true) :
    ∃ t', coBuild parallel ls thr nth srt pos ord d0 mem0 t pts = .ok t' ∧ (content t').Perm pts ∧
      t'.curSize = pts.length ∧
      (∀ q : Box K d, orthogonalQuery pos t' q =
        (content t').filter fun x => decide (∀ i, q.lo i ≤ pos x i ∧ pos x i ≤ q.hi i)) ∧
      (∀ (nthP : ℕ → List (K × α) → List (K × α)) (dist : Point K d → Point K d → K), NthPairs nthP → IsCoordDist dist →
        ∀ (update recurse : Bool) (k : ℕ), 1 ≤ k → k ≤ pts.length → ∀ q, ∃ row,
          knnSingle nthP dist pos update recurse t' k q = .ok row ∧ KSmallest (fun x => dist q (pos x)) k (content t') row) ∧
      (DistinctCoords pos pts → ∀ p, ∃ r, contains pos t' p = .ok r ∧ (r = true ↔ ∃ x ∈ pts, pos x = p)) := by
  have hpos := List.length_pos_iff.mpr hne
  obtain ⟨t', h1, hperm, hcont, _, h7, h8, _, hG, e1, e2, hS'⟩ := coBuild_state (parallel := parallel) (d0 := d0) hn hs hls hthr hord
    mem0 t pts hne hcap hbig hfl
  have hlen : t'.items.length = pts.length := hperm.length_eq
  have hQ : QInv pos t' := ⟨fun _ => ⟨hG, e1, by rw [e2, h8]⟩, by rw [hcont, hlen, h7]⟩
  have hl : live t'.items t'.present t'.root.start t'.root.stop = content t' := (hQ.root_live (by omega)).2
  refine ⟨t', h1, by rw [hcont]; exact hperm, h7, ?_, ?_, ?_⟩
  · intro q
    rw [orthogonalQuery, if_neg (by omega), orthAt_eq hG, hl]
    apply List.filter_congr
    intro x _
    rw [Bool.eq_iff_iff, itemInBox_iff, decide_eq_true_iff]
    rfl
  · intro nthP dist hnP hd update recurse k hk1 hk2 q
    exact hQ.knnSingle hnP hd update recurse hk1 (by rw [hcont, hlen]; exact hk2) q
  · intro hD p
    have hS := hS' hD
    obtain ⟨r, hr, hr'⟩ := containsAt_eq hG hS p
    refine ⟨r, ?_, ?_⟩
    · rw [contains, if_neg (by omega)]
      exact hr
    · rw [hr', hl, hcont]
      constructor
      · rintro ⟨x, hx, he⟩
        exact ⟨x, hperm.mem_iff.mp hx, he⟩
      · rintro ⟨x, hx, he⟩
        exact ⟨x, hperm.mem_iff.mpr hx, he⟩

end

/-! ### Concrete cases -/

section Examples

/-- Seven points for the examples. -/
def coPts : List (ℚ × ℚ) := [(1, 4), (2, 3), (3, 7), (4, 1), (5, 6), (6, 2), (7, 5)]

/-- Iterations of the parallel loops from the last to the first. -/
def lastFirst (_ levels : ℕ) (_ : Bool) : List ℕ := (List.range (2 ^ (levels - bottomNumLevels levels))).reverse

/-- The hypotheses of the theorems hold for seven points, leaves of one item and parallel splits from four items on. -/
example : ∃ t', coBuild true 1 4 (nthBySort ppos) (fun dim L => L.insertionSort fun x y => ppos x dim ≤ ppos y dim) ppos
    lastFirst 0 (fun _ => none) (emptyTree (0, 0) 3) coPts = .ok t' ∧ t'.curSize = 7 ∧
      ∀ p, ∃ r, contains ppos t' p = .ok r ∧ (r = true ↔ ∃ x ∈ coPts, ppos x = p) := by
  obtain ⟨t', h1, _, h3, _, _, h6⟩ := c69_queries (parallel := true) (ls := 1) (thr := 4) (d0 := 0) (nthBySort_ok ppos)
    (sortBy_ok ppos) le_rfl (by omega) (ord := lastFirst) (fun _ _ _ => List.reverse_perm _) (fun _ => none)
    (emptyTree (0, 0) 3) coPts (by simp [coPts]) (by simp [coPts, emptyTree]) (by simp [coPts]) rfl
  refine ⟨t', h1, h3, h6 ?_⟩
  intro dim
  fin_cases dim <;> decide

/-- The parallel build of seven points on the model: order of the items and places of the nodes (in preorder). -/
example : ((coBuild true 1 4 (nthBySort ppos) (fun dim L => L.insertionSort fun x y => ppos x dim ≤ ppos y dim) ppos
    lastFirst 0 (fun _ => none) (emptyTree (0, 0) 3) coPts).toOption.map fun t' => (t'.items, t'.root.indices)) =
      some ([(2, 3), (1, 4), (3, 7), (4, 1), (6, 2), (5, 6), (7, 5)],
        [0, 1, 3, 4, 5, 6, 2, 7, 8, 9, 10, 11, 12]) := by decide +kernel

end Examples

end Verif.BatchKd
