import Verif.BatchKd.VerifyModel
import Verif.BatchKd.Props
import Verif.BatchKd.CoProps

set_option linter.unusedSectionVars false
set_option linter.unusedVariables false

/-!
C88: what the self-check `verify` of the batch kd-trees tells.
-/

namespace Verif.BatchKd

variable {α K : Type} {d : ℕ}

/-- Specification: at every inner node the slice of the right child holds as many present items as that of the left child, or one
more. -/
def Even (items : List α) (present : List Bool) : BT K d → Prop
  | .nil => True
  | .leaf _ _ _ _ _ => True
  | .node _ _ _ _ _ _ l r =>
    ((live items present r.start r.stop).length = (live items present l.start l.stop).length ∨
      (live items present r.start r.stop).length = (live items present l.start l.stop).length + 1) ∧
    Even items present l ∧ Even items present r

section
variable [Field K] [LinearOrder K] {pos : α → Point K d} {c : Cfg α K d} {d0 : Fin d}
  {part : Fin d → K → List (Point K d) → List (Point K d)}

theorem verifyAt_good {items : List α} {present : List Bool} {t : BT K d} (h : Good pos items present t) :
    (Even items present t → verifyAt t = .ok (live items present t.start t.stop).length) ∧
    (¬ Even items present t → verifyAt t = .error .throws) := by
  induction t with
  | nil => exact absurd h (by simp [Good])
  | leaf idx s e cnt b =>
    refine ⟨fun _ => ?_, fun hn => absurd trivial hn⟩
    rw [verifyAt, countPoints, h.2.2.1]
    rfl
  | node idx s e dim val b l r ihl ihr =>
    have hl := ihl h.2.1
    have hr := ihr h.2.2.1
    have hlive := h.node_live
    constructor
    · rintro ⟨h1, h2, h3⟩
      rw [verifyAt, hl.1 h2, hr.1 h3]
      simp only [Except.bind]
      rw [if_pos (by omega)]
      show _ = Except.ok (live items present s e).length
      rw [hlive, List.length_append]
    · intro hn
      by_cases h2 : Even items present l
      · by_cases h3 : Even items present r
        · rw [verifyAt, hl.1 h2, hr.1 h3]
          simp only [Except.bind]
          rw [if_neg]
          intro h4
          exact hn ⟨by omega, h2, h3⟩
        · rw [verifyAt, hl.1 h2, hr.2 h3]
          rfl
      · rw [verifyAt, hl.2 h2]
        rfl

/-- **C88, what the check tells.** In every reachable state with stored points, whatever the splits: `verify` follows no null
pointer; it returns exactly if at every inner node the right side holds as many stored items as the left side or one more, and
throws otherwise. -/
theorem c88_verify_exact (hc : SplitOK c) (hpart : PartItems part (id : Point K d → Point K d))
    {t : Tree α K d} (h : Reach pos c d0 part t) (h0 : t.curSize ≠ 0) :
    (Even t.items t.present t.root → verify t = .ok true) ∧
    (¬ Even t.items t.present t.root → verify t = .error .throws) := by
  have := verifyAt_good ((h.inv hc hpart).good h0).1
  constructor
  · intro he
    rw [verify, this.1 he]
    rfl
  · intro he
    rw [verify, this.2 he]
    rfl

theorem countPoints_good {items : List α} {present : List Bool} {t : BT K d} (h : Good pos items present t) :
    countPoints t = .ok (live items present t.start t.stop).length := by
  induction t with
  | nil => exact absurd h (by simp [Good])
  | leaf idx s e cnt b =>
    rw [countPoints, h.2.2.1]
    rfl
  | node idx s e dim val b l r ihl ihr =>
    rw [countPoints, ihl h.2.1, ihr h.2.2.1]
    simp only [Except.bind, Except.map]
    show _ = Except.ok (live items present s e).length
    rw [h.node_live, List.length_append]

/-- **C88, the count.** In every reachable state with stored points, `countPoints` of the root is the size the tree reports. -/
theorem c88_count (hc : SplitOK c) (hpart : PartItems part (id : Point K d → Point K d))
    {t : Tree α K d} (h : Reach pos c d0 part t) (h0 : t.curSize ≠ 0) : countPoints t.root = .ok t.curSize := by
  have hI := h.inv hc hpart
  obtain ⟨h1, h2, h3⟩ := hI.good h0
  rw [countPoints_good h1, hI.size, h2, h3]
  rfl

theorem verifyAt_build {stale : Point K d} (hp : SplitOK c) (hhalf : ∀ dim L, (c.split dim L).2.2 = L.length / 2) :
    ∀ (fuel idx off : ℕ) (dim : Fin d) (L : List α) (t : BT K d) (out : List α),
      buildRec c pos stale fuel idx off dim L = .ok (t, out) → verifyAt t = .ok L.length := by
  intro fuel
  induction fuel with
  | zero => intro idx off dim L t out h; cases h
  | succ fuel ih =>
    intro idx off dim L t out h
    by_cases hn : L.length ≤ c.leafSize
    · obtain ⟨-, rfl⟩ := buildRec_leaf hn h
      rfl
    · rw [not_le] at hn
      obtain ⟨-, l, o1, r, o2, h1, h2, -, rfl⟩ := buildRec_node hn h
      have hlen := (hp.perm dim L hn).length_eq
      have e1 := ih _ _ _ _ _ _ h1
      have e2 := ih _ _ _ _ _ _ h2
      rw [verifyAt, e1, e2]
      simp only [Except.bind, List.length_take, List.length_drop, hlen, hhalf]
      rw [if_pos (by omega)]
      congr 1
      omega

theorem verify_buildPoints (hp : SplitOK c) (hhalf : ∀ dim L, (c.split dim L).2.2 = L.length / 2) {t0 t : Tree α K d}
    {pts : List α} (h : buildPoints pos c d0 t0 pts = .ok t) : verify t = .ok true := by
  unfold buildPoints at h
  split at h
  · cases h
  · unfold buildAll at h
    simp only [List.take_left] at h
    generalize hb : buildRec c pos (stalePos pos (pts ++ t0.items.drop pts.length)) (pts.length + 1) 0 0 d0 pts = rb at h
    cases rb with
    | error e => cases h
    | ok r =>
      simp only [Except.map, Except.ok.injEq] at h
      subst h
      have := verifyAt_build hp hhalf _ _ _ _ _ _ _ hb
      simp only [verify, this]
      rfl

/-- **C88, object median, heap layout.** The check accepts every tree right after a build, an insertion of at least one point, and
an erasure that rebuilds; whatever the points, the leaf size and the state before. -/
theorem c88_object_partial {nth : Fin d → ℕ → List α → List α} {srt : Fin d → List α → List α} {leafSize : ℕ} {par : ℕ → Bool}
    (hn : NthItems nth pos) (hs : SortItems srt pos) (hl : 1 ≤ leafSize) (t0 t : Tree α K d) :
    (∀ pts, buildPoints pos (objectCfg leafSize par nth srt pos) d0 t0 pts = .ok t → verify t = .ok true) ∧
    (∀ pts, pts ≠ [] → insert pos (objectCfg leafSize par nth srt pos) d0 t0 pts = .ok t → verify t = .ok true) ∧
    (∀ pts, bulkEraseRebuild pos (objectCfg leafSize par nth srt pos) d0 part t0 pts = .ok t → verify t = .ok true) := by
  have hok := objectCfg_ok (pos := pos) (par := par) hn hs hl
  have hhalf : ∀ dim L, ((objectCfg leafSize par nth srt pos).split dim L).2.2 = L.length / 2 :=
    fun dim L => objectCfg_split_snd dim L
  refine ⟨fun pts h => verify_buildPoints hok hhalf h, fun pts hne h => ?_, fun pts h => ?_⟩
  · unfold insert at h
    rw [if_neg (by simpa using hne)] at h
    split at h
    · exact verify_buildPoints hok hhalf h
    · simp only at h
      split at h
      · cases h
      · exact verify_buildPoints hok hhalf h
  · unfold bulkEraseRebuild at h
    generalize bulkErase pos part t0 pts = r at h
    cases r with
    | error e => cases h
    | ok t1 =>
      simp only [Except.bind] at h
      split at h
      · cases h
      · exact verify_buildPoints hok hhalf h

theorem verifyAt_strip (t : BT K d) : verifyAt t.strip = verifyAt t := by
  induction t with
  | nil => rfl
  | leaf => rfl
  | node idx s e dim val b l r ihl ihr =>
    simp only [BT.strip, verifyAt, ihl, ihr]

/-- **C88, object median, cache-oblivious layout.** The check accepts every freshly built tree. -/
theorem c88_co_partial {parallel : Bool} {ls thr : ℕ} {nth : Fin d → ℕ → List α → List α} {srt : Fin d → List α → List α}
    {ord : ℕ → ℕ → Bool → List ℕ} (hn : NthItems nth pos) (hs : SortItems srt pos) (hls : 1 ≤ ls) (hthr : ls < thr)
    (hord : ∀ base levels top, (ord base levels top).Perm (List.range (2 ^ (levels - bottomNumLevels levels))))
    (mem0 : Mem K d) (t : Tree α K d) (pts : List α) (hne : pts ≠ []) (hcap : pts.length ≤ t.maxSize)
    (hbig : pts.length ≤ 2 ^ 47) :
    ∃ t', coBuild parallel ls thr nth srt pos ord d0 mem0 t pts = .ok t' ∧ verify t' = .ok true := by
  obtain ⟨t', root, h1, h2, h3, -⟩ := c69_build (parallel := parallel) (d0 := d0) (stale := fun _ => 0) hn hs hls hthr hord mem0 t
    pts hne hcap hbig
  have hv := verifyAt_build (objectCfg_ok hn hs hls) (fun dim L => objectCfg_split_snd dim L) _ _ _ _ _ _ _ h2
  refine ⟨t', h1, ?_⟩
  rw [verify, ← verifyAt_strip, h3, verifyAt_strip, hv]
  rfl

end

section Examples

/-- The outcome of a check after a history. -/
def checked (c : Cfg (ℚ × ℚ) ℚ 2) (ops : List (Op (ℚ × ℚ) ℚ 2)) : Except Err Bool :=
  (run ppos c 0 (stablePart id) four ops).bind verify

/-- **C88 fails for the spatial split.** Four points in general position: the tree is right, the check rejects it. -/
theorem c88_spatial_false :
    observe [(1, 4), (2, 3), (3, 2), (9, 1)] ⟨pt 0 0, pt 10 10⟩ (run ppos cfgS 0 (stablePart id) four
      [.insert [(1, 4), (2, 3), (3, 2), (9, 1)]]) =
        some (4, [some true, some true, some true, some true], [(3, 2), (1, 4), (2, 3), (9, 1)]) ∧
    checked cfgS [.insert [(1, 4), (2, 3), (3, 2), (9, 1)]] = .error .throws := by decide +kernel

/-- **C88 fails after an erasure without a rebuild**, with object medians: the tree is right, the check rejects it. -/
theorem c88_erase_false :
    observe [(1, 4), (2, 3), (3, 2), (10, 1)] ⟨pt 0 0, pt 10 10⟩ (run ppos cfgO 0 (stablePart id) four
      [.insert [(1, 4), (2, 3), (3, 2), (10, 1)], .eraseKeep [pt 10 1]]) =
        some (3, [some true, some true, some true, some false], [(2, 3), (1, 4), (3, 2)]) ∧
    checked cfgO [.insert [(1, 4), (2, 3), (3, 2), (10, 1)], .eraseKeep [pt 10 1]] = .error .throws := by decide +kernel

/-- **C88 fails the other way as well**: the check does not look at the splits. A tree with object medians in which a stored point is
not found (C22) passes. -/
theorem c88_blind_false :
    observe [(5, 1)] ⟨pt 0 0, pt 9 9⟩ (run ppos cfgO 0 (stablePart id) four [.insert [(5, 1), (5, 2)]]) =
      some (2, [some false], [(5, 1), (5, 2)]) ∧
    checked cfgO [.insert [(5, 1), (5, 2)]] = .ok true := by decide +kernel

/-- The count of a tree of four points after an erasure without a rebuild. -/
example : ((run ppos cfgO 0 (stablePart id) four
    [.insert [(1, 4), (2, 3), (3, 2), (10, 1)], .eraseKeep [pt 10 1]]).bind fun t => countPoints t.root) = .ok 3 := by decide +kernel

/-- The contracts can be met, and the check accepts the tree after an insertion and after an erasure that rebuilds. -/
example : checked cfgO [.insert [(1, 4), (2, 3), (3, 2), (10, 1)]] = .ok true ∧
    checked cfgO [.insert [(1, 4), (2, 3), (3, 2), (10, 1)], .erase [pt 10 1]] = .ok true := by decide +kernel

end Examples

end Verif.BatchKd
