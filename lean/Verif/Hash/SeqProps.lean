import Verif.Hash.SeqLemmas

set_option linter.unusedSectionVars false
set_option linter.unusedVariables false

/-!
C82: the sequential life of the hash table.

Full property: after any sequence of insertions and deletions the table answers like a finite map, as long as the
map has no more keys than the size given to the constructor, and `entries` lists that map. False of the code:
deleted keys stay behind as entries with the key `empty_key - 1` (`c82_entries_false`), and they take up room, so
that a query on an empty map may never return (`c82_room_false`). What is proved for all sequences of calls
(`c82_run_partial`) says exactly what deleted keys do to the answers; `c82_resize` covers growing the table.
-/

namespace Verif.Hash

variable {K V : Type} [DecidableEq K]

/-- One call. -/
theorem exec_rep {hash : K → ℕ} {tomb : K} (empty : V) {t : Tbl K V} {s : Spec K V} (hr : Rep hash tomb t s)
    (hu : s.used < 2 ^ t.b) {fuel : ℕ} (hf : 2 ^ t.b < fuel) (op : Op K V) (hk : op.key? ≠ some tomb) :
    ∃ t' o, exec hash tomb empty fuel t op = .ok (t', o) ∧ t'.b = t.b ∧ Rep hash tomb t' (s.next op) ∧
      Answers tomb s op o := by
  cases op with
  | insert k v =>
    have hk' : k ≠ tomb := fun hc => hk (by rw [hc]; rfl)
    obtain ⟨j, h1, h2, h3⟩ := probe_rep hr hu hf hk'
    rcases h3 with ⟨a1, a2, a3⟩ | ⟨a1, a2, a3⟩
    · refine ⟨t, .bool false, ?_, rfl, ?_, ?_⟩
      · unfold exec insertSeq
        dsimp only
        rw [a1]
        rfl
      · unfold Spec.next
        dsimp only
        rw [if_neg (by rw [a3]; simp)]
        exact hr
      · unfold Answers
        dsimp only
        rw [a3]
        rfl
    · refine ⟨⟨t.b, Function.update t.tab (pos t.b hash k j) (some k),
        Function.update t.val (pos t.b hash k j) v⟩, .bool true, ?_, ?_, ?_, ?_⟩
      · unfold exec insertSeq
        dsimp only
        rw [a1]
        rfl
      · rfl
      · unfold Spec.next
        dsimp only
        rw [if_pos a3]
        exact rep_insert hr hk' v h1 h2 a2 a3
      · unfold Answers
        dsimp only
        rw [a3]
        rfl
  | mark k =>
    have hk' : k ≠ tomb := fun hc => hk (by rw [hc]; rfl)
    obtain ⟨j, h1, h2, h3⟩ := probe_rep hr hu hf hk'
    rcases h3 with ⟨a1, a2, a3⟩ | ⟨a1, a2, a3⟩
    · refine ⟨⟨t.b, Function.update t.tab (pos t.b hash k j) (some tomb), t.val⟩, .unit, ?_, ?_, ?_, trivial⟩
      · unfold exec markSeq
        dsimp only
        rw [a1]
        rfl
      · rfl
      · unfold Spec.next
        dsimp only
        rw [if_neg (by rw [a3]; simp)]
        exact rep_mark hr hk' (pos_lt _ _ _ _) a2
    · refine ⟨t, .unit, ?_, rfl, ?_, trivial⟩
      · unfold exec markSeq
        dsimp only
        rw [a1]
        rfl
      · unfold Spec.next
        dsimp only
        rw [if_pos a3]
        exact hr
  | contains k =>
    have hk' : k ≠ tomb := fun hc => hk (by rw [hc]; rfl)
    obtain ⟨j, h1, h2, h3⟩ := probe_rep hr hu hf hk'
    rcases h3 with ⟨a1, a2, a3⟩ | ⟨a1, a2, a3⟩
    · refine ⟨t, .bool true, ?_, rfl, hr, ?_⟩
      · unfold exec contains
        dsimp only
        rw [lookup_probe, a1]
        rfl
      · unfold Answers
        dsimp only
        rw [a3]
        rfl
    · refine ⟨t, .bool false, ?_, rfl, hr, ?_⟩
      · unfold exec contains
        dsimp only
        rw [lookup_probe, a1]
        rfl
      · unfold Answers
        dsimp only
        rw [a3]
        rfl
  | find k d =>
    have hk' : k ≠ tomb := fun hc => hk (by rw [hc]; rfl)
    obtain ⟨j, h1, h2, h3⟩ := probe_rep hr hu hf hk'
    rcases h3 with ⟨a1, a2, a3⟩ | ⟨a1, a2, a3⟩
    · refine ⟨t, .val (t.val (pos t.b hash k j)), ?_, rfl, hr, ?_⟩
      · unfold exec find
        dsimp only
        rw [lookup_probe, a1]
        rfl
      · unfold Answers
        dsimp only
        rw [a3]
        rfl
    · refine ⟨t, .val d, ?_, rfl, hr, ?_⟩
      · unfold exec find
        dsimp only
        rw [lookup_probe, a1]
        rfl
      · unfold Answers
        dsimp only
        rw [a3]
        rfl
  | entries => exact ⟨t, .list (entries t), rfl, rfl, hr, lists_rep hr, by rw [entries_dead, hr.dead]⟩
  | clear => exact ⟨clear empty t, .unit, rfl, rfl, rep_empty hash tomb t.b _, trivial⟩

/-- A sequence of calls on a table that holds a map. -/
theorem execAll_rep {hash : K → ℕ} {tomb : K} (empty : V) (fuel : ℕ) (ops : List (Op K V)) :
    ∀ {t : Tbl K V} {s : Spec K V}, Rep hash tomb t s → Fits (2 ^ t.b) s ops → 2 ^ t.b < fuel →
    (∀ op ∈ ops, op.key? ≠ some tomb) →
    ∃ t' os, execAll hash tomb empty fuel t ops = .ok (t', os) ∧ t'.b = t.b ∧
      Rep hash tomb t' (ops.foldl Spec.next s) ∧ AllAnswers tomb s ops os := by
  induction ops with
  | nil => intro t s hr _ _ _; exact ⟨t, [], rfl, rfl, hr, trivial⟩
  | cons op ops ih =>
    intro t s hr hfit hf hk
    obtain ⟨t1, o, h1, h2, h3, h4⟩ := exec_rep empty hr hfit.1 hf op (hk op (by simp))
    obtain ⟨t2, os, g1, g2, g3, g4⟩ := ih h3 (by rw [h2]; exact hfit.2) (by rw [h2]; exact hf)
      (fun op' h' => hk op' (by simp [h']))
    refine ⟨t2, o :: os, ?_, by rw [g2, h2], g3, h4, g4⟩
    rw [execAll, h1]
    show Except.map _ (execAll hash tomb empty fuel t1 ops) = _
    rw [g1]
    rfl

/-- C82: for every hash function and every sequence of insertions, deletions, queries and `clear`s on a new table
that leaves a slot free at all times, with keys other than `empty_key - 1`, all calls return, and the answers are
those of a finite map, except that `entries` also returns one entry with key `empty_key - 1` for each key deleted
since the last `clear`. -/
theorem c82_run_partial (hash : K → ℕ) (tomb : K) (empty : V) (m : ℕ) (ops : List (Op K V))
    (hfit : Fits (2 ^ initBits m) (⟨fun _ => none, 0, 0⟩ : Spec K V) ops)
    (hk : ∀ op ∈ ops, op.key? ≠ some tomb) :
    ∃ t os, execAll hash tomb empty (2 ^ initBits m + 1) (newTbl m empty) ops = .ok (t, os) ∧
      AllAnswers tomb ⟨fun _ => none, 0, 0⟩ ops os := by
  obtain ⟨t, os, h1, _, _, h2⟩ := execAll_rep (t := newTbl m empty) empty (2 ^ initBits m + 1) ops
    (rep_empty hash tomb (initBits m) _) hfit (Nat.lt_succ_self _) hk
  exact ⟨t, os, h1, h2⟩

/-- C82: without deletions `entries` lists exactly the map. -/
theorem c82_entries_exact {hash : K → ℕ} {tomb : K} {t : Tbl K V} {s : Spec K V} (hr : Rep hash tomb t s)
    (hd : s.dead = 0) : Lists s.m (entries t) := by
  have h1 := lists_rep hr
  have h2 : ((entries t).filter fun e => e.1 = tomb) = [] := by
    rw [← List.length_eq_zero_iff, entries_dead, hr.dead, hd]
  have h3 : ((entries t).filter fun e => e.1 ≠ tomb) = entries t := by
    rw [List.filter_eq_self]
    intro e he
    rw [List.filter_eq_nil_iff] at h2
    simpa using h2 e he
  rw [h3] at h1
  exact h1

/-- C82: a table constructed for `m` keys has a slot free after `m` insertions of different keys. -/
theorem c82_capacity (m : ℕ) : m < 2 ^ initBits m := by
  unfold initBits
  have := Nat.le_pow_clog (b := 2) Nat.one_lt_two (11 * m / 10 + 1)
  omega

/-- Insertions and queries only. -/
def Op.noMark : Op K V → Prop
  | .mark _ => False
  | _ => True

theorem fits_of_count (n : ℕ) (ops : List (Op K V)) : ∀ (s : Spec K V),
    s.used + ops.countP (fun op => match op with | .insert _ _ => true | _ => false) < n → Fits n s ops := by
  induction ops with
  | nil => intro s h; simpa [Fits] using h
  | cons op ops ih =>
    intro s h
    rw [List.countP_cons] at h
    refine ⟨by omega, ih _ ?_⟩
    cases op <;> simp only [Spec.next] at h ⊢
    · split
      · dsimp only
        simp only [if_true] at h
        omega
      · simp only [if_true] at h
        omega
    · split
      · simpa using h
      · simpa using h
    · simpa using h
    · simpa using h
    · simpa using h
    · have h' : s.used + ops.countP (fun op => match op with | .insert _ _ => true | _ => false) < n := by
        simpa using h
      omega

/-- C82: at most `m` insertions into a table constructed for `m` keys, with any number of other calls, always
fit. -/
theorem c82_fits (m : ℕ) (ops : List (Op K V))
    (h : ops.countP (fun op => match op with | .insert _ _ => true | _ => false) ≤ m) :
    Fits (2 ^ initBits m) (⟨fun _ => none, 0, 0⟩ : Spec K V) ops := by
  apply fits_of_count
  have := c82_capacity m
  dsimp only
  omega

/-! ### Growing -/

/-- The keys of the live slots. -/
def liveKeys (tomb : K) (b : ℕ) (tab : ℕ → Option K) : Finset (Option K) :=
  (((Finset.range (2 ^ b)).image tab).erase none).erase (some tomb)

theorem mem_liveKeys {tomb : K} {b : ℕ} {tab : ℕ → Option K} {o : Option K} :
    o ∈ liveKeys tomb b tab ↔ ∃ k, k ≠ tomb ∧ o = some k ∧ InTab b tab k := by
  unfold liveKeys InTab
  simp only [Finset.mem_erase, Finset.mem_image, Finset.mem_range]
  constructor
  · rintro ⟨h1, h2, h, h3, h4⟩
    cases o with
    | none => exact absurd rfl h2
    | some k => exact ⟨k, fun hc => h1 (by rw [hc]), rfl, h, h3, h4⟩
  · rintro ⟨k, h1, rfl, h, h2, h3⟩
    exact ⟨by simpa using h1, by simp, h, h2, h3⟩

theorem used_eq {tomb : K} {b : ℕ} {tab : ℕ → Option K}
    (hd : ∀ k, k ≠ tomb → ∀ h < 2 ^ b, ∀ h' < 2 ^ b, tab h = some k → tab h' = some k → h = h') :
    ((Finset.range (2 ^ b)).filter fun h => tab h ≠ none).card =
      (liveKeys tomb b tab).card + ((Finset.range (2 ^ b)).filter fun h => tab h = some tomb).card := by
  have h1 : (Finset.range (2 ^ b)).filter (fun h => tab h ≠ none) =
      ((Finset.range (2 ^ b)).filter fun h => tab h ≠ none ∧ tab h ≠ some tomb) ∪
        ((Finset.range (2 ^ b)).filter fun h => tab h = some tomb) := by
    ext h
    simp only [Finset.mem_filter, Finset.mem_union, Finset.mem_range]
    by_cases ht : tab h = some tomb
    · simp [ht]
    · simp [ht]
  rw [h1, Finset.card_union_of_disjoint]
  · congr 1
    have h2 : liveKeys tomb b tab =
        ((Finset.range (2 ^ b)).filter fun h => tab h ≠ none ∧ tab h ≠ some tomb).image tab := by
      ext o
      rw [mem_liveKeys]
      simp only [Finset.mem_image, Finset.mem_filter, Finset.mem_range]
      constructor
      · rintro ⟨k, a1, rfl, h, a2, a3⟩
        exact ⟨h, ⟨a2, by rw [a3]; simp, by rw [a3]; simpa using a1⟩, a3⟩
      · rintro ⟨h, ⟨a1, a2, a3⟩, rfl⟩
        obtain ⟨k, hk⟩ := Option.ne_none_iff_exists'.mp a2
        exact ⟨k, fun hc => a3 (by rw [hk, hc]), hk, h, a1, hk⟩
    rw [h2, Finset.card_image_of_injOn]
    intro x hx y hy hxy
    simp only [Finset.coe_filter, Finset.mem_range, Set.mem_ofPred_eq] at hx hy
    obtain ⟨k, hk⟩ := Option.ne_none_iff_exists'.mp hx.2.1
    have hxy' : tab x = tab y := hxy
    exact hd k (fun hc => hx.2.2 (by rw [hk, hc])) x hx.1 y hy.1 hk (by rw [← hxy', hk])
  · rw [Finset.disjoint_left]
    intro h ha hb
    simp only [Finset.mem_filter] at ha hb
    exact ha.2.2 hb.2

/-- C82: growing the table keeps the map, for every interleaving of the concurrent insertions in which every one
of them runs to its end; of the deleted keys at most one entry is left. -/
theorem c82_resize {hash : K → ℕ} {tomb : K} (empty : V) {t : Tbl K V} {s : Spec K V} (hr : Rep hash tomb t s)
    (incoming : ℕ) (hin : 2 ^ t.b < incoming) (sched : List (Slot t))
    (hfair : ∀ x, 3 * 2 ^ resizeBits t.b incoming < sched.count x) :
    Rep hash tomb (resize hash empty incoming t sched) ⟨s.m, s.used - s.dead + min s.dead 1, min s.dead 1⟩ := by
  set b' := resizeBits t.b incoming with hb'
  have hle : 2 * (2 ^ t.b + incoming) ≤ 2 ^ b' := Nat.le_pow_clog Nat.one_lt_two _
  have hU : (Finset.univ.image fun h : Slot t => (t.tab h.1).get h.2).card ≤ 2 ^ b' := by
    refine le_trans Finset.card_image_le ?_
    rw [Finset.card_univ]
    have h1 : Fintype.card (Slot t) ≤ Fintype.card (Fin (2 ^ t.b)) := Fintype.card_subtype_le _
    rw [Fintype.card_fin] at h1
    omega
  obtain ⟨hins, hwf⟩ := c45_insert (b := b') (hash := hash) (fun h : Slot t => (t.tab h.1).get h.2)
    (fun h : Slot t => t.val h.1) (val0 := fun _ => empty) (wf_empty b' hash)
    (Finset.univ.image fun h : Slot t => (t.tab h.1).get h.2) hU
    (fun k hk => by obtain ⟨h, _, hc⟩ := hk; simp [emptyTab] at hc)
    (fun x => Finset.mem_image_of_mem _ (Finset.mem_univ x)) sched (fun x => by
      refine lt_of_lt_of_eq (hfair x) ?_
      unfold List.count
      apply List.countP_congr
      intro y _
      rw [beq_iff_eq]
      exact (@beq_iff_eq (Slot t) instBEqOfDecidableEq _ y x).symm)
  have hres : resize hash empty incoming t sched =
      ⟨b', (run b' (fun h : Slot t => (t.tab h.1).get h.2) (fun h : Slot t => t.val h.1)
        sched (start b' hash (fun h : Slot t => (t.tab h.1).get h.2) emptyTab fun _ => empty)).tab,
        (run b' (fun h : Slot t => (t.tab h.1).get h.2) (fun h : Slot t => t.val h.1)
        sched (start b' hash (fun h : Slot t => (t.tab h.1).get h.2) emptyTab fun _ => empty)).val⟩ := by
    unfold resize
    rw [if_pos hin]
  rw [hres]
  set st := run b' (fun h : Slot t => (t.tab h.1).get h.2) (fun h : Slot t => t.val h.1)
    sched (start b' hash (fun h : Slot t => (t.tab h.1).get h.2) emptyTab fun _ => empty) with hst
  have hE : ∀ k, ¬ InTab b' (emptyTab : ℕ → Option K) k := by
    rintro k ⟨h, _, hc⟩
    simp [emptyTab] at hc
  have hslot : ∀ {h : ℕ} {k : K} (hh : h < 2 ^ t.b) (hk : t.tab h = some k),
      ∃ x : Slot t, x.1.1 = h ∧ (t.tab x.1).get x.2 = k := by
    intro h k hh hk
    refine ⟨⟨⟨h, hh⟩, by rw [hk]; rfl⟩, rfl, ?_⟩
    simp [hk]
  have hkeys : ∀ k, InTab b' st.tab k ↔ InTab t.b t.tab k := by
    intro k
    rw [hins.keys k]
    constructor
    · rintro (h | ⟨x, hx⟩)
      · exact absurd h (hE k)
      · exact ⟨x.1.1, x.1.2, by rw [← hx]; simp⟩
    · rintro ⟨h, hh, hk⟩
      obtain ⟨x, _, hx⟩ := hslot hh hk
      exact Or.inr ⟨x, hx⟩
  have hndo : ∀ k, k ≠ tomb → ∀ h < 2 ^ t.b, ∀ h' < 2 ^ t.b, t.tab h = some k → t.tab h' = some k → h = h' :=
    fun k hk h hh h' hh' h1 h2 => hr.noDup hk hh hh' h1 h2
  have hndn : ∀ k, k ≠ tomb → ∀ h < 2 ^ b', ∀ h' < 2 ^ b', st.tab h = some k → st.tab h' = some k → h = h' :=
    fun k hk h hh h' hh' h1 h2 => hins.noDup h hh h' hh' k h1 h2
  have hdead : ((Finset.range (2 ^ b')).filter fun h => st.tab h = some tomb).card = min s.dead 1 := by
    rw [← hr.dead]
    by_cases hT : InTab t.b t.tab tomb
    · have h1 : 1 ≤ ((Finset.range (2 ^ t.b)).filter fun h => t.tab h = some tomb).card := by
        obtain ⟨h, hh, hk⟩ := hT
        rw [Nat.one_le_iff_ne_zero, ← Nat.pos_iff_ne_zero, Finset.card_pos]
        exact ⟨h, by simp [hh, hk]⟩
      rw [min_eq_right h1]
      obtain ⟨h, hh, hk⟩ := (hkeys tomb).mpr hT
      rw [Finset.card_eq_one]
      refine ⟨h, ?_⟩
      ext h'
      simp only [Finset.mem_filter, Finset.mem_range, Finset.mem_singleton]
      constructor
      · rintro ⟨a1, a2⟩
        exact hins.noDup h' a1 h hh tomb a2 hk
      · rintro rfl
        exact ⟨hh, hk⟩
    · have h1 : ∀ h < 2 ^ b', st.tab h ≠ some tomb := fun h hh hk => hT ((hkeys tomb).mp ⟨h, hh, hk⟩)
      have h2 : ((Finset.range (2 ^ t.b)).filter fun h => t.tab h = some tomb) = ∅ := by
        rw [Finset.filter_eq_empty_iff]
        intro h hh hk
        exact hT ⟨h, Finset.mem_range.mp hh, hk⟩
      have h3 : ((Finset.range (2 ^ b')).filter fun h => st.tab h = some tomb) = ∅ := by
        rw [Finset.filter_eq_empty_iff]
        intro h hh hk
        exact h1 h (Finset.mem_range.mp hh) hk
      rw [h2, h3]
      rfl
  refine ⟨?_, ?_, hr.mtomb, ?_, hdead⟩
  · intro k hk h hh he
    exact hwf h hh k he
  · intro k hk v
    rw [hr.keys k hk v]
    dsimp only
    constructor
    · rintro ⟨h, h1, h2, h3⟩
      obtain ⟨h', a1, a2⟩ := (hkeys k).mpr ⟨h, h1, h2⟩
      refine ⟨h', a1, a2, ?_⟩
      obtain ⟨x, hx1, hx2⟩ := hslot h1 h2
      obtain ⟨w, ⟨b1, b2⟩, _⟩ := hins.winner k (hE k) ⟨x, hx2⟩
      have b1' : (t.tab w.1).get w.2 = k := b1
      have hw : w.1.1 = h := hr.noDup hk w.1.2 h1 (by rw [← b1']; simp) h2
      rw [hins.newVal w b2 h' a1 (by rw [a2]; exact congrArg some b1.symm), hw, h3]
    · rintro ⟨h', a1, a2, a3⟩
      obtain ⟨h, h1, h2⟩ := (hkeys k).mp ⟨h', a1, a2⟩
      refine ⟨h, h1, h2, ?_⟩
      obtain ⟨x, hx1, hx2⟩ := hslot h1 h2
      obtain ⟨w, ⟨b1, b2⟩, _⟩ := hins.winner k (hE k) ⟨x, hx2⟩
      have b1' : (t.tab w.1).get w.2 = k := b1
      have hw : w.1.1 = h := hr.noDup hk w.1.2 h1 (by rw [← b1']; simp) h2
      rw [← a3, hins.newVal w b2 h' a1 (by rw [a2]; exact congrArg some b1.symm), hw]
  · dsimp only
    rw [used_eq hndn, hdead]
    have h1 := used_eq hndo
    rw [hr.used, hr.dead] at h1
    have h2 : liveKeys tomb b' st.tab = liveKeys tomb t.b t.tab := by
      ext o
      rw [mem_liveKeys, mem_liveKeys]
      simp only [hkeys]
    rw [h2]
    omega

/-- C82: after growing there is room for `incoming` more keys at least. -/
theorem c82_resize_room {hash : K → ℕ} {tomb : K} (empty : V) {t : Tbl K V} {s : Spec K V} (hr : Rep hash tomb t s)
    (incoming : ℕ) (hin : 2 ^ t.b < incoming) (sched : List (Slot t)) :
    s.used - s.dead + min s.dead 1 + incoming < 2 ^ (resize hash empty incoming t sched).b := by
  have hle : 2 * (2 ^ t.b + incoming) ≤ 2 ^ resizeBits t.b incoming := Nat.le_pow_clog Nat.one_lt_two _
  have h1 : s.used ≤ 2 ^ t.b := by
    rw [← hr.used]
    exact le_trans (Finset.card_filter_le _ _) (by rw [Finset.card_range])
  have h2 : s.dead ≤ s.used := by
    rw [← hr.used, ← hr.dead]
    apply Finset.card_le_card
    intro h hh
    simp only [Finset.mem_filter] at hh ⊢
    exact ⟨hh.1, by rw [hh.2]; simp⟩
  unfold resize
  rw [if_pos hin]
  dsimp only
  have := Nat.min_le_left s.dead 1
  have := Nat.two_pow_pos t.b
  omega

/-! ### What does not hold -/

/-- C82: `entries` does not list the map once a key has been deleted: with `empty_key = 0` (so `tomb = -1`) the map
is empty and one entry is returned. -/
theorem c82_entries_false :
    ∃ (t : Tbl ℤ ℕ) (l : List (ℤ × ℕ)), execAll (fun k : ℤ => k.toNat) (-1) 0 5 (newTbl 2 0)
      [.insert 7 70, .mark 7, .entries] = .ok (t, [.bool true, .unit, .list l]) ∧
      ¬ Lists (fun _ => none : ℤ → Option ℕ) l := by
  refine ⟨_, [(-1, 70)], rfl, ?_⟩
  intro h
  exact absurd ((h.1 (-1) 70).mp (by simp)) (by simp)

/-- C82: after a deletion the table may claim to contain `empty_key - 1`, which was never inserted. -/
theorem c82_contains_false :
    ∃ t : Tbl ℤ ℕ, execAll (fun k : ℤ => k.toNat) (-1) 0 5 (newTbl 2 0)
      [.insert 4 70, .contains (-1), .mark 4, .contains (-1)] =
        .ok (t, [.bool true, .bool false, .unit, .bool true]) :=
  ⟨_, rfl⟩

/-- The table after four insertions, each followed by the deletion of the same key. -/
theorem full_tab :
    ∃ (t : Tbl ℤ ℕ) (os : List (Out ℤ ℕ)), execAll (fun k : ℤ => k.toNat) (-1) 0 5 (newTbl 2 0)
      [.insert 1 0, .mark 1, .insert 2 0, .mark 2, .insert 3 0, .mark 3, .insert 4 0, .mark 4] = .ok (t, os) ∧
      t.b = 2 ∧ ∀ h < 4, t.tab h = some (-1) := by
  refine ⟨_, _, rfl, by decide +kernel, by decide +kernel⟩

/-- C82: on a table constructed for two keys, after four insertions each followed by the deletion of the same key,
the map is empty, and `contains` never returns. -/
theorem c82_room_false :
    ∃ (t : Tbl ℤ ℕ) (os : List (Out ℤ ℕ)), execAll (fun k : ℤ => k.toNat) (-1) 0 5 (newTbl 2 0)
      [.insert 1 0, .mark 1, .insert 2 0, .mark 2, .insert 3 0, .mark 3, .insert 4 0, .mark 4] = .ok (t, os) ∧
      (∀ k v, k ≠ (-1 : ℤ) → (k, v) ∉ entries t) ∧
      ∀ fuel, contains t.b (fun k : ℤ => k.toNat) t.tab fuel 9 = .error .fuel := by
  obtain ⟨t, os, h1, h2, h3⟩ := full_tab
  refine ⟨t, os, h1, ?_, ?_⟩
  · intro k v hk hm
    obtain ⟨h, a1, a2, _⟩ := mem_entries.mp hm
    rw [h2] at a1
    rw [h3 h a1] at a2
    exact hk (by simpa using a2.symm)
  · intro fuel
    unfold contains
    rw [lookup_probe, probe_full]
    · rfl
    · intro h hh
      rw [h2] at hh
      rw [h3 h hh]
      simp
    · rw [h2]
      decide

/-! ### The hypotheses are satisfiable -/

/-- Calls that fit into a table for three keys, with deletions and a `clear`. -/
example : Fits (2 ^ initBits 3) (⟨fun _ => none, 0, 0⟩ : Spec ℤ ℕ)
    [.insert 1 10, .insert 5 50, .mark 1, .entries, .find 5 0, .clear, .insert 1 11, .contains 1] :=
  c82_fits 3 _ (by decide)

example : ∀ op ∈ ([.insert 1 10, .insert 5 50, .mark 1, .entries, .find 5 0, .clear, .insert 1 11,
    .contains 1] : List (Op ℤ ℕ)), op.key? ≠ some (-1) := by
  intro op h
  simp only [List.mem_cons, List.not_mem_nil, or_false] at h
  rcases h with rfl | rfl | rfl | rfl | rfl | rfl | rfl | rfl <;> simp [Op.key?]

/-- A table that holds a map with one key, one deleted key behind it. -/
theorem rep_example : ∃ t : Tbl ℤ ℕ, Rep (fun k : ℤ => k.toNat) (-1) t
    ⟨Function.update (Function.update (Function.update (fun _ => none) 1 (some 10)) 5 (some 50)) 1 none, 2, 1⟩ := by
  obtain ⟨t, os, h1, h2, h3, h4⟩ := execAll_rep (t := newTbl 3 0) 0 5
    [.insert 1 10, .insert 5 50, .mark (1 : ℤ)] (rep_empty (fun k : ℤ => k.toNat) (-1) (initBits 3) (fun _ => (0 : ℕ)))
    (c82_fits 3 _ (by decide)) (by decide +kernel) (by
      intro op h
      simp only [List.mem_cons, List.not_mem_nil, or_false] at h
      rcases h with rfl | rfl | rfl <;> simp [Op.key?])
  exact ⟨t, h3⟩

/-- Growing: a fair schedule of the copying loop exists for every table. -/
example (t : Tbl ℤ ℕ) (n : ℕ) : ∃ sched : List (Slot t), ∀ x, n < sched.count x :=
  ⟨(List.replicate (n + 1) (Finset.univ : Finset (Slot t)).toList).flatten, fun x => by
    have h1 : 0 < (Finset.univ : Finset (Slot t)).toList.count x :=
      List.count_pos_iff.mpr (Finset.mem_toList.mpr (Finset.mem_univ x))
    rw [List.count_flatten, List.map_replicate, List.sum_replicate]
    exact lt_of_lt_of_le (Nat.lt_succ_self n) (Nat.le_mul_of_pos_right _ h1)⟩

end Verif.Hash
