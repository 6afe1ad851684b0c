import Verif.LogTree.KnnLemmas

set_option linter.unusedSectionVars false
set_option linter.unusedVariables false

/-!
Properties C26, C27, C55 and C56: the log-structured tree.

Specifications: batches of items and multisets of positions; numbers of points. `content t` are the present items of one
tree, `stored P s` those of the buffer and of all trees together.
-/

namespace Verif.LogTree

open Verif BatchKd
open Verif.KnnBuf (KSmallest)

variable {α K : Type} {d : ℕ}

section
variable [Field K] [LinearOrder K] {pos : α → Point K d}

/-! ### Build configurations -/

/-- The default configuration splits any list of points into two non-empty sides. -/
theorem objectCfg_splits {nth : Fin d → ℕ → List α → List α} {srt : Fin d → List α → List α} {leafSize : ℕ}
    {par : ℕ → Bool} (hn : NthItems nth pos) (hs : SortItems srt pos) (hl : 1 ≤ leafSize) :
    Splits (objectCfg leafSize par nth srt pos) fun _ => True :=
  ⟨objectCfg_ok hn hs hl, fun _ _ _ _ => trivial, fun dim L _ hL => by
    rw [objectCfg_split_snd]
    have : leafSize < L.length := hL
    omega⟩

/-- Every good configuration splits points without equal coordinates. -/
theorem good_splits {c : Cfg α K d} (h : CfgGood pos c) : Splits c (DistinctCoords pos) :=
  ⟨h.ok, DistinctCoords.sub, h.sides⟩

theorem good_separates {c : Cfg α K d} (h : CfgGood pos c) : Separates pos c (DistinctCoords pos) := h.strict

/-! ### Histories -/

/-- States after a history of insert batches, all of which returned. The parallel loop may carry out the moves of a batch
in any order `ord`. -/
inductive Inserted (pos : α → Point K d) (P : Params α K d) (blank : α) : List (List α) → LT α K d → Prop
  | new : Inserted pos P blank [] (newTree P blank)
  | insert {bs : List (List α)} {s s' : LT α K d} {ord : List Move → List Move} (pts : List α)
      (h : Inserted pos P blank bs s) (hord : ∀ l, (ord l).Perm l) (he : insert pos P ord s pts = .ok s') :
      Inserted pos P blank (bs ++ [pts]) s'

theorem newTree_inv (P : Params α K d) (blank : α) :
    LInv pos P (newTree P blank) ∧ Clean (newTree P blank : LT α K d).buf ∧ Exact P (newTree P blank) ∧
      stored P (newTree P blank) = 0 ∧ AllSearchable pos P (newTree P blank) := by
  refine ⟨⟨Nat.two_pow_pos _, (emptyTree_inv blank _).1, rfl, fun i _ => (emptyTree_inv blank _).1, fun i _ => rfl, ?_, ?_⟩,
    (emptyTree_inv (pos := pos) blank _).2, ?_, ?_, ?_⟩
  · intro i _ h
    simp [newTree] at h
  · intro i _ _
    exact ⟨rfl, rfl⟩
  · intro i _ h
    simp [newTree] at h
  · have : ∀ l, content (emptyTree blank l : Tree α K d) = [] := fun l => by simp [emptyTree, content]
    simp [stored, total, newTree, this]
  · exact ⟨fun h => absurd rfl h, fun i _ h => absurd rfl h⟩

variable {P : Params α K d} {blank : α} {Q : List α → Prop}

theorem Inserted.inv (hs : Splits P.cs Q) (hb : Splits P.cb Q) {bs : List (List α)} {s : LT α K d}
    (h : Inserted pos P blank bs s) (hQ : Q bs.flatten) :
    LInv pos P s ∧ Clean s.buf ∧ Exact P s ∧ stored P s = (bs.flatten : Multiset α) ∧
      (Separates pos P.cs Q → Separates pos P.cb Q → AllSearchable pos P s) := by
  induction h with
  | new =>
    obtain ⟨h1, h2, h3, h4, h5⟩ := newTree_inv (pos := pos) P blank
    exact ⟨h1, h2, h3, h4, fun _ _ => h5⟩
  | @insert bs s s' ord pts h hord he ih =>
    have e : (bs ++ [pts]).flatten = bs.flatten ++ pts := by simp
    rw [e] at hQ ⊢
    obtain ⟨i1, i2, i3, i4, i5⟩ := ih (hs.sub _ _ (List.sublist_append_left _ _).subperm hQ)
    obtain ⟨f, rem, use, -, -, h1, h2⟩ := insert_spec hs hb ord hord i1 i2 pts (bs.flatten ++ pts)
      (by rw [i4, Multiset.coe_add]) hQ
    by_cases hov : 2 ^ P.numTrees ≤ s.mask + f
    · rw [h1 hov] at he
      cases he
    · obtain ⟨s2, g1, g2, g3, -, -, g6, g7, g8⟩ := h2 (by omega)
      rw [he] at g1
      cases g1
      exact ⟨g2, g3, g7 i3, by rw [g6, i4, Multiset.coe_add], fun a b => g8 a b (i5 a b)⟩

/-! ### C26 -/

theorem card_sum (g : ℕ → Multiset α) (T : ℕ) :
    Multiset.card (∑ i ∈ Finset.range T, g i) = ∑ i ∈ Finset.range T, Multiset.card (g i) :=
  map_sum (Multiset.cardHom) _ _

theorem treeSize_eq (P : Params α K d) (i : ℕ) : treeSize P.log2 i = 2 ^ i * P.B := by
  unfold treeSize Params.B
  rw [pow_add]

theorem stored_card {s : LT α K d} (hI : LInv pos P s) (hE : Exact P s) :
    Multiset.card (stored P s) = s.mask * P.B + s.buf.curSize := by
  unfold stored total
  rw [Multiset.card_add, Multiset.coe_card, ← hI.buf.size, add_comm]
  congr 1
  rw [card_sum]
  conv_rhs => rw [mask_sum_lt hI.mask, Finset.sum_mul]
  refine Finset.sum_congr rfl fun i hi => ?_
  rw [Finset.mem_range] at hi
  rw [Multiset.coe_card, ← (hI.tr i hi).size]
  cases hb : s.mask.testBit i with
  | true => rw [hE i hi hb, treeSize_eq]; simp
  | false => rw [(hI.empty i hi hb).1]; simp

/-- **C26, occupancy.** After any history of insert batches, in any order of the parallel moves: the mask is below `2^T`;
with `N` inserted points `N = mask * B + b` where the buffer holds `b ≤ B` points; and tree `i` holds `2^i * B` points if bit
`i` of the mask is set and none otherwise. `B` is the size of the buffer, `T` the number of trees. -/
theorem c26_occupancy (hs : Splits P.cs Q) (hb : Splits P.cb Q) {bs : List (List α)} {s : LT α K d}
    (h : Inserted pos P blank bs s) (hQ : Q bs.flatten) :
    s.mask < 2 ^ P.numTrees ∧ (content s.buf).length ≤ 2 ^ P.log2 ∧
      bs.flatten.length = s.mask * 2 ^ P.log2 + (content s.buf).length ∧
      ∀ i < P.numTrees, (content (s.trees i)).length = if s.mask.testBit i then 2 ^ i * 2 ^ P.log2 else 0 := by
  obtain ⟨hI, hC, hE, hS, -⟩ := h.inv hs hb hQ
  have hc := stored_card hI hE
  rw [hS, Multiset.coe_card] at hc
  refine ⟨hI.mask, ?_, ?_, ?_⟩
  · rw [← hI.buf.size]
    exact (inv_size_le hI.buf).trans hI.bufMax.le
  · rw [← hI.buf.size]
    exact hc
  · intro i hi
    rw [← (hI.tr i hi).size]
    cases hbit : s.mask.testBit i with
    | true => rw [hE i hi hbit, treeSize_eq]; rfl
    | false => rw [(hI.empty i hi hbit).1]; rfl

/-- **C26, capacity.** With `N` points stored, a batch of `n` points is refused (exception, nothing changed) exactly if
`N + n` exceeds `2^T * B`, or if it equals `2^T * B` while the buffer is empty and `n` is a multiple of `B`; otherwise the
batch is inserted. -/
theorem c26_capacity (hs : Splits P.cs Q) (hb : Splits P.cb Q) {bs : List (List α)} {s : LT α K d}
    (h : Inserted pos P blank bs s) (pts : List α) (hQ : Q (bs.flatten ++ pts)) (ord : List Move → List Move)
    (hord : ∀ l, (ord l).Perm l) :
    let n := bs.flatten.length + pts.length
    let cap := 2 ^ P.numTrees * 2 ^ P.log2
    ((cap < n ∨ (n = cap ∧ (content s.buf).length = 0 ∧ 2 ^ P.log2 ∣ pts.length)) →
      insert pos P ord s pts = .error .throws) ∧
    (¬ (cap < n ∨ (n = cap ∧ (content s.buf).length = 0 ∧ 2 ^ P.log2 ∣ pts.length)) →
      ∃ s', insert pos P ord s pts = .ok s') := by
  obtain ⟨hI, hC, hE, hS, -⟩ := h.inv hs hb (hs.sub _ _ (List.sublist_append_left _ _).subperm hQ)
  have hBpos : 0 < P.B := by unfold Params.B; positivity
  obtain ⟨f, rem, use, hp, hlen, h1, h2⟩ := insert_spec hs hb ord hord hI hC pts (bs.flatten ++ pts)
    (by rw [hS, Multiset.coe_add]) hQ
  have hc := stored_card hI hE
  rw [hS, Multiset.coe_card] at hc
  have hbB : s.buf.curSize ≤ P.B := by rw [← hI.bufMax]; exact inv_size_le hI.buf
  have hmod := Nat.mod_lt pts.length hBpos
  have key : (2 ^ P.numTrees * P.B < bs.flatten.length + pts.length ∨ (bs.flatten.length + pts.length =
      2 ^ P.numTrees * P.B ∧ s.buf.curSize = 0 ∧ P.B ∣ pts.length)) ↔ 2 ^ P.numTrees ≤ s.mask + f := by
    -- what is left in the buffer
    obtain ⟨b', hb', hb'B, hz⟩ : ∃ b', bs.flatten.length + pts.length = (s.mask + f) * P.B + b' ∧ b' ≤ P.B ∧
        (b' = 0 ↔ s.buf.curSize = 0 ∧ P.B ∣ pts.length) := by
      refine ⟨if use = true then rem else s.buf.curSize + rem, ?_, ?_, ?_⟩
      · rw [hc, add_mul, mul_comm f]
        omega
      · unfold plan at hp
        split at hp <;> simp only [Prod.mk.injEq] at hp <;> obtain ⟨-, rfl, rfl⟩ := hp
        · simp only [if_true]; omega
        · simp only [Bool.false_eq_true, if_false]; omega
      · rw [Nat.dvd_iff_mod_eq_zero]
        unfold plan at hp
        split at hp <;> simp only [Prod.mk.injEq] at hp <;> obtain ⟨-, rfl, rfl⟩ := hp
        · simp only [if_true]; omega
        · simp only [Bool.false_eq_true, if_false]; omega
    rw [← hz, hb']
    constructor
    · rintro (hlt | ⟨heq, h0⟩)
      · by_contra hno
        have := Nat.mul_le_mul_right P.B (show s.mask + f + 1 ≤ 2 ^ P.numTrees by omega)
        rw [add_mul, one_mul] at this
        omega
      · rw [h0, add_zero] at heq
        exact (Nat.eq_of_mul_eq_mul_right hBpos heq).ge
    · intro hle
      have := Nat.mul_le_mul_right P.B hle
      rcases Nat.lt_or_ge (2 ^ P.numTrees * P.B) ((s.mask + f) * P.B + b') with hlt | hge
      · exact .inl hlt
      · exact .inr ⟨by omega, by omega⟩
  intro n cap
  rw [← hI.buf.size]
  refine ⟨fun hh => h1 (key.1 hh), fun hh => ?_⟩
  obtain ⟨s', hs', -⟩ := h2 (Nat.lt_of_not_le fun hle => hh (key.2 hle))
  exact ⟨s', hs'⟩

/-! ### C27 -/

theorem size_eq {s : LT α K d} (hI : LInv pos P s) : size P s = Multiset.card (stored P s) := by
  unfold size stored total
  rw [Multiset.card_add, Multiset.coe_card, ← hI.buf.size, card_sum]
  congr 1
  rw [← List.sum_toFinset _ (List.nodup_range.filter _), List.toFinset_filter, Finset.sum_filter, List.toFinset_range]
  refine Finset.sum_congr rfl fun i hi => ?_
  rw [Finset.mem_range] at hi
  rw [Multiset.coe_card, ← (hI.tr i hi).size]
  cases hb : s.mask.testBit i with
  | true => simp
  | false => rw [(hI.empty i hi hb).1]; simp

/-- **C27.** After any history of insert batches, in any order of the parallel moves, the items stored in the buffer and the
trees are exactly the inserted ones, with multiplicity, and `size` is their number. -/
theorem c27_stored (hs : Splits P.cs Q) (hb : Splits P.cb Q) {bs : List (List α)} {s : LT α K d}
    (h : Inserted pos P blank bs s) (hQ : Q bs.flatten) :
    ((content s.buf ++ (List.range P.numTrees).flatMap fun i => content (s.trees i)).Perm bs.flatten) ∧
      size P s = bs.flatten.length := by
  obtain ⟨hI, hC, hE, hS, -⟩ := h.inv hs hb hQ
  refine ⟨?_, by rw [size_eq hI, hS, Multiset.coe_card]⟩
  rw [← Multiset.coe_eq_coe, ← hS, ← Multiset.coe_add, flatMap_sum]
  rfl

/-- C26 and C27 for the default configuration: any points, any leaf sizes, any schedule. -/
theorem c27_default {nth nth' : Fin d → ℕ → List α → List α} {srt srt' : Fin d → List α → List α} {leaf leaf' : ℕ}
    {par par' : ℕ → Bool} (hn : NthItems nth pos) (hs : SortItems srt pos) (hl : 1 ≤ leaf)
    (hn' : NthItems nth' pos) (hs' : SortItems srt' pos) (hl' : 1 ≤ leaf') (T log2 : ℕ) (d0 : Fin d)
    {bs : List (List α)} {s : LT α K d}
    (h : Inserted pos ⟨T, log2, objectCfg leaf par nth srt pos, objectCfg leaf' par' nth' srt' pos, d0⟩ blank bs s) :
    (content s.buf ++ (List.range T).flatMap fun i => content (s.trees i)).Perm bs.flatten ∧
      s.mask < 2 ^ T ∧ (content s.buf).length ≤ 2 ^ log2 ∧
      bs.flatten.length = s.mask * 2 ^ log2 + (content s.buf).length ∧
      ∀ i < T, (content (s.trees i)).length = if s.mask.testBit i then 2 ^ i * 2 ^ log2 else 0 := by
  have a := c27_stored (objectCfg_splits hn hs hl) (objectCfg_splits hn' hs' hl') h trivial
  have b := c26_occupancy (objectCfg_splits hn hs hl) (objectCfg_splits hn' hs' hl') h trivial
  exact ⟨a.1, b⟩

/-! ### Mixed histories -/

/-- States after insert batches and erase batches that returned. Before an insertion all stored points together with the new
ones satisfy `Q`; an erase batch does not empty a non-empty buffer. -/
inductive LReach (pos : α → Point K d) (P : Params α K d) (part : Fin d → K → List (Point K d) → List (Point K d))
    (blank : α) (Q : List α → Prop) : LT α K d → Prop
  | new : LReach pos P part blank Q (newTree P blank)
  | insert {s s' : LT α K d} {ord : List Move → List Move} (pts : List α)
      (h : LReach pos P part blank Q s) (hq : ∀ U : List α, (U : Multiset α) = stored P s + (pts : Multiset α) → Q U)
      (hord : ∀ l, (ord l).Perm l) (he : insert pos P ord s pts = .ok s') : LReach pos P part blank Q s'
  | erase {s s' : LT α K d} {bulk : Bool} {ord : List Move → List Move} (pts : List (Point K d))
      (h : LReach pos P part blank Q s) (hg : content s.buf = [] ∨ ∃ x ∈ content s.buf, pos x ∉ pts)
      (hord : ∀ l, (ord l).Perm l) (he : erase pos bulk P ord part s pts = .ok s') : LReach pos P part blank Q s'

variable {part : Fin d → K → List (Point K d) → List (Point K d)}

theorem LReach.inv (hs : Splits P.cs Q) (hb : Splits P.cb Q) (hQ0 : Q [])
    (hpart : PartItems part (id : Point K d → Point K d)) {s : LT α K d} (h : LReach pos P part blank Q s) :
    LInv pos P s ∧ Clean s.buf ∧ (∃ U : List α, (U : Multiset α) = stored P s ∧ Q U) ∧
      (Separates pos P.cs Q → Separates pos P.cb Q → AllSearchable pos P s) := by
  induction h with
  | new =>
    obtain ⟨h1, h2, h3, h4, h5⟩ := newTree_inv (pos := pos) P blank
    exact ⟨h1, h2, ⟨[], by rw [h4]; rfl, hQ0⟩, fun _ _ => h5⟩
  | @insert s s' ord pts h hq hord he ih =>
    obtain ⟨i1, i2, -, i4⟩ := ih
    obtain ⟨U, hU⟩ : ∃ U : List α, (U : Multiset α) = stored P s + (pts : Multiset α) := ⟨_, Multiset.coe_toList _⟩
    obtain ⟨f, rem, use, -, -, h1, h2⟩ := insert_spec hs hb ord hord i1 i2 pts U hU (hq U hU)
    by_cases hov : 2 ^ P.numTrees ≤ s.mask + f
    · rw [h1 hov] at he
      cases he
    · obtain ⟨s2, g1, g2, g3, -, -, g6, g7, g8⟩ := h2 (by omega)
      rw [he] at g1
      cases g1
      exact ⟨g2, g3, ⟨U, by rw [hU, g6], hq U hU⟩, fun a b => g8 a b (i4 a b)⟩
  | @erase s s' bulk ord pts h hg hord he ih =>
    obtain ⟨i1, i2, ⟨U, hU, hQ⟩, i4⟩ := ih
    obtain ⟨s2, buf', trees', g1, g2, g3, g4, g5, g6, g7⟩ := erase_spec bulk hs hb ord hord hpart i1 i2 pts
      (hg.imp (fun h => by rw [i1.buf.size, h]; rfl) id) U hU hQ
    rw [he] at g1
    cases g1
    obtain ⟨V, hV⟩ : ∃ V : List α, (V : Multiset α) = stored P s' := ⟨_, Multiset.coe_toList _⟩
    refine ⟨g2, g3, ⟨V, hV, hs.sub U V ?_ hQ⟩, fun a b => g7 a b (i4 a b)⟩
    rw [← Multiset.coe_le, hV, g6, hU]
    unfold stored
    exact add_le_add (Multiset.coe_le.2 g4.sub.subperm)
      (Finset.sum_le_sum fun i hi => Multiset.coe_le.2 (g5 i (Finset.mem_range.1 hi)).sub.subperm)

/-! ### C55: queries -/

theorem stored_flatMap (P : Params α K d) (s : LT α K d) :
    stored P s = ((content s.buf ++ (List.range P.numTrees).flatMap fun i => content (s.trees i) : List α) : Multiset α) := by
  rw [← Multiset.coe_add, flatMap_sum]
  rfl

/-- **C55, orthogonal queries.** In every reachable state, whatever the points, the serial and the parallel query return
exactly the stored items in the closed box, with multiplicity. -/
theorem c55_orthogonalQuery (hs : Splits P.cs Q) (hb : Splits P.cb Q) (hQ0 : Q [])
    (hpart : PartItems part (id : Point K d → Point K d)) {s : LT α K d} (h : LReach pos P part blank Q s) (q : Box K d) :
    let all := content s.buf ++ (List.range P.numTrees).flatMap fun i => content (s.trees i)
    orthogonalQuery pos P s q = all.filter (fun x => decide (∀ i, q.lo i ≤ pos x i ∧ pos x i ≤ q.hi i)) ∧
      (orthogonalQueryPar pos P s q).Perm (orthogonalQuery pos P s q) := by
  obtain ⟨hI, -⟩ := h.inv hs hb hQ0 hpart
  intro all
  constructor
  · unfold orthogonalQuery
    rw [orthogonalQuery_inv hI.buf, List.filter_append, List.filter_flatMap]
    congr 1
    refine List.flatMap_congr fun i hi => ?_
    exact orthogonalQuery_inv (hI.tr i (List.mem_range.1 hi)) q
  · unfold orthogonalQueryPar orthogonalQuery
    rw [List.flatten_append, List.flatMap_def]
    simp only [List.flatten_cons, List.flatten_nil, List.append_nil]
    exact List.perm_append_comm

theorem contains_inv {t : Tree α K d} (hI : Inv pos t) (hS : SearchableT pos t) (p : Point K d) :
    ∃ r, BatchKd.contains pos t p = .ok r ∧ (r = true ↔ ∃ x ∈ content t, pos x = p) := by
  unfold BatchKd.contains
  by_cases h0 : t.curSize = 0
  · rw [if_pos h0]
    have hct : content t = [] := List.eq_nil_of_length_eq_zero (hI.size.symm.trans h0)
    exact ⟨false, rfl, by simp [hct]⟩
  · rw [if_neg h0]
    obtain ⟨g, hs, he⟩ := hI.good h0
    obtain ⟨r, h1, h2⟩ := containsAt_eq g (hS h0) p
    rw [hs, he, ← content_eq] at h2
    exact ⟨r, h1, h2⟩

theorem mapM_contains {ts : ℕ → Tree α K d} (p : Point K d) : ∀ (L : List ℕ),
    (∀ i ∈ L, Inv pos (ts i) ∧ SearchableT pos (ts i)) →
    ∃ bs, (L.mapM fun i => BatchKd.contains pos (ts i) p) = .ok bs ∧
      (bs.any id = true ↔ ∃ x ∈ L.flatMap fun i => content (ts i), pos x = p)
  | [], _ => ⟨[], rfl, by simp⟩
  | i :: L, h => by
    obtain ⟨r, h1, h2⟩ := contains_inv (h i (by simp)).1 (h i (by simp)).2 p
    obtain ⟨bs, h3, h4⟩ := mapM_contains p L fun j hj => h j (by simp [hj])
    refine ⟨r :: bs, ?_, ?_⟩
    · rw [List.mapM_cons, h1, h3]
      rfl
    · rw [List.any_cons, Bool.or_eq_true, h4, List.flatMap_cons]
      simp only [id, h2, List.mem_append]
      constructor
      · rintro (⟨x, hx, e⟩ | ⟨x, hx, e⟩)
        · exact ⟨x, .inl hx, e⟩
        · exact ⟨x, .inr hx, e⟩
      · rintro ⟨x, hx | hx, e⟩
        · exact .inl ⟨x, hx, e⟩
        · exact .inr ⟨x, hx, e⟩

theorem contains_ok {s : LT α K d} (hI : LInv pos P s) (hA : AllSearchable pos P s) (p : Point K d) :
    ∃ r, contains pos P s p = .ok r ∧ (r = true ↔ ∃ x ∈ stored P s, pos x = p) := by
  obtain ⟨r, h1, h2⟩ := contains_inv hI.buf hA.1 p
  obtain ⟨bs, h3, h4⟩ := mapM_contains (pos := pos) (ts := s.trees) p (List.range P.numTrees)
    fun i hi => ⟨hI.tr i (List.mem_range.1 hi), hA.2 i (List.mem_range.1 hi)⟩
  refine ⟨r || bs.any id, ?_, ?_⟩
  · unfold contains
    rw [h1]
    show Except.map _ _ = _
    rw [h3]
    rfl
  · rw [Bool.or_eq_true, h2, h4, stored_flatMap]
    simp only [Multiset.mem_coe, List.mem_append]
    constructor
    · rintro (⟨x, hx, e⟩ | ⟨x, hx, e⟩)
      · exact ⟨x, .inl hx, e⟩
      · exact ⟨x, .inr hx, e⟩
    · rintro ⟨x, hx | hx, e⟩
      · exact .inl ⟨x, hx, e⟩
      · exact .inr ⟨x, hx, e⟩

/-- **C55, `contains`.** For points without equal coordinates in a dimension, `contains` sees exactly the stored
positions. -/
theorem c55_contains_partial (hs : CfgGood pos P.cs) (hb : CfgGood pos P.cb)
    (hpart : PartItems part (id : Point K d → Point K d)) {s : LT α K d}
    (h : LReach pos P part blank (DistinctCoords pos) s) (p : Point K d) :
    ∃ r, contains pos P s p = .ok r ∧
      (r = true ↔ ∃ x ∈ content s.buf ++ (List.range P.numTrees).flatMap fun i => content (s.trees i), pos x = p) := by
  obtain ⟨hI, -, -, hA⟩ := h.inv (good_splits hs) (good_splits hb) (fun _ => List.nodup_nil) hpart
  obtain ⟨r, h1, h2⟩ := contains_ok hI (hA (good_separates hs) (good_separates hb)) p
  rw [stored_flatMap] at h2
  exact ⟨r, h1, h2⟩

end

section
variable [Field K] [LinearOrder K] [IsStrictOrderedRing K] {pos : α → Point K d} {P : Params α K d} {blank : α}
  {Q : List α → Prop} {part : Fin d → K → List (Point K d) → List (Point K d)}
  {nth : ℕ → List (K × α) → List (K × α)} {dist : Point K d → Point K d → K}

theorem fullTrees_inv {s : LT α K d} (hI : LInv pos P s) : ∀ t ∈ fullTrees P s, Inv pos t ∧ t.curSize ≠ 0 := by
  intro t ht
  unfold fullTrees at ht
  rw [List.mem_append] at ht
  rcases ht with ht | ht
  · split at ht
    · simp at ht
    · rename_i h0
      rw [List.mem_singleton] at ht
      subst ht
      exact ⟨hI.buf, h0⟩
  · obtain ⟨i, hi, rfl⟩ := List.mem_map.1 ht
    rw [List.mem_filter, List.mem_range] at hi
    refine ⟨hI.tr i hi.1, ?_⟩
    have h1 := hI.full i hi.1 hi.2
    have h2 : 0 < treeSize P.log2 i := by unfold treeSize; positivity
    omega

theorem fullTrees_items {s : LT α K d} (hI : LInv pos P s) :
    treeItems (fullTrees P s) = content s.buf ++ (List.range P.numTrees).flatMap fun i => content (s.trees i) := by
  unfold treeItems fullTrees
  rw [List.flatMap_append]
  congr 1
  · split
    · rename_i h0
      rw [List.eq_nil_of_length_eq_zero (hI.buf.size.symm.trans h0)]
      rfl
    · simp
  · rw [List.flatMap_map]
    have : ∀ L : List ℕ, (∀ i ∈ L, i < P.numTrees) →
        (L.filter fun i => s.mask.testBit i).flatMap (fun i => content (s.trees i)) =
          L.flatMap fun i => content (s.trees i) := by
      intro L hL
      induction L with
      | nil => rfl
      | cons i L ih =>
        rw [List.filter_cons]
        cases hb : s.mask.testBit i with
        | true =>
          rw [if_pos rfl, List.flatMap_cons, List.flatMap_cons, ih fun j hj => hL j (by simp [hj])]
        | false =>
          rw [if_neg (by simp), List.flatMap_cons, ih fun j hj => hL j (by simp [hj])]
          have hi := hL i (by simp)
          rw [List.eq_nil_of_length_eq_zero ((hI.tr i hi).size.symm.trans (hI.empty i hi hb).1)]
          rfl
    exact this _ fun i hi => List.mem_range.1 hi

/-- **C55, nearest neighbours.** In every reachable state, whatever the points, with either way of updating the radius and of
searching the sibling: if the first tree that is searched (the buffer if it is not empty, else the smallest full tree) has at
least `k` points, every row of `knn` (and of `knn2`) has `k` stored items of smallest distance to its query. If it has
points but fewer than `k`, every query throws, however many points the other trees have. -/
theorem c55_knn_partial (hs : Splits P.cs Q) (hb : Splits P.cb Q) (hQ0 : Q [])
    (hpart : PartItems part (id : Point K d → Point K d)) (hn : NthPairs nth) (hdist : IsCoordDist dist)
    {s : LT α K d} (h : LReach pos P part blank Q s) (update recurse : Bool) {k : ℕ} (hk : 1 ≤ k)
    {t : Tree α K d} (ht : (fullTrees P s).head? = some t) :
    (k ≤ (content t).length → ∀ qs : List (Point K d),
      ∃ rows, knn pos nth dist P update recurse s k qs = .ok rows ∧
        List.Forall₂ (fun q row => KSmallest (fun x => dist q (pos x)) k
          (content s.buf ++ (List.range P.numTrees).flatMap fun i => content (s.trees i)) row) qs rows) ∧
    ((content t).length < k → ∀ q : Point K d, knn pos nth dist P update recurse s k [q] = .error .throws) := by
  obtain ⟨hI, -⟩ := h.inv hs hb hQ0 hpart
  have hinv := fullTrees_inv hI
  have hitems := fullTrees_items hI
  obtain ⟨ts, hts⟩ : ∃ ts, fullTrees P s = t :: ts := by
    cases hc : fullTrees P s with
    | nil => rw [hc] at ht; simp at ht
    | cons a l => rw [hc] at ht; simp at ht; exact ⟨l, by rw [ht]⟩
  rw [hts] at hinv hitems
  have hsz := (hinv t (by simp)).1.size
  constructor
  · intro hlen qs
    unfold knn
    rw [hts]
    refine mapM_forall₂ qs fun q _ => ?_
    rw [← hitems]
    exact knnTrees_ok hn hdist update recurse hk q hinv (by omega)
  · intro hlen q
    unfold knn
    rw [hts, List.mapM_cons, knnTrees_throws hn hdist update recurse q (hinv t (by simp)).1 (hinv t (by simp)).2
      (by omega)]
    rfl

/-- **C55, nearest neighbours from the largest tree down (`knn3`).** The largest tree must have `k` points. -/
theorem c55_knn3_partial (hs : Splits P.cs Q) (hb : Splits P.cb Q) (hQ0 : Q [])
    (hpart : PartItems part (id : Point K d → Point K d)) (hn : NthPairs nth) (hdist : IsCoordDist dist)
    {s : LT α K d} (h : LReach pos P part blank Q s) (update recurse : Bool) {k : ℕ} (hk : 1 ≤ k)
    {t : Tree α K d} (ht : (fullTrees P s).getLast? = some t) (hlen : k ≤ (content t).length)
    (qs : List (Point K d)) :
    ∃ rows, knn3 pos nth dist P update recurse s k qs = .ok rows ∧
      List.Forall₂ (fun q row => KSmallest (fun x => dist q (pos x)) k
        (content s.buf ++ (List.range P.numTrees).flatMap fun i => content (s.trees i)) row) qs rows := by
  obtain ⟨hI, -⟩ := h.inv hs hb hQ0 hpart
  have hinv := fullTrees_inv hI
  have hitems := fullTrees_items hI
  obtain ⟨ts, hts⟩ : ∃ ts, (fullTrees P s).reverse = t :: ts := by
    rw [← List.head?_reverse] at ht
    cases hc : (fullTrees P s).reverse with
    | nil => rw [hc] at ht; simp at ht
    | cons a l => rw [hc] at ht; simp at ht; exact ⟨l, by rw [ht]⟩
  have hinv' : ∀ t' ∈ t :: ts, Inv pos t' ∧ t'.curSize ≠ 0 := fun t' h' => by
    rw [← hts, List.mem_reverse] at h'
    exact hinv t' h'
  have hsz := (hinv' t (by simp)).1.size
  have hperm : (treeItems (t :: ts)).Perm
      (content s.buf ++ (List.range P.numTrees).flatMap fun i => content (s.trees i)) := by
    rw [← hitems, ← hts]
    exact (List.reverse_perm _).flatMap_right _
  unfold knn3
  rw [hts]
  refine mapM_forall₂ qs fun q _ => ?_
  obtain ⟨row, h1, h2, rest, h3, h4⟩ := knnTrees_ok hn hdist update recurse hk q hinv' (by omega)
  exact ⟨row, h1, h2, rest, h3.trans hperm, h4⟩

/-- **C55, parallel nearest neighbours.** If the structure is not empty and every non-empty tree and buffer has at least `k`
points, the combination of the results of the trees is right. -/
theorem c55_knnPar_partial (hs : Splits P.cs Q) (hb : Splits P.cb Q) (hQ0 : Q [])
    (hpart : PartItems part (id : Point K d → Point K d)) (hn : NthPairs nth) (hdist : IsCoordDist dist)
    {s : LT α K d} (h : LReach pos P part blank Q s) (update recurse : Bool) {k : ℕ} (hk : 1 ≤ k)
    (hne : fullTrees P s ≠ []) (hlen : ∀ t ∈ fullTrees P s, k ≤ (content t).length) (qs : List (Point K d)) :
    ∃ rows, knnPar pos nth dist P update recurse s k qs = .ok rows ∧
      List.Forall₂ (fun q row => KSmallest (fun x => dist q (pos x)) k
        (content s.buf ++ (List.range P.numTrees).flatMap fun i => content (s.trees i)) row) qs rows := by
  obtain ⟨hI, -⟩ := h.inv hs hb hQ0 hpart
  have hinv := fullTrees_inv hI
  unfold knnPar
  refine mapM_forall₂ qs fun q _ => ?_
  rw [← fullTrees_items hI]
  exact knnPar_ok hn hdist update recurse hk q hne fun t ht => ⟨(hinv t ht).1, by
    rw [(hinv t ht).1.size]; exact hlen t ht⟩

end

section
variable [Field K] [LinearOrder K] {pos : α → Point K d} {P : Params α K d} {blank : α}
  {part : Fin d → K → List (Point K d) → List (Point K d)}

/-! ### C56: erasing -/

/-- Histories of insert and erase batches with the multiset `M` of positions that should be stored. No two stored positions
share a coordinate, and an erase batch does not empty a non-empty buffer. -/
inductive Hist (pos : α → Point K d) (P : Params α K d) (part : Fin d → K → List (Point K d) → List (Point K d))
    (blank : α) : Multiset (Point K d) → LT α K d → Prop
  | new : Hist pos P part blank 0 (newTree P blank)
  | insert {M : Multiset (Point K d)} {s s' : LT α K d} {ord : List Move → List Move} (pts : List α)
      (h : Hist pos P part blank M s) (hq : DistinctPositions (M + ((pts.map pos : List _) : Multiset (Point K d))))
      (hord : ∀ l, (ord l).Perm l) (he : insert pos P ord s pts = .ok s') :
      Hist pos P part blank (M + ((pts.map pos : List _) : Multiset (Point K d))) s'
  | erase {M : Multiset (Point K d)} {s s' : LT α K d} {bulk : Bool} {ord : List Move → List Move} (pts : List (Point K d))
      (h : Hist pos P part blank M s) (hg : content s.buf = [] ∨ ∃ x ∈ content s.buf, pos x ∉ pts)
      (hord : ∀ l, (ord l).Perm l) (he : erase pos bulk P ord part s pts = .ok s') :
      Hist pos P part blank (M - (pts : Multiset (Point K d))) s'

theorem sub_add_of_nodup {β : Type} [DecidableEq β] {a b c : Multiset β} (h : (a + b).Nodup) :
    (a - c) + (b - c) = (a + b) - c := by
  ext p
  have := Multiset.nodup_iff_count_le_one.1 h p
  rw [Multiset.count_add] at this
  simp only [Multiset.count_add, Multiset.count_sub]
  omega

theorem sum_sub_of_nodup {β : Type} [DecidableEq β] (c : Multiset β) (g : ℕ → Multiset β) : ∀ T : ℕ,
    (∑ i ∈ Finset.range T, g i).Nodup →
    (∑ i ∈ Finset.range T, (g i - c)) = (∑ i ∈ Finset.range T, g i) - c
  | 0, _ => by simp
  | T + 1, h => by
    rw [Finset.sum_range_succ] at h ⊢
    rw [Finset.sum_range_succ, sum_sub_of_nodup c g T (Multiset.nodup_of_le (Multiset.le_add_right _ _) h),
      sub_add_of_nodup h]

theorem distinct_nodup {M : Multiset (Point K d)} (d0 : Fin d) (h : DistinctPositions M) : M.Nodup :=
  Multiset.Nodup.of_map _ (h d0)

theorem distinct_mono {M N : Multiset (Point K d)} (h : DistinctPositions M) (hl : N ≤ M) : DistinctPositions N :=
  fun dim => Multiset.nodup_of_le (Multiset.map_le_map hl) (h dim)

theorem map_stored (s : LT α K d) : (stored P s).map pos = (((content s.buf).map pos : List _) : Multiset (Point K d)) +
    ∑ i ∈ Finset.range P.numTrees, (((content (s.trees i)).map pos : List _) : Multiset (Point K d)) := by
  unfold stored total
  rw [Multiset.map_add, Multiset.map_coe]
  congr 1
  exact map_sum (Multiset.mapAddMonoidHom pos) _ _

theorem Hist.spec (hs : CfgGood pos P.cs) (hb : CfgGood pos P.cb) (hpart : PartItems part (id : Point K d → Point K d))
    {M : Multiset (Point K d)} {s : LT α K d} (h : Hist pos P part blank M s) :
    LInv pos P s ∧ Clean s.buf ∧ AllSearchable pos P s ∧ (stored P s).map pos = M ∧ DistinctPositions M := by
  have dq : ∀ (U : List α) (N : Multiset (Point K d)), (U : Multiset α).map pos = N → DistinctPositions N →
      DistinctCoords pos U := by
    intro U N e hN
    rw [← distinct_iff, ← Multiset.map_coe, e]
    exact hN
  induction h with
  | new =>
    obtain ⟨h1, h2, h3, h4, h5⟩ := newTree_inv (pos := pos) P blank
    exact ⟨h1, h2, h5, by rw [h4]; rfl, fun _ => Multiset.nodup_zero⟩
  | @insert M s s' ord pts h hq hord he ih =>
    obtain ⟨i1, i2, i3, i4, i5⟩ := ih
    obtain ⟨U, hU⟩ : ∃ U : List α, (U : Multiset α) = stored P s + (pts : Multiset α) := ⟨_, Multiset.coe_toList _⟩
    have hUm : (U : Multiset α).map pos = M + ((pts.map pos : List _) : Multiset (Point K d)) := by
      rw [hU, Multiset.map_add, i4, Multiset.map_coe]
    obtain ⟨f, rem, use, -, -, h1, h2⟩ := insert_spec (good_splits hs) (good_splits hb) ord hord i1 i2 pts U hU
      (dq U _ hUm hq)
    by_cases hov : 2 ^ P.numTrees ≤ s.mask + f
    · rw [h1 hov] at he
      cases he
    · obtain ⟨s2, g1, g2, g3, -, -, g6, g7, g8⟩ := h2 (by omega)
      rw [he] at g1
      cases g1
      exact ⟨g2, g3, g8 (good_separates hs) (good_separates hb) i3, by rw [g6, ← hU, hUm], hq⟩
  | @erase M s s' bulk ord pts h hg hord he ih =>
    obtain ⟨i1, i2, i3, i4, i5⟩ := ih
    obtain ⟨U, hU⟩ : ∃ U : List α, (U : Multiset α) = stored P s := ⟨_, Multiset.coe_toList _⟩
    obtain ⟨s2, buf', trees', g1, g2, g3, g4, g5, g6, g7⟩ := erase_spec bulk (good_splits hs) (good_splits hb) ord hord hpart
      i1 i2 pts (hg.imp (fun h => by rw [i1.buf.size, h]; rfl) id) U hU (dq U M (by rw [hU, i4]) i5)
    rw [he] at g1
    cases g1
    refine ⟨g2, g3, g7 (good_separates hs) (good_separates hb) i3, ?_, distinct_mono i5 (Multiset.sub_le_self _ _)⟩
    have hnd := distinct_nodup P.d0 i5
    rw [← i4, map_stored] at hnd
    rw [← i4, g6, map_stored]
    have e2 : (total P.numTrees trees').map pos =
        ∑ i ∈ Finset.range P.numTrees, (((content (trees' i)).map pos : List _) : Multiset (Point K d)) :=
      map_sum (Multiset.mapAddMonoidHom pos) _ _
    rw [Multiset.map_add, Multiset.map_coe, e2, (g4.search i3.1).2, eraseAll_positions]
    have e3 : ∀ i ∈ Finset.range P.numTrees, (((content (trees' i)).map pos : List _) : Multiset (Point K d)) =
        (((content (s.trees i)).map pos : List _) : Multiset (Point K d)) - (pts : Multiset (Point K d)) := by
      intro i hi
      rw [Finset.mem_range] at hi
      rw [((g5 i hi).search (i3.2 i hi)).2, eraseAll_positions]
    rw [Finset.sum_congr rfl e3, sum_sub_of_nodup _ _ _ (Multiset.nodup_of_le (Multiset.le_add_left _ _) hnd),
      sub_add_of_nodup hnd]

/-- **C56 (partial).** For histories without equal coordinates in which no erase batch empties a non-empty buffer: the stored
positions are those inserted and not erased, `size` is their number, `contains` answers accordingly, and erasing such a
batch always returns (the reinsertion of half-empty trees never runs out of trees). -/
theorem c56_history_partial (hs : CfgGood pos P.cs) (hb : CfgGood pos P.cb)
    (hpart : PartItems part (id : Point K d → Point K d)) {M : Multiset (Point K d)} {s : LT α K d}
    (h : Hist pos P part blank M s) :
    (((content s.buf ++ (List.range P.numTrees).flatMap fun i => content (s.trees i)).map pos : List _) :
      Multiset (Point K d)) = M ∧ size P s = Multiset.card M ∧
    (∀ p, ∃ r, contains pos P s p = .ok r ∧ (r = true ↔ p ∈ M)) ∧
    ∀ (bulk : Bool) (pts : List (Point K d)) (ord : List Move → List Move), (∀ l, (ord l).Perm l) →
      (content s.buf = [] ∨ ∃ x ∈ content s.buf, pos x ∉ pts) → ∃ s', erase pos bulk P ord part s pts = .ok s' := by
  obtain ⟨hI, hC, hA, hS, hD⟩ := h.spec hs hb hpart
  refine ⟨?_, ?_, ?_, ?_⟩
  · rw [← hS, stored_flatMap, Multiset.map_coe]
  · rw [size_eq hI, ← hS, Multiset.card_map]
  · intro p
    obtain ⟨r, h1, h2⟩ := contains_ok hI hA p
    refine ⟨r, h1, h2.trans ?_⟩
    rw [← hS, Multiset.mem_map]
  · intro bulk pts ord hord hg
    obtain ⟨U, hU⟩ : ∃ U : List α, (U : Multiset α) = stored P s := ⟨_, Multiset.coe_toList _⟩
    obtain ⟨s2, -, -, g1, -⟩ := erase_spec bulk (good_splits hs) (good_splits hb) ord hord hpart hI hC pts
      (hg.imp (fun h => by rw [hI.buf.size, h]; rfl) id) U hU
      (by rw [← distinct_iff, ← Multiset.map_coe, hU, hS]; exact hD)
    exact ⟨s2, g1⟩

/-- **C56, any points.** Whatever the points (default configuration: `Q` is always true), an erase batch that does not empty a
non-empty buffer returns and removes, from the buffer and from every tree, only items listed in the batch, each listed
point at most once per tree; trees that keep their place stay more than half full. -/
theorem c56_erase_sound_partial {Q : List α → Prop} (hs : Splits P.cs Q) (hb : Splits P.cb Q) (hQ0 : Q [])
    (hpart : PartItems part (id : Point K d → Point K d)) {s : LT α K d} (h : LReach pos P part blank Q s)
    (bulk : Bool) (pts : List (Point K d)) (ord : List Move → List Move) (hord : ∀ l, (ord l).Perm l)
    (hg : content s.buf = [] ∨ ∃ x ∈ content s.buf, pos x ∉ pts) :
    ∃ (s' : LT α K d) (Rb : List α) (R : ℕ → List α), erase pos bulk P ord part s pts = .ok s' ∧
      stored P s = stored P s' + (Rb : Multiset α) + ∑ i ∈ Finset.range P.numTrees, (R i : Multiset α) ∧
      (Rb.map pos).Subperm pts ∧ (∀ i < P.numTrees, ((R i).map pos).Subperm pts) ∧
      ∀ i < P.numTrees, s'.mask.testBit i = true → 2 ^ i * 2 ^ P.log2 < 2 * (content (s'.trees i)).length := by
  obtain ⟨hI, hC, ⟨U, hU, hQ⟩, -⟩ := h.inv hs hb hQ0 hpart
  obtain ⟨s2, buf', trees', g1, g2, g3, g4, g5, g6, g7⟩ := erase_spec bulk hs hb ord hord hpart hI hC pts
    (hg.imp (fun h => by rw [hI.buf.size, h]; rfl) id) U hU hQ
  obtain ⟨Rb, r1, r2⟩ := g4.removed
  have hR : ∀ i, ∃ R : List α, i < P.numTrees →
      (content (s.trees i)).Perm (content (trees' i) ++ R) ∧ (R.map pos).Subperm pts := by
    intro i
    by_cases hi : i < P.numTrees
    · obtain ⟨R, a, b⟩ := (g5 i hi).removed
      exact ⟨R, fun _ => ⟨a, b⟩⟩
    · exact ⟨[], fun h => absurd h hi⟩
  choose R hR using hR
  refine ⟨s2, Rb, R, g1, ?_, r2, fun i hi => (hR i hi).2, ?_⟩
  · rw [g6]
    unfold stored total
    have e1 : (content s.buf : Multiset α) = (content buf' : Multiset α) + (Rb : Multiset α) := by
      rw [Multiset.coe_add, Multiset.coe_eq_coe]
      exact r1
    have e2 : ∀ i ∈ Finset.range P.numTrees, (content (s.trees i) : Multiset α) =
        (content (trees' i) : Multiset α) + (R i : Multiset α) := by
      intro i hi
      rw [Multiset.coe_add, Multiset.coe_eq_coe]
      exact (hR i (Finset.mem_range.1 hi)).1
    rw [e1, Finset.sum_congr rfl e2, Finset.sum_add_distrib]
    abel
  · intro i hi hbit
    rw [← (g2.tr i hi).size]
    have := g2.full i hi hbit
    rw [treeSize_eq] at this
    exact this

end

/-! ### Examples and failures -/

/-- Two trees (of two and four points) over a buffer of two points, object median, leaf size 1. -/
def P2 : Params (ℚ × ℚ) ℚ 2 := ⟨2, 1, cfgO, cfgO, 0⟩

/-- What a state shows: size, mask, `contains` of some points, result of a box query. -/
structure Shown where
  size : ℕ
  mask : ℕ
  found : List (Option Bool)
  box : List (ℚ × ℚ)
  deriving DecidableEq

/-- Observation of a state (for examples). -/
def look (ps : List (ℚ × ℚ)) (q : Box ℚ 2) (r : Except Err (LT (ℚ × ℚ) ℚ 2)) :
    Option Shown :=
  match r with
  | .ok s => some ⟨size P2 s, s.mask,
      ps.map (fun p => match contains ppos P2 s (ppos p) with | .ok b => some b | .error _ => none),
      orthogonalQuery ppos P2 s q⟩
  | .error _ => none

/-- Insert and erase batches, one after the other (for examples). -/
def runOps : List (List (ℚ × ℚ) ⊕ List (ℚ × ℚ)) → LT (ℚ × ℚ) ℚ 2 → Except Err (LT (ℚ × ℚ) ℚ 2)
  | [], s => .ok s
  | .inl pts :: ops, s => (insert ppos P2 id s pts).bind (runOps ops)
  | .inr pts :: ops, s => (erase ppos true P2 id (stablePart id) s (pts.map ppos)).bind (runOps ops)

/-- The example configuration meets the hypotheses of all theorems above. -/
example : Splits P2.cs (fun _ => True) ∧ CfgGood ppos P2.cs ∧
    PartItems (stablePart id) (id : Point ℚ 2 → Point ℚ 2) ∧ NthPairs (nthPairs : ℕ → List (ℚ × (ℚ × ℚ)) → _) :=
  ⟨objectCfg_splits (par := fun _ => false) (nthBySort_ok ppos) (sortBy_ok ppos) (le_refl 1), cfgO_good, stablePart_ok _, nthPairs_ok⟩

/-- A history of three batches with a carry: nothing is lost (C26, C27). -/
example : look [(1, 1), (4, 4), (6, 6), (9, 9)] ⟨pt 0 0, pt 9 9⟩
    (runOps [.inl [(1, 1), (2, 2), (3, 3)], .inl [(4, 4), (5, 5)], .inl [(6, 6)]] (newTree P2 (0, 0))) =
    some ⟨6, 2, [some true, some true, some true, some false], [(1, 1), (6, 6), (2, 2), (3, 3), (4, 4), (5, 5)]⟩ := by
  decide +kernel

/-- Such histories are reachable: the state after the first batch. -/
example : ∃ s, Inserted ppos P2 (0, 0) [[(1, 1), (2, 2), (3, 3)]] s := by
  have hs := objectCfg_splits (par := fun _ => false) (nthBySort_ok ppos) (sortBy_ok ppos) (le_refl 1)
  obtain ⟨-, h2⟩ := c26_capacity (P := P2) (blank := (0, 0)) hs hs .new [(1, 1), (2, 2), (3, 3)] trivial id fun _ => List.Perm.refl _
  obtain ⟨s, h⟩ := h2 (by decide)
  exact ⟨s, Inserted.insert (bs := []) _ .new (fun _ => List.Perm.refl _) h⟩

/-- The boundary of the capacity (`2^2 * 2 = 8`): eight points in one batch are refused, one and then seven are stored. -/
example : (runOps [.inl [(1, 1), (2, 2), (3, 3), (4, 4), (5, 5), (6, 6), (7, 7), (8, 8)]] (newTree P2 (0, 0))).toOption.isNone ∧
    look [] ⟨pt 0 0, pt 9 9⟩ (runOps [.inl [(1, 1)], .inl [(2, 2), (3, 3), (4, 4), (5, 5), (6, 6), (7, 7), (8, 8)]]
      (newTree P2 (0, 0))) =
      some ⟨8, 3, [], [(1, 1), (2, 2), (3, 3), (4, 4), (5, 5), (6, 6), (7, 7), (8, 8)]⟩ := by
  decide +kernel

/-- An erase batch that leaves a tree half empty, within the hypotheses of C56. -/
example : look [(2, 2), (3, 3)] ⟨pt 0 0, pt 9 9⟩
    (runOps [.inl [(1, 1), (2, 2), (3, 3)], .inr [(2, 2)]] (newTree P2 (0, 0))) =
    some ⟨2, 0, [some false, some true], [(1, 1), (3, 3)]⟩ := by
  decide +kernel

/-- **C55 fails for `knn` with a small buffer.** Three points are stored, but asking for two neighbours throws because the
buffer, which is searched first, holds one point. -/
theorem c55_small_buffer_false :
    look [] ⟨pt 0 0, pt 9 9⟩ (runOps [.inl [(1, 1), (2, 2), (3, 3)]] (newTree P2 (0, 0))) =
      some ⟨3, 1, [], [(1, 1), (2, 2), (3, 3)]⟩ ∧
    ((runOps [.inl [(1, 1), (2, 2), (3, 3)]] (newTree P2 (0, 0))).bind fun s =>
      knn ppos nthPairs (fun p q => (p 0 - q 0) * (p 0 - q 0)) P2 false false s 2 [pt 0 0]).toOption.isNone := by
  decide +kernel

/-- **C56 fails for copies in different trees.** Two copies of a point are stored, one erase of the point removes both. -/
theorem c56_copies_false :
    look [(2, 2)] ⟨pt 0 0, pt 9 9⟩
      (runOps [.inl [(1, 1), (2, 2), (3, 3)], .inl [(2, 2)]] (newTree P2 (0, 0))) =
      some ⟨4, 1, [some true], [(1, 1), (2, 2), (2, 2), (3, 3)]⟩ ∧
    look [(2, 2)] ⟨pt 0 0, pt 9 9⟩
      (runOps [.inl [(1, 1), (2, 2), (3, 3)], .inl [(2, 2)], .inr [(2, 2)]] (newTree P2 (0, 0))) =
      some ⟨2, 0, [some false], [(1, 1), (3, 3)]⟩ := by
  decide +kernel

/-- **C56 fails when an erase batch empties the buffer.** The point `(3, 3)`, never erased, is moved from the half-empty tree
to the buffer by the erase itself and can no longer be found, although `size` still counts it. -/
theorem c56_empty_buffer_false :
    look [(3, 3)] ⟨pt 0 0, pt 9 9⟩ (runOps [.inl [(1, 1), (2, 2), (3, 3)]] (newTree P2 (0, 0))) =
      some ⟨3, 1, [some true], [(1, 1), (2, 2), (3, 3)]⟩ ∧
    look [(3, 3)] ⟨pt 0 0, pt 9 9⟩
      (runOps [.inl [(1, 1), (2, 2), (3, 3)], .inr [(1, 1), (2, 2)]] (newTree P2 (0, 0))) =
      some ⟨1, 0, [some false], []⟩ := by
  decide +kernel

end Verif.LogTree
