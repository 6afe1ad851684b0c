import Verif.OctTree.BuildLemmas
import Verif.Delaunay.DelaunayProps

set_option linter.unusedSectionVars false
set_option linter.unusedVariables false

/-!
C42: the oct-tree search of the triangulation is exact. The specification speaks of squared distances of the vertices
given and of the pointers returned.
-/

namespace Verif.OctTree

variable {V : Type} {d : ℕ} {pos : V → Fin d → ℝ} {v : V}

/-- Specification: squared distance. -/
def sq (a b : Fin d → ℝ) : ℝ := ∑ i, (a i - b i) * (a i - b i)

/-- Specification: `out` has the `k` vertices of `others` nearest to `v`, the nearest first; null pointers at the end if
there are fewer than `k`. -/
def KNearest (pos : V → Fin d → ℝ) (v : V) (others : List V) (k : ℕ) (out : List (Option V)) : Prop :=
  ∃ res rest : List V, out = res.map some ++ List.replicate (k - others.length) none ∧
    res.length = min k others.length ∧ others.Perm (res ++ rest) ∧
    res.Pairwise (fun a b => sq (pos v) (pos a) ≤ sq (pos v) (pos b)) ∧
    ∀ a ∈ res, ∀ b ∈ rest, sq (pos v) (pos a) ≤ sq (pos v) (pos b)

variable [DecidableEq V]

theorem BInv.result {k : ℕ} (hk : 0 < k) {S : List V} {b : Buf V} (h : BInv pos v k S b) :
    KNearest pos v S k (b.map Prod.snd).reverse := by
  obtain ⟨j, us, e⟩ := BInv.shape (pos := pos) (v := v) h.desc h.entry
  obtain ⟨rest, h1, h2⟩ := h.content
  have hlen := h.length
  have hfm : b.filterMap Prod.snd = us := by
    rw [e, List.filterMap_append, List.filterMap_replicate_of_none rfl, List.nil_append, List.filterMap_map]
    have : ((Prod.snd : WithTop ℝ × Option V → Option V) ∘
        fun u => (((len (pos v) (pos u) : ℝ) : WithTop ℝ), some u)) = some := rfl
    rw [this, List.filterMap_some]
  rw [hfm] at h1
  have hdesc := h.desc
  rw [e, List.pairwise_append, List.pairwise_map] at hdesc
  have hjl : j + us.length = k := by
    rw [← hlen, e]
    simp
  have hrest : 0 < j → rest = [] := by
    intro hj
    by_contra hne
    obtain ⟨u, hu⟩ := List.exists_mem_of_ne_nil _ hne
    have := h2 u hu
    rw [e] at this
    obtain ⟨j, rfl⟩ := Nat.exists_eq_succ_of_ne_zero hj.ne'
    simp [Buf.dist0, List.replicate_succ] at this
  have hSl : S.length = us.length + rest.length := by rw [h1.length_eq, List.length_append]
  refine ⟨us.reverse, rest, ?_, ?_, ?_, ?_, ?_⟩
  · rw [e, List.map_append, List.reverse_append, List.map_replicate, List.reverse_replicate, List.map_map,
      List.map_reverse]
    congr 2
    rcases Nat.eq_zero_or_pos j with hj | hj
    · omega
    · rw [hrest hj] at hSl
      simp at hSl
      omega
  · rw [List.length_reverse]
    rcases Nat.eq_zero_or_pos j with hj | hj
    · omega
    · rw [hrest hj] at hSl
      simp at hSl
      omega
  · exact h1.trans ((List.reverse_perm us).symm.append_right rest)
  · rw [List.pairwise_reverse]
    refine hdesc.2.1.imp fun {a c} hac => ?_
    simp only [WithTop.coe_le_coe] at hac
    exact (len_le_iff _ _ _).mp hac
  · intro a ha c hc
    rw [List.mem_reverse] at ha
    rcases Nat.eq_zero_or_pos j with hj | hj
    · subst hj
      have h0 := h2 c hc
      rw [e] at h0
      cases us with
      | nil => simp at ha
      | cons w us =>
        simp only [Buf.dist0, List.replicate_zero, List.nil_append, List.map_cons, List.head?_cons, Option.map_some,
          Option.getD_some, WithTop.coe_le_coe] at h0
        refine le_trans ?_ ((len_le_iff _ _ _).mp h0)
        rcases List.mem_cons.mp ha with rfl | ha
        · exact le_rfl
        · have := (List.pairwise_cons.mp hdesc.2.1).1 a ha
          simp only [WithTop.coe_le_coe] at this
          exact (len_le_iff _ _ _).mp this
    · rw [hrest hj] at hc
      simp at hc

/-- The search is exact on every tree whose boxes contain the vertices. -/
theorem kNearest_ok {T : OT V d} (hT : BoxOk pos T) {k maxK : ℕ} (hk : 0 < k) (hm : k ≤ maxK) :
    ∃ out, kNearest maxK pos T v k = .ok out ∧ KNearest pos v (T.flatten.filter fun u => decide (u ≠ v)) k out := by
  refine ⟨((nearestRec pos v T (List.replicate k (⊤, none))).map Prod.snd).reverse, ?_, ?_⟩
  · unfold kNearest initBuf
    rw [if_neg (by omega), if_neg (by omega)]
    rfl
  · have := nearestRec_inv (pos := pos) (v := v) hk T hT (BInv.init k)
    rw [List.nil_append] at this
    exact this.result hk

theorem KNearest.perm {others others' : List V} {k : ℕ} {out : List (Option V)} (h : KNearest pos v others k out)
    (hp : others'.Perm others) : KNearest pos v others' k out := by
  obtain ⟨res, rest, h1, h2, h3, h4, h5⟩ := h
  exact ⟨res, rest, by rw [hp.length_eq]; exact h1, by rw [hp.length_eq]; exact h2, hp.trans h3, h4, h5⟩

/-- Contract of `parlay::sort` with the comparison of the tags. -/
structure SortsTags (sort : List (ℕ × V) → List (ℕ × V)) : Prop where
  perm : ∀ l, (sort l).Perm l
  sorted : ∀ l, (sort l).Pairwise fun x y => x.1 ≤ y.1

theorem sortsTags_insertionSort : SortsTags (V := V) (List.insertionSort fun x y => x.1 ≤ y.1) := by
  have : Std.Total (fun x y : ℕ × V => x.1 ≤ y.1) := ⟨fun x y => le_total _ _⟩
  have : IsTrans (ℕ × V) (fun x y : ℕ × V => x.1 ≤ y.1) := ⟨fun x y z => le_trans⟩
  exact ⟨fun l => List.perm_insertionSort _ l, fun l => List.pairwise_insertionSort _ l⟩

/-! ### The tags -/

theorem getBox_ok {P : List V} (h : P ≠ []) : ∃ lo hi, getBox pos P = .ok (lo, hi) ∧
    (∀ u ∈ P, ∀ i, lo i ≤ pos u i ∧ pos u i ≤ hi i) ∧ ∀ i, (∃ u ∈ P, lo i = pos u i) ∧ ∃ u ∈ P, hi i = pos u i := by
  cases P with
  | nil => exact absurd rfl h
  | cons a l =>
    refine ⟨_, _, rfl, fun u hu i => ⟨?_, ?_⟩, fun i => ⟨?_, ?_⟩⟩
    · exact (foldl_min (fun v => pos v i) (a :: l) _).2.1 u hu
    · exact (foldl_max (fun v => pos v i) (a :: l) _).2.1 u hu
    · by_contra hcon
      push Not at hcon
      have key : ∀ (l : List V) (x : ℝ), l.foldl (fun x v => min x (pos v i)) x = x ∨
          ∃ u ∈ l, l.foldl (fun x v => min x (pos v i)) x = pos u i := by
        intro l
        induction l with
        | nil => exact fun x => Or.inl rfl
        | cons b l ih =>
          intro x
          rw [List.foldl_cons]
          rcases ih (min x (pos b i)) with h | ⟨u, hu, h⟩
          · rcases min_choice x (pos b i) with e | e
            · left
              rw [h, e]
            · right
              exact ⟨b, by simp, by rw [h, e]⟩
          · right
            exact ⟨u, by simp [hu], h⟩
      rcases key (a :: l) (pos a i) with e | ⟨u, hu, e⟩
      · exact hcon a (by simp) e
      · exact hcon u hu e
    · by_contra hcon
      push Not at hcon
      have key : ∀ (l : List V) (x : ℝ), l.foldl (fun x v => max x (pos v i)) x = x ∨
          ∃ u ∈ l, l.foldl (fun x v => max x (pos v i)) x = pos u i := by
        intro l
        induction l with
        | nil => exact fun x => Or.inl rfl
        | cons b l ih =>
          intro x
          rw [List.foldl_cons]
          rcases ih (max x (pos b i)) with h | ⟨u, hu, h⟩
          · rcases max_choice x (pos b i) with e | e
            · left
              rw [h, e]
            · right
              exact ⟨b, by simp, by rw [h, e]⟩
          · right
            exact ⟨u, by simp [hu], h⟩
      rcases key (a :: l) (pos a i) with e | ⟨u, hu, e⟩
      · exact hcon a (by simp) e
      · exact hcon u hu e

theorem mapM_map_ok {A B : Type} (f : A → Except Err B) (g : A → B) : ∀ l : List A, (∀ a ∈ l, f a = .ok (g a)) →
    l.mapM f = .ok (l.map g)
  | [], _ => rfl
  | a :: l, h => by
    rw [List.mapM_cons, h a (by simp), mapM_map_ok f g l fun b hb => h b (by simp [hb])]
    rfl

theorem foldl_max_fin (f : Fin d → ℝ) : ∀ (l : List (Fin d)) (x : ℝ), x ≤ l.foldl (fun x i => max x (f i)) x ∧
    ∀ i ∈ l, f i ≤ l.foldl (fun x i => max x (f i)) x := fun l x =>
  ⟨(foldl_max f l x).1, (foldl_max f l x).2.1⟩

/-- C42: the tags. With two different points each vertex gets a tag; it has `64 / d` bits of each coordinate of the
position in the bounding box, rounded down, interleaved. -/
theorem c42_tags {P : List V} (h : ∃ u ∈ P, ∃ w ∈ P, pos u ≠ pos w) :
    ∃ (pts : List (ℕ × V)) (lo : Fin d → ℝ) (delta : ℝ), tags pos P = .ok pts ∧ pts.map Prod.snd = P ∧ 0 < delta ∧
      (∀ u ∈ P, ∀ i, lo i ≤ pos u i ∧ pos u i ≤ lo i + delta) ∧
      ∀ x ∈ pts, x.1 < 2 ^ (d * (64 / d)) ∧ ∀ (i : ℕ) (k : Fin d), i < 64 / d →
        x.1.testBit (i * d + k.val) =
          (⌊((2 ^ (64 / d) - 1 : ℕ) : ℝ) * (pos x.2 k - lo k) / delta⌋₊).testBit i := by
  obtain ⟨u, hu, w, hw, huw⟩ := h
  have hne : P ≠ [] := fun e => by simp [e] at hu
  obtain ⟨lo, hi, hb, hbox, hatt⟩ := getBox_ok (pos := pos) hne
  set delta := (List.finRange d).foldl (fun x i => max x (hi i - lo i)) 0 with hdelta
  have hmax := foldl_max_fin (fun i => hi i - lo i) (List.finRange d) 0
  have hpos : 0 < delta := by
    obtain ⟨i, hi'⟩ := Function.ne_iff.mp huw
    have h1 := hbox u hu i
    have h2 := hbox w hw i
    have h3 := hmax.2 i (by simp)
    have : 0 < hi i - lo i := by
      rcases lt_or_gt_of_ne hi' with g | g <;> linarith [h1.1, h1.2, h2.1, h2.2]
    exact lt_of_lt_of_le this h3
  set tag : V → ℕ := fun v => (List.range (64 / d)).foldl (fun r i => (List.finRange d).foldl
      (fun r k => r ||| (((⌊((2 ^ (64 / d) - 1 : ℕ) : ℝ) * (pos v k - lo k) / delta⌋₊ >>> i) &&& 1) <<<
        (i * d + k.val))) r) 0 with htag
  refine ⟨P.map fun v => (tag v, v), lo, delta, ?_, ?_, hpos, ?_, ?_⟩
  · unfold tags
    rw [hb]
    simp only [Except.bind]
    rw [← hdelta]
    refine mapM_map_ok _ _ P fun v _ => ?_
    unfold interleaveBits
    simp only
    rw [if_neg hpos.ne']
    rfl
  · rw [List.map_map]
    exact List.map_id'' (fun v => rfl) P
  · intro u hu i
    have h1 := hbox u hu i
    have h3 := hmax.2 i (by simp)
    exact ⟨h1.1, by linarith [h1.2]⟩
  · intro x hx
    obtain ⟨v, hv, rfl⟩ := List.mem_map.mp hx
    refine ⟨interleave_lt _ _, fun i k hi => ?_⟩
    have := interleave_bit (fun k => ⌊((2 ^ (64 / d) - 1 : ℕ) : ℝ) * (pos v k - lo k) / delta⌋₊) (64 / d) i k
    rw [decide_eq_true hi, Bool.true_and] at this
    exact this

/-! ### Theorems -/

/-- C42: for a list of vertices with at least two different points, `k_nearest` on the tree built from it gives the `k`
nearest other vertices, sorted by distance. Each leaf of the tree has fewer than 20 vertices, or its vertices have the
same tag. -/
theorem c42_kNearest {search : (ℕ × V → Bool) → List (ℕ × V) → ℕ} (hs : BinSearch search)
    {sort : List (ℕ × V) → List (ℕ × V)} (hsort : SortsTags sort) {P : List V} (hP : ∃ u ∈ P, ∃ w ∈ P, pos u ≠ pos w) :
    ∃ T pts, tags pos P = .ok pts ∧ build search sort pos P = .ok T ∧ T.flatten.Perm P ∧
      (∀ L ∈ T.leaves, L.length < 20 ∨ ∃ t, ∀ u ∈ L, (t, u) ∈ pts) ∧
      ∀ (v : V) (k maxK : ℕ), 0 < k → k ≤ maxK → ∃ out, kNearest maxK pos T v k = .ok out ∧
        KNearest pos v (P.filter fun u => decide (u ≠ v)) k out := by
  obtain ⟨pts, lo, delta, h1, h2, h3, h4, h5⟩ := c42_tags hP
  have hpne : sort pts ≠ [] := by
    intro e
    have := (hsort.perm pts).length_eq
    rw [e] at this
    have h0 : pts = [] := List.length_eq_zero_iff.mp this.symm
    rw [h0] at h2
    obtain ⟨u, hu, -⟩ := hP
    rw [← h2] at hu
    simp at hu
  obtain ⟨T, t1, t2, t3, t4⟩ := buildRec_ok (pos := pos) hs.le (d * (64 / d)) (sort pts) hpne
  have hperm : T.flatten.Perm P := by
    rw [t3, ← h2]
    exact (hsort.perm pts).map _
  refine ⟨T, pts, h1, ?_, hperm, ?_, ?_⟩
  · unfold build
    rw [h1]
    exact t1
  · intro L hL
    rcases buildRec_leaf (pos := pos) hs (d * (64 / d)) (sort pts) 0 (fun x hx =>
      Nat.div_eq_of_lt (h5 x ((hsort.perm pts).mem_iff.mp hx)).1) (hsort.sorted pts) T t1 L hL with h | ⟨t, ht⟩
    · exact Or.inl h
    · exact Or.inr ⟨t, fun u hu => (hsort.perm pts).mem_iff.mp (ht u hu)⟩
  · intro v k maxK hk hm
    obtain ⟨out, o1, o2⟩ := kNearest_ok (v := v) t2 hk hm
    exact ⟨out, o1, o2.perm (hperm.symm.filter _)⟩

/-- The hypotheses hold for four vertices at three points of the plane. -/
example : ∃ T : OT ℕ 2, build (fun p l => (l.takeWhile p).length) (List.insertionSort fun x y => x.1 ≤ y.1)
    (fun n : ℕ => ![((n % 3 : ℕ) : ℝ), 0]) [0, 1, 2, 3] = .ok T ∧ ∃ out,
      kNearest 2 (fun n : ℕ => ![((n % 3 : ℕ) : ℝ), 0]) T 0 2 = .ok out ∧
      KNearest (fun n : ℕ => ![((n % 3 : ℕ) : ℝ), 0]) 0 [1, 2, 3] 2 out := by
  obtain ⟨T, pts, -, h2, -, -, h5⟩ := c42_kNearest (pos := fun n : ℕ => ![((n % 3 : ℕ) : ℝ), 0]) binSearch_takeWhile
    sortsTags_insertionSort (P := [0, 1, 2, 3]) ⟨0, by simp, 1, by simp, fun h => by
      have := congrFun h 0
      simp at this⟩
  exact ⟨T, h2, h5 0 2 2 (by norm_num) le_rfl⟩

/-- C42: `nearest` gives a nearest other vertex. -/
theorem c42_nearest {T : OT V d} (hT : BoxOk pos T) {maxK : ℕ} (hm : 1 ≤ maxK) (hne : ∃ u ∈ T.flatten, u ≠ v) :
    ∃ u, nearest maxK pos T v = .ok (some u) ∧ u ∈ T.flatten ∧ u ≠ v ∧
      ∀ w ∈ T.flatten, w ≠ v → sq (pos v) (pos u) ≤ sq (pos v) (pos w) := by
  obtain ⟨out, h1, res, rest, h2, h3, h4, h5, h6⟩ := kNearest_ok (v := v) hT Nat.one_pos hm
  obtain ⟨u0, hu0, hu0v⟩ := hne
  have hl : 1 ≤ (T.flatten.filter fun u => decide (u ≠ v)).length := by
    apply List.length_pos_of_mem (a := u0)
    simp [hu0, hu0v]
  have : ∃ u, res = [u] := List.length_eq_one_iff.mp (by omega)
  obtain ⟨u, rfl⟩ := this
  have hu : u ∈ T.flatten.filter fun u => decide (u ≠ v) := h4.mem_iff.mpr (by simp)
  refine ⟨u, ?_, List.mem_of_mem_filter hu, by simpa using (List.mem_filter.mp hu).2, ?_⟩
  · unfold nearest
    rw [h1, h2]
    simp [Except.map]
  · intro w hw hwv
    have : w ∈ [u] ++ rest := h4.mem_iff.mp (by simp [hw, hwv])
    rcases List.mem_append.mp this with h | h
    · rw [List.mem_singleton] at h
      rw [h]
    · exact h6 u (by simp) w h

/-- C42: `near` gives some other vertex of the leaf it goes to, or the null pointer if there is none in it. -/
theorem c42_near (T : OT V d) {maxK : ℕ} (hm : 1 ≤ maxK) :
    ∃ r, near maxK pos T v = .ok r ∧ (∀ u, r = some u → u ∈ T.flatten ∧ u ≠ v) ∧
      ((∀ L ∈ T.leaves, ∃ u ∈ L, u ≠ v) → r ≠ none) := by
  have hB := (BInv.init (pos := pos) (v := v) 1).scan Nat.one_pos (nearLeaf pos v T)
  rw [List.nil_append] at hB
  obtain ⟨res, rest, h2, h3, h4, h5, h6⟩ := hB.result Nat.one_pos
  set b := scanLeaf pos v (nearLeaf pos v T) (List.replicate 1 (⊤, none)) with hb
  refine ⟨b.head?.bind Prod.snd, ?_, ?_, ?_⟩
  · unfold near initBuf
    rw [if_neg (by omega), if_neg (by omega)]
    simp only [Except.map]
    rw [nearRec_eq]
  · intro u hu
    have hlen := hB.length
    obtain ⟨x, hx⟩ := List.length_eq_one_iff.mp hlen
    rw [hx] at hu h2
    simp only [List.head?_cons, Option.bind_some] at hu
    simp only [List.map_cons, List.map_nil, List.reverse_singleton] at h2
    rw [hu] at h2
    have hur : u ∈ res := by
      have : some u ∈ res.map some ++ List.replicate (1 - ((nearLeaf pos v T).filter fun u => decide (u ≠ v)).length) none := by
        rw [← h2]
        simp
      rcases List.mem_append.mp this with h | h
      · simpa using h
      · have := List.eq_of_mem_replicate h
        simp at this
    have hu' : u ∈ (nearLeaf pos v T).filter fun u => decide (u ≠ v) := h4.mem_iff.mpr (by simp [hur])
    exact ⟨nearLeaf_sub T u (List.mem_of_mem_filter hu'), by simpa using (List.mem_filter.mp hu').2⟩
  · intro hL hnone
    have hmem : ∀ T : OT V d, nearLeaf pos v T ∈ T.leaves := by
      intro T
      induction T with
      | leaf P lo hi => simp [nearLeaf, OT.leaves]
      | node L R lo hi ihL ihR =>
        unfold nearLeaf OT.leaves
        split
        · exact List.mem_append_left _ ihL
        · exact List.mem_append_right _ ihR
    obtain ⟨u, hu, huv⟩ := hL _ (hmem T)
    have hl : 1 ≤ ((nearLeaf pos v T).filter fun u => decide (u ≠ v)).length := by
      apply List.length_pos_of_mem (a := u)
      simp [hu, huv]
    obtain ⟨x, hx⟩ := List.length_eq_one_iff.mp hB.length
    rw [hx] at hnone h2
    simp only [List.head?_cons, Option.bind_some] at hnone
    simp only [List.map_cons, List.map_nil, List.reverse_singleton] at h2
    rw [hnone] at h2
    obtain ⟨w, rfl⟩ : ∃ w, res = [w] := List.length_eq_one_iff.mp (by omega)
    simp at h2

/-- When all points are equal, in particular for a single vertex, building the tree divides zero by zero and converts the
result to an integer: the behaviour is undefined. -/
theorem c42_equal_ub (search : (ℕ × V → Bool) → List (ℕ × V) → ℕ) (sort : List (ℕ × V) → List (ℕ × V)) {P : List V}
    (hP : ∀ u ∈ P, ∀ w ∈ P, pos u = pos w) : build search sort pos P = .error .ub := by
  cases P with
  | nil => rfl
  | cons a l =>
    obtain ⟨lo, hi, hb, hbox, hatt⟩ := getBox_ok (pos := pos) (P := a :: l) (by simp)
    have hz : ∀ i, hi i - lo i = 0 := by
      intro i
      obtain ⟨⟨u, hu, e1⟩, w, hw, e2⟩ := hatt i
      rw [e1, e2, hP u hu w hw, sub_self]
    have hd : ∀ l : List (Fin d), l.foldl (fun x i => max x (hi i - lo i)) 0 = 0 := by
      intro l
      induction l with
      | nil => rfl
      | cons i l ih => rw [List.foldl_cons, hz, max_self, ih]
    unfold build tags
    rw [hb]
    simp only [Except.bind]
    rw [hd, List.mapM_cons]
    unfold interleaveBits
    simp only [if_true]
    rfl

/-! ### The search in the triangulation -/

open Verif.Delaunay in
/-- `src/delaunayTriangulation/incremental/delaunay.cpp:244,261,274`: `knn.nearest` for a tree built from the vertices of
`pool`. `tag pool` are the tags the vertices get; for a single vertex (line 243) they are the result of undefined
behaviour, so any value is allowed. -/
noncomputable def octNear (search : (ℕ × ℕ → Bool) → List (ℕ × ℕ) → ℕ) (sort : List (ℕ × ℕ) → List (ℕ × ℕ))
    (tag : List ℕ → ℕ → ℕ) (pos : ℕ → P2 ℝ) (pool : List ℕ) (v : ℕ) : ℕ :=
  let pos2 : ℕ → Fin 2 → ℝ := fun u => ![(pos u).x, (pos u).y]
  (((buildRec search pos2 64 (sort (pool.map fun u => (tag pool u, u)))).bind fun T =>
    nearest 1 pos2 T v).toOption.join).getD 0

open Verif.Delaunay in
/-- The oct-tree meets the contract of C61. -/
theorem c42_octNear {search : (ℕ × ℕ → Bool) → List (ℕ × ℕ) → ℕ} (hs : BinSearch search)
    {sort : List (ℕ × ℕ) → List (ℕ × ℕ)} (hsort : SortsTags sort) (tag : List ℕ → ℕ → ℕ) (pos : ℕ → P2 ℝ)
    (pool : List ℕ) (v : ℕ) (hne : pool ≠ []) (hv : v ∉ pool) :
    octNear search sort tag pos pool v ∈ pool ∧
      ∀ w ∈ pool, sqd (pos v) (pos (octNear search sort tag pos pool v)) ≤ sqd (pos v) (pos w) := by
  have hp := hsort.perm (pool.map fun u => (tag pool u, u))
  obtain ⟨T, t1, t2, t3, t4⟩ := buildRec_ok (pos := fun u => ![(pos u).x, (pos u).y]) hs.le 64
    (sort (pool.map fun u => (tag pool u, u))) (by
      intro e
      rw [e] at hp
      have := hp.symm.eq_nil
      simp at this
      exact hne this)
  have hT : T.flatten.Perm pool := by
    rw [t3]
    refine (hp.map _).trans ?_
    rw [List.map_map]
    exact List.Perm.of_eq (List.map_id'' (fun v => rfl) pool)
  obtain ⟨a, ha⟩ := List.exists_mem_of_ne_nil _ hne
  obtain ⟨u, u1, u2, u3, u4⟩ := c42_nearest (v := v) t2 le_rfl
    ⟨a, hT.mem_iff.mpr ha, fun e => hv (e ▸ ha)⟩
  have e : octNear search sort tag pos pool v = u := by
    unfold octNear
    simp only
    rw [t1]
    simp only [Except.bind]
    rw [u1]
    rfl
  rw [e]
  refine ⟨hT.mem_iff.mp u2, fun w hw => ?_⟩
  have := u4 w (hT.mem_iff.mpr hw) (fun e => hv (e ▸ hw))
  simpa [sq, sqd, Fin.sum_univ_two, pow_two] using this

open Verif.Delaunay in
/-- C61 with the oct-tree in place of the contract. -/
theorem c61_octtree {search : (ℕ × ℕ → Bool) → List (ℕ × ℕ) → ℕ} (hs : BinSearch search)
    {sort : List (ℕ × ℕ) → List (ℕ × ℕ)} (hsort : SortsTags sort) (tag : List ℕ → ℕ → ℕ) (at' : ℕ → P2 ℝ)
    {P : List (P2 ℝ)} (hP : P.Nodup) (h2 : 2 ≤ P.length) {perm : List ℕ} (hperm : perm.Perm (List.range P.length))
    {fuel : ℕ} (hf : 6 * P.length + 26 ≤ fuel) (m0 : Mesh) (p0 : ℕ → P2 ℝ) (i0 : ℕ → ℕ) :
    ∃ (bd : List (P2 ℝ)) (tris : List (ℕ × ℕ × ℕ)), bd.length = 10 ∧
      (∀ p ∈ P, (∀ i, i + 1 < 10 → 0 < area (at_ bd i) (at_ bd (i + 1)) p) ∧ 0 < area (at_ bd 9) (at_ bd 0) p) ∧
      tris.length = 2 * P.length + 8 ∧ Triangulation (P ++ bd) P.length tris ∧
      ∀ sched : ℕ → List ℕ × List ℕ × List ℕ,
        (delaunay perm (octNear search sort tag at') fuel sched m0 p0 i0 P = .error .fuel ∨
          delaunay perm (octNear search sort tag at') fuel sched m0 p0 i0 P = .ok (P ++ bd, tris)) ∧
        ((∀ k, ∀ t < P.length,
            roundBound P.length (P.length + 10) (2 * P.length + 8) ≤ (sched k).1.count t ∧
            roundBound P.length (P.length + 10) (2 * P.length + 8) ≤ (sched k).2.1.count t ∧
            roundBound P.length (P.length + 10) (2 * P.length + 8) ≤ (sched k).2.2.count t) →
          delaunay perm (octNear search sort tag at') fuel sched m0 p0 i0 P = .ok (P ++ bd, tris)) :=
  c61_delaunay hP h2 hperm (fun pool u h hu => (c42_octNear hs hsort tag at' pool u h hu).1) hf m0 p0 i0

end Verif.OctTree
