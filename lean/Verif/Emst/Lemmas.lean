import Verif.Emst.Filter
import Verif.Emst.MarkProps
import Verif.Mst.Bottleneck
import Verif.SpatialGraph.SpannerProps

set_option linter.unusedSectionVars false
set_option linter.unusedVariables false

/-! Lemmas for C16: one round of the Euclidean minimum spanning tree. -/

namespace Verif.Emst

open Verif.KdTree Verif.UF Verif.Mst Verif.SpatialGraph

variable {d : ℕ}

theorem laminar {X t T : Tree ℕ ℝ d} (hX : Below X T) (ht : Below t T) (hnd : T.items.Nodup) {x : ℕ}
    (h1 : x ∈ X.items) (h2 : x ∈ t.items) : Below X t ∨ Below t X := by
  induction hX with
  | refl => exact Or.inr ht
  | @left b l r hX ih =>
    obtain ⟨n1, n2, n3⟩ := List.nodup_append.mp hnd
    cases ht with
    | refl => exact Or.inl (.left hX)
    | left ht => exact ih ht n1
    | right ht => exact absurd rfl (n3 x (Below.items_sub hX x h1) x (Below.items_sub ht x h2))
  | @right b l r hX ih =>
    obtain ⟨n1, n2, n3⟩ := List.nodup_append.mp hnd
    cases ht with
    | refl => exact Or.inl (.right hX)
    | left ht => exact absurd rfl (n3 x (Below.items_sub ht x h2) x (Below.items_sub hX x h1))
    | right ht => exact ih ht n2

theorem sep_dist {pos : ℕ → Point ℝ d} {A B : List ℕ} (h : WellSeparated pos 2 A B) {x a y : ℕ}
    (hx : x ∈ A) (ha : a ∈ A) (hy : y ∈ B) : eucl (pos x) (pos a) ≤ eucl (pos x) (pos y) := by
  obtain ⟨cA, cB, r, hr, h1, h2, h3⟩ := h
  have g1 := eucl_triangle (pos x) cA (pos a)
  rw [eucl_comm cA] at g1
  have g2 := eucl_triangle cA (pos x) cB
  rw [eucl_comm cA (pos x)] at g2
  have g3 := eucl_triangle (pos x) (pos y) cB
  linarith [h1 x hx, h1 a ha, h2 y hy]

theorem wellSeparated_swap {pos : ℕ → Point ℝ d} {s : ℝ} {A B : List ℕ} (h : WellSeparated pos s A B) :
    WellSeparated pos s B A := by
  obtain ⟨cA, cB, r, hr, h1, h2, h3⟩ := h
  exact ⟨cB, cA, r, hr, h2, h1, by rw [eucl_comm]; exact h3⟩

/-- If every pair of the decomposition is connected at its shortest link, then all points are
connected at their distance. -/
theorem conn_tree (pos : ℕ → Point ℝ d) (T : Tree ℕ ℝ d) (hs : Sound pos 1 T) (hnd : T.items.Nodup)
    (out0 : List (Tree ℕ ℝ d × Tree ℕ ℝ d)) (hout : wspdSerial (geomWellSeparated 2) T = .ok out0)
    (C : ℝ → ℕ → ℕ → Prop) (hC : ∀ D, Equivalence (C D)) (hmono : ∀ D D' a b, D ≤ D' → C D a b → C D' a b)
    (rho : WithTop ℝ)
    (H : ∀ P ∈ out0, ∀ p ∈ P.1.items, ∀ q ∈ P.2.items, ((eucl (pos p) (pos q) : ℝ) : WithTop ℝ) < rho →
      C (eucl (pos p) (pos q)) p q ∨ ∃ a ∈ P.1.items, ∃ b ∈ P.2.items,
        C (eucl (pos p) (pos q)) a b) :
    ∀ p ∈ T.items, ∀ q ∈ T.items, ((eucl (pos p) (pos q) : ℝ) : WithTop ℝ) < rho →
      C (eucl (pos p) (pos q)) p q := by
  obtain ⟨out, h1, h2, h3⟩ := wspdSerial_ok (geomWellSeparated 2) T
    (fun bu iu bv iv hu hv => geomWellSeparated_leaf (hs.below hu) (hs.below hv)) hs.singleLeaves hnd
  rw [h1] at hout
  cases hout
  suffices h : ∀ t, Below t T → ∀ p ∈ t.items, ∀ q ∈ t.items,
      ((eucl (pos p) (pos q) : ℝ) : WithTop ℝ) < rho → C (eucl (pos p) (pos q)) p q from h T (.refl _)
  intro t
  induction t with
  | leaf b items =>
    intro ht p hp q hq _
    have h1 : items.length ≤ 1 := hs.singleLeaves b items ht
    have hp' : p ∈ items := hp
    have hq' : q ∈ items := hq
    have : p = q := by
      match items, h1, hp', hq' with
      | [c], _, hp', hq' => simp at hp' hq'; rw [hp', hq']
    subst this
    exact (hC _).refl p
  | node b L R ihL ihR =>
    intro ht
    have hL : Below L T := Below.trans (.left (.refl _)) ht
    have hR : Below R T := Below.trans (.right (.refl _)) ht
    have hndt : (L.items ++ R.items).Nodup := by
      have : ∀ {a T : Tree ℕ ℝ d}, Below a T → T.items.Nodup → a.items.Nodup := by
        intro a T h
        induction h with
        | refl => exact id
        | left _ ih => exact fun h => ih (List.nodup_append.mp h).1
        | right _ ih => exact fun h => ih (List.nodup_append.mp h).2.1
      exact this ht hnd
    obtain ⟨-, -, hdis⟩ := List.nodup_append.mp hndt
    -- a node sharing an item with one child and none with the other is below the child
    have inL : ∀ X Y : Tree ℕ ℝ d, Below X T → (∀ x ∈ X.items, ∀ y ∈ Y.items, x ≠ y) → ∀ x ∈ L.items,
        x ∈ X.items → ∀ y ∈ R.items, y ∈ Y.items → Below X L := by
      intro X Y hX hXY x hx hx' y hy hy'
      have hne : ∀ z ∈ X.items, z ≠ y := fun z hz => hXY z hz y hy'
      rcases laminar hX ht hnd hx' (List.mem_append_left _ hx) with h | h
      · cases h with
        | refl => exact absurd rfl (hne y (List.mem_append_right _ hy))
        | left h => exact h
        | right h => exact absurd rfl (hdis x hx x (Below.items_sub h x hx'))
      · exact absurd rfl (hne y (Below.items_sub h y (List.mem_append_right _ hy)))
    have inR : ∀ X Y : Tree ℕ ℝ d, Below X T → (∀ x ∈ X.items, ∀ y ∈ Y.items, x ≠ y) → ∀ x ∈ R.items,
        x ∈ X.items → ∀ y ∈ L.items, y ∈ Y.items → Below X R := by
      intro X Y hX hXY x hx hx' y hy hy'
      have hne : ∀ z ∈ X.items, z ≠ y := fun z hz => hXY z hz y hy'
      rcases laminar hX ht hnd hx' (List.mem_append_right _ hx) with h | h
      · cases h with
        | refl => exact absurd rfl (hne y (List.mem_append_left _ hy))
        | left h => exact absurd rfl (hdis x (Below.items_sub h x hx') x hx)
        | right h => exact h
      · exact absurd rfl (hne y (Below.items_sub h y (List.mem_append_left _ hy)))
    have across : ∀ p ∈ L.items, ∀ q ∈ R.items, ((eucl (pos p) (pos q) : ℝ) : WithTop ℝ) < rho →
        C (eucl (pos p) (pos q)) p q := by
      intro p hp q hq hlt
      classical
      have hpT := Below.items_sub hL p hp
      have hqT := Below.items_sub hR q hq
      have hpq : p ≠ q := hdis p hp q hq
      have hcount := h3 p q
      rw [if_pos ⟨hpT, hqT, hpq⟩] at hcount
      have hpos : 0 < out0.countP (fun P => decide (Covers p q P)) := by
        convert (show 0 < 1 by omega)
      obtain ⟨P, hP, hcov⟩ := List.countP_pos_iff.mp hpos
      have hcov : Covers p q P := by simpa using hcov
      obtain ⟨hws, hb1, hb2, hdisP⟩ := h2 P hP
      have hsep := geomWellSeparated_sound pos 2 (by norm_num) P.1 P.2 (hs.below hb1).mem_box
        (hs.below hb2).mem_box hws
      have hdisP' : ∀ x ∈ P.2.items, ∀ y ∈ P.1.items, x ≠ y := fun x hx y hy h => hdisP y hy x hx h.symm
      rcases hcov with ⟨c1, c2⟩ | ⟨c1, c2⟩
      · have bA := inL P.1 P.2 hb1 hdisP p hp c1 q hq c2
        have bB := inR P.2 P.1 hb2 hdisP' q hq c2 p hp c1
        rcases H P hP p c1 q c2 hlt with h | ⟨a, ha, b', hb', h⟩
        · exact h
        · have e1 := sep_dist hsep c1 ha c2
          have e2 := sep_dist (wellSeparated_swap hsep) c2 hb' c1
          rw [eucl_comm (pos q) (pos p)] at e2
          have i1 := ihL hL p hp a (Below.items_sub bA a ha)
            (lt_of_le_of_lt (WithTop.coe_le_coe.mpr e1) hlt)
          have i2 := ihR hR q hq b' (Below.items_sub bB b' hb')
            (lt_of_le_of_lt (WithTop.coe_le_coe.mpr e2) hlt)
          exact (hC _).trans ((hC _).trans (hmono _ _ _ _ e1 i1) h) ((hC _).symm (hmono _ _ _ _ e2 i2))
      · have bA := inL P.2 P.1 hb2 hdisP' p hp c2 q hq c1
        have bB := inR P.1 P.2 hb1 hdisP q hq c1 p hp c2
        have hlt' : ((eucl (pos q) (pos p) : ℝ) : WithTop ℝ) < rho := by rw [eucl_comm]; exact hlt
        rcases H P hP q c1 p c2 hlt' with h | ⟨b', hb', a, ha, h⟩
        · rw [eucl_comm] at h; exact (hC _).symm h
        · rw [eucl_comm (pos q) (pos p)] at h
          have e1 := sep_dist (wellSeparated_swap hsep) c2 ha c1
          have e2 := sep_dist hsep c1 hb' c2
          rw [eucl_comm (pos q) (pos p)] at e2
          have i1 := ihL hL p hp a (Below.items_sub bA a ha)
            (lt_of_le_of_lt (WithTop.coe_le_coe.mpr e1) hlt)
          have i2 := ihR hR q hq b' (Below.items_sub bB b' hb')
            (lt_of_le_of_lt (WithTop.coe_le_coe.mpr e2) hlt)
          exact (hC _).trans ((hC _).trans (hmono _ _ _ _ e1 i1) ((hC _).symm h))
            ((hC _).symm (hmono _ _ _ _ e2 i2))
    intro p hp q hq hlt
    rcases List.mem_append.mp hp with hp | hp <;> rcases List.mem_append.mp hq with hq | hq
    · exact ihL hL p hp q hq hlt
    · exact across p hp q hq hlt
    · have := across q hq p hp (by rw [eucl_comm]; exact hlt)
      rw [eucl_comm] at this
      exact (hC _).symm this
    · exact ihR hR p hp q hq hlt

/-! Distances of nodes -/

theorem nodeDist_le {b1 b2 : Box ℝ d} {p q : Point ℝ d} (hp : b1.Mem p) (hq : b2.Mem q) :
    nodeDist b1 b2 ≤ eucl p q := Real.sqrt_le_sqrt (nodeDistSqr_le hp hq)

theorem nodeFarDist_ge {b1 b2 : Box ℝ d} {p q : Point ℝ d} (hp : b1.Mem p) (hq : b2.Mem q) :
    eucl p q ≤ nodeFarDist b1 b2 := Real.sqrt_le_sqrt (nodeFarDistSqr_ge hp hq)

theorem nodeDist_comm (b1 b2 : Box ℝ d) : nodeDist b1 b2 = nodeDist b2 b1 := by
  have hg : ∀ i, gap b1 b2 i = gap b2 b1 i := fun i => by
    unfold gap; rw [max_comm (b1.lo i - b2.hi i)]
  have hf : (fun i : Fin d => decide (b1.lo i > b2.hi i ∨ b2.lo i > b1.hi i)) =
      fun i : Fin d => decide (b2.lo i > b1.hi i ∨ b1.lo i > b2.hi i) := by
    funext i; simp only [or_comm]
  unfold nodeDist nodeDistSqr
  simp only [hf, hg]

theorem boxDiam_ge {b : Box ℝ d} {p q : Point ℝ d} (hp : b.Mem p) (hq : b.Mem q) :
    eucl p q ≤ boxDiam b := by
  have := eucl_triangle p (boxCentre b) q
  have h1 := eucl_boxCentre_le hp
  have h2 := eucl_boxCentre_le hq
  rw [eucl_comm] at h2
  linarith

theorem rhoOf_le (L : List (NTree ℕ ℝ d × NTree ℕ ℝ d)) (p : NTree ℕ ℝ d × NTree ℕ ℝ d) (h : p ∈ L) :
    rhoOf L ≤ (nodeDist p.1.box p.2.box : WithTop ℝ) := by
  unfold rhoOf
  have mono : ∀ (L : List (NTree ℕ ℝ d × NTree ℕ ℝ d)) (r : WithTop ℝ),
      L.foldl (fun r p => min r (nodeDist p.1.box p.2.box : WithTop ℝ)) r ≤ r := by
    intro L
    induction L with
    | nil => intro r; exact le_refl _
    | cons a L ih => intro r; exact (ih _).trans (min_le_left _ _)
  generalize (⊤ : WithTop ℝ) = r
  induction L generalizing r with
  | nil => simp at h
  | cons a L ih =>
    rcases List.mem_cons.mp h with rfl | h
    · exact (mono L _).trans (min_le_right _ _)
    · exact ih h _

/-! Sizes -/

theorem below_nodup {a T : Tree ℕ ℝ d} (h : Below a T) (hnd : T.items.Nodup) : a.items.Nodup := by
  induction h with
  | refl => exact hnd
  | left _ ih => exact ih (List.nodup_append.mp hnd).1
  | right _ ih => exact ih (List.nodup_append.mp hnd).2.1

theorem size_eq (T : Tree ℕ ℝ d) : T.size = T.items.length := by
  cases T <;> rfl

theorem size_le {a T : Tree ℕ ℝ d} (h : Below a T) (hnd : T.items.Nodup) : a.size ≤ T.size := by
  rw [size_eq, size_eq]
  exact ((below_nodup h hnd).subperm (Below.items_sub h)).length_le

theorem size_add_le {a b T : Tree ℕ ℝ d} (h : Below a T) (h' : Below b T) (hnd : T.items.Nodup)
    (hdis : ∀ x ∈ a.items, ∀ y ∈ b.items, x ≠ y) : a.size + b.size ≤ T.size := by
  rw [size_eq, size_eq, size_eq, ← List.length_append]
  have hn : (a.items ++ b.items).Nodup :=
    List.nodup_append.mpr ⟨below_nodup h hnd, below_nodup h' hnd, hdis⟩
  refine (hn.subperm fun x hx => ?_).length_le
  rcases List.mem_append.mp hx with hx | hx
  · exact Below.items_sub h x hx
  · exact Below.items_sub h' x hx

/-- The number of pairs of the decomposition. -/
theorem out_length (pos : ℕ → Point ℝ d) (T : Tree ℕ ℝ d) (hs : Sound pos 1 T) (n : ℕ)
    (hp : T.items.Perm (List.range n)) (out0 : List (Tree ℕ ℝ d × Tree ℕ ℝ d))
    (hout : wspdSerial (geomWellSeparated 2) T = .ok out0) : out0.length ≤ n * n := by
  classical
  have hnd : T.items.Nodup := hp.nodup_iff.mpr List.nodup_range
  obtain ⟨out, h1, h2, h3⟩ := wspdSerial_ok (geomWellSeparated 2) T
    (fun bu iu bv iv hu hv => geomWellSeparated_leaf (hs.below hu) (hs.below hv)) hs.singleLeaves hnd
  rw [h1] at hout
  cases hout
  let f : Tree ℕ ℝ d × Tree ℕ ℝ d → ℕ × ℕ := fun P => (P.1.items.headD 0, P.2.items.headD 0)
  have hf : ∀ P ∈ out0, (f P).1 ∈ P.1.items ∧ (f P).2 ∈ P.2.items := by
    intro P hP
    obtain ⟨-, b1, b2, -⟩ := h2 P hP
    obtain ⟨a, la, ha⟩ := List.exists_cons_of_ne_nil (sound_items_ne (hs.below b1))
    obtain ⟨b, lb, hb⟩ := List.exists_cons_of_ne_nil (sound_items_ne (hs.below b2))
    simp [f, ha, hb]
  have hn : (out0.map f).Nodup := by
    rw [List.nodup_iff_count_le_one]
    intro z
    rw [List.count, List.countP_map]
    refine le_trans (List.countP_mono_left (q := fun P => decide (Covers z.1 z.2 P)) ?_) ?_
    · intro P hP hz
      have hz : f P = z := by simpa using hz
      have := hf P hP
      rw [hz] at this
      exact decide_eq_true (show Covers z.1 z.2 P from Or.inl this)
    · have := h3 z.1 z.2
      rw [show out0.countP (fun P => decide (Covers z.1 z.2 P)) = _ from this]
      split_ifs <;> omega
  have hsub : ∀ z ∈ out0.map f, z ∈ (List.range n) ×ˢ (List.range n) := by
    intro z hz
    obtain ⟨P, hP, rfl⟩ := List.mem_map.mp hz
    obtain ⟨-, b1, b2, -⟩ := h2 P hP
    have := hf P hP
    rw [show f P = ((f P).1, (f P).2) from rfl, List.mem_product]
    exact ⟨hp.mem_iff.mp (Below.items_sub b1 _ this.1), hp.mem_iff.mp (Below.items_sub b2 _ this.2)⟩
  have := (hn.subperm hsub).length_le
  simpa [List.length_product] using this

theorem mapM_map {α β : Type} (f : α → Except Err β) (g : α → β) (l : List α)
    (h : ∀ x ∈ l, f x = .ok (g x)) : l.mapM f = .ok (l.map g) := by
  induction l with
  | nil => rfl
  | cons a l ih =>
    rw [List.mapM_cons, h a (by simp), ih fun x hx => h x (by simp [hx])]
    rfl

/-- The edge found for a pair of nodes. -/
theorem getRun_ok (pos : ℕ → Point ℝ d)
    (ord : List (Tree ℕ ℝ d × Tree ℕ ℝ d) → List (Tree ℕ ℝ d × Tree ℕ ℝ d)) (hord : ∀ l, (ord l).Perm l)
    (beta : ℕ) (rhoLo rhoHi : WithTop ℝ) (p : NTree ℕ ℝ d × NTree ℕ ℝ d) (h1 : Sound pos 1 p.1.tree)
    (h2 : Sound pos 1 p.2.tree) :
    ∃ a ∈ p.1.tree.items, ∃ b ∈ p.2.tree.items,
      (∀ x ∈ p.1.tree.items, ∀ y ∈ p.2.tree.items, eucl (pos a) (pos b) ≤ eucl (pos x) (pos y)) ∧
      ((p.1.size + p.2.size ≤ beta ∧ ((eucl (pos a) (pos b) : ℝ) : WithTop ℝ) ≥ rhoLo ∧
          ((eucl (pos a) (pos b) : ℝ) : WithTop ℝ) < rhoHi ∧
          getRun pos ord beta rhoLo rhoHi p = .ok (some ⟨a, b, eucl (pos a) (pos b)⟩)) ∨
        (¬ (p.1.size + p.2.size ≤ beta ∧ ((eucl (pos a) (pos b) : ℝ) : WithTop ℝ) ≥ rhoLo ∧
          ((eucl (pos a) (pos b) : ℝ) : WithTop ℝ) < rhoHi) ∧
          getRun pos ord beta rhoLo rhoHi p = .ok none)) := by
  obtain ⟨r, h7, h8⟩ := bcpHelper_ok pos ord hord (p.1.tree.height + p.2.tree.height + 1) p.1.tree p.2.tree
    h1.boxesOk h2.boxesOk (by omega) none
  obtain ⟨a, ha⟩ := List.exists_mem_of_ne_nil _ (sound_items_ne h1)
  obtain ⟨b, hb⟩ := List.exists_mem_of_ne_nil _ (sound_items_ne h2)
  obtain ⟨u, v, c, h9, -⟩ := h8.all a b ⟨ha, hb⟩
  rcases h8.src with h10 | ⟨x, y, ⟨hx, hy⟩, h10⟩
  · rw [h9] at h10; cases h10
  refine ⟨x, hx, y, hy, ?_, ?_⟩
  · intro x' hx' y' hy'
    obtain ⟨u', v', c', h11, h12⟩ := h8.all x' y' ⟨hx', hy'⟩
    rw [h10] at h11
    simp only [Option.some.injEq, Prod.mk.injEq] at h11
    obtain ⟨-, -, rfl⟩ := h11
    exact eucl_le_eucl_iff.mpr h12
  · unfold getRun bichromaticClosestPair
    rw [h7, h10]
    simp only [Except.bind]
    by_cases hc : p.1.size + p.2.size ≤ beta ∧ ((eucl (pos x) (pos y) : ℝ) : WithTop ℝ) ≥ rhoLo ∧
          ((eucl (pos x) (pos y) : ℝ) : WithTop ℝ) < rhoHi
    · left
      refine ⟨hc.1, hc.2.1, hc.2.2, ?_⟩
      exact if_pos hc
    · right
      refine ⟨hc, ?_⟩
      exact if_neg hc

end Verif.Emst
