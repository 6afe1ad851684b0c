import Verif.Emst.FloatFilter
import Verif.Emst.Lemmas
import Verif.KdTree.BccpFloatLemmas

set_option linter.unusedSectionVars false
set_option linter.unusedVariables false

/-! Lemmas for C95: one round of the Euclidean minimum spanning tree in rounded arithmetic. -/

namespace Verif.Emst

open Verif.KdTree Verif.UF Verif.Mst Verif.SpatialGraph Verif.Float

variable {d : ℕ} {fl : ℝ → ℝ}

/-! Distances of nodes -/

theorem fl_abs_mono (hf : IsMonoRounding fl) {x y : ℝ} (h : |x| ≤ |y|) : |fl x| ≤ |fl y| := by
  have e : ∀ z : ℝ, |fl z| = fl |z| := by
    intro z
    rcases le_total 0 z with h | h
    · rw [abs_of_nonneg h, abs_of_nonneg (hf.nonneg h)]
    · have := hf.nonneg (x := -z) (by linarith)
      rw [hf.odd] at this
      rw [abs_of_nonpos h, hf.odd, abs_of_nonpos (by linarith)]
  rw [e, e]
  exact hf.mono h

theorem distFl_mono (hf : IsMonoRounding fl) {p q p' q' : Point ℝ d}
    (h : ∀ i, |p i - q i| ≤ |p' i - q' i|) : distFl fl p q ≤ distFl fl p' q' := by
  unfold distFl distSqrFl
  refine hf.mono (Real.sqrt_le_sqrt ?_)
  have : ∀ (l : List (Fin d)) (x y : ℝ), x ≤ y →
      l.foldl (addSqFl fl p q) x ≤ l.foldl (addSqFl fl p' q') y := by
    intro l
    induction l with
    | nil => exact fun x y h => h
    | cons i l ih =>
      intro x y hxy
      refine ih _ _ (hf.mono (add_le_add hxy (hf.mono ?_)))
      rw [← abs_mul_abs_self (fl (p i - q i)), ← abs_mul_abs_self (fl (p' i - q' i))]
      exact mul_self_le_mul_self (abs_nonneg _) (fl_abs_mono hf (h i))
  exact this _ _ _ (le_refl _)

theorem nodeFarDistFl_ge (hf : IsMonoRounding fl) {b1 b2 : Box ℝ d} {p q : Point ℝ d}
    (hp : b1.Mem p) (hq : b2.Mem q) : distFl fl p q ≤ nodeFarDistFl fl b1 b2 := by
  refine distFl_mono hf fun i => ?_
  have h1 := hp i
  have h2 := hq i
  have g1 := le_max_left (b1.hi i) (b2.hi i)
  have g2 := le_max_right (b1.hi i) (b2.hi i)
  have g3 := min_le_left (b1.lo i) (b2.lo i)
  have g4 := min_le_right (b1.lo i) (b2.lo i)
  rw [abs_le]
  constructor
  · linarith [le_abs_self (max (b1.hi i) (b2.hi i) - min (b1.lo i) (b2.lo i))]
  · linarith [le_abs_self (max (b1.hi i) (b2.hi i) - min (b1.lo i) (b2.lo i))]

theorem boxDiamFl_ge (hf : IsMonoRounding fl) {b : Box ℝ d} {p q : Point ℝ d} (hp : b.Mem p)
    (hq : b.Mem q) : distFl fl p q ≤ boxDiamFl fl b := by
  refine distFl_mono hf fun i => ?_
  have h1 := hp i
  have h2 := hq i
  rw [abs_le]
  constructor <;> linarith [le_abs_self (b.hi i - b.lo i)]

theorem rhoOfFl_le (fl : ℝ → ℝ) (L : List (NTree ℕ ℝ d × NTree ℕ ℝ d)) (p : NTree ℕ ℝ d × NTree ℕ ℝ d) (h : p ∈ L) :
    rhoOfFl fl L ≤ (nodeDistFl fl p.1.box p.2.box : WithTop ℝ) := by
  unfold rhoOfFl
  have mono : ∀ (L : List (NTree ℕ ℝ d × NTree ℕ ℝ d)) (r : WithTop ℝ),
      L.foldl (fun r p => min r (nodeDistFl fl p.1.box p.2.box : WithTop ℝ)) r ≤ r := by
    intro L
    induction L with
    | nil => intro r; exact le_refl _
    | cons a L ih => intro r; exact (ih _).trans (min_le_left _ _)
  generalize (⊤ : WithTop ℝ) = r
  induction L generalizing r with
  | nil => simp at h
  | cons a L ih =>
    rcases List.mem_cons.mp h with rfl | h
    · exact (mono L _).trans (min_le_right _ _)
    · exact ih h _

/-- If every pair of the decomposition is connected, at every distance between its sides, then so are all
points: at the distance of the points, or at any level reached by all distances within the two sides of the
pair that covers them. -/
theorem conn_level (hf : IsMonoRounding fl) (pos : ℕ → Point ℝ d) (T : Tree ℕ ℝ d) (hs : Sound pos 1 T)
    (hnd : T.items.Nodup) (out0 : List (Tree ℕ ℝ d × Tree ℕ ℝ d))
    (hout : wspdSerialFl fl (geomWellSeparatedFl fl 2) T = .ok out0)
    (C : ℝ → ℕ → ℕ → Prop) (hC : ∀ D, Equivalence (C D)) (hmono : ∀ D D' a b, D ≤ D' → C D a b → C D' a b)
    (H : ∀ P ∈ out0, ∀ p ∈ P.1.items, ∀ q ∈ P.2.items, ∃ a ∈ P.1.items, ∃ b ∈ P.2.items,
        C (distFl fl (pos p) (pos q)) a b) :
    ∀ t, Below t T → ∀ D : ℝ, (∀ x ∈ t.items, ∀ y ∈ t.items, distFl fl (pos x) (pos y) ≤ D) →
      ∀ p ∈ t.items, ∀ q ∈ t.items, C D p q := by
  obtain ⟨out, h1, h2, h3⟩ := wspdSerialFl_ok fl (geomWellSeparatedFl fl 2) T
    (fun bu iu bv iv hu hv => geomWellSeparatedFl_leaf hf (hs.below hu) (hs.below hv)) hs.singleLeaves hnd
  rw [h1] at hout
  cases hout
  intro t
  induction t with
  | leaf b items =>
    intro ht D _ p hp q hq
    have h1 : items.length ≤ 1 := hs.singleLeaves b items ht
    have hp' : p ∈ items := hp
    have hq' : q ∈ items := hq
    have : p = q := by
      match items, h1, hp', hq' with
      | [c], _, hp', hq' => simp at hp' hq'; rw [hp', hq']
    subst this
    exact (hC _).refl p
  | node b L R ihL ihR =>
    intro ht D hD
    have hL : Below L T := Below.trans (.left (.refl _)) ht
    have hR : Below R T := Below.trans (.right (.refl _)) ht
    have hndt : (L.items ++ R.items).Nodup := by
      have : ∀ {a T : Tree ℕ ℝ d}, Below a T → T.items.Nodup → a.items.Nodup := by
        intro a T h
        induction h with
        | refl => exact id
        | left _ ih => exact fun h => ih (List.nodup_append.mp h).1
        | right _ ih => exact fun h => ih (List.nodup_append.mp h).2.1
      exact this ht hnd
    obtain ⟨-, -, hdis⟩ := List.nodup_append.mp hndt
    -- a node sharing an item with one child and none with the other is below the child
    have inL : ∀ X Y : Tree ℕ ℝ d, Below X T → (∀ x ∈ X.items, ∀ y ∈ Y.items, x ≠ y) → ∀ x ∈ L.items,
        x ∈ X.items → ∀ y ∈ R.items, y ∈ Y.items → Below X L := by
      intro X Y hX hXY x hx hx' y hy hy'
      have hne : ∀ z ∈ X.items, z ≠ y := fun z hz => hXY z hz y hy'
      rcases laminar hX ht hnd hx' (List.mem_append_left _ hx) with h | h
      · cases h with
        | refl => exact absurd rfl (hne y (List.mem_append_right _ hy))
        | left h => exact h
        | right h => exact absurd rfl (hdis x hx x (Below.items_sub h x hx'))
      · exact absurd rfl (hne y (Below.items_sub h y (List.mem_append_right _ hy)))
    have inR : ∀ X Y : Tree ℕ ℝ d, Below X T → (∀ x ∈ X.items, ∀ y ∈ Y.items, x ≠ y) → ∀ x ∈ R.items,
        x ∈ X.items → ∀ y ∈ L.items, y ∈ Y.items → Below X R := by
      intro X Y hX hXY x hx hx' y hy hy'
      have hne : ∀ z ∈ X.items, z ≠ y := fun z hz => hXY z hz y hy'
      rcases laminar hX ht hnd hx' (List.mem_append_right _ hx) with h | h
      · cases h with
        | refl => exact absurd rfl (hne y (List.mem_append_left _ hy))
        | left h => exact absurd rfl (hdis x (Below.items_sub h x hx') x hx)
        | right h => exact h
      · exact absurd rfl (hne y (Below.items_sub h y (List.mem_append_left _ hy)))
    have cL := ihL hL D fun x hx y hy => hD x (List.mem_append_left _ hx) y (List.mem_append_left _ hy)
    have cR := ihR hR D fun x hx y hy => hD x (List.mem_append_right _ hx) y (List.mem_append_right _ hy)
    have across : ∀ p ∈ L.items, ∀ q ∈ R.items, C D p q := by
      intro p hp q hq
      classical
      have hpT := Below.items_sub hL p hp
      have hqT := Below.items_sub hR q hq
      have hpq : p ≠ q := hdis p hp q hq
      have hcount := h3 p q
      rw [if_pos ⟨hpT, hqT, hpq⟩] at hcount
      have hpos : 0 < out0.countP (fun P => decide (Covers p q P)) := by
        convert (show 0 < 1 by omega)
      obtain ⟨P, hP, hcov⟩ := List.countP_pos_iff.mp hpos
      have hcov : Covers p q P := by simpa using hcov
      obtain ⟨hws, hb1, hb2, hdisP⟩ := h2 P hP
      have hdisP' : ∀ x ∈ P.2.items, ∀ y ∈ P.1.items, x ≠ y := fun x hx y hy h => hdisP y hy x hx h.symm
      have hle := hD p (List.mem_append_left _ hp) q (List.mem_append_right _ hq)
      rcases hcov with ⟨c1, c2⟩ | ⟨c1, c2⟩
      · have bA := inL P.1 P.2 hb1 hdisP p hp c1 q hq c2
        have bB := inR P.2 P.1 hb2 hdisP' q hq c2 p hp c1
        obtain ⟨a, ha, b', hb', h⟩ := H P hP p c1 q c2
        exact (hC _).trans ((hC _).trans (cL p hp a (Below.items_sub bA a ha)) (hmono _ _ _ _ hle h))
          (cR b' (Below.items_sub bB b' hb') q hq)
      · have bA := inL P.2 P.1 hb2 hdisP' p hp c2 q hq c1
        have bB := inR P.1 P.2 hb1 hdisP q hq c1 p hp c2
        obtain ⟨b', hb', a, ha, h⟩ := H P hP q c1 p c2
        rw [distFl_comm hf] at h
        exact (hC _).trans ((hC _).trans (cL p hp a (Below.items_sub bA a ha))
          ((hC _).symm (hmono _ _ _ _ hle h))) (cR b' (Below.items_sub bB b' hb') q hq)
    intro p hp q hq
    rcases List.mem_append.mp hp with hp | hp <;> rcases List.mem_append.mp hq with hq | hq
    · exact cL p hp q hq
    · exact across p hp q hq
    · exact (hC _).symm (across q hq p hp)
    · exact cR p hp q hq

/-- The number of pairs of the decomposition. -/
theorem out_lengthFl (hf : IsMonoRounding fl) (pos : ℕ → Point ℝ d) (T : Tree ℕ ℝ d) (hs : Sound pos 1 T) (n : ℕ)
    (hp : T.items.Perm (List.range n)) (out0 : List (Tree ℕ ℝ d × Tree ℕ ℝ d))
    (hout : wspdSerialFl fl (geomWellSeparatedFl fl 2) T = .ok out0) : out0.length ≤ n * n := by
  classical
  have hnd : T.items.Nodup := hp.nodup_iff.mpr List.nodup_range
  obtain ⟨out, h1, h2, h3⟩ := wspdSerialFl_ok fl (geomWellSeparatedFl fl 2) T
    (fun bu iu bv iv hu hv => geomWellSeparatedFl_leaf hf (hs.below hu) (hs.below hv)) hs.singleLeaves hnd
  rw [h1] at hout
  cases hout
  let f : Tree ℕ ℝ d × Tree ℕ ℝ d → ℕ × ℕ := fun P => (P.1.items.headD 0, P.2.items.headD 0)
  have hf : ∀ P ∈ out0, (f P).1 ∈ P.1.items ∧ (f P).2 ∈ P.2.items := by
    intro P hP
    obtain ⟨-, b1, b2, -⟩ := h2 P hP
    obtain ⟨a, la, ha⟩ := List.exists_cons_of_ne_nil (sound_items_ne (hs.below b1))
    obtain ⟨b, lb, hb⟩ := List.exists_cons_of_ne_nil (sound_items_ne (hs.below b2))
    simp [f, ha, hb]
  have hn : (out0.map f).Nodup := by
    rw [List.nodup_iff_count_le_one]
    intro z
    rw [List.count, List.countP_map]
    refine le_trans (List.countP_mono_left (q := fun P => decide (Covers z.1 z.2 P)) ?_) ?_
    · intro P hP hz
      have hz : f P = z := by simpa using hz
      have := hf P hP
      rw [hz] at this
      exact decide_eq_true (show Covers z.1 z.2 P from Or.inl this)
    · have := h3 z.1 z.2
      rw [show out0.countP (fun P => decide (Covers z.1 z.2 P)) = _ from this]
      split_ifs <;> omega
  have hsub : ∀ z ∈ out0.map f, z ∈ (List.range n) ×ˢ (List.range n) := by
    intro z hz
    obtain ⟨P, hP, rfl⟩ := List.mem_map.mp hz
    obtain ⟨-, b1, b2, -⟩ := h2 P hP
    have := hf P hP
    rw [show f P = ((f P).1, (f P).2) from rfl, List.mem_product]
    exact ⟨hp.mem_iff.mp (Below.items_sub b1 _ this.1), hp.mem_iff.mp (Below.items_sub b2 _ this.2)⟩
  have := (hn.subperm hsub).length_le
  simpa [List.length_product] using this

/-- The edge found for a pair of nodes. -/
theorem getRunFl_ok (hf : IsMonoRounding fl) (pos : ℕ → Point ℝ d)
    (ord : List (Tree ℕ ℝ d × Tree ℕ ℝ d) → List (Tree ℕ ℝ d × Tree ℕ ℝ d)) (hord : ∀ l, (ord l).Perm l)
    (beta : ℕ) (rhoLo rhoHi : WithTop ℝ) (p : NTree ℕ ℝ d × NTree ℕ ℝ d) (h1 : Sound pos 1 p.1.tree)
    (h2 : Sound pos 1 p.2.tree) :
    ∃ a ∈ p.1.tree.items, ∃ b ∈ p.2.tree.items,
      (∀ x ∈ p.1.tree.items, ∀ y ∈ p.2.tree.items, distFl fl (pos a) (pos b) ≤ distFl fl (pos x) (pos y)) ∧
      ((p.1.size + p.2.size ≤ beta ∧ ((distFl fl (pos a) (pos b) : ℝ) : WithTop ℝ) ≥ rhoLo ∧
          ((distFl fl (pos a) (pos b) : ℝ) : WithTop ℝ) < rhoHi ∧
          getRunFl fl pos ord beta rhoLo rhoHi p = .ok (some ⟨a, b, distFl fl (pos a) (pos b)⟩)) ∨
        (¬ (p.1.size + p.2.size ≤ beta ∧ ((distFl fl (pos a) (pos b) : ℝ) : WithTop ℝ) ≥ rhoLo ∧
          ((distFl fl (pos a) (pos b) : ℝ) : WithTop ℝ) < rhoHi) ∧
          getRunFl fl pos ord beta rhoLo rhoHi p = .ok none)) := by
  obtain ⟨r, h7, h8⟩ := bcpHelper_okFl hf pos ord hord (p.1.tree.height + p.2.tree.height + 1) p.1.tree p.2.tree
    h1.boxesOk h2.boxesOk (by omega) none
  obtain ⟨a, ha⟩ := List.exists_mem_of_ne_nil _ (sound_items_ne h1)
  obtain ⟨b, hb⟩ := List.exists_mem_of_ne_nil _ (sound_items_ne h2)
  obtain ⟨u, v, c, h9, -⟩ := h8.all a b ⟨ha, hb⟩
  rcases h8.src with h10 | ⟨x, y, ⟨hx, hy⟩, h10⟩
  · rw [h9] at h10; cases h10
  refine ⟨x, hx, y, hy, ?_, ?_⟩
  · intro x' hx' y' hy'
    obtain ⟨u', v', c', h11, h12⟩ := h8.all x' y' ⟨hx', hy'⟩
    rw [h10] at h11
    simp only [Option.some.injEq, Prod.mk.injEq] at h11
    obtain ⟨-, -, rfl⟩ := h11
    exact h12
  · unfold getRunFl bichromaticClosestPairFl
    rw [h7, h10]
    simp only [Except.bind]
    by_cases hc : p.1.size + p.2.size ≤ beta ∧ ((distFl fl (pos x) (pos y) : ℝ) : WithTop ℝ) ≥ rhoLo ∧
          ((distFl fl (pos x) (pos y) : ℝ) : WithTop ℝ) < rhoHi
    · left
      refine ⟨hc.1, hc.2.1, hc.2.2, ?_⟩
      exact if_pos hc
    · right
      refine ⟨hc, ?_⟩
      exact if_neg hc

end Verif.Emst
