import Mathlib.Tactic.NormNum
import Mathlib.Tactic.FinCases
import Verif.Gift.Final

set_option linter.unusedSectionVars false
set_option linter.unusedVariables false

/-!
C76: gift wrapping in space.
-/

namespace Verif.Gift

open Verif Verif.Hull3d Verif.QHull

variable {P : List (P3 ℝ)} {moves : ℕ → Bool} {low pick : (ℕ → ℝ) → ℕ} {fuel cap : ℕ}

theorem computeWith_eq (hg : General P) : computeWith cap moves low pick fuel P =
    (start cap low pick (at' P)).bind fun m => (loop cap moves pick (at' P) fuel m).map (outOf P) := by
  unfold computeWith
  rw [if_neg (by rintro rfl; have := hg.four; simp at this)]
  rfl

theorem run_cases (hg : General P) (h0 : (0 : P3 ℝ) ∈ convexHull ℝ {p | p ∈ P}) (hl : LowOk P.length low) (hp : PickOk P.length pick)
    {N : ℕ} (hN : ∀ H, Valid P H → H.length ≤ N) :
    (∃ H, computeWith cap moves low pick fuel P = .ok (outOf P H) ∧ Final P cap H) ∨
    (computeWith cap moves low pick fuel P = .error .fuel ∧ (cap < 3 * N ∨ fuel ≤ N)) ∨
    (computeWith cap moves low pick fuel P = .error .ub ∧ ¬ ∀ k, 1 ≤ k → k < N → moves k = false) := by
  rw [computeWith_eq hg]
  rcases start_ok (cap := cap) hg h0 hp hl (∀ k, 1 ≤ k → k < N → moves k = false) with ⟨m, e, h1, h2, h3, hI⟩ | ⟨e, hc⟩
  · rw [e]
    simp only [Except.bind]
    have := hN _ hI.valid
    rcases loop_ok hg h0 hp hN fuel m hI (by
      intro i f hi hn
      exfalso
      have : i < m.H.length := by
        by_contra hc
        rw [List.getElem?_eq_none (by omega)] at hi
        cases hi
      have : i = 0 := by omega
      subst this
      exact hn 0 (by rw [h2]; simp)) with ⟨H, e', hF⟩ | ⟨e', hr⟩ | ⟨e', hr⟩
    · rw [e']; exact Or.inl ⟨H, rfl, hF⟩
    · rw [e']
      refine Or.inr (Or.inl ⟨rfl, hr.imp id fun hr => ?_⟩)
      rw [h1, h2] at hr
      simp at hr
      omega
    · rw [e']; exact Or.inr (Or.inr ⟨rfl, hr⟩)
  · rw [e]
    refine Or.inr (Or.inl ⟨rfl, Or.inl ?_⟩)
    -- some triangle is supporting
    rcases start_ok (cap := 3) hg h0 hp hl True with ⟨m, e', h1, _, _, hI⟩ | ⟨_, hc'⟩
    · have := hN _ hI.valid
      omega
    · omega

/-- The hull exists. -/
theorem c76_hull_exists (hg : General P) (h0 : (0 : P3 ℝ) ∈ convexHull ℝ {p | p ∈ P}) (hl : LowOk P.length low)
    (hp : PickOk P.length pick) : ∃ A, IsHull3 P A := by
  rcases run_cases (moves := fun _ => false) (cap := 3 * P.length ^ 3) (fuel := P.length ^ 3 + 1) hg h0 hl hp
    (fun H hH => hH.le_cube) with ⟨H, _, hF⟩ | ⟨_, hr⟩ | ⟨_, hr⟩
  · exact ⟨_, hF.isHull hg⟩
  · omega
  · exact absurd (fun _ _ _ => rfl) hr

/-- Gift wrapping returns the facets of the hull, for all inputs in general position, whichever of several points with equal keys
`max_element` and `min_element` return. Missing: the origin has to be in the hull, the table of edges has to have room for the three
directed edges of every facet, and the buffer of the sequence of facets must not move; without these it is false
(`c76_outside_false`, `c76_overfull_false`, `c76_moved_false`). -/
theorem c76_gift_partial (hg : General P) (h0 : (0 : P3 ℝ) ∈ convexHull ℝ {p | p ∈ P}) (hl : LowOk P.length low)
    (hp : PickOk P.length pick) {A : List (IFacet ℝ)} (hA : IsHull3 P A) (hcap : 3 * A.length ≤ tableSize P.length)
    (hm : ∀ k, 1 ≤ k → k < A.length → moves k = false) (hf : A.length < fuel) :
    ∃ out, compute moves low pick fuel P = .ok out ∧ IsHull3 P out := by
  unfold compute
  rcases run_cases (moves := moves) (cap := tableSize P.length) (fuel := fuel) hg h0 hl hp (fun H hH => hH.le_hull hg hA) with
    ⟨H, e, hF⟩ | ⟨_, hr⟩ | ⟨_, hr⟩
  · exact ⟨_, e, hF.isHull hg⟩
  · omega
  · exact absurd hm hr

/-- Whatever the buffer does and whatever the size of the table, a run that returns returns the hull, and the table had room. -/
theorem c76_returns_partial (hg : General P) (h0 : (0 : P3 ℝ) ∈ convexHull ℝ {p | p ∈ P}) (hl : LowOk P.length low)
    (hp : PickOk P.length pick) {out : List (IFacet ℝ)} (h : compute moves low pick fuel P = .ok out) :
    IsHull3 P out ∧ 3 * out.length ≤ tableSize P.length := by
  unfold compute at h
  rcases run_cases (moves := moves) (cap := tableSize P.length) (fuel := fuel) hg h0 hl hp (fun H hH => hH.le_cube) with
    ⟨H, e, hF⟩ | ⟨e, _⟩ | ⟨e, _⟩
  · rw [e] at h
    cases h
    refine ⟨hF.isHull hg, ?_⟩
    unfold outOf
    rw [List.length_map]
    exact hF.room
  · rw [e] at h; cases h
  · rw [e] at h; cases h

/-- A hull with more than a third as many facets as the table has slots is never returned; if the buffer does not move, the run does not
end. -/
theorem c76_overfull (hg : General P) (h0 : (0 : P3 ℝ) ∈ convexHull ℝ {p | p ∈ P}) (hl : LowOk P.length low)
    (hp : PickOk P.length pick) {A : List (IFacet ℝ)} (hA : IsHull3 P A) (hcap : tableSize P.length < 3 * A.length) :
    (∀ out, compute moves low pick fuel P ≠ .ok out) ∧
      ((∀ k, 1 ≤ k → k < A.length → moves k = false) → compute moves low pick fuel P = .error .fuel) := by
  have h1 : ∀ out, compute moves low pick fuel P ≠ .ok out := by
    intro out h
    obtain ⟨h1, h2⟩ := c76_returns_partial hg h0 hl hp h
    have := h1.length_eq hA
    omega
  refine ⟨h1, fun hm => ?_⟩
  have h2 : ∀ out, computeWith (tableSize P.length) moves low pick fuel P ≠ .ok out := h1
  unfold compute
  rcases run_cases (moves := moves) (cap := tableSize P.length) (fuel := fuel) hg h0 hl hp (fun H hH => hH.le_hull hg hA) with
    ⟨H, e, hF⟩ | ⟨e, _⟩ | ⟨_, hr⟩
  · exact absurd e (h2 _)
  · exact e
  · exact absurd hm hr

theorem tableSize_ge (h : 4 ≤ P.length) : 6 ≤ tableSize P.length := by
  unfold tableSize
  have h1 : 44 * P.length / 10 + 1 ≤ 2 ^ Nat.clog 2 (44 * P.length / 10 + 1) := Nat.le_pow_clog (by norm_num) _
  omega

/-- If the second facet moves the buffer, the run reads a facet that is no longer there. -/
theorem c76_moved (hg : General P) (h0 : (0 : P3 ℝ) ∈ convexHull ℝ {p | p ∈ P}) (hl : LowOk P.length low)
    (hp : PickOk P.length pick) (hm : moves 1 = true) (hf : 0 < fuel) : compute moves low pick fuel P = .error .ub := by
  unfold compute
  rw [computeWith_eq hg]
  have h6 := tableSize_ge hg.four
  generalize tableSize P.length = cap at h6
  rcases start_ok (cap := cap) hg h0 hp hl True with ⟨m, e, h1, h2, h3, hI⟩ | ⟨e, hc⟩
  swap
  · omega
  rw [e]
  simp only [Except.bind]
  obtain ⟨fuel, rfl⟩ : ∃ k, fuel = k + 1 := ⟨fuel - 1, by omega⟩
  unfold loop
  simp only [h2]
  obtain ⟨f, hf⟩ := List.length_eq_one_iff.mp h1
  have hok : Ok3 P f.a f.b f.c := hI.valid.ok f (by rw [hf]; simp)
  have hder : Mem.deref { m with Q := [] } (0, 0) = .ok f := by
    unfold Mem.deref
    rw [if_pos h3.symm]
    simp only
    rw [hf]
    rfl
  have hok' := pivot_ok hg h0 hp hok
  have hT : ∀ e, e ∈ m.T ↔ e ∈ darts f := by
    intro e
    rw [hI.table, hf]
    simp
  have hlen := hI.len
  rw [h1] at hlen
  have habs : (f.b, f.a) ∉ m.T := by
    rw [hT]
    intro h
    exact no_both hok (x := f.a) (y := f.b) (by simp [darts]) h
  have h1' : edgeStep cap moves pick (at' P) (0, 0) 0 { m with Q := [] } =
      addFacet cap moves { m with Q := [] } ⟨f.a, pivot pick (at' P) (at' P f.b) (at' P f.a) (at' P f.c), f.b⟩ := by
    unfold edgeStep
    rw [hder]
    simp only [Except.bind, edgeOf]
    unfold processed
    rw [if_neg habs, if_pos (by omega)]
    simp only [Bool.false_eq_true, if_false]
    rw [mkFc_ok hok']
  rw [h1']
  generalize pivot pick (at' P) (at' P f.b) (at' P f.a) (at' P f.c) = q at *
  obtain ⟨n1, n2, n3⟩ := hok'.ne
  have f1 : (f.a, q) ∉ m.T := by
    intro h
    obtain ⟨w, hw, d1, d2⟩ := dart_third hok ((hT _).mp h)
    rw [hw.uniq hg hok'] at d2
    exact habs ((hT _).mpr d2)
  have f2 : (q, f.b) ∉ m.T := by
    intro h
    obtain ⟨w, hw, d1, d2⟩ := dart_third hok ((hT _).mp h)
    rw [hw.uniq hg hok'.cyc] at d1
    exact habs ((hT _).mpr d1)
  rw [addFacet_eq (m := { m with Q := [] }) f1 f2 habs n1 n2 n3, if_pos (by simp only; omega)]
  simp only [h1, hm, if_true]
  unfold edgeStep Mem.deref
  simp only [h3]
  rfl

/-- If the origin is beyond every supporting plane through a leftmost point and two others, one triangle is returned. -/
theorem c76_outside (hg : General P) (hl : LowOk P.length low) (hp : PickOk P.length pick)
    (hout : ∀ x ∈ P, ∀ y ∈ P, ∀ z ∈ P, (∀ p ∈ P, x 0 ≤ p 0) → x ≠ y → x ≠ z → y ≠ z → (∀ p ∈ P, 0 ≤ sv x y z p) → sv x y z 0 < 0)
    (hf : 1 < fuel) : ∃ f, compute moves low pick fuel P = .ok [f] ∧ ¬ IsHull3 P [f] := by
  unfold compute
  rw [computeWith_eq hg]
  have h6 := tableSize_ge hg.four
  generalize tableSize P.length = cap at h6
  have hno : ∀ f, ¬ IsHull3 P [f] := by
    intro f hH
    obtain ⟨n1, _, _⟩ := hH.proper f (by simp)
    obtain ⟨g, hg', _, _, hne, _⟩ := hH.edge f (by simp) f.a f.b (Or.inl rfl) (Or.inr (Or.inl rfl)) n1
    rw [List.mem_singleton.mp hg'] at hne
    exact hne fun _ => Iff.rfl
  generalize he : firstThree low pick (at' P) = p
  obtain ⟨p1, p2, p3⟩ := p
  obtain ⟨l1, l2, l3, n1, n2, n3, hmin, hs⟩ := first_ok hg hl hp he
  have ne : ∀ {i j}, i < P.length → j < P.length → i ≠ j → at' P i ≠ at' P j := fun hi hj h he => h (at_inj hg.nodup hi hj he)
  have hdet := hout _ (at_mem l1) _ (at_mem l2) _ (at_mem l3) hmin (ne l1 l2 n1) (ne l1 l3 n2) (ne l2 l3 n3) hs
  rw [sv_zero] at hdet
  have hst : start cap low pick (at' P) = .ok ⟨[⟨p1, p2, p3⟩], 0, [(p1, p3), (p3, p2), (p2, p1)], [(0, 0)]⟩ := by
    unfold start
    rw [he]
    simp only
    rw [mark_new (by simp), if_pos (by simp; omega)]
    simp only [Except.bind]
    rw [mark_new (by simp; omega), if_pos (by simp; omega)]
    simp only
    rw [mark_new (by simp; omega), if_pos (by simp; omega)]
    unfold mkFc
    rw [if_neg (not_lt.mpr hdet.le)]
  rw [hst]
  simp only [Except.bind]
  have hstep : ∀ j, edgeStep cap moves pick (at' P) (0, 0) j ⟨[⟨p1, p2, p3⟩], 0, [(p1, p3), (p3, p2), (p2, p1)], []⟩ =
      .ok ⟨[⟨p1, p2, p3⟩], 0, [(p1, p3), (p3, p2), (p2, p1)], []⟩ := by
    intro j
    unfold edgeStep
    have hder : Mem.deref ⟨[⟨p1, p2, p3⟩], 0, [(p1, p3), (p3, p2), (p2, p1)], []⟩ (0, 0) = .ok ⟨p1, p2, p3⟩ := rfl
    rw [hder]
    simp only [Except.bind]
    unfold processed
    rw [if_pos]
    · rfl
    · match j with
      | 0 => simp [edgeOf]
      | 1 => simp [edgeOf]
      | j + 2 => simp [edgeOf]
  obtain ⟨fuel, rfl⟩ : ∃ k, fuel = k + 2 := ⟨fuel - 2, by omega⟩
  unfold loop
  simp only [hstep, Except.bind]
  unfold loop
  refine ⟨_, rfl, hno _⟩

/-! ### Concrete inputs -/

/-- A point with integer coordinates. -/
def castP (t : ℤ × ℤ × ℤ) : P3 ℝ := ![(t.1 : ℝ), (t.2.1 : ℝ), (t.2.2 : ℝ)]

/-- `vol` on integer coordinates. -/
def volZ (a b c p : ℤ × ℤ × ℤ) : ℤ :=
  (b.1 - a.1) * ((c.2.1 - a.2.1) * (p.2.2 - a.2.2) - (c.2.2 - a.2.2) * (p.2.1 - a.2.1)) -
    (b.2.1 - a.2.1) * ((c.1 - a.1) * (p.2.2 - a.2.2) - (c.2.2 - a.2.2) * (p.1 - a.1)) +
    (b.2.2 - a.2.2) * ((c.1 - a.1) * (p.2.1 - a.2.1) - (c.2.1 - a.2.1) * (p.1 - a.1))

theorem sv_cast (a b c d : ℤ × ℤ × ℤ) : sv (castP a) (castP b) (castP c) (castP d) = ((-volZ a b c d : ℤ) : ℝ) := by
  rw [← neg_neg (sv _ _ _ _), ← vol_sv]
  unfold vol castP volZ
  simp

theorem cast_zero : castP (0, 0, 0) = 0 := by
  unfold castP
  funext i
  fin_cases i <;> simp

theorem det_cast (a b c : ℤ × ℤ × ℤ) : det3 (castP a) (castP b) (castP c) = ((-volZ a b c (0, 0, 0) : ℤ) : ℝ) := by
  rw [← sv_zero, ← cast_zero, sv_cast]

theorem castP_inj {a b : ℤ × ℤ × ℤ} (h : castP a = castP b) : a = b := by
  unfold castP at h
  have h0 := congrFun h 0
  have h1 := congrFun h 1
  have h2 := congrFun h 2
  simp at h0 h1 h2
  exact Prod.ext h0 (Prod.ext h1 h2)

/-- General position, on integers. -/
def genZ (Z : List (ℤ × ℤ × ℤ)) : Bool :=
  (Z.all fun a => Z.all fun b => a == b || Z.all fun c => a == c || b == c || Z.all fun d => a == d || b == d || c == d ||
    volZ a b c d != 0) &&
  Z.all fun a => Z.all fun b => a == b || Z.all fun c => a == c || b == c || volZ a b c (0, 0, 0) != 0

theorem general_of {Z : List (ℤ × ℤ × ℤ)} (hn : Z.Nodup) (h4 : 4 ≤ Z.length) (h : genZ Z = true) : General (Z.map castP) := by
  refine ⟨hn.map fun _ _ => castP_inj, by simpa using h4, le_refl _, ?_, ?_⟩
  · intro a ha b hb c hc d hd n1 n2 n3 n4 n5 n6
    obtain ⟨a, ma, rfl⟩ := List.mem_map.mp ha
    obtain ⟨b, mb, rfl⟩ := List.mem_map.mp hb
    obtain ⟨c, mc, rfl⟩ := List.mem_map.mp hc
    obtain ⟨d, md, rfl⟩ := List.mem_map.mp hd
    have hne : ∀ {a b : ℤ × ℤ × ℤ}, castP a ≠ castP b → a ≠ b := fun h e => h (e ▸ rfl)
    unfold genZ at h
    simp only [Bool.and_eq_true, List.all_eq_true, Bool.or_eq_true, beq_iff_eq, bne_iff_ne] at h
    have h1 := h.1 a ma b mb
    have n1 := hne n1
    have n2 := hne n2
    have n3 := hne n3
    have n4 := hne n4
    have n5 := hne n5
    have n6 := hne n6
    rcases h1 with h1 | h1
    · exact absurd h1 n1
    rcases h1 c mc with (h2 | h2) | h2
    · exact absurd h2 n2
    · exact absurd h2 n4
    rcases h2 d md with ((h3 | h3) | h3) | h3
    · exact absurd h3 n3
    · exact absurd h3 n5
    · exact absurd h3 n6
    · rw [sv_cast, abs_pos]
      exact_mod_cast neg_ne_zero.mpr h3
  · intro a ha b hb c hc n1 n2 n4
    obtain ⟨a, ma, rfl⟩ := List.mem_map.mp ha
    obtain ⟨b, mb, rfl⟩ := List.mem_map.mp hb
    obtain ⟨c, mc, rfl⟩ := List.mem_map.mp hc
    have hne : ∀ {a b : ℤ × ℤ × ℤ}, castP a ≠ castP b → a ≠ b := fun h e => h (e ▸ rfl)
    unfold genZ at h
    simp only [Bool.and_eq_true, List.all_eq_true, Bool.or_eq_true, beq_iff_eq, bne_iff_ne] at h
    rcases h.2 a ma b mb with h1 | h1
    · exact absurd h1 (hne n1)
    rcases h1 c mc with (h2 | h2) | h2
    · exact absurd h2 (hne n2)
    · exact absurd h2 (hne n4)
    · rw [det_cast, abs_pos]
      exact_mod_cast neg_ne_zero.mpr h2

theorem at_cast {Z : List (ℤ × ℤ × ℤ)} {i : ℕ} (h : i < Z.length) : at' (Z.map castP) i = castP (Z.getD i (0, 0, 0)) := by
  unfold at'
  rw [List.getD_eq_getElem _ _ (by simpa using h), List.getD_eq_getElem _ _ h, List.getElem_map]

/-- Supporting triangles around the origin, on integers. -/
def okZ (Z : List (ℤ × ℤ × ℤ)) (f : Fc) : Bool :=
  decide (f.a < Z.length) && decide (f.b < Z.length) && decide (f.c < Z.length) &&
    decide (0 < volZ (Z.getD f.a (0, 0, 0)) (Z.getD f.b (0, 0, 0)) (Z.getD f.c (0, 0, 0)) (0, 0, 0)) &&
    Z.all fun p => decide (0 ≤ volZ (Z.getD f.a (0, 0, 0)) (Z.getD f.b (0, 0, 0)) (Z.getD f.c (0, 0, 0)) p)

theorem ok_of {Z : List (ℤ × ℤ × ℤ)} {f : Fc} (h : okZ Z f = true) : Ok3 (Z.map castP) f.a f.b f.c := by
  unfold okZ at h
  simp only [Bool.and_eq_true, decide_eq_true_eq, List.all_eq_true] at h
  obtain ⟨⟨⟨⟨h1, h2⟩, h3⟩, h4⟩, h5⟩ := h
  refine ⟨by simpa using h1, by simpa using h2, by simpa using h3, ?_, ?_⟩
  · rw [at_cast h1, at_cast h2, at_cast h3, det_cast]
    exact_mod_cast neg_neg_of_pos h4
  · intro p hp
    obtain ⟨p, mp, rfl⟩ := List.mem_map.mp hp
    rw [at_cast h1, at_cast h2, at_cast h3, sv_cast]
    exact_mod_cast neg_nonpos.mpr (h5 p mp)

/-- Thirteen points in convex position around the origin. -/
def Z13 : List (ℤ × ℤ × ℤ) := [(-13, -13, 8), (-14, -1, -14), (13, 2, 15), (-14, 11, -8), (-8, 4, 18), (19, -5, -4), (13, 11, -11),
  (-6, 18, 6), (10, 16, 7), (9, 0, -18), (8, -18, 5), (11, -15, -8), (-9, -15, -10)]

/-- The facets of their hull. -/
def F13 : List Fc := [⟨0, 1, 3⟩, ⟨0, 12, 1⟩, ⟨0, 3, 4⟩, ⟨0, 4, 10⟩, ⟨0, 10, 12⟩, ⟨1, 9, 3⟩, ⟨1, 12, 9⟩, ⟨2, 4, 8⟩, ⟨2, 10, 4⟩, ⟨2, 8, 5⟩,
  ⟨2, 5, 10⟩, ⟨3, 7, 4⟩, ⟨3, 6, 7⟩, ⟨3, 9, 6⟩, ⟨4, 7, 8⟩, ⟨5, 8, 6⟩, ⟨5, 6, 9⟩, ⟨5, 9, 11⟩, ⟨5, 11, 10⟩, ⟨6, 8, 7⟩, ⟨9, 12, 11⟩,
  ⟨10, 11, 12⟩]

theorem general13 : General (Z13.map castP) := general_of (by decide +kernel) (by decide) (by decide +kernel)

theorem origin13 : (0 : P3 ℝ) ∈ convexHull ℝ {p | p ∈ Z13.map castP} := by
  have hm : ∀ t ∈ Z13, castP t ∈ convexHull ℝ {p | p ∈ Z13.map castP} := fun t ht =>
    subset_convexHull ℝ _ (List.mem_map_of_mem ht)
  refine convex4 (convex_convexHull ℝ _) (hm (-6, 18, 6) (by decide)) (hm (8, -18, 5) (by decide)) (hm (11, -15, -8) (by decide))
    (hm (-9, -15, -10) (by decide)) (w1 := 7 / 15) (w2 := 2 / 15) (w3 := 4 / 15) (w4 := 2 / 15) (by norm_num) (by norm_num) (by norm_num)
    (by norm_num) (by norm_num) ?_
  intro i
  unfold castP
  fin_cases i <;> norm_num

theorem valid13 : Valid (Z13.map castP) F13 := by
  have h : ∀ f ∈ F13, okZ Z13 f = true := by decide +kernel
  refine ⟨fun f hf => ok_of (h f hf), ?_⟩
  decide +kernel

/-- Both contracts can be met: the first index of the largest, or smallest, key. -/
theorem pick_exists {n : ℕ} (h : 0 < n) : (∃ pick, PickOk n pick) ∧ ∃ low, LowOk n low := by
  have hne : (Finset.range n).Nonempty := ⟨0, by simpa using h⟩
  constructor
  · choose f hf using fun key : ℕ → ℝ => Finset.exists_max_image (Finset.range n) key hne
    exact ⟨f, fun key => ⟨Finset.mem_range.mp (hf key).1, fun i hi => (hf key).2 i (Finset.mem_range.mpr hi)⟩⟩
  · choose f hf using fun key : ℕ → ℝ => Finset.exists_min_image (Finset.range n) key hne
    exact ⟨f, fun key => ⟨Finset.mem_range.mp (hf key).1, fun i hi => (hf key).2 i (Finset.mem_range.mpr hi)⟩⟩

/-- The claim is false: on these thirteen points, around the origin and in general position, no run returns, whatever `max_element` and
`min_element` choose among equal keys, and even if the buffer does not move. -/
theorem c76_overfull_false : ∃ P : List (P3 ℝ), P.length = 13 ∧ General P ∧ (0 : P3 ℝ) ∈ convexHull ℝ {p | p ∈ P} ∧
    ∀ low pick, LowOk P.length low → PickOk P.length pick → ∀ fuel,
      (∀ moves out, compute moves low pick fuel P ≠ .ok out) ∧ compute (fun _ => false) low pick fuel P = .error .fuel := by
  refine ⟨Z13.map castP, rfl, general13, origin13, ?_⟩
  intro low pick hl hp fuel
  obtain ⟨A, hA⟩ := c76_hull_exists general13 origin13 hl hp
  have h22 : F13.length ≤ A.length := valid13.le_hull general13 hA
  have hlt : tableSize (Z13.map castP).length < 3 * A.length := by
    have e : tableSize (Z13.map castP).length = 64 := by
      rw [List.length_map]
      decide +kernel
    have e2 : F13.length = 22 := rfl
    omega
  exact ⟨fun moves out => (c76_overfull general13 origin13 hl hp hA hlt).1 out,
    (c76_overfull general13 origin13 hl hp hA hlt).2 fun _ _ _ => rfl⟩

/-- A tetrahedron around the origin. -/
def Z4 : List (ℤ × ℤ × ℤ) := [(3, 0, -1), (-1, 3, -1), (-2, -3, -1), (0, 0, 3)]

theorem general4 : General (Z4.map castP) := general_of (by decide +kernel) (by decide) (by decide +kernel)

theorem origin4 : (0 : P3 ℝ) ∈ convexHull ℝ {p | p ∈ Z4.map castP} := by
  have hm : ∀ t ∈ Z4, castP t ∈ convexHull ℝ {p | p ∈ Z4.map castP} := fun t ht =>
    subset_convexHull ℝ _ (List.mem_map_of_mem ht)
  refine convex4 (convex_convexHull ℝ _) (hm (3, 0, -1) (by decide)) (hm (-1, 3, -1) (by decide)) (hm (-2, -3, -1) (by decide))
    (hm (0, 0, 3) (by decide)) (w1 := 1 / 4) (w2 := 1 / 4) (w3 := 1 / 4) (w4 := 1 / 4) (by norm_num) (by norm_num) (by norm_num)
    (by norm_num) (by norm_num) ?_
  intro i
  unfold castP
  fin_cases i <;> norm_num

/-- Its facets. -/
def F4 : List Fc := [⟨0, 1, 2⟩, ⟨0, 3, 1⟩, ⟨0, 2, 3⟩, ⟨1, 3, 2⟩]

theorem hull4 : IsHull3 (Z4.map castP) (outOf (Z4.map castP) F4) := by
  have h : ∀ f ∈ F4, okZ Z4 f = true := by decide +kernel
  refine Final.isHull (cap := 12) general4 ⟨by decide, ⟨fun f hf => ok_of (h f hf), by decide +kernel⟩, by decide, ?_⟩
  have hc : ∀ f ∈ F4, ∀ e ∈ darts f, ∃ g ∈ F4, (e.2, e.1) ∈ darts g := by decide +kernel
  exact fun f hf x y hd => hc f hf (x, y) hd

/-- The hypotheses of `c76_gift_partial` are met by a tetrahedron. -/
example : ∃ low pick, ∃ out, compute (fun _ => false) low pick 5 (Z4.map castP) = .ok out ∧ IsHull3 (Z4.map castP) out := by
  obtain ⟨⟨pick, hp⟩, low, hl⟩ := pick_exists (n := (Z4.map castP).length) (by decide)
  refine ⟨low, pick, c76_gift_partial general4 origin4 hl hp hull4 ?_ (fun _ _ _ => rfl) (by decide)⟩
  have e : tableSize (Z4.map castP).length = 32 := by
    rw [List.length_map]
    decide +kernel
  have e2 : (outOf (Z4.map castP) F4).length = 4 := rfl
  omega

/-- The claim is false if the buffer moves when the second facet is appended, already for a tetrahedron. -/
theorem c76_moved_false : ∃ P : List (P3 ℝ), P.length = 4 ∧ General P ∧ (0 : P3 ℝ) ∈ convexHull ℝ {p | p ∈ P} ∧
    ∀ low pick, LowOk P.length low → PickOk P.length pick → ∀ moves, moves 1 = true → ∀ fuel, 0 < fuel →
      compute moves low pick fuel P = .error .ub :=
  ⟨Z4.map castP, rfl, general4, origin4, fun low pick hl hp moves hm fuel hf => c76_moved general4 origin4 hl hp hm hf⟩

/-- A tetrahedron whose leftmost corner points to the origin. -/
def Zo : List (ℤ × ℤ × ℤ) := [(1, 0, 0), (2, 1, 0), (2, -1, 1), (2, -2, -1)]

theorem generalo : General (Zo.map castP) := general_of (by decide +kernel) (by decide) (by decide +kernel)

/-- The claim is false if the origin is not inside: of a tetrahedron one triangle is returned. -/
theorem c76_outside_false : ∃ P : List (P3 ℝ), P.length = 4 ∧ General P ∧
    ∀ low pick, LowOk P.length low → PickOk P.length pick → ∀ moves fuel, 1 < fuel →
      ∃ f, compute moves low pick fuel P = .ok [f] ∧ ¬ IsHull3 P [f] := by
  refine ⟨Zo.map castP, rfl, generalo, fun low pick hl hp moves fuel hf => c76_outside generalo hl hp ?_ hf⟩
  have h : ∀ x ∈ Zo, ∀ y ∈ Zo, ∀ z ∈ Zo, (∀ p ∈ Zo, x.1 ≤ p.1) → x ≠ y → x ≠ z → y ≠ z → (∀ p ∈ Zo, volZ x y z p ≤ 0) →
      0 < volZ x y z (0, 0, 0) := by decide +kernel
  intro x hx y hy z hz hmin n1 n2 n3 hs
  obtain ⟨x, mx, rfl⟩ := List.mem_map.mp hx
  obtain ⟨y, my, rfl⟩ := List.mem_map.mp hy
  obtain ⟨z, mz, rfl⟩ := List.mem_map.mp hz
  have := h x mx y my z mz (fun p mp => by
      have := hmin _ (List.mem_map_of_mem mp)
      unfold castP at this
      simpa using this) (fun e => n1 (e ▸ rfl)) (fun e => n2 (e ▸ rfl)) (fun e => n3 (e ▸ rfl)) (fun p mp => by
      have := hs _ (List.mem_map_of_mem mp)
      rw [sv_cast] at this
      have h' : (0 : ℤ) ≤ -volZ x y z p := by exact_mod_cast this
      omega)
  rw [← cast_zero, sv_cast]
  exact_mod_cast neg_neg_of_pos this

end Verif.Gift
