import Verif.QHull.PseudoTop
import Verif.QHull.DcWitness

set_option linter.unusedSectionVars false
set_option linter.unusedVariables false

/-!
The pseudo hull (C70): what its filter keeps, and the hull of it. The specifications are `convexHull` and `IsHull3` (`Output.lean`).
-/

namespace Verif.QHull

open Verif Verif.Hull3d Verif.Par Verif.Reserve

variable {K : Type} [Field K] [LinearOrder K] [IsStrictOrderedRing K]
variable {P : List (P3 K)} {knob eps : K} {E : P3 K}

/-- C70, the filter: if no point occurs twice, not all points are in one plane, and four points that are not in one plane span more
than `4 knob` (points in one plane are allowed), the filter stops, returns points of the input, none more often than it
is in the input, and these have the convex hull of the input. Missing: the other inputs (`c70_duplicates_diverge`, `c70_scale_false`). -/
theorem c70_filter_partial (h : PseudoInput knob P) {fuel : ℕ} (hf : P.length < fuel) :
    ∃ R, pseudoHull knob E fuel P = .ok R ∧ R.Subperm P ∧ convexHull K {q | q ∈ R} = convexHull K {q | q ∈ P} := by
  obtain ⟨R, h1, h2, h3⟩ := pseudoHull_ok (E := E) h hf
  exact ⟨R, h1, h2, le_antisymm (convexHull_mono h2.subset) (convexHull_min h3 (convex_convexHull K _))⟩

/-- The corners of a cube with side 10, with the constant of the code, and its centre: many points in one plane. -/
def cube10 : List (P3 ℚ) :=
  [![0, 0, 0], ![0, 10, 0], ![0, 0, 10], ![0, 10, 10], ![10, 0, 0], ![10, 10, 0], ![10, 0, 10], ![10, 10, 10], ![5, 5, 5]]

example : PseudoInput (1 / 100000) cube10 :=
  ⟨by norm_num, by decide +kernel, ⟨![0, 0, 0], by decide +kernel, ![10, 0, 0], by decide +kernel, ![0, 10, 0], by decide +kernel,
    ![0, 0, 10], by decide +kernel, by decide +kernel⟩, by
    have h : (cube10.all fun a => cube10.all fun b => cube10.all fun c => cube10.all fun d =>
        decide (sv a b c d = 0) || decide (4 * (1 / 100000) < |sv a b c d|)) = true := by decide +kernel
    simp only [List.all_eq_true] at h
    intro a ha b hb c hc d hd h0
    have := h a ha b hb c hc d hd
    simpa [h0] using this⟩

theorem sv_distinct {a b c d : P3 K} (h : sv a b c d ≠ 0) : a ≠ b ∧ a ≠ c ∧ a ≠ d ∧ b ≠ c ∧ b ≠ d ∧ c ≠ d := by
  refine ⟨?_, ?_, ?_, ?_, ?_, ?_⟩ <;> rintro rfl <;> apply h <;> rw [sv_poly] <;> ring

theorem GenAll.pseudo (hg : GenAll eps P) (h4 : 4 ≤ P.length) : PseudoInput eps P := by
  refine ⟨hg.nn, hg.nodup, ?_, ?_⟩
  · match P, h4, hg with
    | a :: b :: c :: d :: l, _, hg =>
      have hn := hg.nodup
      simp only [List.nodup_cons, List.mem_cons, not_or] at hn
      refine ⟨a, by simp, b, by simp, c, by simp, d, by simp, fun h0 => ?_⟩
      have := hg.vol a (by simp) b (by simp) c (by simp) d (by simp) hn.1.1 hn.1.2.1 hn.1.2.2.1 hn.2.1.1 hn.2.1.2.1 hn.2.2.1.1
      rw [h0, abs_zero] at this
      exact absurd hg.nn (not_le.mpr this)
  · intro a ha b hb c hc d hd h0
    obtain ⟨n1, n2, n3, n4, n5, n6⟩ := sv_distinct h0
    have := hg.det a ha b hb c hc d hd n1 n2 n3 n4 n5 n6 a ha b hb c hc n1 n2 n4
    have e : sv a b c (centre a b c d) = sv a b c d / 4 := by
      simp only [sv_poly, centre]; ring
    rw [e, abs_div, abs_of_pos (by norm_num : (0 : K) < 4), lt_div_iff₀ (by norm_num)] at this
    linarith

/-- All outcomes of a run. -/
theorem pseudo_outcome (hg : GenAll eps P) (h4 : 4 ≤ P.length) {A : List (IFacet K)} (hA : IsHull3 P A)
    {pick : Pick K} (hp : Picks pick) {numProc : ℕ} (hnp : 1 ≤ numProc) {fuel : ℕ}
    (hf : 9 * P.length ^ 3 + P.length + 5 ≤ fuel) : ∃ B, ∀ o : ℕ → Oracle K, (∀ n, (o n).Fine) →
      (pseudoCompute eps eps E fuel pick numProc o P = .error .fuel ∨
        (64 ≤ A.length ∧ ∃ out, pseudoCompute eps eps E fuel pick numProc o P = .ok out ∧ IsHull3 P out) ∨
        (A.length < 64 ∧ pseudoCompute eps eps E fuel pick numProc o P = .error .ub)) ∧
      (Fair o (numProc * 8) B → pseudoCompute eps eps E fuel pick numProc o P ≠ .error .fuel) := by
  obtain ⟨R, h1, h2, h3⟩ := pseudoHull_ok (E := E) (hg.pseudo h4) (fuel := fuel) (by omega)
  have hQ : GenInput eps P := hg.sublist (List.Sublist.refl _) h4
  have hRg : GenInput eps R := hg.gen h2.subset (four_of_span hQ h3 h2.subset)
  have hlen : 9 * R.length ^ 3 + R.length + 5 ≤ fuel := by
    have h5 := h2.length_le
    have := Nat.pow_le_pow_left h5 3
    omega
  obtain ⟨B, hB⟩ := par_outcome hRg hp hnp hlen
  refine ⟨B, fun o ho => ?_⟩
  have hr : pseudoCompute eps eps E fuel pick numProc o P = parCompute eps fuel pick numProc o R := by
    unfold pseudoCompute
    rw [h1]
    rfl
  obtain ⟨o1, o2⟩ := hB o ho
  rw [hr]
  refine ⟨?_, o2⟩
  rcases o1 with o1 | ⟨A', hA', o1⟩
  · exact Or.inl o1
  · have ht := hA'.transfer hQ h2.subset h3
    have hl := ht.length_eq hA
    rcases o1 with ⟨o3, o4⟩ | ⟨o3, o4⟩
    · exact Or.inr (Or.inr ⟨by omega, o4⟩)
    · exact Or.inr (Or.inl ⟨by omega, A', o4, ht⟩)

/-- C70, for inputs in general position (`numericKnob` of the filter and `eps` of the quickhull are the same number) whose hull has at
least 64 facets, for all numbers of threads, all choices of apexes, all addresses and all interleavings: a run that comes to an end returns
exactly the facets of the hull of the input, and every run in which all threads get enough accesses comes to an end.
Missing: smaller hulls (`c70_small_ub`), repeated points (`c70_duplicates_diverge`) and small inputs (`c70_scale_false`). -/
theorem c70_pseudo_partial (hg : GenAll eps P) (h4 : 4 ≤ P.length) {A : List (IFacet K)} (hA : IsHull3 P A) (h64 : 64 ≤ A.length)
    {pick : Pick K} (hp : Picks pick) {numProc : ℕ} (hnp : 1 ≤ numProc) {fuel : ℕ}
    (hf : 9 * P.length ^ 3 + P.length + 5 ≤ fuel) : ∃ B, ∀ o : ℕ → Oracle K, (∀ n, (o n).Fine) →
      (pseudoCompute eps eps E fuel pick numProc o P = .error .fuel ∨
        ∃ out, pseudoCompute eps eps E fuel pick numProc o P = .ok out ∧ IsHull3 P out) ∧
      (Fair o (numProc * 8) B → ∃ out, pseudoCompute eps eps E fuel pick numProc o P = .ok out ∧ IsHull3 P out) := by
  obtain ⟨B, hB⟩ := pseudo_outcome (E := E) hg h4 hA hp hnp hf
  refine ⟨B, fun o ho => ?_⟩
  obtain ⟨h1, h2⟩ := hB o ho
  have h3 : pseudoCompute eps eps E fuel pick numProc o P = .error .fuel ∨
      ∃ out, pseudoCompute eps eps E fuel pick numProc o P = .ok out ∧ IsHull3 P out := by
    rcases h1 with h1 | ⟨_, h1⟩ | ⟨h1, _⟩
    · exact Or.inl h1
    · exact Or.inr h1
    · omega
  exact ⟨h3, fun hfair => h3.resolve_left (h2 hfair)⟩

/-- C70 fails for every input in general position whose hull has fewer than 64 facets: every run follows a null pointer. -/
theorem c70_small_ub (hg : GenAll eps P) (h4 : 4 ≤ P.length) {A : List (IFacet K)} (hA : IsHull3 P A) (h64 : A.length < 64)
    {pick : Pick K} (hp : Picks pick) {numProc : ℕ} (hnp : 1 ≤ numProc) {fuel : ℕ}
    (hf : 9 * P.length ^ 3 + P.length + 5 ≤ fuel) : ∃ B, ∀ o : ℕ → Oracle K, (∀ n, (o n).Fine) →
      (pseudoCompute eps eps E fuel pick numProc o P = .error .fuel ∨ pseudoCompute eps eps E fuel pick numProc o P = .error .ub) ∧
      (Fair o (numProc * 8) B → pseudoCompute eps eps E fuel pick numProc o P = .error .ub) := by
  obtain ⟨B, hB⟩ := pseudo_outcome (E := E) hg h4 hA hp hnp hf
  refine ⟨B, fun o ho => ?_⟩
  obtain ⟨h1, h2⟩ := hB o ho
  have h3 : pseudoCompute eps eps E fuel pick numProc o P = .error .fuel ∨
      pseudoCompute eps eps E fuel pick numProc o P = .error .ub := by
    rcases h1 with h1 | ⟨h1, _⟩ | ⟨_, h1⟩
    · exact Or.inl h1
    · omega
    · exact Or.inr h1
  exact ⟨h3, fun hfair => h3.resolve_left (h2 hfair)⟩

/-- 192 points, whose hull has at least 64 facets. -/
theorem c70_instance : ∃ P : List (P3 ℚ), P.length = 192 ∧ GenAll 0 P ∧ ∃ fuel o out, (∀ n, (o n : Oracle ℚ).Fine) ∧
    pseudoCompute 0 0 (fun _ => 0) fuel (fun _ f l => furthestPar f l) 4 o P = .ok out ∧ IsHull3 P out := by
  obtain ⟨T, hT, hnd, hg⟩ := genAll_exists 192
  have hl : (T.map mc).length = 192 := by rw [List.length_map, hT]
  refine ⟨T.map mc, hl, hg, ?_⟩
  obtain ⟨A, hA⟩ := hull_exists (hg.sublist (List.Sublist.refl _) (by omega))
  have h64 : 64 ≤ A.length := by
    have := mc_facets hnd hA
    omega
  obtain ⟨N, hN⟩ := c70_pseudo_partial (E := fun _ => 0) hg (by omega) hA h64 picks_furthest (numProc := 4) (by norm_num) (le_refl _)
  obtain ⟨out, h1, h2⟩ := (hN (fun _ => plainOracle 32 N) fun _ => plain_fine 32 N).2 (plain_fair 32 N)
  exact ⟨_, _, out, fun _ => plain_fine 32 N, h1, h2⟩

/-! Inputs on which the filter does not stop. -/

theorem count_filter_map {Q : List (P3 K)} {o a : P3 K} {p : P3 K → Bool} (h : p (tr o a) = true) :
    ((Q.map (tr o)).filter p).count (tr o a) = Q.count a := by
  rw [List.count_filter h, List.count_map_of_injective _ _ fun p q h => tr_inj h]

theorem mkPF_a (a b c : P3 K) : (mkPF knob a b c).a = a := by
  unfold mkPF
  split <;> rfl

theorem pVisible_a (f : PF K) : pVisible knob f f.a = true := by
  unfold pVisible
  simp

/-- Four copies of the first corner of a facet stay together for ever. -/
theorem pHelper_diverges (fuel : ℕ) : ∀ (f : PF K) (Q : List (P3 K)), 4 ≤ Q.count f.a → pHelper knob E fuel f Q = .error .fuel := by
  induction fuel with
  | zero => intro f Q _; rfl
  | succ fuel ih =>
    intro f Q h
    have h4 : ¬ Q.length < 4 := by
      have := List.count_le_length (a := f.a) (l := Q)
      omega
    unfold pHelper
    rw [if_neg h4]
    simp only
    generalize centre f.a f.b f.c (pApex knob E f Q) = o
    have key : ∀ g : PF K, g.a = tr o f.a →
        pHelper knob E fuel g ((Q.map (tr o)).filter fun p => pVisible knob g p) = .error .fuel := by
      intro g hg
      refine ih g _ ?_
      rw [hg, count_filter_map]
      · exact h
      · rw [← hg]; exact pVisible_a g
    have := key (mkPF knob (tr o f.a) (tr o f.b) (tr o (pApex knob E f Q))) (mkPF_a _ _ _)
    rw [pParts]
    erw [this]
    rfl

/-- C70 fails whenever the corner with the smallest coordinate that the first simplex is built on occurs four times in the input: the
recursion never ends. -/
theorem c70_duplicates_diverge {c1 c2 c3 c4 : P3 K} (hc : corners P = some (c1, c2, c3, c4)) (h : 4 ≤ P.count c1) (fuel : ℕ) :
    pseudoHull knob E fuel P = .error .fuel := by
  unfold pseudoHull
  rw [hc]
  simp only
  generalize centre c1 c2 c3 c4 = o
  have key : ∀ g : PF K, g.a = tr o c1 →
      pHelper knob E fuel g ((P.map (tr o)).filter fun p => pVisible knob g p) = .error .fuel := by
    intro g hg
    refine pHelper_diverges fuel g _ ?_
    rw [hg, count_filter_map]
    · exact h
    · rw [← hg]; exact pVisible_a g
  have := key (mkPF knob (tr o c1) (tr o c2) (tr o c3)) (mkPF_a _ _ _)
  rw [pParts]
  erw [this]
  rfl

/-- A cube, one of its corners four times. -/
def cubeDup : List (P3 ℚ) :=
  [![0, 0, 0], ![0, 0, 0], ![0, 0, 0], ![0, 0, 0], ![0, 9, 0], ![0, 0, 9], ![0, 9, 9], ![10, 0, 0], ![10, 9, 0], ![10, 0, 9], ![10, 9, 9]]

/-- C70 fails for a cube with a corner that is in the input four times: no run comes to an end. -/
theorem c70_duplicates_false (fuel numProc : ℕ) (pick : Pick ℚ) (o : ℕ → Oracle ℚ) :
    pseudoCompute (1 / 100000) (1 / 100000) (fun _ => 0) fuel pick numProc o cubeDup = .error .fuel := by
  have h : ((corners cubeDup).map fun c => c.1) = some ![0, 0, 0] := by decide +kernel
  unfold pseudoCompute
  match hc : corners cubeDup with
  | none => rw [hc] at h; simp at h
  | some (c1, c2, c3, c4) =>
    rw [hc] at h
    simp only [Option.map_some, Option.some.injEq] at h
    subst h
    rw [c70_duplicates_diverge hc (by decide +kernel)]
    rfl

/-- A cube with side 1/100. -/
def cubeSmall : List (P3 ℚ) :=
  [![0, 0, 0], ![0, 1/100, 0], ![0, 0, 1/100], ![0, 1/100, 1/100], ![1/100, 0, 0], ![1/100, 1/100, 0], ![1/100, 0, 1/100],
    ![1/100, 1/100, 1/100]]

/-- C70 fails for small inputs: of a cube with side 1/100 the filter, with the constant of the code, keeps four corners only, so that
what is returned cannot be the hull. -/
theorem c70_scale_false : ∃ R, pseudoHull (1 / 100000) (fun _ => 0) 9 cubeSmall = .ok R ∧ R.length = 4 ∧ R.Subperm cubeSmall ∧
    convexHull ℚ {q | q ∈ R} ≠ convexHull ℚ {q | q ∈ cubeSmall} := by
  have hr : (pseudoHull (1 / 100000) (fun _ => 0) 9 cubeSmall).toOption =
      some [![0, 0, 0], ![0, 0, 1/100], ![1/100, 1/100, 0], ![0, 1/100, 0]] := by decide +kernel
  match h : pseudoHull (K := ℚ) (1 / 100000) (fun _ => 0) 9 cubeSmall with
  | .error e => rw [h] at hr; simp [Except.toOption] at hr
  | .ok R =>
    rw [h] at hr
    simp only [Except.toOption, Option.some.injEq] at hr
    subst hr
    refine ⟨_, rfl, rfl, by decide +kernel, fun hcon => ?_⟩
    have hv : (![1/100, 1/100, 1/100] : P3 ℚ) ∈ convexHull ℚ {q : P3 ℚ | q ∈ cubeSmall} :=
      subset_convexHull ℚ _ (by decide +kernel : (![1/100, 1/100, 1/100] : P3 ℚ) ∈ cubeSmall)
    rw [← hcon] at hv
    have hle : convexHull ℚ {q : P3 ℚ | q ∈ ([![0, 0, 0], ![0, 0, 1/100], ![1/100, 1/100, 0], ![0, 1/100, 0]] : List (P3 ℚ))} ⊆
        {q : P3 ℚ | q 0 + q 1 + q 2 ≤ 2 / 100} := by
      refine convexHull_min ?_ ?_
      · intro q hq
        have : ∀ q ∈ ([![0, 0, 0], ![0, 0, 1/100], ![1/100, 1/100, 0], ![0, 1/100, 0]] : List (P3 ℚ)), q 0 + q 1 + q 2 ≤ 2 / 100 := by
          decide +kernel
        exact this q hq
      · intro x hx y hy a b ha hb hab
        show (a • x + b • y) 0 + (a • x + b • y) 1 + (a • x + b • y) 2 ≤ 2 / 100
        have hx' : x 0 + x 1 + x 2 ≤ 2 / 100 := hx
        have hy' : y 0 + y 1 + y 2 ≤ 2 / 100 := hy
        simp only [Pi.add_apply, Pi.smul_apply, smul_eq_mul]
        have h1 := mul_le_mul_of_nonneg_left hx' ha
        have h2 := mul_le_mul_of_nonneg_left hy' hb
        have h3 : a * (2 / 100) + b * (2 / 100) = 2 / 100 := by rw [← add_mul, hab, one_mul]
        linarith
    have : (1/100 + 1/100 + 1/100 : ℚ) ≤ 2 / 100 := hle hv
    norm_num at this

end Verif.QHull
