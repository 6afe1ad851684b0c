import Mathlib.Tactic.FinCases
import Verif.Hull2d.BruteLemmas

set_option linter.unusedSectionVars false
set_option linter.unusedVariables false

/-!
Property C68: the planar brute-force hull.
-/

namespace Verif.Hull2d

open Verif

variable {K : Type} [Field K] [LinearOrder K] [IsStrictOrderedRing K]

/-- In general position the facets are the edges of one cycle. -/
theorem bruteFacets_cycle {P : List (Point K 2)} (h3 : 3 ≤ P.length) (hgp : NoThree P) :
    ∃ (m : ℕ) (c : ℤ → ℕ), CycleOf m c (bruteFacets P) ∧ (∀ k, RightEdge P (c k) (c (k + 1))) ∧
      (∀ i, i < P.length → P.getD i 0 ∉ convexHull K {q | ∃ l, l < P.length ∧ l ≠ i ∧ P.getD l 0 = q} → ∃ k, i = c k) ∧
      ∀ p ∈ P, p ∈ convexHull K {q | ∃ k : ℤ, P[c k]? = some q} := by
  have hP : P ≠ [] := by
    intro h
    rw [h] at h3
    simp at h3
  obtain ⟨out, hout, hlt, hhull⟩ := c32_hull reduceMax reduceMax_ok firstMinMax firstMinMax_ok P hP
  obtain ⟨out', hout', h2, hright, hnod⟩ := c33_clockwise reduceMax reduceMax_ok firstMinMax firstMinMax_ok P hP
  have e : out' = out := Except.ok.inj (hout'.symm.trans hout)
  subst e
  set m := out'.length with hm
  have hget : ∀ i, i < P.length → P[i]? = some (P.getD i 0) := by
    intro i hi
    rw [List.getD_eq_getElem _ _ hi]
    exact List.getElem?_eq_getElem hi
  have hdiff : ∀ i j, i < P.length → j < P.length → i ≠ j → P.getD i 0 ≠ P.getD j 0 := by
    intro i j hi hj hij he
    obtain ⟨l, hl, hli, hlj⟩ : ∃ l < P.length, l ≠ i ∧ l ≠ j := by
      by_contra hn
      push Not at hn
      have q0 := hn 0 (by omega)
      have q1 := hn 1 (by omega)
      have q2 := hn 2 (by omega)
      omega
    apply hgp i j l hi hj hl hij (Ne.symm hli) (Ne.symm hlj)
    rw [he]
    unfold triArea
    ring
  have hnd : out'.Nodup := by
    apply List.Nodup.of_map (fun i => P[i]?)
    apply hnod
    refine ⟨_, List.getElem_mem (show 0 < P.length by omega), _, List.getElem_mem (show 1 < P.length by omega), ?_⟩
    have := hdiff 0 1 (by omega) (by omega) (by omega)
    rwa [List.getD_eq_getElem _ _ (show 0 < P.length by omega), List.getD_eq_getElem _ _ (show 1 < P.length by omega)] at this
  -- the cycle
  have hm0 : (0 : ℤ) < m := by omega
  have hidx : ∀ k : ℤ, (k % m).toNat < m := by
    intro k
    have := Int.emod_nonneg k (ne_of_gt hm0)
    have := Int.emod_lt_of_pos k hm0
    omega
  set c : ℤ → ℕ := fun k => out'[(k % m).toNat]'(hidx k) with hc
  have hcl : ∀ k, c k < P.length := fun k => hlt _ (List.getElem_mem _)
  have hcn : ∀ t : ℕ, ∀ ht : t < m, c t = out'[t] := by
    intro t ht
    simp only [hc]
    congr 1
    rw [Int.emod_eq_of_lt (by omega) (by omega)]
    simp
  have hinj : ∀ a b : ℤ, c a = c b ↔ (m : ℤ) ∣ a - b := by
    intro a b
    simp only [hc]
    rw [hnd.getElem_inj_iff]
    have := Int.emod_nonneg a (ne_of_gt hm0)
    have := Int.emod_nonneg b (ne_of_gt hm0)
    rw [← Int.emod_eq_emod_iff_emod_sub_eq_zero.trans Int.dvd_iff_emod_eq_zero.symm]
    omega
  have hle : ∀ (k : ℤ) (l : ℕ), l < P.length → triArea (P.getD (c k) 0) (P.getD (c (k + 1)) 0) (P.getD l 0) ≤ 0 := by
    intro k l hl
    have hk := hidx k
    have e2 : c (k + 1) = out'[((k % m).toNat + 1) % m]'(Nat.mod_lt _ (by omega)) := by
      simp only [hc]
      congr 1
      have h1 := Int.emod_nonneg k (ne_of_gt hm0)
      have h4 : ((((k % m).toNat + 1) % m : ℕ) : ℤ) = (k + 1) % m := by
        push_cast
        rw [Int.toNat_of_nonneg h1, Int.emod_add_emod]
      omega
    have hp : P.getD l 0 ∈ P := by
      rw [List.getD_eq_getElem _ _ hl]
      exact List.getElem_mem hl
    have := hright (k % m).toNat hk (P.getD l 0) hp (P.getD (c k) 0) (P.getD (c (k + 1)) 0) (hget _ (hcl k))
      (by rw [← e2]; exact hget _ (hcl (k + 1)))
    exact this
  have hne1 : ∀ k : ℤ, c k ≠ c (k + 1) := by
    intro k h
    rw [hinj] at h
    have e : k - (k + 1) = -1 := by ring
    rw [e, dvd_neg] at h
    have := Int.le_of_dvd (by norm_num) h
    omega
  have hedge : ∀ k, RightEdge P (c k) (c (k + 1)) := by
    intro k
    refine ⟨hcl k, hcl _, hne1 k, fun l hl h1 h2 => ?_⟩
    exact lt_of_le_of_ne (hle k l hl) (hgp _ _ _ (hcl k) (hcl _) hl (hne1 k) (Ne.symm h1) (Ne.symm h2))
  have hm3 : 3 ≤ m := by
    by_contra hlt3
    have hm2 : m = 2 := by omega
    obtain ⟨l, hl, hli, hlj⟩ : ∃ l < P.length, l ≠ c 0 ∧ l ≠ c 1 := by
      by_contra hn
      push Not at hn
      have q0 := hn 0 (by omega)
      have q1 := hn 1 (by omega)
      have q2 := hn 2 (by omega)
      omega
    have h1 := (hedge 0).2.2.2 l hl hli (by simpa using hlj)
    have h2 := (hedge 1).2.2.2 l hl hlj (by
      have : c (1 + 1) = c 0 := by
        rw [hinj, hm2]
        norm_num
      rw [this]
      exact hli)
    have e : c (1 + 1) = c 0 := by
      rw [hinj, hm2]
      norm_num
    rw [e] at h2
    rw [triArea_swap] at h2
    simp only [zero_add] at h1
    linarith
  have hext : ∀ i, i < P.length →
      P.getD i 0 ∉ convexHull K {q | ∃ l, l < P.length ∧ l ≠ i ∧ P.getD l 0 = q} → ∃ k : ℤ, i = c k := by
    intro i hi hnot
    by_contra hno
    push Not at hno
    apply hnot
    have hmem : P.getD i 0 ∈ P := by
      rw [List.getD_eq_getElem _ _ hi]
      exact List.getElem_mem hi
    refine convexHull_mono ?_ (hhull _ hmem)
    rintro q ⟨l, hl, hlq⟩
    have hll := hlt l hl
    refine ⟨l, hll, ?_, ?_⟩
    · rintro rfl
      obtain ⟨t, ht, rfl⟩ := List.mem_iff_getElem.mp hl
      exact hno t (hcn t ht).symm
    · rw [hget l hll] at hlq
      exact Option.some.inj hlq
  have honly : ∀ i j, RightEdge P i j → ∃ k : ℤ, i = c k ∧ j = c (k + 1) := by
    intro i j h
    obtain ⟨k, hk⟩ := hext i h.1 (h.extreme h3)
    refine ⟨k, hk, ?_⟩
    subst hk
    exact h.unique (hedge k)
  refine ⟨m, c, ⟨hm3, hinj, fun f hf => ((mem_bruteFacets h3 hgp f.1 f.2).mp hf).1, fun k => ?_, fun f hf => ?_,
    bruteFacets_nodup P⟩, hedge, hext, fun p hp => ?_⟩
  · rcases lt_or_gt_of_ne (hne1 k) with h | h
    · exact Or.inl ((mem_bruteFacets h3 hgp _ _).mpr ⟨h, Or.inl (hedge k)⟩)
    · exact Or.inr ((mem_bruteFacets h3 hgp _ _).mpr ⟨h, Or.inr (hedge k)⟩)
  · rcases ((mem_bruteFacets h3 hgp f.1 f.2).mp hf).2 with h | h
    · obtain ⟨k, hk⟩ := honly _ _ h
      exact ⟨k, Or.inl hk⟩
    · obtain ⟨k, hk⟩ := honly _ _ h
      exact ⟨k, Or.inr hk⟩
  · refine convexHull_mono ?_ (hhull p hp)
    rintro q ⟨l, hl, hlq⟩
    obtain ⟨t, ht, rfl⟩ := List.mem_iff_getElem.mp hl
    exact ⟨t, by rw [hcn t ht]; exact hlq⟩

/-- **C68** (partial: only for at least three points, no three of them on a line): the routine returns, each once, exactly
the positions of the points that are not in the convex hull of the others, there are at least three of them, every input
point is in the convex hull of the returned points, and the returned order goes round the hull: all input points lie on the
same side of every line through two cyclically consecutive points. -/
theorem c68_brute_partial (P : List (Point K 2)) (h3 : 3 ≤ P.length)
    (hgp : ∀ i j l, i < P.length → j < P.length → l < P.length → i ≠ j → i ≠ l → j ≠ l →
      ∀ a b p, P[i]? = some a → P[j]? = some b → P[l]? = some p →
        (b 0 - a 0) * (p 1 - a 1) - (b 1 - a 1) * (p 0 - a 0) ≠ 0) :
    ∃ out, bruteCompute P = .ok out ∧ 3 ≤ out.length ∧ out.Nodup ∧
      (∀ i, i ∈ out ↔ ∃ p, P[i]? = some p ∧ p ∉ convexHull K {q | ∃ l, l ≠ i ∧ P[l]? = some q}) ∧
      (∀ p ∈ P, p ∈ convexHull K {q | ∃ i ∈ out, P[i]? = some q}) ∧
      ∃ s : K, (s = 1 ∨ s = -1) ∧
        ∀ k, ∀ hk : k < out.length, ∀ p ∈ P, ∀ a b, P[out[k]]? = some a →
          P[out[(k + 1) % out.length]'(Nat.mod_lt _ (by omega))]? = some b →
          0 ≤ s * ((b 0 - a 0) * (p 1 - a 1) - (b 1 - a 1) * (p 0 - a 0)) := by
  have hget : ∀ i, i < P.length → P[i]? = some (P.getD i 0) := by
    intro i hi
    rw [List.getD_eq_getElem _ _ hi]
    exact List.getElem?_eq_getElem hi
  have hgp' : NoThree P := fun i j l hi hj hl h1 h2 h3 =>
    hgp i j l hi hj hl h1 h2 h3 _ _ _ (hget i hi) (hget j hj) (hget l hl)
  have hset : ∀ i, {q : Point K 2 | ∃ l, l ≠ i ∧ P[l]? = some q} = {q | ∃ l, l < P.length ∧ l ≠ i ∧ P.getD l 0 = q} := by
    intro i
    ext q
    constructor
    · rintro ⟨l, hl, hq⟩
      have hll : l < P.length := by
        by_contra hc
        rw [List.getElem?_eq_none (by omega)] at hq
        exact absurd hq (by simp)
      rw [hget l hll] at hq
      exact ⟨l, hll, hl, Option.some.inj hq⟩
    · rintro ⟨l, hll, hl, rfl⟩
      exact ⟨l, hl, hget l hll⟩
  obtain ⟨m, c, hcyc, hedge, hext, hspan⟩ := bruteFacets_cycle h3 hgp'
  obtain ⟨s, c', hc', hrun⟩ := hcyc.compute
  have hm3 := hcyc.three
  have hcyc' : CycleOf m c' (bruteFacets P) := by
    rcases hc' with rfl | rfl
    · exact hcyc.shift s
    · exact hcyc.flip s
  have hback : ∀ k, ∃ k', c k = c' k' := by
    intro k
    rcases hc' with rfl | rfl
    · exact ⟨k - s, by congr 1; ring⟩
    · exact ⟨s - k, by congr 1; ring⟩
  have hfwd : ∀ k, ∃ k', c' k = c k' := by
    intro k
    rcases hc' with rfl | rfl
    · exact ⟨s + k, rfl⟩
    · exact ⟨s - k, rfl⟩
  have hcl : ∀ k, c k < P.length := fun k => (hedge k).1
  have hcl' : ∀ k, c' k < P.length := fun k => by
    obtain ⟨k', h⟩ := hfwd k
    rw [h]
    exact hcl k'
  have hred : ∀ k : ℤ, ∃ t : ℕ, t < m ∧ c' k = c' t := by
    intro k
    have hm0 : (0 : ℤ) < m := by omega
    have h0 := Int.emod_nonneg k (ne_of_gt hm0)
    have h1 := Int.emod_lt_of_pos k hm0
    obtain ⟨r, hr⟩ := Int.eq_ofNat_of_zero_le h0
    refine ⟨r, by omega, ?_⟩
    rw [hcyc'.inj, ← hr]
    exact Int.dvd_self_sub_emod
  have hmemout : ∀ i, i ∈ (List.range m).map (fun t : ℕ => c' t) ↔ ∃ k, i = c k := by
    intro i
    rw [List.mem_map]
    constructor
    · rintro ⟨t, _, rfl⟩
      exact hfwd t
    · rintro ⟨k, rfl⟩
      obtain ⟨k', h⟩ := hback k
      obtain ⟨t, ht, h'⟩ := hred k'
      exact ⟨t, List.mem_range.mpr ht, by rw [h, h']⟩
  have hext' : ∀ i, i < P.length → ((∃ k, i = c k) ↔
      P.getD i 0 ∉ convexHull K {q | ∃ l, l < P.length ∧ l ≠ i ∧ P.getD l 0 = q}) := by
    intro i hi
    refine ⟨?_, hext i hi⟩
    rintro ⟨k, rfl⟩
    exact (hedge k).extreme h3
  refine ⟨_, hrun, by simpa using hm3, ?_, ?_, ?_, ?_⟩
  · -- no position twice
    apply List.Nodup.map_on _ List.nodup_range
    intro x hx y hy hxy
    rw [List.mem_range] at hx hy
    have hd := (hcyc'.inj _ _).mp hxy
    by_contra hne
    have : (x : ℤ) - y ≠ 0 := by omega
    have := Int.le_of_dvd (abs_pos.mpr this) ((dvd_abs _ _).mpr hd)
    rcases abs_cases ((x : ℤ) - y) with ⟨h1, _⟩ | ⟨h1, _⟩ <;> omega
  · intro i
    rw [hmemout, hset]
    constructor
    · rintro ⟨k, rfl⟩
      exact ⟨_, hget _ (hcl k), (hext' _ (hcl k)).mp ⟨k, rfl⟩⟩
    · rintro ⟨p, hp, hnot⟩
      have hi : i < P.length := by
        by_contra hc
        rw [List.getElem?_eq_none (by omega)] at hp
        exact absurd hp (by simp)
      rw [hget i hi] at hp
      obtain rfl := Option.some.inj hp
      exact (hext' i hi).mpr hnot
  · intro p hp
    refine convexHull_mono ?_ (hspan p hp)
    rintro q ⟨k, hk⟩
    exact ⟨c k, (hmemout _).mpr ⟨k, rfl⟩, hk⟩
  · have hlen : ((List.range m).map fun t : ℕ => c' t).length = m := by simp
    have hnext : ∀ t : ℕ, c' ((t + 1) % m : ℕ) = c' (t + 1) := by
      intro t
      rw [hcyc'.inj, Int.natCast_mod, Nat.cast_add, Nat.cast_one]
      rw [dvd_sub_comm]
      exact Int.dvd_self_sub_emod
    have hside : ∀ (k : ℤ) (p : Point K 2), p ∈ P → triArea (P.getD (c k) 0) (P.getD (c (k + 1)) 0) p ≤ 0 := by
      intro k p hp
      obtain ⟨l, hl, rfl⟩ := List.mem_iff_getElem.mp hp
      rw [← List.getD_eq_getElem P 0 hl]
      by_cases h1 : l = c k
      · subst h1
        unfold triArea
        apply le_of_eq
        ring
      · by_cases h2 : l = c (k + 1)
        · subst h2
          unfold triArea
          apply le_of_eq
          ring
        · exact ((hedge k).2.2.2 l hl h1 h2).le
    have hgo : ∀ s : K, (∀ (k : ℤ) (p : Point K 2), p ∈ P →
        0 ≤ s * triArea (P.getD (c' k) 0) (P.getD (c' (k + 1)) 0) p) →
        ∀ k, ∀ hk : k < ((List.range m).map fun t : ℕ => c' t).length, ∀ p ∈ P, ∀ a b,
          P[((List.range m).map fun t : ℕ => c' t)[k]]? = some a →
          P[((List.range m).map fun t : ℕ => c' t)[(k + 1) % ((List.range m).map fun t : ℕ => c' t).length]'(
            Nat.mod_lt _ (by omega))]? = some b →
          0 ≤ s * ((b 0 - a 0) * (p 1 - a 1) - (b 1 - a 1) * (p 0 - a 0)) := by
      intro s hs k hk p hp a b ha hb
      simp only [List.getElem_map, List.getElem_range, hlen] at ha hb
      rw [hnext] at hb
      rw [hget _ (hcl' _)] at ha hb
      obtain rfl := Option.some.inj ha
      obtain rfl := Option.some.inj hb
      exact hs k p hp
    rcases hc' with rfl | rfl
    · refine ⟨-1, Or.inr rfl, hgo _ fun k p hp => ?_⟩
      have := hside (s + k) p hp
      simp only [← add_assoc]
      linarith
    · refine ⟨1, Or.inl rfl, hgo _ fun k p hp => ?_⟩
      have := hside (s - (k + 1)) p hp
      have e : s - (k + 1) + 1 = s - k := by ring
      rw [e, triArea_swap] at this
      simp only
      linarith

/-- With fewer than two points the routine reads `H[0]` of an empty sequence. -/
theorem c68_small_ub (P : List (Point K 2)) (h : P.length ≤ 1) : bruteCompute P = .error .ub := by
  match P, h with
  | [], _ => rfl
  | [a], _ => rfl

/-- With two points the second one is missing from the result. -/
theorem c68_two_false (a b : Point K 2) : bruteCompute [a, b] = .ok [0] := by
  rfl

/-- **C68** is false with three points on a line: a corner of the triangle is missing from the result. -/
theorem c68_collinear_false : ∃ (P : List (Point ℚ 2)) (out : List ℕ), bruteCompute P = .ok out ∧
    ∃ p ∈ P, p ∉ convexHull ℚ {q | ∃ i ∈ out, P[i]? = some q} := by
  refine ⟨[![0, 0], ![1, 0], ![2, 0], ![1, 2]], [0, 3], ?_, ![2, 0], by simp, ?_⟩
  · have h : (bruteCompute [(![0, 0] : Point ℚ 2), ![1, 0], ![2, 0], ![1, 2]]).toOption = some [0, 3] := by decide +kernel
    revert h
    generalize bruteCompute (K := ℚ) _ = r
    cases r with
    | error e => intro h; simp [Except.toOption] at h
    | ok l => intro h; simp only [Except.toOption, Option.some.injEq] at h; rw [h]
  · intro hmem
    have hsub : {q : Point ℚ 2 | ∃ i ∈ [0, 3], [(![0, 0] : Point ℚ 2), ![1, 0], ![2, 0], ![1, 2]][i]? = some q} ⊆
        {q | q 0 ≤ 1} := by
      rintro q ⟨i, hi, hq⟩
      simp only [List.mem_cons, List.not_mem_nil, or_false] at hi
      rcases hi with rfl | rfl
      · obtain rfl := Option.some.inj hq
        simp
      · obtain rfl := Option.some.inj hq
        simp
    have hconv : Convex ℚ {q : Point ℚ 2 | q 0 ≤ 1} := by
      intro x hx y hy s t hs ht hst
      have hx' : x 0 ≤ 1 := hx
      have hy' : y 0 ≤ 1 := hy
      show (s • x + t • y) 0 ≤ 1
      simp only [Pi.add_apply, Pi.smul_apply, smul_eq_mul]
      have := mul_le_mul_of_nonneg_left hx' hs
      have := mul_le_mul_of_nonneg_left hy' ht
      linarith
    have : (![2, 0] : Point ℚ 2) 0 ≤ 1 := convexHull_min hsub hconv hmem
    norm_num at this

/-- Three points on a line can also make the routine throw "hull is not connected". -/
theorem c68_throws_false : ∃ P : List (Point ℚ 2), 3 ≤ P.length ∧ bruteCompute P = .error .throws := by
  refine ⟨[![1, 2], ![0, 0], ![1, 0], ![2, 0]], by simp, ?_⟩
  have h : (match bruteCompute [(![1, 2] : Point ℚ 2), ![0, 0], ![1, 0], ![2, 0]] with
      | .error .throws => true
      | _ => false) = true := by decide +kernel
  revert h
  generalize bruteCompute (K := ℚ) _ = r
  rcases r with (_ | _ | _) | l <;> intro h <;> first | rfl | simp at h

/-- The hypotheses can be met: a pentagon with two inner points, no three points on a line. -/
example : ∃ P : List (Point ℚ 2), 3 ≤ P.length ∧ (∀ i j l, i < P.length → j < P.length → l < P.length → i ≠ j → i ≠ l →
    j ≠ l → ∀ a b p, P[i]? = some a → P[j]? = some b → P[l]? = some p →
      (b 0 - a 0) * (p 1 - a 1) - (b 1 - a 1) * (p 0 - a 0) ≠ 0) ∧ (bruteCompute P).toOption = some [1, 4, 2, 6, 5] := by
  refine ⟨[![1, 1], ![4, 0], ![0, 3], ![2, 3], ![0, 0], ![5, 4], ![2, 6]], by simp, ?_, by decide +kernel⟩
  set P : List (Point ℚ 2) := [![1, 1], ![4, 0], ![0, 3], ![2, 3], ![0, 0], ![5, 4], ![2, 6]] with hP
  have key : ∀ i < 7, ∀ j < 7, ∀ l < 7, i ≠ j → i ≠ l → j ≠ l →
      triArea (P.getD i 0) (P.getD j 0) (P.getD l 0) ≠ 0 := by
    have hb : ((List.range 7).all fun i => (List.range 7).all fun j => (List.range 7).all fun l =>
        i == j || i == l || j == l || !decide (triArea (P.getD i 0) (P.getD j 0) (P.getD l 0) = 0)) = true := by
      rw [hP]
      decide +kernel
    intro i hi j hj l hl h1 h2 h3 h0
    have q := List.all_eq_true.mp (List.all_eq_true.mp (List.all_eq_true.mp hb i (List.mem_range.mpr hi)) j
      (List.mem_range.mpr hj)) l (List.mem_range.mpr hl)
    simp only [h0, beq_eq_false_iff_ne.mpr h1, beq_eq_false_iff_ne.mpr h2, beq_eq_false_iff_ne.mpr h3] at q
    exact absurd q (by decide)
  intro i j l hi hj hl h1 h2 h3 a b p ha hb hp
  have hget : ∀ i a, P[i]? = some a → P.getD i 0 = a := by
    intro i a h
    rw [List.getD_eq_getElem?_getD, h]
    rfl
  have := key i hi j hj l hl h1 h2 h3
  rw [hget i a ha, hget j b hb, hget l p hp] at this
  exact this

end Verif.Hull2d
