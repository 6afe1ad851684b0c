import Mathlib.Data.List.Perm.Subperm
import Verif.QHull.PseudoModel
import Verif.QHull.Output

set_option linter.unusedSectionVars false
set_option linter.unusedVariables false

/-!
Lemmas on the filter of the pseudo hull.
-/

namespace Verif.QHull

open Verif Verif.Hull3d

variable {K : Type} [Field K] [LinearOrder K] [IsStrictOrderedRing K]

/-- `v` is a corner of the facet. -/
def IsC (f : PF K) (v : P3 K) : Prop := v = f.a ∨ v = f.b ∨ v = f.c

/-- What the recursive function does with the points `Q` of a facet. -/
structure Keeps (f : PF K) (Q R : List (P3 K)) : Prop where
  sub : R.Subperm Q
  cov : ∀ p ∈ Q, p ∈ convexHull K {v | v ∈ R ∨ IsC f v}
  corner : ∀ p ∈ Q, IsC f p → p ∈ R

theorem pVisible_iff {knob : K} {f : PF K} {p : P3 K} :
    pVisible knob f p = true ↔ knob < sv f.a f.b f.c p ∨ IsC f p := by
  unfold pVisible IsC
  simp only [Bool.or_eq_true, decide_eq_true_eq]
  tauto

theorem pParts_ok {knob : K} {rec : PF K → List (P3 K) → Except Err (List (P3 K))} : ∀ (fs : List (PF K)) (Q : List (P3 K)),
    (∀ f ∈ fs, ∀ Q' : List (P3 K), Q'.Sublist Q → (∀ p ∈ Q', pVisible knob f p = true) →
      ∃ R, rec f Q' = .ok R ∧ Keeps f Q' R) →
    ∃ R, pParts knob rec fs Q = .ok R ∧ R.Subperm Q ∧
      (∀ p ∈ Q, (∃ f ∈ fs, pVisible knob f p = true) → p ∈ convexHull K {v | v ∈ R ∨ ∃ f ∈ fs, IsC f v}) ∧
      ∀ p ∈ Q, (∃ f ∈ fs, IsC f p) → (∀ f ∈ fs, ¬ knob < sv f.a f.b f.c p) → p ∈ R
  | [], Q, _ => by
    refine ⟨[], rfl, List.nil_subperm, ?_, ?_⟩
    · rintro p _ ⟨f, hf, _⟩; simp at hf
    · rintro p _ ⟨f, hf, _⟩; simp at hf
  | f :: fs, Q, h => by
    obtain ⟨R, hR, kR⟩ := h f (by simp) (Q.filter fun p => pVisible knob f p) List.filter_sublist
      (fun p hp => (List.mem_filter.mp hp).2)
    obtain ⟨R', hR', sR', cR', vR'⟩ := pParts_ok fs (Q.filter fun p => !pVisible knob f p)
      (fun g hg Q' hQ' hv => h g (by simp [hg]) Q' (hQ'.trans List.filter_sublist) hv)
    refine ⟨R ++ R', ?_, ?_, ?_, ?_⟩
    · rw [pParts, hR]
      simp only [Except.bind]
      rw [hR']
      rfl
    · exact (kR.sub.append sR').trans (List.filter_append_perm _ Q).subperm
    · intro p hp hex
      by_cases hv : pVisible knob f p = true
      · refine convexHull_mono ?_ (kR.cov p (List.mem_filter.mpr ⟨hp, hv⟩))
        rintro v (hv | hv)
        · exact Or.inl (List.mem_append_left _ hv)
        · exact Or.inr ⟨f, by simp, hv⟩
      · refine convexHull_mono ?_ (cR' p (List.mem_filter.mpr ⟨hp, by simp [hv]⟩) ?_)
        · rintro v (hv | ⟨g, hg, hv⟩)
          · exact Or.inl (List.mem_append_right _ hv)
          · exact Or.inr ⟨g, by simp [hg], hv⟩
        · obtain ⟨g, hg, hgv⟩ := hex
          rcases List.mem_cons.mp hg with rfl | hg
          · exact absurd hgv hv
          · exact ⟨g, hg, hgv⟩
    · intro p hp hex hno
      by_cases hv : pVisible knob f p = true
      · refine List.mem_append_left _ (kR.corner p (List.mem_filter.mpr ⟨hp, hv⟩) ?_)
        exact (pVisible_iff.mp hv).resolve_left (hno f (by simp))
      · refine List.mem_append_right _ (vR' p (List.mem_filter.mpr ⟨hp, by simp [hv]⟩) ?_ fun g hg => hno g (by simp [hg]))
        obtain ⟨g, hg, hgv⟩ := hex
        rcases List.mem_cons.mp hg with rfl | hg
        · exact absurd (pVisible_iff.mpr (Or.inr hgv)) hv
        · exact ⟨g, hg, hgv⟩

/-- The inverse of the translation. -/
def back (o p : P3 K) : P3 K := fun i => p i + o i

theorem back_tr (o p : P3 K) : back o (tr o p) = p := by
  funext i
  simp [back, tr]

theorem tr_back (o p : P3 K) : tr o (back o p) = p := by
  funext i
  simp [back, tr]

theorem back_inj (o : P3 K) : Function.Injective (back o) := fun p q h => by
  rw [← tr_back o p, ← tr_back o q, h]

theorem hull_shift {o : P3 K} {S T : Set (P3 K)} (h : ∀ s ∈ S, back o s ∈ convexHull K T) {q : P3 K}
    (hq : q ∈ convexHull K S) : back o q ∈ convexHull K T := by
  have : convexHull K S ⊆ {q | back o q ∈ convexHull K T} := by
    refine convexHull_min h ?_
    intro x hx y hy s t hs ht hst
    have := (convex_convexHull K T) hx hy hs ht hst
    show back o (s • x + t • y) ∈ convexHull K T
    convert this using 1
    funext i
    simp only [back, Pi.add_apply, Pi.smul_apply, smul_eq_mul]
    linear_combination (-o i) * hst
  exact this hq

theorem sv_centre (a b c d : P3 K) : sv a b c (centre a b c d) = sv a b c d / 4 := by
  simp only [sv_poly, centre]
  ring

theorem mem_tetra {C : Set (P3 K)} (hC : Convex K C) {a b c d p : P3 K} (ha : a ∈ C) (hb : b ∈ C) (hc : c ∈ C) (hd : d ∈ C)
    (hV : 0 < sv a b c d) (h0 : 0 ≤ sv a b c p) (h1 : sv a b d p ≤ 0) (h2 : sv b c d p ≤ 0) (h3 : sv c a d p ≤ 0) : p ∈ C := by
  have hs : -sv b c d p + -sv c a d p + -sv a b d p + sv a b c p = sv a b c d := by
    simp only [sv_poly]; ring
  refine convex4 hC ha hb hc hd (w1 := -sv b c d p / sv a b c d) (w2 := -sv c a d p / sv a b c d)
    (w3 := -sv a b d p / sv a b c d) (w4 := sv a b c p / sv a b c d)
    (div_nonneg (by linarith) hV.le) (div_nonneg (by linarith) hV.le) (div_nonneg (by linarith) hV.le)
    (div_nonneg h0 hV.le) ?_ ?_
  · rw [← add_div, ← add_div, ← add_div, hs, div_self hV.ne']
  · intro i
    have : sv a b c d * p i = -sv b c d p * a i + -sv c a d p * b i + -sv a b d p * c i + sv a b c p * d i := by
      simp only [sv_poly]
      fin_cases i <;> simp <;> ring
    field_simp
    linarith

section

variable {knob : K} {E : P3 K}

theorem pFurthest_spec (f : PF K) : ∀ (l : List (P3 K)) (m : K) (apex : P3 K),
    (pFurthest f l m apex = apex ∧ ∀ p ∈ l, sv f.a f.b f.c p ≤ m) ∨
      (pFurthest f l m apex ∈ l ∧ m < sv f.a f.b f.c (pFurthest f l m apex))
  | [], m, apex => Or.inl ⟨rfl, by simp⟩
  | p :: l, m, apex => by
    rw [pFurthest]
    by_cases h : m < sv f.a f.b f.c p
    · rw [if_pos h]
      right
      rcases pFurthest_spec f l (sv f.a f.b f.c p) p with ⟨h1, _⟩ | ⟨h1, h2⟩
      · rw [h1]; exact ⟨by simp, h⟩
      · exact ⟨by simp [h1], h.trans h2⟩
    · rw [if_neg h]
      rcases pFurthest_spec f l m apex with ⟨h1, h2⟩ | ⟨h1, h2⟩
      · refine Or.inl ⟨h1, fun q hq => ?_⟩
        rcases List.mem_cons.mp hq with rfl | hq
        · exact not_lt.mp h
        · exact h2 q hq
      · exact Or.inr ⟨by simp [h1], h2⟩

theorem pApex_spec {f : PF K} {Q : List (P3 K)} (h : ∃ p ∈ Q, knob < sv f.a f.b f.c p) :
    pApex knob E f Q ∈ Q ∧ knob < sv f.a f.b f.c (pApex knob E f Q) := by
  obtain ⟨p, hp, hv⟩ := h
  unfold pApex
  split
  · rcases pFurthest_spec f Q knob E with ⟨_, h2⟩ | h
    · exact absurd hv (not_lt.mpr (h2 p hp))
    · exact h
  · obtain ⟨q, hq, he, hm⟩ := argmax_spec (fun p => sv f.a f.b f.c p) (List.ne_nil_of_mem hp)
    rw [he]
    exact ⟨hq, hv.trans_le (hm p hp)⟩

/-- No volume of four points of `U` is positive and at most `knob`. -/
def Sep (knob : K) (U : Set (P3 K)) : Prop := ∀ a ∈ U, ∀ b ∈ U, ∀ c ∈ U, ∀ d ∈ U, sv a b c d ≤ 0 ∨ knob < sv a b c d

theorem Sep.image {U : Set (P3 K)} (h : Sep knob U) (o : P3 K) : Sep knob (tr o '' U) := by
  rintro _ ⟨a, ha, rfl⟩ _ ⟨b, hb, rfl⟩ _ ⟨c, hc, rfl⟩ _ ⟨d, hd, rfl⟩
  rw [sv_tr]
  exact h a ha b hb c hc d hd

theorem pHelper_ok (hk : 0 ≤ knob) : ∀ (fuel : ℕ) (f : PF K) (Q : List (P3 K)) (U : Set (P3 K)), Sep knob U →
    f.a ∈ U → f.b ∈ U → f.c ∈ U → (∀ p ∈ Q, p ∈ U) → Q.Nodup → (∀ p ∈ Q, pVisible knob f p = true) →
    (Q.filter fun p => decide (knob < sv f.a f.b f.c p)).length < fuel →
    ∃ R, pHelper knob E fuel f Q = .ok R ∧ Keeps f Q R
  | 0, f, Q, U, _, _, _, _, _, _, _, h => absurd h (Nat.not_lt_zero _)
  | fuel + 1, f, Q, U, hS, hfa, hfb, hfc, hU, hn, hvis, hlt => by
    rw [pHelper]
    by_cases hl : Q.length < 4
    · rw [if_pos hl]
      exact ⟨Q, rfl, List.Subperm.refl _, fun p hp => subset_convexHull K _ (Or.inl hp), fun p hp _ => hp⟩
    rw [if_neg hl]
    have hex : ∃ p ∈ Q, knob < sv f.a f.b f.c p := by
      by_contra hcon
      push Not at hcon
      have hsub : Q ⊆ [f.a, f.b, f.c] := by
        intro p hp
        rcases pVisible_iff.mp (hvis p hp) with h | h
        · exact absurd h (not_lt.mpr (hcon p hp))
        · simpa [IsC] using h
      have := (hn.subperm hsub).length_le
      simp at this
      omega
    obtain ⟨hdQ, hdv⟩ := pApex_spec (E := E) hex
    obtain ⟨a, b, c⟩ := f
    simp only at hfa hfb hfc hdQ hdv hlt hvis ⊢
    generalize hd : pApex knob E ⟨a, b, c⟩ Q = d at hdQ hdv ⊢
    have hV : 0 < sv a b c d := lt_of_le_of_lt hk hdv
    generalize ho : centre a b c d = o
    have hdU := hU d hdQ
    -- the three facets are not turned round
    have hdet : ∀ x y : P3 K, sv x y d o < 0 → mkPF knob (tr o x) (tr o y) (tr o d) = ⟨tr o x, tr o y, tr o d⟩ := by
      intro x y h
      unfold mkPF
      rw [if_neg]
      rw [det_tr]
      linarith
    have v0 : sv a b d o = -sv a b c d / 4 := by rw [← ho]; simp only [sv_poly, centre]; ring
    have v1 : sv b c d o = -sv a b c d / 4 := by rw [← ho]; simp only [sv_poly, centre]; ring
    have v2 : sv c a d o = -sv a b c d / 4 := by rw [← ho]; simp only [sv_poly, centre]; ring
    have e0 := hdet a b (by linarith)
    have e1 := hdet b c (by linarith)
    have e2 := hdet c a (by linarith)
    have htr : (fun p : P3 K => (fun i => p i - o i : P3 K)) = tr o := rfl
    show ∃ R, (pParts knob (pHelper knob E fuel) [mkPF knob (tr o a) (tr o b) (tr o d), mkPF knob (tr o b) (tr o c) (tr o d),
      mkPF knob (tr o c) (tr o a) (tr o d)] (Q.map (tr o))).map (fun R => R.map (back o)) = .ok R ∧ Keeps ⟨a, b, c⟩ Q R
    rw [e0, e1, e2]
    -- volumes of the corners
    have w : ∀ x y : P3 K, (x, y) = (a, b) ∨ (x, y) = (b, c) ∨ (x, y) = (c, a) →
        sv x y d a ≤ 0 ∧ sv x y d b ≤ 0 ∧ sv x y d c ≤ 0 ∧ sv x y d d = 0 := by
      intro x y h
      have k1 : sv b c d a = -sv a b c d := by simp only [sv_poly]; ring
      have k2 : sv c a d b = -sv a b c d := by simp only [sv_poly]; ring
      have k3 : sv a b d c = -sv a b c d := by simp only [sv_poly]; ring
      rcases h with h | h | h <;> obtain ⟨rfl, rfl⟩ := Prod.mk.inj h <;>
        simp only [sv_a, sv_b, sv_c, le_refl, true_and, and_true, k1, k2, k3] <;> linarith
    have hrec : ∀ x y : P3 K, (x, y) = (a, b) ∨ (x, y) = (b, c) ∨ (x, y) = (c, a) → ∀ Q' : List (P3 K), Q'.Sublist (Q.map (tr o)) →
        (∀ p ∈ Q', pVisible knob ⟨tr o x, tr o y, tr o d⟩ p = true) →
        ∃ R, pHelper knob E fuel ⟨tr o x, tr o y, tr o d⟩ Q' = .ok R ∧ Keeps ⟨tr o x, tr o y, tr o d⟩ Q' R := by
      intro x y hxy Q' hQ' hv'
      have hxU : x ∈ U ∧ y ∈ U := by
        rcases hxy with h | h | h <;> obtain ⟨rfl, rfl⟩ := Prod.mk.inj h <;> exact ⟨by assumption, by assumption⟩
      have hnm : (Q.map (tr o)).Nodup := hn.map fun p q h => tr_inj h
      refine pHelper_ok hk fuel ⟨tr o x, tr o y, tr o d⟩ Q' (tr o '' U) (hS.image o) ⟨x, hxU.1, rfl⟩ ⟨y, hxU.2, rfl⟩ ⟨d, hdU, rfl⟩ ?_
        (hnm.sublist hQ') hv' ?_
      · intro p hp
        obtain ⟨q, hq, rfl⟩ := List.mem_map.mp (hQ'.subset hp)
        exact ⟨q, hU q hq, rfl⟩
      · simp only
        -- fewer points are strictly beyond the new facet
        have hsub : (Q'.filter fun p => decide (knob < sv (tr o x) (tr o y) (tr o d) p)).Subperm
            (((Q.filter fun p => decide (knob < sv a b c p)).erase d).map (tr o)) := by
          refine List.Nodup.subperm ((hnm.sublist hQ').filter _) ?_
          intro p hp
          rw [List.mem_filter, decide_eq_true_eq] at hp
          obtain ⟨q, hq, rfl⟩ := List.mem_map.mp (hQ'.subset hp.1)
          have hp2 := hp.2
          rw [sv_tr] at hp2
          obtain ⟨wa, wb, wc, wd⟩ := w x y hxy
          refine List.mem_map_of_mem ?_
          rw [(hn.filter _).mem_erase_iff, List.mem_filter, decide_eq_true_eq]
          refine ⟨?_, hq, ?_⟩
          · rintro rfl
            linarith
          · rcases pVisible_iff.mp (hvis q hq) with h | h
            · exact h
            · rcases h with rfl | rfl | rfl
              · linarith
              · linarith
              · linarith
        have h1 := hsub.length_le
        rw [List.length_map, List.length_erase_of_mem (List.mem_filter.mpr ⟨hdQ, by simpa using hdv⟩)] at h1
        have h2 : 0 < (Q.filter fun p => decide (knob < sv a b c p)).length :=
          List.length_pos_of_mem (List.mem_filter.mpr ⟨hdQ, by simpa using hdv⟩)
        omega
    obtain ⟨R, hR, sR, cR, vR⟩ := pParts_ok (knob := knob) (rec := pHelper knob E fuel)
      [⟨tr o a, tr o b, tr o d⟩, ⟨tr o b, tr o c, tr o d⟩, ⟨tr o c, tr o a, tr o d⟩] (Q.map (tr o)) (by
        intro g hg
        simp only [List.mem_cons, List.not_mem_nil, or_false] at hg
        rcases hg with rfl | rfl | rfl
        · exact hrec a b (by simp)
        · exact hrec b c (by simp)
        · exact hrec c a (by simp))
    -- corners of the facet and the apex are kept
    have hkeep : ∀ p ∈ Q, p = a ∨ p = b ∨ p = c ∨ p = d → p ∈ R.map (back o) := by
      intro p hp hc
      refine List.mem_map.mpr ⟨tr o p, vR _ (List.mem_map_of_mem hp) ?_ ?_, back_tr o p⟩
      · rcases hc with rfl | rfl | rfl | rfl
        · exact ⟨⟨tr o p, tr o b, tr o d⟩, by simp, Or.inl rfl⟩
        · exact ⟨⟨tr o a, tr o p, tr o d⟩, by simp, Or.inr (Or.inl rfl)⟩
        · exact ⟨⟨tr o b, tr o p, tr o d⟩, by simp, Or.inr (Or.inl rfl)⟩
        · exact ⟨⟨tr o a, tr o b, tr o p⟩, by simp, Or.inr (Or.inr rfl)⟩
      · intro g hg
        simp only [List.mem_cons, List.not_mem_nil, or_false] at hg
        have : ∀ x y : P3 K, (x, y) = (a, b) ∨ (x, y) = (b, c) ∨ (x, y) = (c, a) → ¬ knob < sv x y d p := by
          intro x y hxy
          obtain ⟨wa, wb, wc, wd⟩ := w x y hxy
          rcases hc with rfl | rfl | rfl | rfl <;> linarith
        rcases hg with rfl | rfl | rfl <;> simp only [sv_tr]
        · exact this a b (by simp)
        · exact this b c (by simp)
        · exact this c a (by simp)
    have hdR : d ∈ R.map (back o) := hkeep d hdQ (by simp)
    refine ⟨R.map (back o), by rw [hR]; rfl, ?_, ?_, ?_⟩
    · have := sR.map (f := back o) (back_inj o)
      rw [List.map_map] at this
      rwa [show (back o ∘ tr o : P3 K → P3 K) = id from funext fun p => back_tr o p, List.map_id] at this
    · intro p hp
      have hcorner : ∀ x, x = a ∨ x = b ∨ x = c ∨ x = d → x ∈ convexHull K {v | v ∈ R.map (back o) ∨ IsC ⟨a, b, c⟩ v} := by
        rintro x (rfl | rfl | rfl | rfl)
        · exact subset_convexHull K _ (Or.inr (Or.inl rfl))
        · exact subset_convexHull K _ (Or.inr (Or.inr (Or.inl rfl)))
        · exact subset_convexHull K _ (Or.inr (Or.inr (Or.inr rfl)))
        · exact subset_convexHull K _ (Or.inl hdR)
      by_cases hv : ∃ g ∈ [(⟨tr o a, tr o b, tr o d⟩ : PF K), ⟨tr o b, tr o c, tr o d⟩, ⟨tr o c, tr o a, tr o d⟩],
          pVisible knob g (tr o p) = true
      · have := cR _ (List.mem_map_of_mem hp) hv
        rw [← back_tr o p]
        refine hull_shift ?_ this
        rintro s (hs | ⟨g, hg, hs⟩)
        · exact subset_convexHull K _ (Or.inl (List.mem_map_of_mem hs))
        · refine hcorner _ ?_
          simp only [List.mem_cons, List.not_mem_nil, or_false] at hg
          rcases hg with rfl | rfl | rfl <;> rcases hs with rfl | rfl | rfl <;> simp only [back_tr] <;> tauto
      · push Not at hv
        have hle : ∀ x y : P3 K, x ∈ U → y ∈ U → ¬ pVisible knob ⟨tr o x, tr o y, tr o d⟩ (tr o p) = true → sv x y d p ≤ 0 := by
          intro x y hx hy h
          rw [pVisible_iff] at h
          push Not at h
          have h1 := h.1
          simp only [sv_tr] at h1
          exact (hS x hx y hy d hdU p (hU p hp)).resolve_right (not_lt.mpr h1)
        have h0 : 0 ≤ sv a b c p := by
          rcases pVisible_iff.mp (hvis p hp) with h | h
          · exact hk.trans h.le
          · rcases h with rfl | rfl | rfl
            · exact (sv_a _ _ _).ge
            · exact (sv_b _ _ _).ge
            · exact (sv_c _ _ _).ge
        exact mem_tetra (convex_convexHull K _) (hcorner a (by simp)) (hcorner b (by simp)) (hcorner c (by simp))
          (hcorner d (by simp)) hV h0 (hle a b hfa hfb (hv _ (by simp))) (hle b c hfb hfc (hv _ (by simp)))
          (hle c a hfc hfa (hv _ (by simp)))
    · intro p hp hc
      exact hkeep p hp (by rcases hc with h | h | h <;> simp only at h <;> tauto)

end

end Verif.QHull
