import Verif.RandInc.Ring

set_option linter.unusedSectionVars false
set_option linter.unusedVariables false

/-!
The insertion of one vertex.
-/

namespace Verif.RandInc

open Verif Verif.Hull2d

variable {K : Type} [Field K] [LinearOrder K] [IsStrictOrderedRing K]

/-- The points that see a facet of `M`. -/
def pts (h : ℕ → Option Fct) (M : List ℕ) : List ℕ := (M.map fun i => ((h i).map (·.seen)).getD []).flatten

/-- The state after the insertion of `v` in place of the facets `M` between `a` and `e`. -/
def nx (eps : K) (pos : ℕ → Point K 2) (s : St) (v a : ℕ) (M : List ℕ) (e : ℕ) (fa fs fe : Fct) : St :=
  let g1 : Fct := ⟨fs.p1, v, 0, 0, none, []⟩
  let g2 : Fct := ⟨v, fe.p1, 0, 0, none, []⟩
  let Q := pts s.heap M
  ⟨fun i => if i ∈ M then none else
      if i = e then some { fe with prev := s.top + 1 } else
      if i = a then some { fa with next := s.top } else
      if i = s.top + 1 then some ⟨v, fe.p1, e, s.top, none, Q.filter fun q => !visible eps pos g1 q && visible eps pos g2 q⟩ else
      if i = s.top then some ⟨fs.p1, v, s.top + 1, a, none, Q.filter fun q => visible eps pos g1 q⟩ else s.heap i,
    s.top + 2, redistribute eps pos g1 g2 s.top (s.top + 1) Q (Function.update s.see v none), s.top⟩

theorem mapM_seen {h : ℕ → Option Fct} (M : List ℕ) (hl : ∀ i ∈ M, ∃ f, h i = some f) :
    (M.mapM fun i => (deref h i).map fun f => f.seen) = .ok (M.map fun i => ((h i).map (·.seen)).getD []) := by
  induction M with
  | nil => rfl
  | cons x M ih =>
    obtain ⟨f, hf⟩ := hl x (by simp)
    rw [List.mapM_cons, ih fun i hi => hl i (by simp [hi]), deref_some hf]
    simp [Except.map, hf, bind, Except.bind, pure, Except.pure]

theorem chain_congr {h h' : ℕ → Option Fct} {l : List ℕ} (hc : List.IsChain (Link h) l) (hh : ∀ x ∈ l, h' x = h x) :
    List.IsChain (Link h') l := by
  induction l with
  | nil => exact .nil
  | cons x l ih =>
    cases l with
    | nil => exact List.isChain_singleton x
    | cons y l =>
      rw [List.isChain_cons_cons] at hc ⊢
      refine ⟨?_, ih hc.2 fun z hz => hh z (by simp [hz])⟩
      unfold Link at hc ⊢
      rw [hh x (by simp), hh y (by simp)]
      exact hc.1

section
variable {eps : K} {pos : ℕ → Point K 2} {s : St} {v a e f : ℕ} {M : List ℕ} {fa fs fe : Fct}

theorem strip_self {h : ℕ → Option Fct} (ht : ∀ x f, h x = some f → f.token = none) : strip h = h := by
  funext x
  unfold strip
  cases hx : h x with
  | none => rfl
  | some f =>
    have := ht x f hx
    cases f
    simp only at this
    subst this
    rfl

theorem process_ok (ht : ∀ x f, s.heap x = some f → f.token = none) (hs : s.see v = some f)
    (hV : Vis eps pos s.heap v a M e) (hf : f ∈ M) (hl : M.length + 1 < s.top + 1) (hlt : ∀ x ∈ a :: (M ++ [e]), x < s.top)
    (ha : s.heap a = some fa) (hfs : s.heap (M.head hV.ne) = some fs) (he : s.heap e = some fe) :
    processOne eps pos s v = .ok (nx eps pos s v a M e fa fs fe) := by
  have hf1 := (find_range hs (by rw [strip_self ht]; exact hV) hf hl).1
  obtain ⟨m, N, rfl⟩ := List.exists_cons_of_ne_nil hV.ne
  have hnd := hV.nodup
  have hch := hV.chain
  simp only [List.head_cons] at hfs hf1
  have hprev : fs.prev = a := by
    simp only [List.cons_append, List.isChain_cons_cons] at hch
    obtain ⟨⟨-, y, hy1, hy2⟩, -⟩ := hch
    rw [hfs] at hy1
    rw [Option.some.inj hy1, hy2]
  have hch1 : List.IsChain (Link s.heap) (m :: N) := by
    have h1 := hch.tail
    simp only [List.tail_cons] at h1
    exact h1.left_of_append
  have hlast : ∃ g, s.heap ((m :: N).getLast (by simp)) = some g ∧ g.next = e := by
    have h1 := hch.tail
    simp only [List.tail_cons] at h1
    rw [← List.dropLast_append_getLast (l := m :: N) (by simp), List.append_assoc] at h1
    have h2 := h1.right_of_append
    simp only [List.cons_append, List.nil_append, List.isChain_cons_cons] at h2
    exact h2.1.1
  have hane : a ≠ e := by
    rintro rfl; simp at hnd
  have heM : e ∉ m :: N := by
    intro h
    exact (List.nodup_append.mp (List.nodup_cons.mp hnd).2).2.2 e h e (by simp) rfl
  have haM : a ∉ m :: N := by
    intro h
    exact (List.nodup_cons.mp hnd).1 (by simp only [List.mem_append]; exact .inl h)
  have heN : e ∉ N := fun h => heM (by simp [h])
  have halt : a < s.top := hlt a (by simp)
  have helt : e < s.top := hlt e (by simp)
  have hMlt : ∀ x ∈ m :: N, x < s.top := fun x hx => hlt x (by simp only [List.mem_cons, List.mem_append] at hx ⊢; tauto)
  have hlive : ∀ i ∈ m :: N, ∃ f, s.heap i = some f := fun i hi => by
    obtain ⟨f, h1, -⟩ := hV.vis i hi; exact ⟨f, h1⟩
  unfold processOne
  rw [hf1]
  simp only [Except.bind, deref_some hfs, deref_some he,
    walk_ok e m N hch1 hlast heN (s.top + 1) (by simp at hl; omega), mapM_seen (m :: N) hlive]
  rw [hprev, modify_ok (f := fa) (by
    rw [Function.update_of_ne (by omega), Function.update_of_ne (by omega)]; exact ha)]
  simp only
  rw [modify_ok (f := fe) (by
    rw [Function.update_of_ne (Ne.symm hane), Function.update_of_ne (by omega), Function.update_of_ne (by omega)]; exact he)]
  simp only
  set h3 := Function.update _ e _ with hh3
  have hsame : ∀ x ∈ m :: N, h3 x = s.heap x := by
    intro x hx
    have := hMlt x hx
    rw [hh3, Function.update_of_ne (by rintro rfl; exact heM hx), Function.update_of_ne (by rintro rfl; exact haM hx),
      Function.update_of_ne (by omega), Function.update_of_ne (by omega)]
  rw [walk_ok (h := h3) e m N (chain_congr hch1 hsame) (by rw [hsame _ (List.getLast_mem _)]; exact hlast) heN (s.top + 1)
    (by simp at hl; omega)]
  simp only [Except.map]
  unfold nx
  congr 2
  funext i
  by_cases hi : i ∈ m :: N
  · rw [if_pos hi, if_pos hi]
  rw [if_neg hi, if_neg hi, hh3]
  by_cases h1 : i = e
  · subst h1; rw [Function.update_self, if_pos rfl]
  rw [if_neg h1, Function.update_of_ne h1]
  by_cases h2 : i = a
  · subst h2; rw [Function.update_self, if_pos rfl]
  rw [if_neg h2, Function.update_of_ne h2]
  by_cases h4 : i = s.top + 1
  · subst h4; rw [Function.update_self, if_pos rfl]; rfl
  rw [if_neg h4, Function.update_of_ne h4]
  by_cases h5 : i = s.top
  · subst h5; rw [Function.update_self, if_pos rfl]; rfl
  rw [if_neg h5, Function.update_of_ne h5]

end

end Verif.RandInc
