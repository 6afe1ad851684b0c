import Mathlib.Data.Set.Card
import Mathlib.Logic.Relation
import Verif.Hull3d.CheckModel
import Verif.Hull3d.LinkProps

set_option linter.unusedSectionVars false
set_option linter.unusedVariables false

/-!
Property C84: traversals and integrity checkers of a hull in memory.
-/

namespace Verif.Hull3d

open Verif

variable {V : Type} [DecidableEq V]

/-- Specification: a pointer of facet `i` leads to `j`. -/
def Points (t : Topo V) (i j : ℕ) : Prop := (t.heap i).ab = some j ∨ (t.heap i).bc = some j ∨ (t.heap i).ca = some j

/-- Specification: `j` can be reached from `i` by following pointers. -/
def Reach (t : Topo V) (i j : ℕ) : Prop := Relation.ReflTransGen (Points t) i j

/-- Specification: the facets that can be reached. -/
def comp (t : Topo V) (i : ℕ) : Set ℕ := {j | Reach t i j}

/-- All facets that can be reached are allocated and have three pointers. -/
def Sound (t : Topo V) (i : ℕ) : Prop :=
  ∀ j, Reach t i j → j ∈ t.live ∧ (∃ x, (t.heap j).ab = some x) ∧ (∃ x, (t.heap j).bc = some x) ∧ ∃ x, (t.heap j).ca = some x

theorem Sound.of_reach {t : Topo V} {i j : ℕ} (h : Sound t i) (hr : Reach t i j) : Sound t j :=
  fun k hk => h k (Relation.ReflTransGen.trans hr hk)

/-- The order in which a traversal visits the facets does not depend on what it does there. -/
theorem dfs_order (t : Topo V) (i0 : ℕ) (hs : Sound t i0) : ∀ (fuel : ℕ) (S : List (Option ℕ)) (seen : List ℕ),
    (∀ p ∈ S, ∃ j, p = some j ∧ Reach t i0 j) → seen.Nodup → (∀ j ∈ seen, Reach t i0 j) →
    (∀ j ∈ seen, ∀ k, Points t j k → k ∈ seen ∨ some k ∈ S) →
    3 * (t.live.length - seen.length) + S.length < fuel →
    ∃ W : List ℕ, (seen ++ W).Nodup ∧ (∀ j ∈ W, Reach t i0 j) ∧ (∀ j, some j ∈ S → j ∈ seen ∨ j ∈ W) ∧
      (∀ j, j ∈ seen ∨ j ∈ W → ∀ k, Points t j k → k ∈ seen ∨ k ∈ W) ∧
      ∀ (σ : Type) (fDo : σ → ℕ → Except Err σ) (s : σ), dfs t fDo fuel S seen s = W.foldlM fDo s := by
  intro fuel
  induction fuel with
  | zero => intro S seen _ _ _ _ hf; omega
  | succ fuel ih =>
    intro S seen hS hn hr hc hf
    cases S with
    | nil =>
      refine ⟨[], by simpa using hn, by simp, by simp, ?_, fun σ fDo s => rfl⟩
      intro j hj k hk
      have hj' : j ∈ seen := by simpa using hj
      have := hc j hj' k hk
      simpa using this
    | cons p S =>
      obtain ⟨i, rfl, hi⟩ := hS p List.mem_cons_self
      obtain ⟨hlive, ⟨x, hx⟩, ⟨y, hy⟩, z, hz⟩ := hs i hi
      have hd : t.deref (some i) = .ok i := by
        unfold Topo.deref
        simp only [if_pos hlive]
      have hS' : ∀ q ∈ S, ∃ j, q = some j ∧ Reach t i0 j := fun q hq => hS q (List.mem_cons_of_mem _ hq)
      by_cases hin : i ∈ seen
      · obtain ⟨W, h1, h2, h3, h4, h5⟩ := ih S seen hS' hn hr (by
          intro j hj k hk
          rcases hc j hj k hk with h | h
          · exact Or.inl h
          · rcases List.mem_cons.mp h with h | h
            · injection h with h
              exact Or.inl (h ▸ hin)
            · exact Or.inr h) (by simp only [List.length_cons] at hf; omega)
        refine ⟨W, h1, h2, ?_, h4, ?_⟩
        · intro j hj
          rcases List.mem_cons.mp hj with h | h
          · injection h with h
            exact Or.inl (h ▸ hin)
          · exact h3 j h
        · intro σ fDo s
          rw [← h5 σ fDo s]
          show (t.deref (some i)).bind _ = _
          rw [hd]
          show (if i ∈ seen then _ else _) = _
          rw [if_pos hin]
      · have hsub : (i :: seen).length ≤ t.live.length := by
          have hnd : (i :: seen).Nodup := List.nodup_cons.mpr ⟨hin, hn⟩
          refine (hnd.subperm ?_).length_le
          intro j hj
          rcases List.mem_cons.mp hj with rfl | h
          · exact hlive
          · exact (hs j (hr j h)).1
        have hstep : ∀ k, Points t i k → Reach t i0 k := fun k hk => Relation.ReflTransGen.tail hi hk
        obtain ⟨W, h1, h2, h3, h4, h5⟩ := ih ((t.heap i).bc :: (t.heap i).ca :: (t.heap i).ab :: S) (i :: seen) (by
            intro q hq
            rcases List.mem_cons.mp hq with rfl | hq
            · exact ⟨y, hy, hstep y (Or.inr (Or.inl hy))⟩
            rcases List.mem_cons.mp hq with rfl | hq
            · exact ⟨z, hz, hstep z (Or.inr (Or.inr hz))⟩
            rcases List.mem_cons.mp hq with rfl | hq
            · exact ⟨x, hx, hstep x (Or.inl hx)⟩
            · exact hS' q hq) (List.nodup_cons.mpr ⟨hin, hn⟩) (by
            intro j hj
            rcases List.mem_cons.mp hj with rfl | h
            · exact hi
            · exact hr j h) (by
            intro j hj k hk
            rcases List.mem_cons.mp hj with rfl | h
            · right
              rcases hk with hk | hk | hk
              · rw [← hk]; simp
              · rw [← hk]; simp
              · rw [← hk]; simp
            · rcases hc j h k hk with h | h
              · exact Or.inl (List.mem_cons_of_mem _ h)
              · rcases List.mem_cons.mp h with h | h
                · injection h with h
                  exact Or.inl (h ▸ List.mem_cons_self)
                · right
                  exact List.mem_cons_of_mem _ (List.mem_cons_of_mem _ (List.mem_cons_of_mem _ h))) (by
            simp only [List.length_cons] at hf hsub ⊢
            omega)
        refine ⟨i :: W, ?_, ?_, ?_, ?_, ?_⟩
        · refine (List.perm_middle.nodup_iff).mpr ?_
          simpa using h1
        · intro j hj
          rcases List.mem_cons.mp hj with rfl | h
          · exact hi
          · exact h2 j h
        · intro j hj
          rcases List.mem_cons.mp hj with h | h
          · injection h with h
            exact Or.inr (h ▸ List.mem_cons_self)
          · have := h3 j (List.mem_cons_of_mem _ (List.mem_cons_of_mem _ (List.mem_cons_of_mem _ h)))
            rcases this with h | h
            · rcases List.mem_cons.mp h with rfl | h
              · exact Or.inr List.mem_cons_self
              · exact Or.inl h
            · exact Or.inr (List.mem_cons_of_mem _ h)
        · intro j hj k hk
          have hj' : j ∈ i :: seen ∨ j ∈ W := by
            rcases hj with h | h
            · exact Or.inl (List.mem_cons_of_mem _ h)
            · rcases List.mem_cons.mp h with rfl | h
              · exact Or.inl List.mem_cons_self
              · exact Or.inr h
          rcases h4 j hj' k hk with h | h
          · rcases List.mem_cons.mp h with rfl | h
            · exact Or.inr List.mem_cons_self
            · exact Or.inl h
          · exact Or.inr (List.mem_cons_of_mem _ h)
        · intro σ fDo s
          show (t.deref (some i)).bind _ = _
          rw [hd]
          show (if i ∈ seen then _ else _) = _
          rw [if_neg hin, List.foldlM_cons]
          show Except.bind (fDo s i) _ = Except.bind (fDo s i) _
          refine congrArg _ (funext fun s' => ?_)
          exact h5 σ fDo s'

/-- **C84** (traversal): from a facet all of whose reachable facets are allocated and have their pointers, `dfsFacet` returns; it
calls its action for every facet that can be reached, exactly once, and for nothing else. -/
theorem c84_dfs (t : Topo V) (i : ℕ) (hs : Sound t i) (fuel : ℕ) (hf : 3 * t.live.length + 1 < fuel) :
    ∃ W : List ℕ, W.Nodup ∧ (∀ j, j ∈ W ↔ Reach t i j) ∧
      ∀ (σ : Type) (fDo : σ → ℕ → Except Err σ) (s : σ), dfs t fDo fuel [some i] [] s = W.foldlM fDo s := by
  obtain ⟨W, h1, h2, h3, h4, h5⟩ := dfs_order t i hs fuel [some i] [] (by
    intro p hp
    rw [List.mem_singleton] at hp
    exact ⟨i, hp, Relation.ReflTransGen.refl⟩) List.nodup_nil (by simp) (by simp) (by simpa using hf)
  refine ⟨W, by simpa using h1, fun j => ⟨h2 j, fun hj => ?_⟩, h5⟩
  have hi : i ∈ W := by simpa using h3 i (by simp)
  induction hj with
  | refl => exact hi
  | tail _ hk ih => simpa using h4 _ (Or.inr ih) _ hk

theorem foldlM_ok {σ : Type} (g : σ → ℕ → σ) : ∀ (W : List ℕ) (s : σ),
    W.foldlM (fun s i => (.ok (g s i) : Except Err σ)) s = .ok (W.foldl g s)
  | [], _ => rfl
  | i :: W, s => by
    rw [List.foldlM_cons]
    exact foldlM_ok g W (g s i)

theorem comp_finite (t : Topo V) (i : ℕ) (hs : Sound t i) : (comp t i).Finite :=
  (List.finite_toSet t.live).subset fun j hj => (hs j hj).1

theorem ncard_of_list {W : List ℕ} (hn : W.Nodup) {S : Set ℕ} (h : ∀ j, j ∈ W ↔ j ∈ S) : S.ncard = W.length := by
  have : S = (W.toFinset : Set ℕ) := by
    ext j
    simp [h]
  rw [this, Set.ncard_coe_finset, List.toFinset_card_of_nodup hn]

/-- **C84** (size): `hullSizeDfs` counts the facets that can be reached. -/
theorem c84_size (t : Topo V) (i : ℕ) (hs : Sound t i) (fuel : ℕ) (hf : 3 * t.live.length + 1 < fuel) :
    hullSizeDfs fuel t i = .ok (comp t i).ncard := by
  obtain ⟨W, hn, hm, hd⟩ := c84_dfs t i hs fuel hf
  unfold hullSizeDfs
  rw [hd, foldlM_ok, ncard_of_list (S := comp t i) hn hm]
  congr 1
  have : ∀ (W : List ℕ) (s : ℕ), W.foldl (fun s _ => s + 1) s = s + W.length := by
    intro W
    induction W with
    | nil => intro s; rfl
    | cons a W ih => intro s; rw [List.foldl_cons, ih, List.length_cons]; omega
  rw [this, Nat.zero_add]

/-- **C84** (printing): `printHull` without the checker prints the size of the hull and every facet that can be reached from its
argument once, with its number of points. -/
theorem c84_print (t : Topo V) (i : ℕ) (hH : Sound t t.H) (hs : Sound t i) (fuel : ℕ) (hf : 3 * t.live.length + 1 < fuel) :
    ∃ W : List ℕ, W.Nodup ∧ (∀ j, j ∈ W ↔ Reach t i j) ∧
      printPlain fuel t i = .ok ((comp t t.H).ncard, W.map fun f => (f, (t.pts f).length)) := by
  obtain ⟨W, hn, hm, hd⟩ := c84_dfs t i hs fuel hf
  refine ⟨W, hn, hm, ?_⟩
  unfold printPlain
  rw [c84_size t t.H hH fuel hf]
  show Except.map _ _ = _
  rw [hd, foldlM_ok]
  have : ∀ (W : List ℕ) (s : List (ℕ × ℕ)),
      W.foldl (fun out f => out ++ [(f, (t.pts f).length)]) s = s ++ W.map fun f => (f, (t.pts f).length) := by
    intro W
    induction W with
    | nil => intro s; simp
    | cons a W ih => intro s; rw [List.foldl_cons, ih]; simp
  rw [this]
  rfl

theorem foldlM_all {p : ℕ → Prop} [DecidablePred p] : ∀ (W : List ℕ) (fDo : Unit → ℕ → Except Err Unit),
    (∀ j ∈ W, fDo () j = if p j then .error .throws else .ok ()) →
    W.foldlM fDo () = if ∃ j ∈ W, p j then .error .throws else .ok ()
  | [], _, _ => by simp; rfl
  | i :: W, fDo, h => by
    rw [List.foldlM_cons, h i List.mem_cons_self]
    by_cases hp : p i
    · rw [if_pos hp, if_pos ⟨i, List.mem_cons_self, hp⟩]
      rfl
    · rw [if_neg hp]
      have := foldlM_all W fDo fun j hj => h j (List.mem_cons_of_mem _ hj)
      show W.foldlM fDo () = _
      rw [this]
      have he : (∃ j ∈ i :: W, p j) ↔ ∃ j ∈ W, p j := by
        simp [hp]
      simp only [he]

open Classical in
/-- **C84** (the size checker): `printHull` with the checker, which compares the sizes found from all facets that can be reached from
the hull pointer, raises an error exactly if one of them does not lead back; otherwise it prints the same as without. -/
theorem c84_print_check (t : Topo V) (hH : Sound t t.H) (fuel : ℕ) (hf : 3 * t.live.length + 1 < fuel) :
    printHull fuel t t.H =
      if ∃ j, Reach t t.H j ∧ ¬ Reach t j t.H then .error .throws else printPlain fuel t t.H := by
  obtain ⟨W, hn, hm, hp⟩ := c84_print t t.H hH hH fuel hf
  obtain ⟨W', hn', hm', hd⟩ := c84_dfs t t.H hH fuel hf
  unfold printHull
  rw [hp, c84_size t t.H hH fuel hf]
  show Except.map _ (dfs t (fun (_ : Unit) f => _) fuel [some t.H] [] ()) = _
  rw [hd, foldlM_all (p := fun j => ¬ Reach t j t.H) W' _ ?_]
  · have he : (∃ j ∈ W', ¬ Reach t j t.H) ↔ ∃ j, Reach t t.H j ∧ ¬ Reach t j t.H :=
      exists_congr fun j => and_congr_left fun _ => hm' j
    by_cases hc : ∃ j, Reach t t.H j ∧ ¬ Reach t j t.H
    · rw [if_pos hc, if_pos (he.mpr hc)]
      rfl
    · rw [if_neg hc, if_neg (fun h => hc (he.mp h))]
      rfl
  · intro j hj
    have hr := (hm' j).mp hj
    rw [c84_size t j (hH.of_reach hr) fuel hf]
    show (if _ then _ else _) = _
    by_cases hb : Reach t j t.H
    · rw [if_neg (not_not.mpr hb), if_neg]
      rw [not_not]
      have : comp t j = comp t t.H := by
        ext k
        exact ⟨fun h => Relation.ReflTransGen.trans hr h, fun h => Relation.ReflTransGen.trans hb h⟩
      rw [this]
    · rw [if_pos hb, if_pos]
      intro hcard
      apply hb
      have hsub : comp t j ⊆ comp t t.H := fun k h => Relation.ReflTransGen.trans hr h
      have := Set.eq_of_subset_of_ncard_le hsub (le_of_eq hcard.symm) (comp_finite t t.H hH)
      show t.H ∈ comp t j
      rw [this]
      exact Relation.ReflTransGen.refl

/-- The test for adjacent facets is always true. -/
theorem isAdjacent_true (f g : Facet V) : isAdjacent f g = true := by
  unfold isAdjacent touches
  simp

/-- **C84** (the link checker, first half): the checker accepts every hull whose facets are allocated and have their three pointers,
whatever these point to; in particular it accepts the hulls that are linked correctly. -/
theorem c84_check_partial (t : Topo V) (i : ℕ) (hs : Sound t i) (fuel : ℕ) (hf : 3 * t.live.length + 1 < fuel) :
    checkHull fuel t i = .ok () := by
  obtain ⟨W, hn, hm, hd⟩ := c84_dfs t i hs fuel hf
  unfold checkHull
  rw [hd, foldlM_all (p := fun _ => False) W _ ?_]
  · simp
  · intro j hj
    rw [if_neg (by simp)]
    have hr := (hm j).mp hj
    obtain ⟨_, ⟨x, hx⟩, ⟨y, hy⟩, z, hz⟩ := hs j hr
    have hl : ∀ k, Points t j k → adjBoth t j (some k) = .ok true := by
      intro k hk
      have hk' := (hs k (Relation.ReflTransGen.tail hr hk)).1
      unfold adjBoth Topo.deref
      simp only [if_pos hk', isAdjacent_true, Bool.and_self]
      rfl
    unfold adjAll
    rw [hx, hl x (Or.inl hx), hy, hl y (Or.inr (Or.inl hy)), hz, hl z (Or.inr (Or.inr hz))]
    rfl

/-- Specification: across every edge of every facet that can be reached lies a facet with this edge, which points back. -/
def Linked (t : Topo V) : Prop := ∀ f g e, Reach t t.H f → Across (t.heap f) e g → Across (t.heap g) e f

/-- The four facets of a tetrahedron, each with all its pointers to the next one. -/
def turned : Topo ℕ where
  heap := fun i => match i with
    | 0 => ⟨0, 1, 2, some 1, some 1, some 1⟩
    | 1 => ⟨0, 3, 1, some 2, some 2, some 2⟩
    | 2 => ⟨1, 3, 2, some 3, some 3, some 3⟩
    | _ => ⟨0, 2, 3, some 0, some 0, some 0⟩
  live := [0, 1, 2, 3]
  pts := fun _ => []
  H := 0

theorem turned_reach (i j : ℕ) (hi : i < 4) (h : Reach turned i j) : j < 4 := by
  induction h with
  | refl => exact hi
  | @tail b c _ hk ih =>
    have hb : b = 0 ∨ b = 1 ∨ b = 2 ∨ b = 3 := by omega
    rcases hb with rfl | rfl | rfl | rfl <;> simp [Points, turned] at hk <;> omega

theorem turned_sound (i : ℕ) (hi : i < 4) : Sound turned i := by
  intro j hj
  have hb := turned_reach i j hi hj
  have hb : j = 0 ∨ j = 1 ∨ j = 2 ∨ j = 3 := by omega
  rcases hb with rfl | rfl | rfl | rfl <;> simp [turned]

theorem turned_back (i : ℕ) (hi : i < 4) : Reach turned i 0 := by
  have h3 : Reach turned 3 0 := Relation.ReflTransGen.single (Or.inl rfl)
  have h2 : Reach turned 2 0 := Relation.ReflTransGen.head (Or.inl rfl) h3
  have h1 : Reach turned 1 0 := Relation.ReflTransGen.head (Or.inl rfl) h2
  have hb : i = 0 ∨ i = 1 ∨ i = 2 ∨ i = 3 := by omega
  rcases hb with rfl | rfl | rfl | rfl
  · exact Relation.ReflTransGen.refl
  · exact h1
  · exact h2
  · exact h3

/-- **C84** (the link checker, second half) is false: there is a tetrahedron with wrong links, on which neither `checkHull` nor
`printHull` raises an error. The array of `isAdjacent` holds two vertices of the second facet, so that its own edge is found. -/
theorem c84_check_false : ∃ t : Topo ℕ, Sound t t.H ∧ (∀ j ∈ t.live, Reach t t.H j ∧ Proper (t.heap j)) ∧ ¬ Linked t ∧
    checkHull 14 t t.H = .ok () ∧ ∃ out, printHull 14 t t.H = .ok out := by
  have hs := turned_sound 0 (by decide)
  refine ⟨turned, hs, ?_, ?_, c84_check_partial turned 0 hs 14 (by decide), ?_⟩
  · have h1 : Reach turned 0 1 := Relation.ReflTransGen.single (Or.inl rfl)
    have h2 : Reach turned 0 2 := Relation.ReflTransGen.tail h1 (Or.inl rfl)
    have h3 : Reach turned 0 3 := Relation.ReflTransGen.tail h2 (Or.inl rfl)
    intro j hj
    have hj' : j = 0 ∨ j = 1 ∨ j = 2 ∨ j = 3 := by simpa [turned] using hj
    rcases hj' with rfl | rfl | rfl | rfl
    · exact ⟨Relation.ReflTransGen.refl, by simp [turned, Proper]⟩
    · exact ⟨h1, by simp [turned, Proper]⟩
    · exact ⟨h2, by simp [turned, Proper]⟩
    · exact ⟨h3, by simp [turned, Proper]⟩
  · intro hl
    have := hl 0 1 s(1, 2) Relation.ReflTransGen.refl (Or.inr (Or.inl ⟨rfl, rfl⟩))
    simp [Across, turned] at this
  · obtain ⟨W, _, _, hp⟩ := c84_print turned 0 hs hs 14 (by decide)
    refine ⟨((comp turned turned.H).ncard, W.map fun f => (f, (turned.pts f).length)), ?_⟩
    refine (c84_print_check turned hs 14 (by decide)).trans ?_
    rw [if_neg]
    · exact hp
    · rintro ⟨j, hj, hn⟩
      exact hn (turned_back j (turned_reach 0 j (by decide) hj))

theorem mem_dropRepeats : ∀ (l : List V) (p x : V), x ∈ l → x = p ∨ x ∈ dropRepeats p l
  | q :: l, p, x, h => by
    unfold dropRepeats
    rcases List.mem_cons.mp h with rfl | h
    · by_cases hq : x = p
      · exact Or.inl hq
      · rw [if_neg hq]
        exact Or.inr List.mem_cons_self
    · rcases mem_dropRepeats l q x h with rfl | h
      · by_cases hq : x = p
        · exact Or.inl hq
        · rw [if_neg hq]
          exact Or.inr List.mem_cons_self
      · right
        split
        · exact h
        · exact List.mem_cons_of_mem _ h

theorem of_mem_dropRepeats : ∀ (l : List V) (p x : V), x ∈ dropRepeats p l → x ∈ l
  | q :: l, p, x, h => by
    unfold dropRepeats at h
    split at h
    · exact List.mem_cons_of_mem _ (of_mem_dropRepeats l q x h)
    · rcases List.mem_cons.mp h with rfl | h
      · exact List.mem_cons_self
      · exact List.mem_cons_of_mem _ (of_mem_dropRepeats l q x h)

theorem mem_uniqueL (l : List V) (x : V) : x ∈ uniqueL l ↔ x ∈ l := by
  cases l with
  | nil => rfl
  | cons p l =>
    unfold uniqueL
    rw [List.mem_cons, List.mem_cons]
    constructor
    · rintro (h | h)
      · exact Or.inl h
      · exact Or.inr (of_mem_dropRepeats l p x h)
    · rintro (h | h)
      · exact Or.inl h
      · exact mem_dropRepeats l p x h

/-- **C84** (points): `getHullPts` returns the points stored with the facets that can be reached, moved back, and no others. -/
theorem c84_pts (t : Topo V) (hs : Sound t t.H) (add : V → V) (sort : List V → List V) (hsort : ∀ l, (sort l).Perm l) (fuel : ℕ)
    (hf : 3 * t.live.length + 1 < fuel) :
    ∃ out, getHullPts fuel t add sort = .ok out ∧ ∀ x, x ∈ out ↔ ∃ f p, Reach t t.H f ∧ p ∈ t.pts f ∧ x = add p := by
  obtain ⟨W, hn, hm, hd⟩ := c84_dfs t t.H hs fuel hf
  refine ⟨uniqueL (sort (W.foldl (fun out f => out ++ (t.pts f).map add) [])), ?_, ?_⟩
  · unfold getHullPts
    rw [hd, foldlM_ok]
    rfl
  · intro x
    have : ∀ (W : List ℕ) (s : List V),
        W.foldl (fun out f => out ++ (t.pts f).map add) s = s ++ W.flatMap fun f => (t.pts f).map add := by
      intro W
      induction W with
      | nil => intro s; simp
      | cons a W ih => intro s; rw [List.foldl_cons, ih]; simp
    rw [mem_uniqueL, (hsort _).mem_iff, this, List.nil_append, List.mem_flatMap]
    constructor
    · rintro ⟨f, hf, hx⟩
      obtain ⟨p, hp, rfl⟩ := List.mem_map.mp hx
      exact ⟨f, p, (hm f).mp hf, hp, rfl⟩
    · rintro ⟨f, p, hr, hp, rfl⟩
      exact ⟨f, (hm f).mpr hr, List.mem_map_of_mem hp⟩

/-- Two facets on the way to a third one that points only to itself. -/
def dead : Topo ℕ where
  heap := fun i => match i with
    | 0 => ⟨0, 1, 2, some 1, some 2, some 1⟩
    | 1 => ⟨0, 3, 1, some 0, some 0, some 2⟩
    | _ => ⟨1, 3, 2, some 2, some 2, some 2⟩
  live := [0, 1, 2]
  pts := fun i => [i, i + 1]
  H := 0

theorem dead_reach (i j : ℕ) (hi : i < 3) (h : Reach dead i j) : j < 3 := by
  induction h with
  | refl => exact hi
  | @tail b c _ hk ih =>
    have hb : b = 0 ∨ b = 1 ∨ b = 2 := by omega
    rcases hb with rfl | rfl | rfl <;> simp [Points, dead] at hk <;> omega

theorem dead_end (j : ℕ) (h : Reach dead 2 j) : j = 2 := by
  induction h with
  | refl => rfl
  | @tail b c _ hk ih =>
    subst ih
    simp [Points, dead] at hk
    omega

/-- The hypotheses of the theorems hold for `dead`, and its facet 2 does not lead back: the size checker raises an error. -/
example : Sound dead dead.H ∧ printHull 14 dead dead.H = .error .throws ∧ checkHull 14 dead dead.H = .ok () := by
  have hs : Sound dead dead.H := by
    intro j hj
    have hb := dead_reach 0 j (by decide) hj
    have hb : j = 0 ∨ j = 1 ∨ j = 2 := by omega
    rcases hb with rfl | rfl | rfl <;> simp [dead]
  refine ⟨hs, ?_, c84_check_partial dead 0 hs 14 (by decide)⟩
  rw [c84_print_check dead hs 14 (by decide), if_pos]
  refine ⟨2, Relation.ReflTransGen.single (Or.inr (Or.inl rfl)), fun h => ?_⟩
  have := dead_end _ h
  exact absurd this (by decide)

/-- `getHullPts` on it, with the identity as a (bad) sort. -/
example : getHullPts 14 dead (fun x => x) (fun l => l) = .ok [0, 1, 2, 3, 1, 2] ∧ hullSizeDfs 14 dead 0 = .ok 3 ∧
    hullSizeDfs 14 dead 2 = .ok 1 := by
  decide +kernel

end Verif.Hull3d
