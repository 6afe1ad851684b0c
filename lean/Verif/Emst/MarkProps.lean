import Verif.Emst.Model
import Verif.UnionFind.Lemmas
import Mathlib.Tactic.IntervalCases

set_option linter.unusedSectionVars false
set_option linter.unusedVariables false

/-!
Property C46: `mark` gives an id exactly to the nodes whose points are all in one component.
-/

namespace Verif.Emst

open Verif.KdTree Verif.UF Verif.Mst

variable {d : ℕ} {K : Type}

/-- Specification of C46: every node has id `r` exactly if all its items have representative `r`. -/
def Marked (rt : ℕ → ℕ) : NTree ℕ K d → Prop
  | .leaf i b items => ∀ r, i = some r ↔ ∀ x ∈ items, rt x = r
  | .node i b l r => (∀ c, i = some c ↔ ∀ x ∈ l.tree.items ++ r.tree.items, rt x = c) ∧
      Marked rt l ∧ Marked rt r

/-- Specification of C46, before the call: the ids that are present are out of date, but their nodes
are in one component, and the nodes below have the same id. `i` is the id of the node above. -/
def Stale (rt : ℕ → ℕ) : NTree ℕ K d → Prop
  | .leaf i b items => i.isSome → ∀ x ∈ items, ∀ y ∈ items, rt x = rt y
  | .node i b l r => (i.isSome → (∀ x ∈ l.tree.items ++ r.tree.items, ∀ y ∈ l.tree.items ++ r.tree.items,
      rt x = rt y) ∧ l.id = i ∧ r.id = i) ∧ Stale rt l ∧ Stale rt r

/-- No empty nodes. -/
def NonEmpty : NTree ℕ K d → Prop
  | .leaf _ _ items => items ≠ []
  | .node _ _ l r => NonEmpty l ∧ NonEmpty r

theorem NonEmpty.items {t : NTree ℕ K d} (h : NonEmpty t) : t.tree.items ≠ [] := by
  induction t with
  | leaf i b items => exact h
  | node i b l r ihl ihr =>
    simp only [NTree.tree, Tree.items, ne_eq, List.append_eq_nil_iff, not_and]
    intro h1
    exact absurd h1 (ihl h.1)

theorem markAll_tree (id : ℕ) (t : NTree ℕ K d) : (markAll id t).tree = t.tree := by
  induction t with
  | leaf i b items => rfl
  | node i b l r ihl ihr =>
    unfold markAll
    split_ifs <;> simp [NTree.tree, ihl, ihr]

theorem markAll_id (id : ℕ) (t : NTree ℕ K d) : (markAll id t).id = some id := by
  cases t with
  | leaf i b items => rfl
  | node i b l r =>
    unfold markAll
    split_ifs <;> rfl

theorem iff_of_forall {rt : ℕ → ℕ} {l : List ℕ} (hne : l ≠ []) {id : ℕ} (h : ∀ x ∈ l, rt x = id) (r : ℕ) :
    some id = some r ↔ ∀ x ∈ l, rt x = r := by
  constructor
  · intro e
    rw [← Option.some.inj e]
    exact h
  · intro h'
    obtain ⟨x, hx⟩ := List.exists_mem_of_ne_nil _ hne
    rw [← h x hx, ← h' x hx]

/-- A node whose id is up to date: everything below it too. -/
theorem marked_of_id (rt : ℕ → ℕ) (id : ℕ) (t : NTree ℕ K d) (hne : NonEmpty t) (hs : Stale rt t)
    (hid : t.id = some id) (h : ∀ x ∈ t.tree.items, rt x = id) : Marked rt t := by
  induction t with
  | leaf i b items =>
    cases hid
    exact iff_of_forall hne h
  | node i b l r ihl ihr =>
    cases hid
    refine ⟨iff_of_forall (NonEmpty.items hne) h, ?_, ?_⟩
    · exact ihl hne.1 hs.2.1 (hs.1 rfl).2.1 fun x hx => h x (List.mem_append_left _ hx)
    · exact ihr hne.2 hs.2.2 (hs.1 rfl).2.2 fun x hx => h x (List.mem_append_right _ hx)

theorem markAll_ok (rt : ℕ → ℕ) (id : ℕ) (t : NTree ℕ K d) (hne : NonEmpty t) (hs : Stale rt t)
    (h : ∀ x ∈ t.tree.items, rt x = id) : Marked rt (markAll id t) := by
  induction t with
  | leaf i b items => exact iff_of_forall hne h
  | node i b l r ihl ihr =>
    have hl : ∀ x ∈ l.tree.items, rt x = id := fun x hx => h x (List.mem_append_left _ hx)
    have hr : ∀ x ∈ r.tree.items, rt x = id := fun x hx => h x (List.mem_append_right _ hx)
    by_cases hi : i ≠ some id
    · rw [show markAll id (.node i b l r) = .node (some id) b (markAll id l) (markAll id r) from
        if_pos hi]
      refine ⟨?_, ihl hne.1 hs.2.1 hl, ihr hne.2 hs.2.2 hr⟩
      rw [markAll_tree, markAll_tree]
      exact iff_of_forall (NonEmpty.items hne) h
    · rw [show markAll id (.node i b l r) = .node (some id) b l r from if_neg hi]
      have hi : i = some id := not_not.mp hi
      subst hi
      exact marked_of_id rt id (.node (some id) b l r) hne hs rfl h

theorem Marked.id_iff {rt : ℕ → ℕ} {t : NTree ℕ K d} (h : Marked rt t) (r : ℕ) :
    t.id = some r ↔ ∀ x ∈ t.tree.items, rt x = r := by
  cases t with
  | leaf i b items => exact h r
  | node i b l r' => exact h.1 r

theorem markLeaf_ok {n : ℕ} {rt dep : ℕ → ℕ} (r : ℕ) (xs : List ℕ) (P : List ℤ)
    (hF : Forest P n rt dep) (hx : ∀ x ∈ xs, x < n) :
    ∃ s P', markLeaf r xs P = .ok (s, P') ∧ Forest P' n rt dep ∧ (s = true ↔ ∀ x ∈ xs, rt x = r) := by
  induction xs generalizing P with
  | nil => exact ⟨true, P, rfl, hF, by simp⟩
  | cons x xs ih =>
    obtain ⟨P1, h1, h2⟩ := find_ok P hF x (hx x (by simp))
    unfold markLeaf
    simp only [h1, Except.bind]
    by_cases hr : (r : ℤ) = (rt x : ℤ)
    · rw [if_neg (not_not.mpr hr)]
      obtain ⟨s, P', g1, g2, g3⟩ := ih P1 h2 (fun y hy => hx y (by simp [hy]))
      refine ⟨s, P', g1, g2, ?_⟩
      rw [g3]
      have : rt x = r := by omega
      simp [this]
    · rw [if_pos hr]
      refine ⟨false, P1, rfl, h2, ?_⟩
      have : rt x ≠ r := by omega
      simp [this]

theorem mark_ok {n : ℕ} {rt dep : ℕ → ℕ} (t : NTree ℕ K d) (P : List ℤ) (hF : Forest P n rt dep)
    (hx : ∀ x ∈ t.tree.items, x < n) (hne : NonEmpty t) (hs : Stale rt t) :
    ∃ t' P', mark t P = .ok (t', P') ∧ Forest P' n rt dep ∧ t'.tree = t.tree ∧ Marked rt t' := by
  induction t generalizing P with
  | leaf i b items =>
    cases items with
    | nil => exact absurd rfl hne
    | cons x xs =>
      have hxx : x < n := hx x (by simp [NTree.tree, Tree.items])
      obtain ⟨P1, h1, h2⟩ := find_ok P hF x hxx
      unfold mark
      simp only [h1, Except.bind, Int.toNat_natCast]
      by_cases hi : i.isSome = true
      · rw [if_pos hi]
        refine ⟨_, P1, rfl, h2, markAll_tree _ _, markAll_ok rt _ _ hne hs ?_⟩
        intro y hy
        exact hs hi y hy x (by simp)
      · rw [if_neg hi]
        obtain ⟨s, P', g1, g2, g3⟩ := markLeaf_ok (rt x) xs P1 h2
          (fun y hy => hx y (by simp [NTree.tree, Tree.items, hy]))
        simp only [g1, Except.map]
        refine ⟨_, P', rfl, g2, rfl, ?_⟩
        intro r
        cases s with
        | false =>
          simp only [Bool.false_eq_true, if_false]
          constructor
          · intro h; cases h
          · intro h
            exact absurd (g3.mpr fun y hy => by
              rw [h y (by simp [hy]), h x (by simp)]) (by simp)
        | true =>
          simp only [if_true]
          apply iff_of_forall (by simp)
          intro y hy
          rcases List.mem_cons.mp hy with rfl | hy
          · rfl
          · exact (g3.mp rfl) y hy
  | node i b l r ihl ihr =>
    have hne' : l.tree.items ++ r.tree.items ≠ [] := NonEmpty.items hne
    have hall : ∀ x ∈ l.tree.items ++ r.tree.items, x < n := hx
    unfold mark
    obtain ⟨x, xs, hxs⟩ := List.exists_cons_of_ne_nil hne'
    rw [hxs]
    have hxm : x ∈ l.tree.items ++ r.tree.items := by rw [hxs]; simp
    obtain ⟨P1, h1, h2⟩ := find_ok P hF x (hall x hxm)
    simp only [h1, Except.bind, Int.toNat_natCast]
    by_cases hi : i.isSome = true
    · rw [if_pos hi]
      refine ⟨_, P1, rfl, h2, markAll_tree _ _, markAll_ok rt _ _ hne hs ?_⟩
      intro y hy
      exact (hs.1 hi).1 y hy x hxm
    · rw [if_neg hi]
      obtain ⟨l', P2, g1, g2, g3, g4⟩ := ihl P1 h2 (fun y hy => hall y (List.mem_append_left _ hy)) hne.1
        hs.2.1
      obtain ⟨r', P3, f1, f2, f3, f4⟩ := ihr P2 g2 (fun y hy => hall y (List.mem_append_right _ hy)) hne.2
        hs.2.2
      simp only [g1, f1, Except.map]
      refine ⟨_, P3, rfl, f2, by simp [NTree.tree, g3, f3], ?_, g4, f4⟩
      rw [g3, f3]
      have el := g4.id_iff (rt x)
      have er := f4.id_iff (rt x)
      rw [g3] at el
      rw [f3] at er
      intro c
      by_cases hl : l'.id = some (rt x)
      · rw [if_neg (not_not.mpr hl)]
        by_cases hr : r'.id = some (rt x)
        · rw [if_neg (not_not.mpr hr)]
          apply iff_of_forall hne'
          intro y hy
          rcases List.mem_append.mp hy with hy | hy
          · exact el.mp hl y hy
          · exact er.mp hr y hy
        · rw [if_pos hr]
          constructor
          · intro h; cases h
          · intro h
            exact absurd (er.mpr fun y hy => by
              rw [h y (List.mem_append_right _ hy), h x hxm]) hr
      · rw [if_pos hl]
        constructor
        · intro h; cases h
        · intro h
          exact absurd (el.mpr fun y hy => by
            rw [h y (List.mem_append_left _ hy), h x hxm]) hl

/-- **C46.** Let `P` be a union-find array in which element `x` has representative `rt x`, and let the
nodes of the tree that carry an id be in one component, with the same id below (as left by the
previous round, or without ids). Then `mark` does not read outside its arrays, changes no
representative and no node of the tree except ids, and afterwards every node of the tree has
id `r` exactly if all its items have representative `r`. -/
theorem c46_mark {n : ℕ} {rt dep : ℕ → ℕ} (t : NTree ℕ K d) (P : List ℤ) (hF : Forest P n rt dep)
    (hx : ∀ x ∈ t.tree.items, x < n) (hne : NonEmpty t) (hs : Stale rt t) :
    ∃ t' P', mark t P = .ok (t', P') ∧ Forest P' n rt dep ∧ t'.tree = t.tree ∧ Marked rt t' :=
  mark_ok t P hF hx hne hs

/-- **C46**, the hypothesis of the next round: after `mark` the tree is ready for another `mark` once
more components have been joined. -/
theorem c46_ready {rt rt' : ℕ → ℕ} (hjoin : ∀ a b, rt a = rt b → rt' a = rt' b) (t : NTree ℕ K d)
    (h : Marked rt t) : Stale rt' t := by
  induction t with
  | leaf i b items =>
    intro hi x hx y hy
    obtain ⟨r, rfl⟩ := Option.isSome_iff_exists.mp hi
    exact hjoin _ _ (((h r).mp rfl x hx).trans ((h r).mp rfl y hy).symm)
  | node i b l r ihl ihr =>
    refine ⟨?_, ihl h.2.1, ihr h.2.2⟩
    intro hi
    obtain ⟨c, rfl⟩ := Option.isSome_iff_exists.mp hi
    have hc := (h.1 c).mp rfl
    refine ⟨fun x hx y hy => hjoin _ _ ((hc x hx).trans (hc y hy).symm), ?_, ?_⟩
    · exact (h.2.1.id_iff c).mpr fun x hx => hc x (List.mem_append_left _ hx)
    · exact (h.2.2.id_iff c).mpr fun x hx => hc x (List.mem_append_right _ hx)

/-- A fresh tree is ready for `mark`. -/
theorem c46_fresh (rt : ℕ → ℕ) (t : Tree ℕ K d) : Stale rt (NTree.ofTree t) := by
  induction t with
  | leaf b items => intro h; simp at h
  | node b l r ihl ihr => exact ⟨fun h => by simp at h, ihl, ihr⟩

theorem ofTree_tree (t : Tree ℕ K d) : (NTree.ofTree t).tree = t := by
  induction t with
  | leaf b items => rfl
  | node b l r ihl ihr => simp [NTree.ofTree, NTree.tree, ihl, ihr]

/-- Non-vacuity of C46: a tree over four elements, three of them joined, marked twice with one more
join in between. -/
def exTree : NTree ℕ ℚ 1 :=
  .node none ⟨fun _ => 0, fun _ => 3⟩
    (.node none ⟨fun _ => 0, fun _ => 1⟩ (.leaf none ⟨fun _ => 0, fun _ => 0⟩ [0])
      (.leaf none ⟨fun _ => 1, fun _ => 1⟩ [1]))
    (.leaf none ⟨fun _ => 2, fun _ => 3⟩ [2, 3])

example : Forest [1, -1, 1, -1] 4 (fun i => if i ≤ 2 then 1 else i) (fun i => if i = 1 then 0 else 1) ∧
    (∀ x ∈ exTree.tree.items, x < 4) ∧ NonEmpty exTree ∧
    Stale (fun i => if i ≤ 2 then 1 else i) exTree ∧
    ∃ t1 P1, mark exTree [1, -1, 1, -1] = .ok (t1, P1) ∧
      (match t1 with
        | .node i _ l r => i = none ∧ l.id = some 1 ∧ r.id = none
        | _ => False) ∧
      ∃ t2 P2, mark t1 [1, 3, 1, -1] = .ok (t2, P2) ∧
      (match t2 with
        | .node i _ l r => i = some 3 ∧ l.id = some 3 ∧ r.id = some 3
        | _ => False) := by
  refine ⟨⟨rfl, ?_, ?_⟩, by decide, ?_, c46_fresh _ (exTree.tree),
    _, _, rfl, by simp [NTree.id], _, _, rfl, by decide⟩
  · intro i hi
    exact if_neg (by omega)
  · intro i hi
    interval_cases i
    · exact Or.inr ⟨1, by decide⟩
    · exact Or.inl (by decide)
    · exact Or.inr ⟨1, by decide⟩
    · exact Or.inl (by decide)
  · simp [NonEmpty, exTree]

end Verif.Emst
