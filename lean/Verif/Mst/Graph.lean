import Mathlib.Logic.Relation
import Mathlib.Data.Set.Basic
import Mathlib.Tactic.Linarith

set_option linter.unusedSectionVars false
set_option linter.unusedVariables false

/-!
Specification of connectivity by a set of edges and of the greedy forest, with graph lemmas.
Edges are numbered; edge `i` joins `u i` and `v i`.
-/

namespace Verif.Mst

/-- Two vertices are connected by the edges in `A`. -/
def ConnS {V : Type*} (u v : ℕ → V) (A : Set ℕ) : V → V → Prop :=
  Relation.EqvGen fun a b => ∃ i ∈ A, a = u i ∧ b = v i

variable {V : Type*} {u v : ℕ → V} {A B : Set ℕ} {a b c : V}

theorem ConnS.refl (a : V) : ConnS u v A a a := Relation.EqvGen.refl a
theorem ConnS.symm (h : ConnS u v A a b) : ConnS u v A b a := Relation.EqvGen.symm _ _ h
theorem ConnS.trans (h : ConnS u v A a b) (h' : ConnS u v A b c) : ConnS u v A a c :=
  Relation.EqvGen.trans _ _ _ h h'
theorem ConnS.edge {i : ℕ} (h : i ∈ A) : ConnS u v A (u i) (v i) :=
  Relation.EqvGen.rel _ _ ⟨i, h, rfl, rfl⟩

/-- Any equivalence that joins the ends of all edges of `A` joins everything connected by `A`. -/
theorem ConnS.lift {r : V → V → Prop} (hr : Equivalence r) (h : ∀ i ∈ A, r (u i) (v i))
    (hc : ConnS u v A a b) : r a b := by
  unfold ConnS at hc
  induction hc with
  | rel x y h1 => obtain ⟨i, hi, rfl, rfl⟩ := h1; exact h i hi
  | refl x => exact hr.refl x
  | symm x y _ ih => exact hr.symm ih
  | trans x y z _ _ ih1 ih2 => exact hr.trans ih1 ih2

theorem connS_equiv (u v : ℕ → V) (A : Set ℕ) : Equivalence (ConnS u v A) :=
  ⟨fun _ => .refl _, fun h => h.symm, fun h h' => h.trans h'⟩

theorem ConnS.of_sub (h : ∀ i ∈ A, ConnS u v B (u i) (v i)) (hc : ConnS u v A a b) :
    ConnS u v B a b := hc.lift (connS_equiv u v B) h

theorem ConnS.mono (h : A ⊆ B) (hc : ConnS u v A a b) : ConnS u v B a b :=
  hc.of_sub fun i hi => .edge (h hi)

/-- If a connection leaves a set of vertices, some edge leaves it. -/
theorem ConnS.exists_leaving {X : Set V} (hc : ConnS u v A a b) (ha : a ∈ X) (hb : b ∉ X) :
    ∃ i ∈ A, (u i ∈ X ∧ v i ∉ X) ∨ (u i ∉ X ∧ v i ∈ X) := by
  by_contra hno
  have : (a ∈ X) = (b ∈ X) := by
    refine hc.lift (r := fun x y => (x ∈ X) = (y ∈ X)) ⟨fun _ => rfl, fun h => h.symm, fun h h' => h.trans h'⟩ ?_
    intro i hi
    by_contra hne
    apply hno
    refine ⟨i, hi, ?_⟩
    by_cases h1 : u i ∈ X <;> by_cases h2 : v i ∈ X <;> simp [h1, h2] at hne ⊢
  rw [this] at ha
  exact hb ha

/-- Connectivity after adding one edge. -/
theorem connS_insert (k : ℕ) : ConnS u v (insert k A) a b ↔ ConnS u v A a b ∨
    (ConnS u v A a (u k) ∧ ConnS u v A (v k) b) ∨ (ConnS u v A a (v k) ∧ ConnS u v A (u k) b) := by
  constructor
  · intro h
    refine h.lift (r := fun a b => ConnS u v A a b ∨
      (ConnS u v A a (u k) ∧ ConnS u v A (v k) b) ∨ (ConnS u v A a (v k) ∧ ConnS u v A (u k) b))
      ⟨fun a => Or.inl (.refl a), ?_, ?_⟩ ?_
    · rintro a b (h | ⟨h1, h2⟩ | ⟨h1, h2⟩)
      · exact Or.inl h.symm
      · exact Or.inr (Or.inr ⟨h2.symm, h1.symm⟩)
      · exact Or.inr (Or.inl ⟨h2.symm, h1.symm⟩)
    · rintro a b c (h | ⟨h1, h2⟩ | ⟨h1, h2⟩) (h' | ⟨h1', h2'⟩ | ⟨h1', h2'⟩)
      · exact Or.inl (h.trans h')
      · exact Or.inr (Or.inl ⟨h.trans h1', h2'⟩)
      · exact Or.inr (Or.inr ⟨h.trans h1', h2'⟩)
      · exact Or.inr (Or.inl ⟨h1, h2.trans h'⟩)
      · exact Or.inr (Or.inl ⟨h1, h2'⟩)
      · exact Or.inl (h1.trans h2')
      · exact Or.inr (Or.inr ⟨h1, h2.trans h'⟩)
      · exact Or.inl (h1.trans h2')
      · exact Or.inr (Or.inr ⟨h1, h2'⟩)
    · rintro i (rfl | hi)
      · exact Or.inr (Or.inl ⟨.refl _, .refl _⟩)
      · exact Or.inl (.edge hi)
  · have hm : ∀ {x y}, ConnS u v A x y → ConnS u v (insert k A) x y :=
      fun h => h.mono (Set.subset_insert k A)
    have hk : ConnS u v (insert k A) (u k) (v k) := .edge (Set.mem_insert k A)
    rintro (h | ⟨h1, h2⟩ | ⟨h1, h2⟩)
    · exact hm h
    · exact ((hm h1).trans hk).trans (hm h2)
    · exact ((hm h1).trans hk.symm).trans (hm h2)

/-- The greedy forest: edges whose ends are not connected by the edges before them. -/
def greedy (u v : ℕ → V) : Set ℕ := {i | ¬ ConnS u v {j | j < i} (u i) (v i)}

theorem setOf_lt_succ (k : ℕ) : {j : ℕ | j < k + 1} = insert k {j | j < k} := by
  ext j; simp; omega

/-- The greedy edges among the first `k` connect what the first `k` edges connect. -/
theorem greedy_spans (k : ℕ) {i : ℕ} (hi : i < k) :
    ConnS u v {j | j < k ∧ j ∈ greedy u v} (u i) (v i) := by
  induction k generalizing i with
  | zero => omega
  | succ k ih =>
    have hm : {j | j < k ∧ j ∈ greedy u v} ⊆ {j | j < k + 1 ∧ j ∈ greedy u v} :=
      fun j hj => ⟨by have := hj.1; omega, hj.2⟩
    by_cases hik : i < k
    · exact (ih hik).mono hm
    · have : i = k := by omega
      subst this
      by_cases hg : i ∈ greedy u v
      · exact .edge ⟨by omega, hg⟩
      · have : ConnS u v {j | j < i} (u i) (v i) := by
          by_contra h
          exact hg h
        exact (this.of_sub fun j hj => ih hj).mono hm

theorem greedy_conn_iff (k : ℕ) :
    ConnS u v {j | j < k ∧ j ∈ greedy u v} a b ↔ ConnS u v {j | j < k} a b :=
  ⟨fun h => h.mono fun j hj => hj.1, fun h => h.of_sub fun j hj => greedy_spans k hj⟩

/-- A set of edges is a forest: every edge is a bridge. -/
def Acyclic (u v : ℕ → V) (A : Set ℕ) : Prop := ∀ i ∈ A, ¬ ConnS u v (A \ {i}) (u i) (v i)

theorem Acyclic.mono (h : Acyclic u v B) (hs : A ⊆ B) : Acyclic u v A := by
  intro i hi hc
  exact h i (hs hi) (hc.mono (Set.sdiff_subset_sdiff_left hs))

theorem Acyclic.add {k : ℕ} (h : Acyclic u v A) (hk : ¬ ConnS u v A (u k) (v k)) :
    Acyclic u v (insert k A) := by
  have hkA : k ∉ A := fun h' => hk (.edge h')
  rintro i (rfl | hi) hc
  · apply hk
    refine hc.mono ?_
    rintro j ⟨rfl | hj, hne⟩
    · exact absurd rfl hne
    · exact hj
  · have hne : k ≠ i := by rintro rfl; exact hkA hi
    have hset : insert k A \ {i} = insert k (A \ {i}) := by
      ext j
      simp only [Set.mem_sdiff, Set.mem_insert_iff, Set.mem_singleton_iff]
      constructor
      · rintro ⟨rfl | h1, h2⟩
        · exact Or.inl rfl
        · exact Or.inr ⟨h1, h2⟩
      · rintro (rfl | ⟨h1, h2⟩)
        · exact ⟨Or.inl rfl, hne⟩
        · exact ⟨Or.inr h1, h2⟩
    rw [hset, connS_insert] at hc
    have hm : ∀ {x y}, ConnS u v (A \ {i}) x y → ConnS u v A x y :=
      fun h => h.mono Set.sdiff_subset
    have hiA : ConnS u v A (u i) (v i) := .edge hi
    rcases hc with hc | ⟨h1, h2⟩ | ⟨h1, h2⟩
    · exact h i hi hc
    · exact hk (((hm h1).symm.trans hiA).trans (hm h2).symm)
    · exact hk (((hm h2).trans hiA.symm).trans (hm h1))

theorem greedy_prefix_acyclic (k : ℕ) : Acyclic u v {j | j < k ∧ j ∈ greedy u v} := by
  induction k with
  | zero => intro i hi; exact absurd hi.1 (by omega)
  | succ k ih =>
    by_cases hg : k ∈ greedy u v
    · have : {j | j < k + 1 ∧ j ∈ greedy u v} = insert k {j | j < k ∧ j ∈ greedy u v} := by
        ext j
        simp only [Set.mem_ofPred_eq, Set.mem_insert_iff]
        constructor
        · rintro ⟨h1, h2⟩
          by_cases h3 : j = k
          · exact Or.inl h3
          · exact Or.inr ⟨by omega, h2⟩
        · rintro (rfl | ⟨h1, h2⟩)
          · exact ⟨by omega, hg⟩
          · exact ⟨by omega, h2⟩
      rw [this]
      refine ih.add ?_
      rw [greedy_conn_iff]
      exact hg
    · refine ih.mono ?_
      rintro j ⟨h1, h2⟩
      refine ⟨?_, h2⟩
      have : j ≠ k := by rintro rfl; exact hg h2
      omega

/-- The two facts on which parallel Kruskal rests. First: an edge whose ends are connected by other
greedy edges is not greedy. -/
theorem not_greedy_of_conn {T : Set ℕ} {m i : ℕ} (hT : T ⊆ {j | j < m ∧ j ∈ greedy u v}) (hi : i ∉ T)
    (hm : i < m) (hc : ConnS u v T (u i) (v i)) : i ∉ greedy u v := by
  intro hg
  apply greedy_prefix_acyclic m i ⟨hm, hg⟩
  refine hc.mono ?_
  intro j hj
  exact ⟨hT hj, by rintro rfl; exact hi hj⟩

/-- Second: if every greedy edge below `i` that leaves the vertex set `X` is absent, then `i` is
greedy as soon as it leaves `X`. -/
theorem greedy_of_leaving {X : Set V} {i : ℕ}
    (hX : ∀ j < i, j ∈ greedy u v → (u j ∈ X ↔ v j ∈ X)) (hi : ¬ (u i ∈ X ↔ v i ∈ X)) :
    i ∈ greedy u v := by
  intro hc
  rw [← greedy_conn_iff] at hc
  by_cases h1 : u i ∈ X
  · have h2 : v i ∉ X := fun h2 => hi ⟨fun _ => h2, fun _ => h1⟩
    obtain ⟨j, hj, h3⟩ := hc.exists_leaving h1 h2
    have := hX j hj.1 hj.2
    tauto
  · have h2 : v i ∈ X := by by_contra h2; exact hi ⟨fun h => absurd h h1, fun h => absurd h h2⟩
    obtain ⟨j, hj, h3⟩ := hc.symm.exists_leaving h2 h1
    have := hX j hj.1 hj.2
    tauto

end Verif.Mst
