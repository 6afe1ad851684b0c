import Verif.Mst.KruskalMain

set_option linter.unusedSectionVars false
set_option linter.unusedVariables false

/-!
Property theorems C14 (parallel Kruskal equals the sequential scan) and C15 (minimum spanning forest).
-/

namespace Verif.Mst

section

variable {K : Type} [LinearOrder K]

/-- Specification of C14: the sequential scan. `c` labels the vertices with their components. -/
def seqKruskal : List (WEdge K × ℕ) → (ℕ → ℕ) → List ℕ
  | [], _ => []
  | e :: es, c =>
    if c e.1.u = c e.1.v then seqKruskal es c
    else e.2 :: seqKruskal es fun x => if c x = c e.1.u then c e.1.v else c x

/-- Specification of C14: `L` lists the edges of `E` with their indices by weight, then index. -/
structure ByWeight (E : List (WEdge K)) (L : List (WEdge K × ℕ)) : Prop where
  perm : L.Perm E.zipIdx
  sorted : L.Pairwise fun a b => a.1.w < b.1.w ∨ (a.1.w = b.1.w ∧ a.2 < b.2)

theorem byWeight_eq {E : List (WEdge K)} {L : List (WEdge K × ℕ)} (h : ByWeight E L) :
    L = sortEdges E := by
  have hnd : ∀ a b, a ∈ L → b ∈ sortEdges E → edgeLe a b = true → edgeLe b a = true → a = b := by
    intro a b ha hb h1 h2
    rw [edgeLe_iff] at h1 h2
    have hid : a.2 = b.2 := by
      rcases h1 with h1 | ⟨h1, h1'⟩ <;> rcases h2 with h2 | ⟨h2, h2'⟩
      · exact absurd (h1.trans h2) (lt_irrefl _)
      · exact absurd h1 (by rw [h2]; exact lt_irrefl _)
      · exact absurd h2 (by rw [h1]; exact lt_irrefl _)
      · omega
    have h3 := List.mem_zipIdx_iff_getElem?.mp (h.perm.mem_iff.mp ha)
    have h4 := List.mem_zipIdx_iff_getElem?.mp ((sortEdges_perm E).mem_iff.mp hb)
    rw [hid, h4] at h3
    simp only [Option.some.injEq] at h3
    exact Prod.ext h3.symm hid
  refine List.Perm.eq_of_pairwise (le := fun a b => edgeLe a b = true) hnd ?_ (sortEdges_sorted E)
    (h.perm.trans (sortEdges_perm E).symm)
  exact h.sorted.imp fun {a b} hab => by
    rw [edgeLe_iff]
    rcases hab with h | ⟨h, h'⟩
    · exact Or.inl h
    · exact Or.inr ⟨h, h'.le⟩

theorem connS_congr {V : Type*} {u v u' v' : ℕ → V} {A : Set ℕ} {a b : V}
    (h : ∀ i ∈ A, u i = u' i ∧ v i = v' i) : ConnS u v A a b ↔ ConnS u' v' A a b := by
  constructor
  · intro hc
    refine hc.lift (connS_equiv u' v' A) fun i hi => ?_
    rw [(h i hi).1, (h i hi).2]
    exact .edge hi
  · intro hc
    refine hc.lift (connS_equiv u v A) fun i hi => ?_
    rw [← (h i hi).1, ← (h i hi).2]
    exact .edge hi

theorem seqKruskal_memR (L pre rest : List (WEdge K × ℕ)) (hL : L = pre ++ rest) (c r0 u v : ℕ → ℕ)
    (hu : ∀ i e, L[i]? = some e → u i = r0 e.1.u) (hv : ∀ i e, L[i]? = some e → v i = r0 e.1.v)
    (hc : ∀ a b, c a = c b ↔ ConnS u v {j | j < pre.length} (r0 a) (r0 b)) (id : ℕ) :
    id ∈ seqKruskal rest c ↔ ∃ i, pre.length ≤ i ∧ (L.map (·.2))[i]? = some id ∧ i ∈ greedy u v := by
  induction rest generalizing pre c with
  | nil =>
    simp only [seqKruskal, List.not_mem_nil, false_iff, not_exists, not_and]
    intro i hi h1
    have := (List.getElem?_eq_some_iff.mp h1).1
    rw [hL] at this
    simp at this
    omega
  | cons e es ih =>
    have hLe : L[pre.length]? = some e := by rw [hL]; simp
    have hU : u pre.length = r0 e.1.u := hu _ _ hLe
    have hV : v pre.length = r0 e.1.v := hv _ _ hLe
    have hid : (L.map (·.2))[pre.length]? = some e.2 := by simp [hLe]
    have hL' : L = (pre ++ [e]) ++ es := by simp [hL]
    have hlen : (pre ++ [e]).length = pre.length + 1 := by simp
    have hset : {j | j < (pre ++ [e]).length} = insert pre.length {j | j < pre.length} := by
      rw [hlen]; exact setOf_lt_succ _
    have hsplit : ∀ p : ℕ → Prop, (∃ i, pre.length ≤ i ∧ (L.map (·.2))[i]? = some id ∧ p i) ↔
        ((e.2 = id ∧ p pre.length) ∨
          ∃ i, (pre ++ [e]).length ≤ i ∧ (L.map (·.2))[i]? = some id ∧ p i) := by
      intro p
      rw [hlen]
      constructor
      · rintro ⟨i, h1, h2, h3⟩
        rcases Nat.eq_or_lt_of_le h1 with rfl | h1
        · left
          rw [hid] at h2
          exact ⟨Option.some.inj h2, h3⟩
        · exact Or.inr ⟨i, h1, h2, h3⟩
      · rintro (⟨h1, h2⟩ | ⟨i, h1, h2, h3⟩)
        · exact ⟨pre.length, le_refl _, by rw [hid, h1], h2⟩
        · exact ⟨i, by omega, h2, h3⟩
    rw [hsplit]
    have hgr : pre.length ∈ greedy u v ↔ c e.1.u ≠ c e.1.v := by
      rw [Ne, hc]
      simp only [greedy, Set.mem_ofPred_eq, hU, hV]
    rw [seqKruskal]
    by_cases hcc : c e.1.u = c e.1.v
    · rw [if_pos hcc, ih (pre ++ [e]) hL' c ?_]
      · constructor
        · exact Or.inr
        · rintro (⟨_, h⟩ | h)
          · exact absurd hcc (hgr.mp h)
          · exact h
      · intro a b
        rw [hset, connS_insert, hU, hV, ← hc, ← hc, ← hc, ← hc, ← hc, hcc]
        constructor
        · exact Or.inl
        · rintro (h | ⟨h1, h2⟩ | ⟨h1, h2⟩)
          · exact h
          · exact h1.trans h2
          · exact h1.trans h2
    · rw [if_neg hcc, List.mem_cons, ih (pre ++ [e]) hL' _ ?_]
      · constructor
        · rintro (rfl | h)
          · exact Or.inl ⟨rfl, hgr.mpr hcc⟩
          · exact Or.inr h
        · rintro (⟨h, _⟩ | h)
          · exact Or.inl h.symm
          · exact Or.inr h
      · intro a b
        rw [hset, connS_insert, hU, hV, ← hc, ← hc, ← hc, ← hc, ← hc]
        split_ifs with h1 h2 h2
        · simp [h1, h2]
        · constructor
          · intro h; exact Or.inr (Or.inl ⟨h1, h⟩)
          · rintro (h | ⟨_, h⟩ | ⟨h, _⟩)
            · exact absurd (h.symm.trans h1) h2
            · exact h
            · exact absurd (h1.symm.trans h) hcc
        · constructor
          · intro h; exact Or.inr (Or.inr ⟨h, h2.symm⟩)
          · rintro (h | ⟨h, _⟩ | ⟨h, _⟩)
            · exact absurd (h.trans h2) h1
            · exact absurd h h1
            · exact h
        · constructor
          · exact Or.inl
          · rintro (h | ⟨h, _⟩ | ⟨h, h'⟩)
            · exact h
            · exact absurd h h1
            · exact absurd h'.symm h2

theorem seqKruskal_mem (L pre rest : List (WEdge K × ℕ)) (hL : L = pre ++ rest) (c : ℕ → ℕ)
    (hc : ∀ a b, c a = c b ↔ ConnS (posU L) (posV L) {j | j < pre.length} a b) (id : ℕ) :
    id ∈ seqKruskal rest c ↔ ∃ i, pre.length ≤ i ∧ (L.map (·.2))[i]? = some id ∧
      i ∈ greedy (posU L) (posV L) :=
  seqKruskal_memR L pre rest hL c (fun x => x) (posU L) (posV L) (fun i e h => by simp [posU, h])
    (fun i e h => by simp [posV, h]) hc id

/-- **C14.** Kruskal's loop run through `speculative_for` with reservations, whatever the granularity,
the choice of round sizes and the order of the reserve and commit steps inside every round, returns in
increasing order exactly the indices that the sequential scan of the edges by weight selects. It never
indexes outside its arrays. The only other outcome is the exception of `speculative_for`
for too many rounds, which is impossible for up to `101 + 200 * granularity` edges. -/
theorem c14_kruskal (env : Env) (henv : env.Ok) (g : ℕ) (hg : 1 ≤ g) (E : List (WEdge K)) (n : ℕ)
    (hE : ∀ e ∈ E, e.u < n ∧ e.v < n) (L : List (WEdge K × ℕ)) (hL : ByWeight E L) :
    (kruskalG env g E n = .error .throws ∧ 101 + 200 * g < E.length) ∨
      ∃ out, kruskalG env g E n = .ok out ∧ out.Pairwise (· < ·) ∧
        ∀ id, id ∈ out ↔ id ∈ seqKruskal L (fun x => x) := by
  rw [byWeight_eq hL]
  rcases kruskalG_spec env henv g E n hE with h | ⟨out, h1, h2, h3⟩
  · exact Or.inl h
  · refine Or.inr ⟨out, h1, h2, fun id => ?_⟩
    rw [h3, seqKruskal_mem (sortEdges E) [] (sortEdges E) rfl]
    · simp
    · intro a b
      have : {j : ℕ | j < ([] : List (WEdge K × ℕ)).length} = ∅ := by ext; simp
      rw [this, connS_empty]

/-- **C14**, determinism: two runs with different schedules and granularities that both finish return
the same list. -/
theorem c14_deterministic (env env' : Env) (henv : env.Ok) (henv' : env'.Ok) (g g' : ℕ) (hg : 1 ≤ g)
    (hg' : 1 ≤ g') (E : List (WEdge K)) (n : ℕ) (hE : ∀ e ∈ E, e.u < n ∧ e.v < n)
    (out out' : List ℕ) (h : kruskalG env g E n = .ok out) (h' : kruskalG env' g' E n = .ok out') :
    out = out' := by
  rcases kruskalG_spec env henv g E n hE with ⟨h1, _⟩ | ⟨o, h1, h2, h3⟩
  · rw [h1] at h; simp at h
  rcases kruskalG_spec env' henv' g' E n hE with ⟨h1', _⟩ | ⟨o', h1', h2', h3'⟩
  · rw [h1'] at h'; simp at h'
  rw [h] at h1
  rw [h'] at h1'
  simp only [Except.ok.injEq] at h1 h1'
  subst h1 h1'
  refine List.Perm.eq_of_pairwise (le := fun a b => a < b) ?_ h2 h2' ?_
  · intro a b _ _ hab hba; omega
  · rw [List.perm_ext_iff_of_nodup (h2.imp (by intro a b; omega)) (h2'.imp (by intro a b; omega))]
    intro id
    rw [h3, h3']

/-- A schedule that reverses both loops and always grows the rounds. -/
def revEnv : Env where
  ordR := fun _ l => l.reverse
  ordC := fun _ l => l.reverse
  adj := fun _ _ _ => .grow

theorem revEnv_ok : revEnv.Ok :=
  ⟨fun _ l => List.reverse_perm l, fun _ l => List.reverse_perm l⟩

/-- A 4-cycle with a tie and a chord. -/
def exEdges : List (WEdge ℕ) :=
  [⟨0, 1, 5⟩, ⟨1, 2, 3⟩, ⟨2, 3, 3⟩, ⟨3, 0, 3⟩, ⟨1, 3, 4⟩]

/-- The hypotheses of C14 are met, and the run finishes with edges 1, 2, 3. -/
example : revEnv.Ok ∧ (∀ e ∈ exEdges, e.u < 4 ∧ e.v < 4) ∧ ByWeight exEdges (sortEdges exEdges) ∧
    seqKruskal (sortEdges exEdges) (fun x => x) = [1, 2, 3] ∧
    kruskal revEnv exEdges 4 = .ok [1, 2, 3] := by
  refine ⟨revEnv_ok, by decide, ⟨sortEdges_perm _, by decide +kernel⟩, by decide +kernel, by decide +kernel⟩

end

/-! ### C15 -/

section

variable {K : Type} [AddCommGroup K] [LinearOrder K] [IsOrderedAddMonoid K]

/-- End points and weight of edge number `id` of the input. -/
def inU (E : List (WEdge K)) (id : ℕ) : ℕ := ((E[id]?).map (·.u)).getD 0
/-- End points and weight of edge number `id` of the input. -/
def inV (E : List (WEdge K)) (id : ℕ) : ℕ := ((E[id]?).map (·.v)).getD 0
/-- End points and weight of edge number `id` of the input. -/
def inW (E : List (WEdge K)) (id : ℕ) : K := ((E[id]?).map (·.w)).getD 0

/-- Vertices connected by the input edges whose numbers are in `A`. -/
def ConnE (E : List (WEdge K)) (A : Finset ℕ) : ℕ → ℕ → Prop :=
  Relation.EqvGen fun a b => ∃ id ∈ A, ∃ e : WEdge K, E[id]? = some e ∧ a = e.u ∧ b = e.v

/-- A spanning forest of the input: existing edges, no edge of which is redundant, that connect what
all input edges connect. -/
structure SpanningForest (E : List (WEdge K)) (A : Finset ℕ) : Prop where
  edges : ∀ id ∈ A, id < E.length
  acyclic : ∀ id ∈ A, ∀ e : WEdge K, E[id]? = some e → ¬ ConnE E (A.erase id) e.u e.v
  spans : ∀ (id : ℕ) (e : WEdge K), E[id]? = some e → ConnE E A e.u e.v

theorem connE_iff (E : List (WEdge K)) (A : Finset ℕ) (hA : ∀ id ∈ A, id < E.length) (a b : ℕ) :
    ConnE E A a b ↔ ConnS (inU E) (inV E) A a b := by
  have : (fun a b => ∃ id ∈ A, ∃ e : WEdge K, E[id]? = some e ∧ a = e.u ∧ b = e.v) =
      fun a b => ∃ i ∈ (A : Set ℕ), a = inU E i ∧ b = inV E i := by
    funext a b
    apply propext
    constructor
    · rintro ⟨id, h1, e, h2, rfl, rfl⟩
      exact ⟨id, h1, by simp [inU, h2], by simp [inV, h2]⟩
    · rintro ⟨id, h1, rfl, rfl⟩
      have h2 := List.getElem?_eq_getElem (hA id h1)
      exact ⟨id, h1, _, h2, by simp [inU, h2], by simp [inV, h2]⟩
  unfold ConnE ConnS
  rw [this]

/-- Renaming edges. -/
theorem connS_image {V : Type*} {u v u' v' : ℕ → V} (σ : ℕ → ℕ) (A : Set ℕ)
    (h : ∀ i ∈ A, u i = u' (σ i) ∧ v i = v' (σ i)) (a b : V) :
    ConnS u v A a b ↔ ConnS u' v' (σ '' A) a b := by
  constructor
  · intro hc
    refine hc.lift (connS_equiv u' v' _) fun i hi => ?_
    rw [(h i hi).1, (h i hi).2]
    exact .edge ⟨i, hi, rfl⟩
  · intro hc
    refine hc.lift (connS_equiv u v _) ?_
    rintro _ ⟨i, hi, rfl⟩
    rw [← (h i hi).1, ← (h i hi).2]
    exact .edge hi

/-- The number of the edge at a position of the sorted list. -/
def sigma (E : List (WEdge K)) (i : ℕ) : ℕ := (((sortEdges E)[i]?).map (·.2)).getD 0

theorem sigma_spec (E : List (WEdge K)) (i : ℕ) (hi : i < E.length) :
    sigma E i < E.length ∧ ((sortEdges E).map (·.2))[i]? = some (sigma E i) ∧
      posU (sortEdges E) i = inU E (sigma E i) ∧ posV (sortEdges E) i = inV E (sigma E i) ∧
      ∃ e, (sortEdges E)[i]? = some e ∧ e.1.w = inW E (sigma E i) := by
  have hl : i < (sortEdges E).length := by rw [sortEdges_length]; exact hi
  have h1 := List.getElem?_eq_getElem hl
  generalize (sortEdges E)[i] = e at h1
  have h2 : e ∈ E.zipIdx := (sortEdges_perm E).mem_iff.mp (List.mem_of_getElem? h1)
  have h3 := List.mem_zipIdx_iff_getElem?.mp h2
  have hs : sigma E i = e.2 := by simp [sigma, h1]
  refine ⟨?_, by simp [h1, hs], ?_, ?_, e, h1, ?_⟩
  · rw [hs]
    exact (List.getElem?_eq_some_iff.mp h3).1
  · simp [posU, inU, h1, hs, h3]
  · simp [posV, inV, h1, hs, h3]
  · simp [inW, hs, h3]

theorem sigma_inj (E : List (WEdge K)) {i j : ℕ} (hi : i < E.length) (hj : j < E.length)
    (h : sigma E i = sigma E j) : i = j := by
  have hnd := (sortEdges_ids_perm E).nodup_iff.mpr List.nodup_range
  have h1 := (sigma_spec E i hi).2.1
  have h2 := (sigma_spec E j hj).2.1
  rw [h] at h1
  exact (List.getElem?_inj (List.getElem?_eq_some_iff.mp h1).1 hnd).mp (h1.trans h2.symm)

theorem sigma_surj (E : List (WEdge K)) {id : ℕ} (h : id < E.length) :
    ∃ i < E.length, sigma E i = id := by
  have : id ∈ (sortEdges E).map (·.2) :=
    (sortEdges_ids_perm E).mem_iff.mpr (List.mem_range.mpr h)
  obtain ⟨i, hi⟩ := List.getElem?_of_mem this
  have hil : i < E.length := by
    have := (List.getElem?_eq_some_iff.mp hi).1
    simpa [sortEdges_length] using this
  refine ⟨i, hil, ?_⟩
  have := (sigma_spec E i hil).2.1
  rw [hi] at this
  exact (Option.some.inj this).symm

theorem sigma_mono (E : List (WEdge K)) {i j : ℕ} (hij : i ≤ j) (hj : j < E.length) :
    inW E (sigma E i) ≤ inW E (sigma E j) := by
  obtain ⟨_, _, _, _, e, h1, h2⟩ := sigma_spec E i (by omega)
  obtain ⟨_, _, _, _, e', h1', h2'⟩ := sigma_spec E j hj
  rw [← h2, ← h2']
  rcases Nat.eq_or_lt_of_le hij with rfl | hlt
  · rw [h1] at h1'
    rw [Option.some.inj h1']
  · obtain ⟨g1, g2⟩ := List.getElem?_eq_some_iff.mp h1
    obtain ⟨g1', g2'⟩ := List.getElem?_eq_some_iff.mp h1'
    have := List.pairwise_iff_getElem.mp (sortEdges_sorted E) i j g1 g1' hlt
    rw [g2, g2', edgeLe_iff] at this
    rcases this with h | h
    · exact h.le
    · exact h.1.le

/-- Preimage of a set of edge numbers under the sorting permutation. -/
theorem exists_pre (E : List (WEdge K)) (A : Finset ℕ) (hA : ∀ id ∈ A, id < E.length) :
    ∃ B : Finset ℕ, (∀ i ∈ B, i < E.length) ∧ B.image (sigma E) = A := by
  refine ⟨(Finset.range E.length).filter fun i => sigma E i ∈ A, by simp; tauto, ?_⟩
  ext id
  simp only [Finset.mem_image, Finset.mem_filter, Finset.mem_range]
  constructor
  · rintro ⟨i, ⟨_, h⟩, rfl⟩; exact h
  · intro h
    obtain ⟨i, h1, rfl⟩ := sigma_surj E (hA id h)
    exact ⟨i, ⟨h1, h⟩, rfl⟩

theorem conn_image (E : List (WEdge K)) (B : Finset ℕ) (hB : ∀ i ∈ B, i < E.length) (a b : ℕ) :
    ConnE E (B.image (sigma E)) a b ↔ ConnS (posU (sortEdges E)) (posV (sortEdges E)) B a b := by
  rw [connE_iff]
  · rw [Finset.coe_image]
    refine (connS_image (sigma E) _ ?_ a b).symm
    intro i hi
    obtain ⟨_, _, h1, h2, _⟩ := sigma_spec E i (hB i hi)
    exact ⟨h1, h2⟩
  · intro id hid
    obtain ⟨i, hi, rfl⟩ := Finset.mem_image.mp hid
    exact (sigma_spec E i (hB i hi)).1

theorem forest_pre (E : List (WEdge K)) (B : Finset ℕ) (hB : ∀ i ∈ B, i < E.length) :
    SpanningForest E (B.image (sigma E)) ↔
      Acyclic (posU (sortEdges E)) (posV (sortEdges E)) B ∧
      ∀ i < E.length, ConnS (posU (sortEdges E)) (posV (sortEdges E)) B (posU (sortEdges E) i)
        (posV (sortEdges E) i) := by
  have her : ∀ i ∈ B, (B.image (sigma E)).erase (sigma E i) = (B.erase i).image (sigma E) := by
    intro i hi
    ext id
    simp only [Finset.mem_erase, Finset.mem_image]
    constructor
    · rintro ⟨h1, j, h2, rfl⟩
      exact ⟨j, ⟨by rintro rfl; exact h1 rfl, h2⟩, rfl⟩
    · rintro ⟨j, ⟨h1, h2⟩, rfl⟩
      exact ⟨fun h => h1 (sigma_inj E (hB j h2) (hB i hi) h), j, h2, rfl⟩
  have hget : ∀ i < E.length, ∃ e, E[sigma E i]? = some e ∧ posU (sortEdges E) i = e.u ∧
      posV (sortEdges E) i = e.v := by
    intro i hi
    obtain ⟨h0, _, h1, h2, _⟩ := sigma_spec E i hi
    refine ⟨_, List.getElem?_eq_getElem h0, ?_, ?_⟩
    · rw [h1]; simp [inU, List.getElem?_eq_getElem h0]
    · rw [h2]; simp [inV, List.getElem?_eq_getElem h0]
  constructor
  · rintro ⟨h1, h2, h3⟩
    constructor
    · intro i hi hc
      obtain ⟨e, g1, g2, g3⟩ := hget i (hB i hi)
      refine h2 (sigma E i) (Finset.mem_image_of_mem _ hi) e g1 ?_
      rw [her i hi, conn_image E _ (fun j hj => hB j (Finset.mem_of_mem_erase hj)), Finset.coe_erase,
        ← g2, ← g3]
      exact hc
    · intro i hi
      obtain ⟨e, g1, g2, g3⟩ := hget i hi
      have := h3 _ e g1
      rw [conn_image E _ hB] at this
      rw [g2, g3]
      exact this
  · rintro ⟨h1, h2⟩
    refine ⟨?_, ?_, ?_⟩
    · intro id hid
      obtain ⟨i, hi, rfl⟩ := Finset.mem_image.mp hid
      exact (sigma_spec E i (hB i hi)).1
    · intro id hid e he hc
      obtain ⟨i, hi, rfl⟩ := Finset.mem_image.mp hid
      obtain ⟨e', g1, g2, g3⟩ := hget i (hB i hi)
      rw [he] at g1
      obtain rfl := Option.some.inj g1
      rw [her i hi, conn_image E _ (fun j hj => hB j (Finset.mem_of_mem_erase hj)), Finset.coe_erase,
        ← g2, ← g3] at hc
      exact h1 i hi hc
    · intro id e he
      obtain ⟨i, hi, rfl⟩ := sigma_surj E (List.getElem?_eq_some_iff.mp he).1
      obtain ⟨e', g1, g2, g3⟩ := hget i hi
      rw [he] at g1
      obtain rfl := Option.some.inj g1
      rw [conn_image E _ hB, ← g2, ← g3]
      exact h2 i hi

theorem sum_pre (E : List (WEdge K)) (B : Finset ℕ) (hB : ∀ i ∈ B, i < E.length) :
    ∑ id ∈ B.image (sigma E), inW E id = ∑ i ∈ B, inW E (sigma E i) := by
  rw [Finset.sum_image]
  intro i hi j hj h
  exact sigma_inj E (hB i hi) (hB j hj) h

/-- Positions of the edges returned by `kruskal`. -/
theorem kruskal_pre (env : Env) (henv : env.Ok) (E : List (WEdge K)) (n : ℕ)
    (hE : ∀ e ∈ E, e.u < n ∧ e.v < n) (out : List ℕ) (h : kruskal env E n = .ok out) :
    out.Nodup ∧ ∃ S : Finset ℕ, (∀ i, i ∈ S ↔ i < E.length ∧
      i ∈ greedy (posU (sortEdges E)) (posV (sortEdges E))) ∧ S.image (sigma E) = out.toFinset := by
  rcases kruskalG_spec env henv 20 E n hE with ⟨h1, _⟩ | ⟨o, h1, h2, h3⟩
  · rw [kruskal, h1] at h; simp at h
  rw [kruskal, h1] at h
  obtain rfl := Except.ok.inj h
  refine ⟨h2.imp (by intro a b; omega), ?_⟩
  classical
  refine ⟨(Finset.range E.length).filter fun i => i ∈ greedy (posU (sortEdges E)) (posV (sortEdges E)),
    by simp, ?_⟩
  ext id
  simp only [Finset.mem_image, Finset.mem_filter, Finset.mem_range, List.mem_toFinset, h3]
  constructor
  · rintro ⟨i, ⟨g1, g2⟩, rfl⟩
    exact ⟨i, (sigma_spec E i g1).2.1, g2⟩
  · rintro ⟨i, g1, g2⟩
    have hil : i < E.length := by
      have := (List.getElem?_eq_some_iff.mp g1).1
      simpa [sortEdges_length] using this
    refine ⟨i, ⟨hil, g2⟩, ?_⟩
    have := (sigma_spec E i hil).2.1
    rw [g1] at this
    exact (Option.some.inj this).symm

theorem out_sum (E : List (WEdge K)) (out : List ℕ) (h : out.Nodup) :
    (out.map (inW E)).sum = ∑ id ∈ out.toFinset, inW E id := by
  rw [List.sum_toFinset _ h]

/-- **C15.** The edges returned by `kruskal` form a spanning forest of the input, without
repetitions, and no spanning forest has smaller total weight. Weights may tie and may be negative. -/
theorem c15_minimum_spanning_forest (env : Env) (henv : env.Ok) (E : List (WEdge K)) (n : ℕ)
    (hE : ∀ e ∈ E, e.u < n ∧ e.v < n) (out : List ℕ) (h : kruskal env E n = .ok out) :
    out.Nodup ∧ SpanningForest E out.toFinset ∧
      ∀ F : Finset ℕ, SpanningForest E F → (out.map (inW E)).sum ≤ ∑ id ∈ F, inW E id := by
  obtain ⟨hnd, S, hS, himg⟩ := kruskal_pre env henv E n hE out h
  have hSl : ∀ i ∈ S, i < E.length := fun i hi => ((hS i).mp hi).1
  refine ⟨hnd, ?_, ?_⟩
  · rw [← himg, forest_pre E S hSl]
    constructor
    · exact (greedy_prefix_acyclic E.length).mono fun i hi => (hS i).mp hi
    · intro i hi
      exact (greedy_spans E.length hi).mono fun j hj => (hS j).mpr hj
  · intro F hF
    obtain ⟨B, hB, rfl⟩ := exists_pre E F hF.edges
    rw [forest_pre E B hB] at hF
    rw [out_sum E out hnd, ← himg, sum_pre E S hSl, sum_pre E B hB]
    exact greedy_min E.length (fun i => inW E (sigma E i)) (fun i j hij hj => sigma_mono E hij hj) S hS B hB
      hF.2 hF.1

/-- **C15**, second part: if no weight is negative, no set of input edges at all that
connects the ends of every input edge has smaller total weight. -/
theorem c15_minimum_connecting (env : Env) (henv : env.Ok) (E : List (WEdge K)) (n : ℕ)
    (hE : ∀ e ∈ E, e.u < n ∧ e.v < n) (h0 : ∀ e ∈ E, 0 ≤ e.w) (out : List ℕ)
    (h : kruskal env E n = .ok out) (F : Finset ℕ) (hF : ∀ id ∈ F, id < E.length)
    (hsp : ∀ (id : ℕ) (e : WEdge K), E[id]? = some e → ConnE E F e.u e.v) :
    (out.map (inW E)).sum ≤ ∑ id ∈ F, inW E id := by
  obtain ⟨hnd, S, hS, himg⟩ := kruskal_pre env henv E n hE out h
  have hSl : ∀ i ∈ S, i < E.length := fun i hi => ((hS i).mp hi).1
  obtain ⟨B, hB, rfl⟩ := exists_pre E F hF
  rw [out_sum E out hnd, ← himg, sum_pre E S hSl, sum_pre E B hB]
  refine greedy_min_nonneg E.length (fun i => inW E (sigma E i))
    (fun i j hij hj => sigma_mono E hij hj) ?_ S hS B hB ?_
  · intro i hi
    have h1 := List.getElem?_eq_getElem (sigma_spec E i hi).1
    have h2 : inW E (sigma E i) = (E[sigma E i]'(sigma_spec E i hi).1).w := by
      simp [inW, h1]
    simp only [h2]
    exact h0 _ (List.getElem_mem _)
  · intro i hi
    obtain ⟨g0, _, g1, g2, _⟩ := sigma_spec E i hi
    have := hsp _ _ (List.getElem?_eq_getElem g0)
    rw [conn_image E B hB] at this
    rw [g1, g2]
    simpa [inU, inV, List.getElem?_eq_getElem g0] using this

/-- The hypotheses of C15 are met with ties and a negative weight. -/
def exEdgesZ : List (WEdge ℤ) :=
  [⟨0, 1, 5⟩, ⟨1, 2, 3⟩, ⟨2, 3, 3⟩, ⟨3, 0, 3⟩, ⟨1, 3, -4⟩]

example : kruskal revEnv exEdgesZ 4 = .ok [1, 3, 4] ∧ (∀ e ∈ exEdgesZ, e.u < 4 ∧ e.v < 4) := by
  refine ⟨by decide +kernel, by decide⟩

end

end Verif.Mst
