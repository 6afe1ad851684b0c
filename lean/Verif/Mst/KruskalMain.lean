import Verif.Mst.KruskalRound
import Verif.Mst.Weight

set_option linter.unusedSectionVars false
set_option linter.unusedVariables false

namespace Verif.Mst

open Verif.UF

section

variable {K : Type} [LinearOrder K]

theorem edgeLe_iff (a b : WEdge K × ℕ) :
    edgeLe a b = true ↔ a.1.w < b.1.w ∨ (a.1.w = b.1.w ∧ a.2 ≤ b.2) := by
  simp [edgeLe]

theorem sortEdges_perm (E : List (WEdge K)) : (sortEdges E).Perm E.zipIdx :=
  List.perm_insertionSort _ _

theorem sortEdges_sorted (E : List (WEdge K)) :
    (sortEdges E).Pairwise fun a b => edgeLe a b = true := by
  have : IsTrans (WEdge K × ℕ) fun a b => edgeLe a b = true := ⟨by
    intro a b c h1 h2
    rw [edgeLe_iff] at *
    rcases h1 with h1 | ⟨h1, h1'⟩ <;> rcases h2 with h2 | ⟨h2, h2'⟩
    · exact Or.inl (h1.trans h2)
    · exact Or.inl (h2 ▸ h1)
    · exact Or.inl (h1 ▸ h2)
    · exact Or.inr ⟨h1.trans h2, h1'.trans h2'⟩⟩
  have : Std.Total fun a b : WEdge K × ℕ => edgeLe a b = true := ⟨by
    intro a b
    rw [edgeLe_iff, edgeLe_iff]
    rcases lt_trichotomy a.1.w b.1.w with h | h | h
    · exact Or.inl (Or.inl h)
    · rcases le_total a.2 b.2 with h' | h'
      · exact Or.inl (Or.inr ⟨h, h'⟩)
      · exact Or.inr (Or.inr ⟨h.symm, h'⟩)
    · exact Or.inr (Or.inl h)⟩
  exact List.pairwise_insertionSort _ _

theorem sortEdges_ids_perm (E : List (WEdge K)) :
    ((sortEdges E).map (·.2)).Perm (List.range E.length) := by
  have := (sortEdges_perm E).map (·.2)
  rw [List.zipIdx_map_snd, ← List.range_eq_range'] at this
  exact this

theorem sortEdges_length (E : List (WEdge K)) : (sortEdges E).length = E.length := by
  rw [(sortEdges_perm E).length_eq, List.length_zipIdx]

/-- End points by position in the sorted list. -/
def posU (L : List (WEdge K × ℕ)) (i : ℕ) : ℕ := ((L[i]?).map (·.1.u)).getD 0

/-- End points by position in the sorted list. -/
def posV (L : List (WEdge K × ℕ)) (i : ℕ) : ℕ := ((L[i]?).map (·.1.v)).getD 0

/-- The fixed data of the run on the edges `E`. -/
def mkData (E : List (WEdge K)) (n : ℕ) (hE : ∀ e ∈ E, e.u < n ∧ e.v < n)
    (c : ℕ → ℕ) : Data where
  n := n
  m := (sortEdges E).length
  u := posU (sortEdges E)
  v := posV (sortEdges E)
  c := c
  hu := by
    intro i hi
    have h1 := List.getElem?_eq_getElem hi
    have h2 : (sortEdges E)[i].1 ∈ E :=
      List.fst_mem_of_mem_zipIdx ((sortEdges_perm E).mem_iff.mp (List.getElem_mem hi))
    simp only [posU, h1, Option.map_some, Option.getD_some]
    exact (hE _ h2).1
  hv := by
    intro i hi
    have h1 := List.getElem?_eq_getElem hi
    have h2 : (sortEdges E)[i].1 ∈ E :=
      List.fst_mem_of_mem_zipIdx ((sortEdges_perm E).mem_iff.mp (List.getElem_mem hi))
    simp only [posV, h1, Option.map_some, Option.getD_some]
    exact (hE _ h2).2

theorem connS_empty {V : Type*} {u v : ℕ → V} {a b : V} : ConnS u v ∅ a b ↔ a = b := by
  constructor
  · intro h
    exact h.lift ⟨fun _ => rfl, fun h => h.symm, fun h h' => h.trans h'⟩ (by simp)
  · rintro rfl; exact .refl _

theorem kinit_inv {σ : Type} (E : List (WEdge K)) (n : ℕ) (hE : ∀ e ∈ E, e.u < n ∧ e.v < n)
    (c : ℕ → ℕ) (maxRound : ℕ) (hm : 4 ≤ maxRound) {P : List ℤ} {rt dep : ℕ → ℕ}
    (hF : Forest P n rt dep) (hc : ∀ a b, rt a = rt b ↔ c a = c b)
    {G : (ℕ → ℕ) → Set ℕ → σ → Prop} {o : σ} (hG : G rt ∅ o) :
    GInv (mkData E n hE c) G maxRound rt dep ∅ 0 [] (maxRound / 4) (kinit (sortEdges E) n P o) := by
  refine ⟨⟨hF, ?_, ?_, ?_, ?_, ?_, ?_, hG⟩, ?_, by simp, by simp, by simp, by simp, by simp, by simp,
    by simp, by omega, by omega, by simp⟩
  · intro a b
    rw [connS_empty]
    exact hc a b
  · simp [kinit, mkData]
  · simp [kinit, mkData]
  · simp [kinit, mkData]
  · intro i hi
    refine ⟨(mkData E n hE c).u i, (mkData E n hE c).hu i hi, ?_, rfl⟩
    have h1 := List.getElem?_eq_getElem (show i < (sortEdges E).length from hi)
    simp [kinit, mkData, posU, h1]
  · intro i hi
    refine ⟨(mkData E n hE c).v i, (mkData E n hE c).hv i hi, ?_, rfl⟩
    have h1 := List.getElem?_eq_getElem (show i < (sortEdges E).length from hi)
    simp [kinit, mkData, posV, h1]
  · intro x hx _
    have : x < n := hx
    simp [kinit, this]

/-- Outcome of the loop for any kind of records and rounds. -/
theorem run_specR {σ : Type} (g : ℕ) (E : List (WEdge K)) (n : ℕ)
    (hE : ∀ e ∈ E, e.u < n ∧ e.v < n) (c : ℕ → ℕ) {P : List ℤ} {rt dep : ℕ → ℕ}
    (hF : Forest P n rt dep) (hc : ∀ a b, rt a = rt b ↔ c a = c b)
    {G : (ℕ → ℕ) → Set ℕ → σ → Prop} {o : σ} (hG : G rt ∅ o)
    (round : Round (KSt σ)) (adj : ℕ → ℕ → ℕ → Adj) (bad : ℕ → List ℕ → Prop)
    (hround : ∀ (fuel : ℕ) (its : List ℕ) (rt dep : ℕ → ℕ) (T : Set ℕ) (s : KSt σ),
      Base (mkData E n hE c) G rt dep T s →
      (∀ x < n, rt x = x → s.R[x]? = some none) → (∀ i ∈ its, i < (sortEdges E).length) → its.Nodup →
      (round fuel its s = .error .fuel ∧ bad fuel its) ∨
        ∃ kept committed s2, round fuel its s = .ok (kept, committed, s2) ∧
          RoundOk (mkData E n hE c) G rt T its kept committed s2) :
    (specForR round adj (sortEdges E).length g (kinit (sortEdges E) n P o) = .error .fuel ∧
        ∃ k its, its.Nodup ∧ its.length ≤ max 4 (E.length / g + 1) ∧ (∀ i ∈ its, i < E.length) ∧ bad k its) ∨
    (specForR round adj (sortEdges E).length g (kinit (sortEdges E) n P o) =
        .error .throws ∧ 101 + 200 * g < E.length) ∨
      ∃ s' rt' dep', specForR round adj (sortEdges E).length g (kinit (sortEdges E) n P o) = .ok s' ∧
        Base (mkData E n hE c) G rt' dep' {i | i < (sortEdges E).length ∧
          i ∈ greedy (mkData E n hE c).cu (mkData E n hE c).cv} s' := by
  have hmax : 4 ≤ max 4 ((sortEdges E).length / g + 1) := le_max_left _ _
  have hinv := kinit_inv E n hE c _ hmax hF hc hG
  have hm : (mkData E n hE c).m = E.length := sortEdges_length E
  unfold specForR
  rcases specLoop_ok round adj bad hround _ hmax (100 + 200 * g + 1) hinv with
    ⟨h1, k, its, h2, h3, h4, h5⟩ | ⟨h1, h2⟩ | ⟨s', rt', dep', h1, h2⟩
  · left
    rw [sortEdges_length] at h3
    exact ⟨h1, k, its, h2, h3, fun i hi => hm ▸ h4 i hi, h5⟩
  · right; left
    refine ⟨h1, ?_⟩
    omega
  · exact Or.inr (Or.inr ⟨s', rt', dep', h1, h2⟩)

/-- Outcome of the loop for any kind of records. -/
theorem run_spec {σ : Type} (env : Env) (henv : env.Ok) (g : ℕ) (E : List (WEdge K)) (n : ℕ)
    (hE : ∀ e ∈ E, e.u < n ∧ e.v < n) (c : ℕ → ℕ) {P : List ℤ} {rt dep : ℕ → ℕ}
    (hF : Forest P n rt dep) (hc : ∀ a b, rt a = rt b ↔ c a = c b)
    {G : (ℕ → ℕ) → Set ℕ → σ → Prop} {o : σ} (hG : G rt ∅ o) {rec : Recorder σ}
    (hrec : RecOk (mkData E n hE c) rec G) :
    (specFor reserve (commit rec) env (sortEdges E).length g (kinit (sortEdges E) n P o) =
        .error .throws ∧ 101 + 200 * g < E.length) ∨
      ∃ s' rt' dep', specFor reserve (commit rec) env (sortEdges E).length g
          (kinit (sortEdges E) n P o) = .ok s' ∧
        Base (mkData E n hE c) G rt' dep' {i | i < (sortEdges E).length ∧
          i ∈ greedy (mkData E n hE c).cu (mkData E n hE c).cv} s' := by
  unfold specFor
  rcases run_specR g E n hE c hF hc hG (atomicRound reserve (commit rec) env) env.adj (fun _ _ => False)
      (fun fuel its rt dep T s h1 h2 h3 h4 => Or.inr (round_ok hrec h1 h2 env henv fuel its h3 h4)) with
    ⟨_, _, _, _, _, _, hf⟩ | h | h
  · exact hf.elim
  · exact Or.inl h
  · exact Or.inr h

/-- The flags are right: exactly the accepted edges are flagged. -/
def FlagsOk (ids : List ℕ) (m : ℕ) (_ : ℕ → ℕ) (T : Set ℕ) (fl : List Bool) : Prop :=
  fl.length = m ∧ ∀ i id, ids[i]? = some id → (fl[id]? = some true ↔ i ∈ T)

theorem flagRec_ok (D : Data) (ids : List ℕ) (idLen : ids.length = D.m) (idNodup : ids.Nodup)
    (idLt : ∀ x ∈ ids, x < D.m) : RecOk D (flagRec ids) (FlagsOk ids D.m) := by
  constructor
  rintro rt T fl i x y side ⟨hl, hfl⟩ hi _ _ _ _ _ _ _
  have hid := List.getElem?_eq_getElem (show i < ids.length from idLen ▸ hi)
  generalize ids[i] = k at hid
  have hkm : k < D.m := idLt k (List.mem_of_getElem? hid)
  refine ⟨fl.set k true, ?_, by simpa using hl, ?_⟩
  · simp [flagRec, rd_ok hid, Except.bind, wr_ok (l := fl) (i := k) true (by omega)]
  · intro j id hj
    rw [List.getElem?_set]
    by_cases hjk : k = id
    · subst hjk
      have hj0 : j = i := by
        have hjl := (List.getElem?_eq_some_iff.mp hj).1
        exact (List.getElem?_inj hjl idNodup).mp (hj.trans hid.symm)
      subst hj0
      simp [show k < fl.length by omega]
    · rw [if_neg hjk, hfl j id hj]
      have : j ≠ i := by
        rintro rfl
        rw [hj] at hid
        exact hjk (by simpa using hid.symm)
      simp [this]

theorem forest_init (n : ℕ) : Forest (init n) n id (fun _ => 0) :=
  ⟨by simp [init], fun i _ => rfl, fun i hi => Or.inl ⟨by simp [init, hi], rfl⟩⟩

theorem flags_rec (E : List (WEdge K)) (n : ℕ) (hE : ∀ e ∈ E, e.u < n ∧ e.v < n) :
    RecOk (mkData E n hE id) (flagRec ((sortEdges E).map (·.2))) (FlagsOk ((sortEdges E).map (·.2)) (mkData E n hE id).m) := by
  have hidl : ∀ x ∈ (sortEdges E).map (·.2), x < (sortEdges E).length := by
    intro x hx
    have := (sortEdges_ids_perm E).mem_iff.mp hx
    rw [sortEdges_length]
    simpa using this
  exact flagRec_ok (mkData E n hE id) ((sortEdges E).map (·.2)) (by simp [mkData])
    ((sortEdges_ids_perm E).nodup_iff.mpr List.nodup_range) hidl

theorem flags_start (E : List (WEdge K)) (n : ℕ) (hE : ∀ e ∈ E, e.u < n ∧ e.v < n) :
    FlagsOk ((sortEdges E).map (·.2)) (mkData E n hE id).m id ∅ (List.replicate (sortEdges E).length false) := by
  refine ⟨by simp [mkData], ?_⟩
  intro i id _
  simp only [Set.mem_empty_iff_false, iff_false]
  intro h
  have := List.mem_of_getElem? h
  simp at this

/-- The flags at the end. -/
theorem flags_out (E : List (WEdge K)) (n : ℕ) (hE : ∀ e ∈ E, e.u < n ∧ e.v < n) {rt' dep' : ℕ → ℕ}
    {s' : KSt (List Bool)} (h2 : Base (mkData E n hE id) (FlagsOk ((sortEdges E).map (·.2)) (mkData E n hE id).m) rt' dep'
      {i | i < (sortEdges E).length ∧ i ∈ greedy (mkData E n hE id).cu (mkData E n hE id).cv} s') :
    (packIndex s'.out).Pairwise (· < ·) ∧
      ∀ id, id ∈ packIndex s'.out ↔ ∃ i, ((sortEdges E).map (·.2))[i]? = some id ∧
          i ∈ greedy (posU (sortEdges E)) (posV (sortEdges E)) := by
  refine ⟨List.pairwise_lt_range.filter _, ?_⟩
  intro id
  have hfl : s'.out.length = E.length := h2.out.1.trans (sortEdges_length E)
  have hflags := h2.out.2
  unfold packIndex
  rw [List.mem_filter, List.mem_range, hfl]
  simp only [decide_eq_true_eq]
  constructor
  · rintro ⟨h3, h4⟩
    have : id ∈ (sortEdges E).map (·.2) :=
      (sortEdges_ids_perm E).mem_iff.mpr (List.mem_range.mpr h3)
    obtain ⟨i, hi⟩ := List.getElem?_of_mem this
    exact ⟨i, hi, ((hflags i id hi).mp h4).2⟩
  · rintro ⟨i, hi, hg⟩
    have hil : i < (sortEdges E).length := by
      have := (List.getElem?_eq_some_iff.mp hi).1
      simpa using this
    have h5 := (sortEdges_ids_perm E).mem_iff.mp (List.mem_of_getElem? hi)
    exact ⟨List.mem_range.mp h5, (hflags i id hi).mpr ⟨hil, hg⟩⟩


/-- Outcome of `kruskal`: the ids of the greedy edges of the sorted list, or the exception of
`speculative_for`. -/
theorem kruskalG_spec (env : Env) (henv : env.Ok) (g : ℕ) (E : List (WEdge K)) (n : ℕ)
    (hE : ∀ e ∈ E, e.u < n ∧ e.v < n) :
    (kruskalG env g E n = .error .throws ∧ 101 + 200 * g < E.length) ∨
      ∃ out, kruskalG env g E n = .ok out ∧ out.Pairwise (· < ·) ∧
        ∀ id, id ∈ out ↔ ∃ i, ((sortEdges E).map (·.2))[i]? = some id ∧
          i ∈ greedy (posU (sortEdges E)) (posV (sortEdges E)) := by
  unfold kruskalG
  rcases run_spec env henv g E n hE id (forest_init n) (fun a b => Iff.rfl) (flags_start E n hE) (flags_rec E n hE) with
    ⟨h1, h2⟩ | ⟨s', rt', dep', h1, h2⟩
  · left
    refine ⟨?_, h2⟩
    simp only [h1]
    rfl
  · right
    refine ⟨packIndex s'.out, ?_, flags_out E n hE h2⟩
    simp only [h1]
    rfl

end

end Verif.Mst
