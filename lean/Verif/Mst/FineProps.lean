import Verif.Mst.FineCommit
import Verif.Mst.KruskalProps
import Verif.Mst.BatchKruskal

set_option linter.unusedSectionVars false
set_option linter.unusedVariables false

/-!
Property theorems C75: Kruskal's loop under interleaving of single memory accesses.
-/

namespace Verif.Mst

open Verif.UF

section

variable {σ : Type} {D : Data} {G : (ℕ → ℕ) → Set ℕ → σ → Prop} {rec : Recorder σ}

/-- Specification of C75: every iteration of every loop gets enough turns. `m` edges, `n` vertices; a loop with `N`
iterations makes at most `N * (4 * N + 6 * n + 16)` accesses, not counting those caused by spurious failures. -/
structure FineEnv.Fair (env : FineEnv) (m n : ℕ) : Prop where
  reserve : ∀ k its, its.Nodup → (∀ i ∈ its, i < m) → ∀ i ∈ its,
    its.length * (4 * its.length + 6 * n + 16) + 2 * (env.schR k its).countP (fun e => e.2) <
      (env.schR k its).countP fun e => e.1 = i
  commit : ∀ k its, its.Nodup → (∀ i ∈ its, i < m) → ∀ i ∈ its, 5 ≤ (env.schC k its).countP fun e => e.1 = i

/-- One round, access by access. -/
theorem fineRound_ok (hrec : RecOk D rec G) (recFirst : Bool) {rt dep : ℕ → ℕ} {T : Set ℕ} {s : KSt σ}
    (hb : Base D G rt dep T s) (hfree : ∀ x < D.n, rt x = x → s.R[x]? = some none)
    (env : FineEnv) (fuel : ℕ) (its : List ℕ) (hlt : ∀ i ∈ its, i < D.m) (hnd : its.Nodup) :
    (fineRound rec recFirst env fuel its s = .error .fuel ∧ ¬ env.Fair D.m D.n) ∨
    ∃ kept committed s2, fineRound rec recFirst env fuel its s = .ok (kept, committed, s2) ∧
      RoundOk D G rt T its kept committed s2 := by
  unfold fineRound
  rcases reserve_fine hlt hnd hb hfree (env.schR fuel its) with ⟨h1, i, hi, h2⟩ | ⟨kept, s1, h1, hkept, hA⟩
  · left
    rw [h1]
    refine ⟨rfl, fun hf => ?_⟩
    have := hf.reserve fuel its hnd hlt i hi
    unfold rBound turns spurs at h2
    omega
  rw [h1]
  simp only [Except.bind]
  have hl : ∀ i, i ∈ its.filter (· ∈ kept) ↔ i ∈ its ∧ Active D rt i := by
    intro i
    rw [List.mem_filter]
    simp only [decide_eq_true_eq, hkept]
    tauto
  have hlnd : (its.filter (· ∈ kept)).Nodup := hnd.filter _
  have hroot := fun i (hi : i ∈ its) => hb.forest.root _ (D.hu i (hlt i hi))
  have hrootv := fun i (hi : i ∈ its) => hb.forest.root _ (D.hv i (hlt i hi))
  have hs : CStart (its.filter (· ∈ kept)) D.n (fun i => rt (D.u i)) (fun i => rt (D.v i)) s1 :=
    ⟨fun i hi => hA.eu i ((hl i).mp hi).1, fun i hi => hA.ev i ((hl i).mp hi).1,
      fun i hi => (hroot i ((hl i).mp hi).1).1, fun i hi => (hrootv i ((hl i).mp hi).1).1,
      fun i hi => ((hl i).mp hi).2, hA.base.RLen, hA.base.forest.len⟩
  have hafter := fun ord hord => after_reserve hrec hA (fun i => Iff.rfl) hlt hnd hkept ord hord
  have hall : ∀ ord, ord.Perm (its.filter (· ∈ kept)) → ∃ c s2, phase (commit rec) ord s1 = .ok (c, s2) := by
    intro ord hord
    obtain ⟨c, s2, h, -⟩ := hafter ord hord
    exact ⟨c, s2, h⟩
  rcases commit_fine (recFirst := recFirst) hs hall hlnd (env.schC fuel (its.filter (· ∈ kept))) with
    ⟨h2, i, hi, h3⟩ | ⟨committed, ord, c, s2, h2, hord, h3, h4⟩
  · left
    rw [h2]
    refine ⟨rfl, fun hf => ?_⟩
    have := hf.commit fuel _ hlnd (fun j hj => hlt j ((hl j).mp hj).1) i hi
    unfold turns at h3
    omega
  · right
    rw [h2]
    refine ⟨kept, committed, s2, rfl, ?_⟩
    obtain ⟨c', s2', h5, h6, h7⟩ := hafter ord hord
    rw [h3] at h5
    simp only [Except.ok.injEq, Prod.mk.injEq] at h5
    obtain ⟨rfl, rfl⟩ := h5
    have hcc : ∀ i, i ∈ committed ↔ i ∈ c := by
      intro i
      rw [h4, h6, hl, and_assoc]
      rfl
    obtain ⟨rt2, dep2, r, k1, k2, k3, k4, k5⟩ := h7
    refine ⟨rt2, dep2, r, k1, k2, fun i => (hcc i).trans (k3 i), ?_, k5⟩
    have : {i | i ∈ committed} = {i | i ∈ c} := Set.ext hcc
    rw [this]
    exact k4

end

section

variable {K : Type} [LinearOrder K]

/-- **C75.** `kruskal` under every interleaving of single memory accesses (with compare-and-swap operations that may
fail spuriously), whatever the granularity and the round sizes: if the run ends it returns in increasing order exactly
the indices that the sequential scan of the edges by weight selects, or throws the exception for too many rounds, which
is impossible for up to `101 + 200 * granularity` edges. It never indexes outside its arrays. The outcome `fuel` says
that the given schedule stops before the iterations of some loop have returned, and a fair schedule does not. -/
theorem c75_kruskal (env : FineEnv) (g : ℕ) (E : List (WEdge K)) (n : ℕ)
    (hE : ∀ e ∈ E, e.u < n ∧ e.v < n) (L : List (WEdge K × ℕ)) (hL : ByWeight E L) :
    (kruskalF env g E n = .error .fuel ∧ ¬ env.Fair E.length n) ∨
    (kruskalF env g E n = .error .throws ∧ 101 + 200 * g < E.length) ∨
      ∃ out, kruskalF env g E n = .ok out ∧ out.Pairwise (· < ·) ∧
        ∀ id, id ∈ out ↔ id ∈ seqKruskal L (fun x => x) := by
  rw [byWeight_eq hL]
  unfold kruskalF
  have hm : (mkData E n hE id).m = E.length := sortEdges_length E
  rcases run_specR g E n hE id (forest_init n) (fun a b => Iff.rfl) (flags_start E n hE)
      (fineRound (flagRec ((sortEdges E).map (·.2))) false env) env.adj (fun _ _ => ¬ env.Fair E.length n)
      (fun fuel its rt dep T s h1 h2 h3 h4 => by
        rcases fineRound_ok (flags_rec E n hE) false h1 h2 env fuel its h3 h4 with ⟨a, b⟩ | h
        · exact Or.inl ⟨a, fun hf => b (by rw [hm]; exact hf)⟩
        · exact Or.inr h) with
    ⟨h1, _, _, _, _, _, h2⟩ | ⟨h1, h2⟩ | ⟨s', rt', dep', h1, h2⟩
  · left
    simp only [h1]
    exact ⟨rfl, h2⟩
  · right; left
    simp only [h1]
    exact ⟨rfl, h2⟩
  · right; right
    obtain ⟨h3, h4⟩ := flags_out E n hE h2
    refine ⟨packIndex s'.out, ?_, h3, fun id => ?_⟩
    · simp only [h1]
      rfl
    · rw [h4, seqKruskal_mem (sortEdges E) [] (sortEdges E) rfl]
      · simp
      · intro a b
        have : {j : ℕ | j < ([] : List (WEdge K × ℕ)).length} = ∅ := by ext; simp
        rw [this, connS_empty]

/-- **C75.** Under a fair schedule `kruskal` of at most `101 + 200 * granularity` edges returns. -/
theorem c75_finishes (env : FineEnv) (g : ℕ) (E : List (WEdge K)) (n : ℕ) (hE : ∀ e ∈ E, e.u < n ∧ e.v < n)
    (hf : env.Fair E.length n) (hm : E.length ≤ 101 + 200 * g) : ∃ out, kruskalF env g E n = .ok out := by
  have hby : ByWeight E (sortEdges E) := by
    refine ⟨sortEdges_perm E, ?_⟩
    have hnd : ((sortEdges E).map (·.2)).Nodup := (sortEdges_ids_perm E).nodup_iff.mpr List.nodup_range
    have h1 := (sortEdges_sorted E).and (List.pairwise_map.mp hnd)
    refine h1.imp ?_
    rintro a b ⟨h2, h3⟩
    rw [edgeLe_iff] at h2
    rcases h2 with h2 | ⟨h2, h4⟩
    · exact Or.inl h2
    · exact Or.inr ⟨h2, by omega⟩
  rcases c75_kruskal env g E n hE _ hby with ⟨_, h⟩ | ⟨_, h⟩ | ⟨out, h, _⟩
  · exact absurd hf h
  · omega
  · exact ⟨out, h⟩

/-- **C75**, determinism: two interleavings, with any granularities and round sizes, that both return, return the same
list, which is also the one of every run with atomic iterations (C14). -/
theorem c75_deterministic (env env' : FineEnv) (env'' : Env) (henv : env''.Ok) (g g' g'' : ℕ) (E : List (WEdge K)) (n : ℕ)
    (hE : ∀ e ∈ E, e.u < n ∧ e.v < n) (L : List (WEdge K × ℕ)) (hL : ByWeight E L) (out out' out'' : List ℕ)
    (h : kruskalF env g E n = .ok out) (h' : kruskalF env' g' E n = .ok out') (hg : 1 ≤ g'')
    (h'' : kruskalG env'' g'' E n = .ok out'') :
    out = out' ∧ out = out'' := by
  have key : ∀ a b : List ℕ, a.Pairwise (· < ·) → b.Pairwise (· < ·) → (∀ id, id ∈ a ↔ id ∈ b) → a = b := by
    intro a b ha hb hab
    refine List.Perm.eq_of_pairwise (le := fun a b => a < b) ?_ ha hb ?_
    · intro a b _ _ h1 h2; omega
    · rw [List.perm_ext_iff_of_nodup (ha.imp (by intro a b; omega)) (hb.imp (by intro a b; omega))]
      exact hab
  have fine : ∀ (env : FineEnv) (g : ℕ) (out : List ℕ), kruskalF env g E n = .ok out →
      out.Pairwise (· < ·) ∧ ∀ id, id ∈ out ↔ id ∈ seqKruskal L (fun x => x) := by
    intro env g out h
    rcases c75_kruskal env g E n hE L hL with ⟨h1, _⟩ | ⟨h1, _⟩ | ⟨o, h1, h2, h3⟩
    · rw [h1] at h; simp at h
    · rw [h1] at h; simp at h
    · rw [h1] at h
      simp only [Except.ok.injEq] at h
      subst h
      exact ⟨h2, h3⟩
  obtain ⟨a1, a2⟩ := fine env g out h
  obtain ⟨b1, b2⟩ := fine env' g' out' h'
  refine ⟨key _ _ a1 b1 fun id => (a2 id).trans (b2 id).symm, ?_⟩
  rcases c14_kruskal env'' henv g'' hg E n hE L hL with ⟨h1, _⟩ | ⟨o, h1, h2, h3⟩
  · rw [h1] at h''; simp at h''
  · rw [h1] at h''
    simp only [Except.ok.injEq] at h''
    subst h''
    exact key _ _ a1 h2 fun id => (a2 id).trans (h3 id).symm

/-- Connected by the classes `rt` and the edges of `E`. -/
def JoinedBy (rt : ℕ → ℕ) (E : List (WEdge K)) : ℕ → ℕ → Prop :=
  Relation.EqvGen fun x y => rt x = rt y ∨ ∃ e ∈ E, x = e.u ∧ y = e.v

theorem seqKruskal_nodup : ∀ (L : List (WEdge K × ℕ)) (c : ℕ → ℕ), (L.map (·.2)).Nodup →
    (seqKruskal L c).Nodup ∧ ∀ id ∈ seqKruskal L c, id ∈ L.map (·.2)
  | [], c, _ => by simp [seqKruskal]
  | e :: es, c, h => by
    rw [List.map_cons, List.nodup_cons] at h
    rw [seqKruskal]
    split
    · obtain ⟨h1, h2⟩ := seqKruskal_nodup es c h.2
      exact ⟨h1, fun id hid => by rw [List.map_cons]; exact List.mem_cons_of_mem _ (h2 id hid)⟩
    · obtain ⟨h1, h2⟩ := seqKruskal_nodup es (fun x => if c x = c e.1.u then c e.1.v else c x) h.2
      refine ⟨List.nodup_cons.mpr ⟨fun hm => h.1 (h2 _ hm), h1⟩, ?_⟩
      intro id hid
      rw [List.map_cons]
      rcases List.mem_cons.mp hid with rfl | hid
      · simp
      · exact List.mem_cons_of_mem _ (h2 id hid)

/-- **C75.** `batchKruskal` on top of an existing forest, under every interleaving of single memory accesses: it adds to
the recorded edges those that the sequential scan by weight selects, starting from the classes of the forest, and
afterwards two vertices have the same root exactly if they are connected by the old classes and the edges of the batch. -/
theorem c75_batch (env : FineEnv) (g : ℕ) (E : List (WEdge K)) (n : ℕ)
    (hE : ∀ e ∈ E, e.u < n ∧ e.v < n) (L : List (WEdge K × ℕ)) (hL : ByWeight E L) (uf : EdgeUF K) {rt dep : ℕ → ℕ}
    (hF : Forest uf.P n rt dep) (hl : uf.edges.length = n) (hr : ∀ x < n, uf.edges[x]? = some none ↔ rt x = x) :
    (batchKruskalF env g E n uf = .error .fuel ∧ ¬ env.Fair E.length n) ∨
    (batchKruskalF env g E n uf = .error .throws ∧ 101 + 200 * g < E.length) ∨
      ∃ (uf' : EdgeUF K) (rt' dep' : ℕ → ℕ), batchKruskalF env g E n uf = .ok uf' ∧ Forest uf'.P n rt' dep' ∧
        uf'.edges.length = n ∧ (∀ x < n, uf'.edges[x]? = some none ↔ rt' x = x) ∧
        uf'.getEdge.Perm ((seqKruskal L rt).filterMap (fun id => (E[id]?).map fun e => orient e.u e.v e.w) ++ uf.getEdge) ∧
        ∀ a b, rt' a = rt' b ↔ JoinedBy rt E a b := by
  rw [byWeight_eq hL]
  have hrec := edgeRec_ok (mkData E n hE rt) (sortEdges E) rfl uf.edges
  have hG : EdgesOk (sortEdges E) (mkData E n hE rt).n uf.edges rt ∅ uf.edges :=
    ⟨hl, hr, [], List.nodup_nil, by simp, by simp⟩
  have hm : (mkData E n hE rt).m = E.length := sortEdges_length E
  unfold batchKruskalF
  rcases run_specR g E n hE rt hF (fun a b => Iff.rfl) hG
      (fineRound (edgeRec (sortEdges E)) true env) env.adj (fun _ _ => ¬ env.Fair E.length n)
      (fun fuel its rt dep T s h1 h2 h3 h4 => by
        rcases fineRound_ok hrec true h1 h2 env fuel its h3 h4 with ⟨a, b⟩ | h
        · exact Or.inl ⟨a, fun hf => b (by rw [hm]; exact hf)⟩
        · exact Or.inr h) with
    ⟨h1, _, _, _, _, _, h2⟩ | ⟨h1, h2⟩ | ⟨s', rt', dep', h1, h2⟩
  · left
    simp only [h1]
    exact ⟨rfl, h2⟩
  · right; left
    simp only [h1]
    exact ⟨rfl, h2⟩
  right; right
  obtain ⟨l, h3, h4, h5, h6, h7, h8, h9⟩ := edges_out E n hE uf h2
  refine ⟨⟨s'.P, s'.out⟩, rt', dep', ?_, h3, h4, h5, ?_, ?_⟩
  · simp only [h1]
    rfl
  · refine h8.trans (List.Perm.append_right _ ?_)
    have hids := (sortEdges_ids_perm E).nodup_iff.mpr List.nodup_range
    obtain ⟨hn1, hn2⟩ := seqKruskal_nodup (sortEdges E) rt hids
    have hlen := sortEdges_length E
    -- the selected indices are those of the positions `l`
    have hp : (l.filterMap fun i => ((sortEdges E).map (·.2))[i]?).Perm (seqKruskal (sortEdges E) rt) := by
      rw [List.perm_ext_iff_of_nodup _ hn1]
      · intro id
        rw [seqKruskal_memR (sortEdges E) [] (sortEdges E) rfl rt rt (fun j => rt (posU (sortEdges E) j))
          (fun j => rt (posV (sortEdges E) j)) (fun i e h => by simp [posU, h]) (fun i e h => by simp [posV, h])
          (fun a b => by
            have : {j : ℕ | j < ([] : List (WEdge K × ℕ)).length} = ∅ := by ext; simp
            rw [this, connS_empty])]
        rw [List.mem_filterMap]
        constructor
        · rintro ⟨i, hi, he⟩
          exact ⟨i, by simp, he, ((h7 i).mp hi).2⟩
        · rintro ⟨i, -, he, hg⟩
          have hi : i < E.length := by
            have := (List.getElem?_eq_some_iff.mp he).1
            simp only [List.length_map] at this
            omega
          exact ⟨i, (h7 i).mpr ⟨hi, hg⟩, he⟩
      · refine List.Nodup.filterMap ?_ h6
        intro i j x hi hj
        have hi : ((sortEdges E).map (·.2))[i]? = some x := hi
        have hj : ((sortEdges E).map (·.2))[j]? = some x := hj
        exact (List.getElem?_inj (List.getElem?_eq_some_iff.mp hi).1 hids).mp (hi.trans hj.symm)
    refine List.Perm.trans (List.Perm.of_eq ?_) (hp.filterMap _)
    rw [List.filterMap_filterMap]
    apply List.filterMap_congr
    intro i hi
    have hil : i < (sortEdges E).length := by rw [hlen]; exact ((h7 i).mp hi).1
    have hmem := (sortEdges_perm E).mem_iff.mp (List.getElem_mem hil)
    have hz := List.mem_zipIdx_iff_getElem?.mp hmem
    simp only [storedAt, List.getElem?_map, List.getElem?_eq_getElem hil, Option.map_some, Option.bind_some, hz]
  · intro a b
    rw [h9]
    have hlen := sortEdges_length E
    have hidem : ∀ z, rt (rt z) = rt z := by
      intro z
      by_cases hz : z < n
      · exact (hF.root z hz).2.2
      · rw [hF.out z (by omega), hF.out z (by omega)]
    have hset : {i | i ∈ l} = {i | i < E.length ∧ i ∈ greedy (fun j => rt (posU (sortEdges E) j))
        (fun j => rt (posV (sortEdges E) j))} := Set.ext h7
    rw [hset, greedy_conn_iff]
    have hstep : ∀ z, JoinedBy rt E (rt z) z := fun z => .rel _ _ (Or.inl (hidem z))
    constructor
    · intro hc
      have h10 : JoinedBy rt E (rt a) (rt b) := by
        refine hc.lift ⟨fun x => .refl x, fun h => h.symm, fun h h' => .trans _ _ _ h h'⟩ ?_
        intro i hi
        have hil : i < (sortEdges E).length := by rw [hlen]; exact hi
        have hmem : (sortEdges E)[i].1 ∈ E :=
          List.fst_mem_of_mem_zipIdx ((sortEdges_perm E).mem_iff.mp (List.getElem_mem hil))
        have hu : posU (sortEdges E) i = (sortEdges E)[i].1.u := by simp [posU, List.getElem?_eq_getElem hil]
        have hv : posV (sortEdges E) i = (sortEdges E)[i].1.v := by simp [posV, List.getElem?_eq_getElem hil]
        simp only [hu, hv]
        exact ((hstep _).trans _ _ _ (.rel _ _ (Or.inr ⟨_, hmem, rfl, rfl⟩))).trans _ _ _ (hstep _).symm
      exact ((hstep a).symm.trans _ _ _ h10).trans _ _ _ (hstep b)
    · intro hj
      induction hj with
      | rel x y h =>
        rcases h with h | ⟨e, he, rfl, rfl⟩
        · rw [h]; exact .refl _
        · obtain ⟨k, hk⟩ := List.getElem?_of_mem he
          have hz : (e, k) ∈ sortEdges E :=
            (sortEdges_perm E).mem_iff.mpr (List.mem_zipIdx_iff_getElem?.mpr hk)
          obtain ⟨i, hi, hie⟩ := List.mem_iff_getElem.mp hz
          have hu : posU (sortEdges E) i = e.u := by simp [posU, List.getElem?_eq_getElem hi, hie]
          have hv : posV (sortEdges E) i = e.v := by simp [posV, List.getElem?_eq_getElem hi, hie]
          have := ConnS.edge (u := fun j => rt (posU (sortEdges E) j)) (v := fun j => rt (posV (sortEdges E) j))
            (A := {j | j < E.length}) (i := i) (show i < E.length by omega)
          simpa only [hu, hv] using this
      | refl x => exact .refl _
      | symm x y _ ih => exact ih.symm
      | trans x y z _ _ ih1 ih2 => exact ih1.trans ih2

end

/-! ### Instances -/

/-- All iterations take turns, `c` times round. -/
def turnsOf (its : List ℕ) : ℕ → List (ℕ × Bool)
  | 0 => []
  | c + 1 => turnsOf its c ++ its.map fun i => (i, false)

theorem turnsOf_count (its : List ℕ) (hnd : its.Nodup) (i : ℕ) (hi : i ∈ its) :
    ∀ c, (turnsOf its c).countP (fun e => e.1 = i) = c ∧ (turnsOf its c).countP (fun e => e.2) = 0
  | 0 => by simp [turnsOf]
  | c + 1 => by
    obtain ⟨h1, h2⟩ := turnsOf_count its hnd i hi c
    have h3 : its.countP (fun j => decide (j = i)) = 1 := by
      have := List.count_eq_one_of_mem hnd hi
      rw [List.count] at this
      rw [← this]
      apply List.countP_congr
      intro j _
      simp
    constructor
    · rw [turnsOf, List.countP_append, h1, List.countP_map]
      exact congrArg (c + ·) h3
    · rw [turnsOf, List.countP_append, h2, List.countP_map]
      simp [Function.comp_def]

/-- A fair environment: iterations take turns, access by access. -/
def rrEnv (n : ℕ) : FineEnv where
  schR := fun _ its => turnsOf its (its.length * (4 * its.length + 6 * n + 16) + 1)
  schC := fun _ its => turnsOf its 5
  adj := fun _ _ _ => .grow

/-- The fairness assumption of C75 can be met for all sizes. -/
theorem rrEnv_fair (m n : ℕ) : (rrEnv n).Fair m n := by
  constructor
  · intro k its hnd _ i hi
    obtain ⟨h1, h2⟩ := turnsOf_count its hnd i hi (its.length * (4 * its.length + 6 * n + 16) + 1)
    simp only [rrEnv]
    omega
  · intro k its hnd _ i hi
    exact (turnsOf_count its hnd i hi 5).1.ge

/-- A schedule with spurious failures: iterations take turns of three accesses, the first of which fails spuriously if it
is a compare-and-swap; the commits take turns in the opposite order. -/
def spurEnv : FineEnv where
  schR := fun _ its => (turnsOf its 60).flatMap fun e => [(e.1, true), (e.1, false), (e.1, false)]
  schC := fun _ its => (turnsOf its 5).reverse
  adj := fun _ _ _ => .grow

/-- The hypotheses of C75 are met, and the interleaved runs return edges 1, 2, 3. -/
example : (rrEnv 4).Fair exEdges.length 4 ∧ (∀ e ∈ exEdges, e.u < 4 ∧ e.v < 4) ∧ ByWeight exEdges (sortEdges exEdges) ∧
    (kruskalF spurEnv 20 exEdges 4).toOption = some [1, 2, 3] ∧
    (kruskalF spurEnv 1 exEdges 4).toOption = some [1, 2, 3] := by
  refine ⟨rrEnv_fair _ _, by decide, ⟨sortEdges_perm _, by decide +kernel⟩, by decide +kernel, by decide +kernel⟩

/-- The hypotheses of `c75_batch` are met by a fresh structure, and the batch records three edges. -/
example : Forest (EdgeUF.new (K := ℕ) 4).P 4 id (fun _ => 0) ∧ (EdgeUF.new (K := ℕ) 4).edges.length = 4 ∧
    (∀ x < 4, (EdgeUF.new (K := ℕ) 4).edges[x]? = some none ↔ id x = x) ∧
    (batchKruskalF spurEnv 20 exEdges 4 (EdgeUF.new 4)).toOption.map (fun uf => uf.numEdge) = some 3 := by
  refine ⟨forest_init 4, rfl, ?_, by decide +kernel⟩
  intro x hx
  have : x = 0 ∨ x = 1 ∨ x = 2 ∨ x = 3 := by omega
  rcases this with rfl | rfl | rfl | rfl <;> exact ⟨fun _ => rfl, fun _ => rfl⟩

end Verif.Mst
