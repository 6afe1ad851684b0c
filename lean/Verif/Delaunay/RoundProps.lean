import Verif.Delaunay.ParLemmas
import Verif.Delaunay.RoundModel
import Verif.Reserve.Fair

set_option linter.unusedSectionVars false
set_option linter.unusedVariables false

/-!
C62: a round of parallel insertions. The specification is `RoundOk`; it only speaks of positions, ids, flags and the
arrays of the mesh.
-/

namespace Verif.Delaunay

open Verif.Par Verif.Reserve

variable {K : Type} [Field K] [LinearOrder K] [IsStrictOrderedRing K]

/-! ### Specification -/

/-- Specification: the vertices of the buffer with flag 0. -/
def succeeded (b : List ℕ) (flags : List Bool) : List ℕ := ((b.zip flags).filter fun a => !a.2).map Prod.fst

/-- Specification: the triangles allotted to the vertices of a list. -/
def allotted (m : Mesh) (l : List ℕ) : Finset ℕ := (l.flatMap fun v => [m.vt v, m.vt v + 1]).toFinset

/-- Specification: a triangle with corner `u` has `p` strictly inside its circle. -/
def CavityCorner (pos : ℕ → P2 K) (live : Finset ℕ) (m : Mesh) (p : P2 K) (u : ℕ) : Prop :=
  ∃ x ∈ live, InsideCircle pos m x p ∧ ∃ k, m.vtx x k = u

/-- Specification of a round. -/
structure RoundOk (pos : ℕ → P2 K) (id : ℕ → ℤ) (live vs : Finset ℕ) (m : Mesh) (b : List ℕ) (m' : Mesh)
    (flags : List Bool) : Prop where
  length : flags.length = b.length
  /-- at least one vertex is inserted -/
  progress : b ≠ [] → false ∈ flags
  /-- a vertex is inserted iff it has a greater id than all vertices whose cavity has a corner in common with its own -/
  priority : ∀ (i : ℕ) (v : ℕ), b[i]? = some v → (flags[i]? = some false ↔
    ∀ (j : ℕ) (w : ℕ), b[j]? = some w → j ≠ i →
      (∃ u, CavityCorner pos live m (pos v) u ∧ CavityCorner pos live m (pos w) u) → id w < id v)
  /-- the new mesh is a Delaunay triangulation of the old vertices and of those inserted -/
  delaunay : IsDelaunay pos (allotted m (succeeded b flags) ∪ live) ((succeeded b flags).toFinset ∪ vs) m'
  /-- the outline is the same -/
  outline : ∀ s d, OutlineEdge (allotted m (succeeded b flags) ∪ live) m' s d ↔ OutlineEdge live m s d
  /-- vertices not in the mesh still have their two triangles -/
  rest : ∀ u, u ∉ vs → u ∉ succeeded b flags → m'.vt u = m.vt u

/-- What a round needs. -/
structure RoundPre (pos : ℕ → P2 K) (id : ℕ → ℤ) (near : ℕ → ℕ) (live vs : Finset ℕ) (m : Mesh) (b : List ℕ) : Prop where
  mesh : IsDelaunay pos live vs m
  new : ∀ v ∈ b, v ∉ vs
  ne : ∀ v ∈ b, ∀ u ∈ vs, pos u ≠ pos v
  within : ∀ v ∈ b, Within pos live m (pos v)
  distinct : (b.map pos).Nodup
  fresh : ∀ v ∈ b, m.vt v ∉ live ∧ m.vt v + 1 ∉ live
  slots : (b.flatMap fun v => [m.vt v, m.vt v + 1]).Nodup
  near : ∀ v ∈ b, near v ∈ vs
  inj : ∀ v ∈ b, ∀ w ∈ b, id v = id w → v = w
  nonneg : ∀ v ∈ b, 0 ≤ id v

/-- Enough accesses for every thread of a round with `T` threads, vertices numbered below `M` and `L` triangles. -/
def roundBound (T M L : ℕ) : ℕ := reserveBound T M + (32 + 78 * L)

/-! ### Preparation -/

section
variable {pos : ℕ → P2 K} {id : ℕ → ℤ} {near : ℕ → ℕ} {live vs : Finset ℕ} {m : Mesh} {b : List ℕ}

theorem ofMem_toMem (m : Mesh) : ofMem (toMem m) = m := rfl

/-- What is left of a job for the second loop. -/
def Job.prep (m : Mesh) (j : Job) : Prep := ⟨j.v, j.t, j.vq m, j.sq⟩

def Job.contender (id : ℕ → ℤ) (m : Mesh) (j : Job) : Contender ℤ := ⟨id j.v, j.vq m⟩

/-- A job with the corners of its cavity. -/
structure Ready (pos : ℕ → P2 K) (live vs : Finset ℕ) (m : Mesh) (j : Job) : Prop where
  pend : Pend pos live vs m j
  nodup : (j.vq m).Nodup
  mem : ∀ u, u ∈ j.vq m ↔ CavityCorner pos live m (pos j.v) u

theorem prepare_ok (h : IsDelaunay pos live vs m) {v : ℕ} (hv : v ∉ vs) (hne : ∀ u ∈ vs, pos u ≠ pos v)
    (hw : Within pos live m (pos v)) (ha : m.vt v ∉ live ∧ m.vt v + 1 ∉ live) {start : ℕ} (hs : start ∈ live)
    {fuel : ℕ} (hf : 3 * live.card + 2 ≤ fuel) :
    ∃ j : Job, j.v = v ∧ Ready pos live vs m j ∧ prepare pos m fuel v start = .ok (j.prep m) := by
  have hd := isDelaunay_iff.mp h
  obtain ⟨t, ht, o, e, hc⟩ := c60_find_within h (fun s d k => (hw s d k).le) hs 0 false hf
  obtain ⟨vq, sq, m', e1, -, -, -, nd, hq, -⟩ := c59_insert h hv hne ht hc hw ha.1 ha.2 o false (fuel := fuel) (by omega)
  obtain ⟨c, cur, proc, tr, sz, -⟩ :=
    insert_delaunay hd hv hne ht hc ((within_iff _).mp hw) ha.1 ha.2 (by omega) o
  have e2 := cavity_ok hd.planar (pos v) ht o false c tr (fuel := fuel) fun i => (sz i).trans_le (by omega)
  rw [e1] at e2
  simp only [Except.ok.injEq, Prod.mk.injEq] at e2
  obtain ⟨rfl, rfl⟩ := e2
  refine ⟨⟨v, t, o, c⟩, rfl, ⟨⟨ht, tr, hc, hv, hne, hw, ha.1, ha.2⟩, nd, hq⟩, ?_⟩
  unfold prepare
  rw [e]
  simp only [Except.bind]
  rw [e1]
  rfl

theorem prepareAll_ok (h : IsDelaunay pos live vs m) {fuel : ℕ} (hf : 3 * live.card + 2 ≤ fuel) :
    ∀ b : List ℕ, (∀ v ∈ b, v ∉ vs) → (∀ v ∈ b, ∀ u ∈ vs, pos u ≠ pos v) → (∀ v ∈ b, Within pos live m (pos v)) →
      (∀ v ∈ b, m.vt v ∉ live ∧ m.vt v + 1 ∉ live) → (∀ v ∈ b, near v ∈ vs) →
      ∃ js : List Job, js.map (fun j => j.v) = b ∧ (∀ j ∈ js, Ready pos live vs m j) ∧
        (b.mapM fun v => prepare pos m fuel v (m.vt (near v))) = .ok (js.map (Job.prep m))
  | [], _, _, _, _, _ => ⟨[], rfl, by simp, rfl⟩
  | v :: b, h1, h2, h3, h4, h5 => by
    obtain ⟨js, e1, e2, e3⟩ := prepareAll_ok h hf b (fun w hw => h1 w (by simp [hw])) (fun w hw => h2 w (by simp [hw]))
      (fun w hw => h3 w (by simp [hw])) (fun w hw => h4 w (by simp [hw])) (fun w hw => h5 w (by simp [hw]))
    obtain ⟨j, f1, f2, f3⟩ := prepare_ok h (h1 v (by simp)) (h2 v (by simp)) (h3 v (by simp)) (h4 v (by simp))
      (h.vertex (near v) (h5 v (by simp))).1 hf
    refine ⟨j :: js, by simp [e1, f1], ?_, ?_⟩
    · intro j' hj'
      rw [List.mem_cons] at hj'
      rcases hj' with rfl | hj'
      · exact f2
      · exact e2 j' hj'
    · rw [List.mapM_cons, f3, e3]
      rfl

/-! ### The phases -/

theorem reserving_iff {cs : List (Contender ℤ)} (sched : List ℕ) (t : ℕ) :
    rdone cs (reserve (-1) cs sched) t ↔ reserving cs (reserve (-1) cs sched) t = false := by
  have hinv := rinv_run sched _ (rinv_start (-1 : ℤ) cs)
  unfold rdone reserving
  constructor
  · intro h
    rcases e : cs[t]? with _ | k
    · rfl
    · rw [h k e]
      simp
  · intro h k hk
    have hle := hinv.le t k hk
    rw [hk] at h
    unfold reserve at h ⊢
    cases hp : (sched.foldl (rstep cs) ⟨fun _ => -1, fun _ => .load 0⟩).pc t with
    | load i =>
      rw [hp] at h hle
      simp only [decide_eq_false_iff_not, RPc.pos] at h hle
      congr 1
      omega
    | cas i seen =>
      rw [hp] at h
      simp at h

theorem beats_of_max {V : Type} [LinearOrder V] {neutral : V} {cs : List (Contender V)} (hid : GoodIds neutral cs)
    (hne : cs ≠ []) : ∃ t < cs.length, Beats cs t := by
  classical
  obtain ⟨k, hk, h⟩ : ∃ k ∈ cs, ∀ k' ∈ cs, k'.id ≤ k.id := by
    obtain ⟨k, hk, h⟩ := Finset.exists_max_image cs.toFinset (fun k => k.id) (by
      obtain ⟨a, ha⟩ := List.exists_mem_of_ne_nil cs hne
      exact ⟨a, by simpa using ha⟩)
    exact ⟨k, by simpa using hk, fun k' hk' => h k' (by simpa using hk')⟩
  obtain ⟨t, ht⟩ := List.mem_iff_getElem?.mp hk
  refine ⟨t, (List.getElem?_eq_some_iff.mp ht).1, ?_⟩
  intro k1 k' t' hk1 hk' hne _
  rw [ht] at hk1
  cases hk1
  exact lt_of_le_of_ne (h k' (List.mem_of_getElem? hk')) fun he => hne (hid.inj t' t k' k hk' ht he)

theorem succeeded_map (p : ℕ → Bool) : ∀ js : List Job,
    succeeded (js.map fun j => j.v) ((List.range js.length).map fun t => !p t) =
      ((List.range js.length).filterMap fun t => if p t then js[t]? else none).map fun j => j.v
  | [] => rfl
  | j :: js => by
    have ih := succeeded_map (fun t => p (t + 1)) js
    unfold succeeded at ih ⊢
    rw [List.length_cons, List.range_succ_eq_map]
    simp only [List.map_cons, List.zip_cons_cons, List.filterMap_cons, List.map_map, List.filterMap_map,
      Function.comp_def, List.getElem?_cons_zero, Nat.succ_eq_add_one, List.getElem?_cons_succ] at ih ⊢
    cases hp : p 0 with
    | true => simp [ih]
    | false => simp [ih]

/-- C62: a round, for every interleaving. The result does not depend on the interleaving: unless some thread is not
through, the round ends with the mesh `m'` and the flags of `RoundOk`, and all reservations are withdrawn. In particular
no thread calls `abort`. If every thread gets enough steps, all are through. -/
theorem c62_round (h : RoundPre pos id near live vs m b) {fuel : ℕ} (hf : 3 * live.card + 2 ≤ fuel) :
    ∃ m' flags, RoundOk pos id live vs m b m' flags ∧ ∀ s1 s2 s3 : List ℕ,
      (insertRound pos id near fuel m (fun _ => -1) b s1 s2 s3 = .error .fuel ∨
        insertRound pos id near fuel m (fun _ => -1) b s1 s2 s3 = .ok (m', fun _ => -1, flags)) ∧
      ∀ M : ℕ, (∀ u ∈ vs, u < M) →
        (∀ t < b.length, roundBound b.length M live.card ≤ s1.count t ∧ roundBound b.length M live.card ≤ s2.count t ∧
          roundBound b.length M live.card ≤ s3.count t) →
        insertRound pos id near fuel m (fun _ => -1) b s1 s2 s3 = .ok (m', fun _ => -1, flags) := by
  classical
  obtain ⟨js0, hb, hready, hprep⟩ := prepareAll_ok (near := near) h.mesh hf b h.new h.ne h.within h.fresh h.near
  have hd := isDelaunay_iff.mp h.mesh
  have hlen : js0.length = b.length := by rw [← hb, List.length_map]
  have hbv : ∀ j ∈ js0, j.v ∈ b := fun j hj => hb ▸ List.mem_map.mpr ⟨j, hj, rfl⟩
  set cs : List (Contender ℤ) := js0.map (Job.contender id m) with hcs
  have hcl : cs.length = js0.length := by rw [hcs, List.length_map]
  have hcg : ∀ (t : ℕ) k, cs[t]? = some k ↔ ∃ j, js0[t]? = some j ∧ j.contender id m = k := by
    intro t k
    rw [hcs, List.getElem?_map]
    cases js0[t]? <;> simp
  have hdist : ∀ (t t' : ℕ) j j', js0[t]? = some j → js0[t']? = some j' → t ≠ t' → pos j.v ≠ pos j'.v := by
    intro t t' j j' e e' hne he
    have hnd : (js0.map fun j => pos j.v).Nodup := by
      have := h.distinct
      rwa [← hb, List.map_map] at this
    obtain ⟨l, rfl⟩ := List.getElem?_eq_some_iff.mp e
    obtain ⟨l', rfl⟩ := List.getElem?_eq_some_iff.mp e'
    apply hne
    exact (List.Nodup.getElem_inj_iff hnd (hi := by simpa using l) (hj := by simpa using l')).mp (by simpa using he)
  have hid : GoodIds (-1) cs := by
    constructor
    · intro t t' k k' hk hk' he
      obtain ⟨j, e, rfl⟩ := (hcg t k).mp hk
      obtain ⟨j', e', rfl⟩ := (hcg t' k').mp hk'
      by_contra hne
      refine hdist t t' j j' e e' hne ?_
      rw [h.inj _ (hbv j (List.mem_of_getElem? e)) _ (hbv j' (List.mem_of_getElem? e')) he]
    · intro k hk
      rw [hcs, List.mem_map] at hk
      obtain ⟨j, hj, rfl⟩ := hk
      have := h.nonneg _ (hbv j hj)
      simp only [Job.contender]
      omega
  have hnd : ∀ k ∈ cs, k.cells.Nodup := by
    intro k hk
    rw [hcs, List.mem_map] at hk
    obtain ⟨j, hj, rfl⟩ := hk
    exact (hready j hj).nodup
  -- the winners
  let p : ℕ → Bool := fun t => decide (Beats cs t)
  let f : ℕ → Option Job := fun t => if p t then js0[t]? else none
  have hfs : ∀ t j, f t = some j ↔ Beats cs t ∧ js0[t]? = some j := by
    intro t j
    simp only [f, p]
    by_cases hB : Beats cs t <;> simp [hB]
  set js : List Job := (List.range js0.length).filterMap f with hjs
  have hmem : ∀ j, j ∈ js ↔ ∃ t, f t = some j := by
    intro j
    rw [hjs, List.mem_filterMap]
    constructor
    · rintro ⟨t, -, e⟩
      exact ⟨t, e⟩
    · rintro ⟨t, e⟩
      exact ⟨t, List.mem_range.mpr (List.getElem?_eq_some_iff.mp ((hfs t j).mp e).2).1, e⟩
  have hslot : ∀ (t t' : ℕ) j j', js0[t]? = some j → js0[t']? = some j' → t < t' →
      List.Disjoint [m.vt j.v, m.vt j.v + 1] [m.vt j'.v, m.vt j'.v + 1] := by
    intro t t' j j' e e' hlt
    have hsl := h.slots
    rw [List.nodup_flatMap, ← hb, List.pairwise_map] at hsl
    obtain ⟨l, rfl⟩ := List.getElem?_eq_some_iff.mp e
    obtain ⟨l', rfl⟩ := List.getElem?_eq_some_iff.mp e'
    exact List.pairwise_iff_getElem.mp hsl.2 t t' l l' hlt
  have hround : Round pos live vs m js := by
    refine ⟨hd, ?_, ?_, ?_, ?_⟩
    · intro j hj
      obtain ⟨t, e⟩ := (hmem j).mp hj
      exact (hready j (List.mem_of_getElem? ((hfs t j).mp e).2)).pend
    · rw [List.Nodup, List.pairwise_map, hjs, List.pairwise_filterMap]
      refine List.pairwise_lt_range.imp ?_
      intro t t' hlt j e j' e'
      exact hdist t t' j j' ((hfs t j).mp e).2 ((hfs t' j').mp e').2 hlt.ne
    · rw [hjs, List.pairwise_filterMap]
      refine List.pairwise_lt_range.imp ?_
      intro t t' hlt j e j' e' u hu hu'
      obtain ⟨b1, g1⟩ := (hfs t j).mp e
      obtain ⟨b2, g2⟩ := (hfs t' j').mp e'
      have k1 := b1 _ _ t' ((hcg t _).mpr ⟨j, g1, rfl⟩) ((hcg t' _).mpr ⟨j', g2, rfl⟩) hlt.ne' ⟨u, hu', hu⟩
      have k2 := b2 _ _ t ((hcg t' _).mpr ⟨j', g2, rfl⟩) ((hcg t _).mpr ⟨j, g1, rfl⟩) hlt.ne ⟨u, hu, hu'⟩
      exact absurd k1 (not_lt.mpr k2.le)
    · rw [List.nodup_flatMap]
      refine ⟨fun j _ => by simp, ?_⟩
      rw [hjs, List.pairwise_filterMap]
      refine List.pairwise_lt_range.imp ?_
      intro t t' hlt j e j' e'
      exact hslot t t' j j' ((hfs t j).mp e).2 ((hfs t' j').mp e').2 hlt
  have hfinj : ∀ t t' j, f t = some j → f t' = some j → t = t' := by
    intro t t' j e e'
    by_contra hne
    exact hdist t t' j j ((hfs t j).mp e).2 ((hfs t' j).mp e').2 hne rfl
  obtain ⟨cur, hrun, hpar⟩ := round_interleave hround (fun t j e => (hmem j).mpr ⟨t, e⟩) hfinj
    (fun j hj => (hmem j).mp hj)
  obtain ⟨cur', hrun', hdm, hout, hvt⟩ := round_ok js live vs m hround
  rw [hrun] at hrun'
  cases hrun'
  set flags : List Bool := (List.range b.length).map fun t => !p t with hflags
  have hsucc : succeeded b flags = js.map fun j => j.v := by
    have := succeeded_map p js0
    rw [hb, hlen] at this
    rw [hflags, this, hjs, hlen]
  have hall : allotted m (succeeded b flags) = slotsOf m js := by
    unfold allotted slotsOf
    rw [hsucc, List.flatMap_map]
  have hver : (succeeded b flags).toFinset = vertsOf js := by
    rw [hsucc]
    rfl
  refine ⟨cur, flags, ⟨?_, ?_, ?_, ?_, ?_, ?_⟩, ?_⟩
  · rw [hflags, List.length_map, List.length_range]
  · intro hne
    obtain ⟨t, ht, hB⟩ := beats_of_max hid (by
      intro e
      apply hne
      rw [← List.length_eq_zero_iff, ← hlen, ← hcl, e]
      rfl)
    rw [hflags, List.mem_map]
    exact ⟨t, List.mem_range.mpr (by omega), by simp [p, hB]⟩
  · intro i v hv
    have hi : i < b.length := (List.getElem?_eq_some_iff.mp hv).1
    have hg : ∀ (i v : ℕ), b[i]? = some v → ∃ j, js0[i]? = some j ∧ j.v = v := by
      intro i v hv
      rw [← hb, List.getElem?_map] at hv
      cases e : js0[i]? with
      | none => simp [e] at hv
      | some j => exact ⟨j, rfl, by simpa [e] using hv⟩
    have e1 : flags[i]? = some false ↔ Beats cs i := by
      rw [hflags, List.getElem?_map, List.getElem?_range hi]
      simp [p]
    rw [e1]
    constructor
    · intro hB j w hw hji ⟨u, u1, u2⟩
      obtain ⟨a, ha, rfl⟩ := hg i v hv
      obtain ⟨a', ha', rfl⟩ := hg j w hw
      exact hB _ _ j ((hcg i _).mpr ⟨a, ha, rfl⟩) ((hcg j _).mpr ⟨a', ha', rfl⟩) hji
        ⟨u, ((hready a (List.mem_of_getElem? ha)).mem u).mpr u1, ((hready a' (List.mem_of_getElem? ha')).mem u).mpr u2⟩
    · intro hB k k' t' hk hk' hne ⟨u, u1, u2⟩
      obtain ⟨a, ha, rfl⟩ := (hcg i k).mp hk
      obtain ⟨a', ha', rfl⟩ := (hcg t' k').mp hk'
      have e2 : a.v = v := by
        obtain ⟨a2, h1, h2⟩ := hg i v hv
        rw [ha] at h1
        cases h1
        exact h2
      subst e2
      refine hB t' a'.v ?_ hne ⟨u, ((hready a (List.mem_of_getElem? ha)).mem u).mp u1,
        ((hready a' (List.mem_of_getElem? ha')).mem u).mp u2⟩
      rw [← hb, List.getElem?_map, ha']
      rfl
  · rw [hall, hver]
    exact isDelaunay_iff.mpr hdm
  · rw [hall]
    exact hout
  · intro u hu hu'
    refine hvt u (by rw [← hver]; simpa using hu') fun j hj huq => hu ?_
    exact (hround.pend j hj).vq_vs hd huq
  -- the run
  intro s1 s2 s3
  have hcs' : ((js0.map (Job.prep m)).map fun p => (⟨id p.v, p.vq⟩ : Contender ℤ)) = cs := by
    rw [hcs, List.map_map]
    rfl
  have hrd : (List.range b.length).any (reserving cs (reserve (-1) cs s1)) = false ↔
      ∀ t, rdone cs (reserve (-1) cs s1) t := by
    rw [List.any_eq_false]
    constructor
    · intro hn t
      by_cases ht : t < b.length
      · exact (reserving_iff s1 t).mpr (by simpa using hn t (List.mem_range.mpr ht))
      · intro k hk
        exact absurd (List.getElem?_eq_some_iff.mp hk).1 (by omega)
    · intro hn t _
      rw [(reserving_iff s1 t).mp (hn t)]
      simp
  set r := reserve (-1) cs s1 with hr
  have hcd : (List.range b.length).any (fun t => (won cs (check (-1) cs r.mem s2) t).isNone) = false ↔
      CDone cs (check (-1) cs r.mem s2) := by
    rw [List.any_eq_false]
    unfold CDone
    rw [hcl, hlen]
    simp [Option.isNone_iff_eq_none]
  set c := check (-1) cs r.mem s2 with hc
  have hwin : (∀ t, rdone cs r t) → CDone cs c → winner (js0.map (Job.prep m)) cs c = threads f := by
    intro h1 h2
    funext t
    unfold winner threads
    by_cases ht : t < cs.length
    · obtain ⟨w, hw, hwB⟩ := c40_wins_iff hid hnd h1 h2 ht
      rw [hw, List.getElem?_map, List.getElem?_eq_getElem (show t < js0.length by omega)]
      cases w with
      | true =>
        have : f t = some js0[t] := (hfs t _).mpr ⟨hwB.mp rfl, List.getElem?_eq_getElem _⟩
        simp only [this, Option.map_some]
        rfl
      | false =>
        have : f t = none := by
          rcases e : f t with _ | j
          · rfl
          · exact absurd (hwB.mpr ((hfs t j).mp e).1) (by simp)
        simp only [this, Option.map_some]
    · have e1 : js0[t]? = none := List.getElem?_eq_none (by omega)
      have : f t = none := by
        rcases e : f t with _ | j
        · rfl
        · rw [((hfs t j).mp e).2] at e1
          simp at e1
      rw [List.getElem?_map, e1, this]
      rfl
  have hflag : (∀ t, rdone cs r t) → CDone cs c →
      (List.range b.length).map (fun t => !(won cs c t).getD false) = flags := by
    intro h1 h2
    rw [hflags]
    refine List.map_congr_left fun t ht => ?_
    rw [List.mem_range] at ht
    obtain ⟨w, hw, hwB⟩ := c40_wins_iff hid hnd h1 h2 (show t < cs.length by omega)
    rw [hw]
    simp only [Option.getD_some, p]
    cases w with
    | true => simp [hwB.mp rfl]
    | false =>
      have : ¬ Beats cs t := fun g => absurd (hwB.mpr g) (by simp)
      simp [this]
  have hdone : ∀ q : MProg, isDone q = true ↔ q = .done := by
    intro q
    cases q <;> simp [isDone]
  have habort : ∀ q : MProg, isAbort q = true ↔ q = .abort := by
    intro q
    cases q <;> simp [isAbort]
  obtain ⟨i1, i2, i3⟩ := hpar s3
  have hfnone : ∀ t, ¬ t < b.length → f t = none := by
    intro t ht
    rcases e : f t with _ | j
    · rfl
    · exact absurd (List.getElem?_eq_some_iff.mp ((hfs t j).mp e).2).1 (by omega)
  have hab : (List.range b.length).any (fun t => isAbort ((prun ⟨toMem m, threads f⟩ s3).pc t)) = false := by
    rw [List.any_eq_false]
    intro t _
    rw [habort]
    exact i1 t
  have hdn : (List.range b.length).any (fun t => !isDone ((prun ⟨toMem m, threads f⟩ s3).pc t)) = false ↔
      ∀ t, (prun ⟨toMem m, threads f⟩ s3).pc t = .done := by
    rw [List.any_eq_false]
    constructor
    · intro hn t
      by_cases ht : t < b.length
      · have := hn t (List.mem_range.mpr ht)
        exact (hdone _).mp (by simpa using this)
      · exact i2 t fun g => absurd (hfnone t ht) g
    · intro hn t _
      rw [hn t]
      simp [isDone]
  have main : insertRound pos id near fuel m (fun _ => -1) b s1 s2 s3 =
      if (List.range b.length).any (reserving cs r) then .error .fuel else
      if (List.range b.length).any (fun t => (won cs c t).isNone) then .error .fuel else
      if (List.range b.length).any (fun t => isAbort ((prun ⟨toMem m, winner (js0.map (Job.prep m)) cs c⟩ s3).pc t)) then
        .error .throws else
      if (List.range b.length).any (fun t => !isDone ((prun ⟨toMem m, winner (js0.map (Job.prep m)) cs c⟩ s3).pc t)) then
        .error .fuel else
      .ok (ofMem (prun ⟨toMem m, winner (js0.map (Job.prep m)) cs c⟩ s3).mem, c.mem,
        (List.range b.length).map fun t => !(won cs c t).getD false) := by
    unfold insertRound
    rw [hprep]
    simp only [Except.bind]
    rw [hcs']
    rfl
  have good : (∀ t, rdone cs r t) → CDone cs c → (∀ t, (prun ⟨toMem m, threads f⟩ s3).pc t = .done) →
      insertRound pos id near fuel m (fun _ => -1) b s1 s2 s3 = .ok (cur, fun _ => -1, flags) := by
    intro h1 h2 h3
    rw [main, hwin h1 h2, hflag h1 h2, hrd.mpr h1, hcd.mpr h2, hab, hdn.mpr h3, i3 h3, ofMem_toMem]
    simp only [Bool.false_eq_true, if_false]
    have : c.mem = fun _ => -1 := by
      funext x
      exact c40_cells_reset hid hnd h1 h2 x
    rw [this]
  refine ⟨?_, ?_⟩
  · by_cases h1 : ∀ t, rdone cs r t
    · by_cases h2 : CDone cs c
      · by_cases h3 : ∀ t, (prun ⟨toMem m, threads f⟩ s3).pc t = .done
        · exact Or.inr (good h1 h2 h3)
        · left
          rw [main, hwin h1 h2, hrd.mpr h1, hcd.mpr h2, hab]
          rw [← hdn] at h3
          simp only [Bool.not_eq_false] at h3
          rw [h3]
          simp
      · left
        rw [main, hrd.mpr h1]
        rw [← hcd] at h2
        simp only [Bool.not_eq_false] at h2
        rw [h2]
        simp
    · left
      rw [main]
      rw [← hrd] at h1
      simp only [Bool.not_eq_false] at h1
      rw [h1]
      simp
  · intro M hM hfair
    have hcell : ∀ k ∈ cs, ∀ u ∈ k.cells, u < M := by
      intro k hk u hu
      rw [hcs, List.mem_map] at hk
      obtain ⟨j, hj, rfl⟩ := hk
      exact hM u ((hready j hj).pend.vq_vs hd hu)
    refine good ?_ ?_ ?_
    · intro t
      refine rdone_of_fair hcell hnd ?_ t
      intro t ht
      rw [hcl, hlen] at ht ⊢
      exact (Nat.le_add_right _ _).trans (hfair t ht).1
    · refine cdone_of_fair hid hnd _ ?_
      intro t k hk
      have ht : t < b.length := by
        have := (List.getElem?_eq_some_iff.mp hk).1
        omega
      have hk' := List.mem_of_getElem? hk
      have hle : k.cells.length ≤ M := by
        have hsub : k.cells.toFinset ⊆ Finset.range M := by
          intro u hu
          exact Finset.mem_range.mpr (hcell k hk' u (List.mem_toFinset.mp hu))
        have := Finset.card_le_card hsub
        rwa [List.toFinset_card_of_nodup (hnd k hk'), Finset.card_range] at this
      have h2 := (hfair t ht).2.1
      unfold roundBound reserveBound at h2
      have : M ≤ b.length * M := Nat.le_mul_of_pos_left M (by omega)
      omega
    · intro t
      refine i2 t fun hne => ?_
      have ht : t < b.length := by
        by_contra hcon
        exact hne (hfnone t hcon)
      exact (Nat.le_add_left _ _).trans (hfair t ht).2.2

end

/-! ### Cases -/

/-- Two vertices whose cavities both are the whole square. -/
theorem sqMesh_round : RoundPre sqPos (fun v => (v : ℤ)) (fun _ => 3) {0, 1} {0, 1, 2, 3} sqMesh [5, 4] where
  mesh := sqMesh_delaunay
  new := by decide
  ne := by decide +kernel
  within := by
    intro v hv
    simp only [List.mem_cons, List.not_mem_nil, or_false] at hv
    rcases hv with rfl | rfl
    · exact sqMesh_within _ (by decide +kernel) (by decide +kernel) (by decide +kernel) (by decide +kernel)
    · exact sqMesh_within _ (by decide +kernel) (by decide +kernel) (by decide +kernel) (by decide +kernel)
  distinct := by decide +kernel
  fresh := by decide
  slots := by decide
  near := by decide
  inj := by decide
  nonneg := by decide

example := c62_round sqMesh_round (fuel := 8) (by decide)

/-- A schedule that gives every thread enough steps. -/
example : ∀ t < 2, roundBound 2 4 2 ≤ ((List.range 250).flatMap fun _ => [1, 0]).count t := by decide +kernel

/-- Vertex 5 is inserted, vertex 4 has to try again. -/
example : ((insertRound sqPos (fun v => (v : ℤ)) (fun _ => 3) 8 sqMesh (fun _ => -1) [5, 4]
    ((List.range 100).flatMap fun _ => [1, 0]) ((List.range 100).flatMap fun _ => [1, 0])
    ((List.range 100).flatMap fun _ => [1, 0])).map fun x =>
      ((List.range 2).map fun t => (List.finRange 3).map (x.1.vtx t), x.2.2)).toOption =
    some ([[5, 1, 2], [0, 5, 3]], [false, true]) := by decide +kernel

end Verif.Delaunay
