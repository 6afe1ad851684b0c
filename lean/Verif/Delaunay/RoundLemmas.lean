import Verif.Delaunay.InsertProps

set_option linter.unusedSectionVars false
set_option linter.unusedVariables false

/-!
Several insertions prepared on the same mesh: what one of them leaves of the others.
-/

namespace Verif.Delaunay

open CT

variable {K : Type} [Field K] [LinearOrder K] [IsStrictOrderedRing K]

/-- A prepared insertion: vertex, triangle with orientation, and the search trees. -/
structure Job where
  v : ℕ
  t : ℕ
  o : Fin 3
  c : Fin 3 → CT

def Job.vq (m : Mesh) (j : Job) : List ℕ := vertexQ m j.t j.o j.c

def Job.sq (j : Job) : List Simplex := simplexQ j.o j.c

/-- The job is right for the mesh. -/
structure Pend (pos : ℕ → P2 K) (live vs : Finset ℕ) (m : Mesh) (j : Job) : Prop where
  tl : j.t ∈ live
  tree : ∀ i, IsCT (fun T => 0 < circT pos m T (pos j.v)) live m (m.vtx j.t (i + 2)) (m.vtx j.t i) (j.c i)
  closed : InClosed pos m j.t (pos j.v)
  new : j.v ∉ vs
  ne : ∀ u ∈ vs, pos u ≠ pos j.v
  within : Within pos live m (pos j.v)
  fst : m.vt j.v ∉ live
  snd : m.vt j.v + 1 ∉ live

section
variable {pos : ℕ → P2 K} {live vs : Finset ℕ} {m : Mesh}

/-- The two triangles added for a job. -/
def Job.slots (m : Mesh) (j : Job) (live : Finset ℕ) : Finset ℕ := insert (m.vt j.v) (insert (m.vt j.v + 1) live)

/-- The result of one insertion, as far as others need it. -/
structure Inserted (pos : ℕ → P2 K) (live vs : Finset ℕ) (m : Mesh) (j : Job) (cur : Mesh) (proc : Finset ℕ) : Prop where
  run : insertMesh m j.v j.t j.sq = .ok cur
  st : St pos live (insert j.v vs) m j.v (m.vt j.v) (m.vt j.v + 1) cur proc
  bad : ∀ y ∈ live, y ∈ proc ↔ 0 < circT pos m y (pos j.v)
  corners : ∀ y ∈ proc, ∀ k, m.vtx y k ∈ j.vq m
  nodup : (j.vq m).Nodup
  sv : ∀ u, SV (m.vt j.v) (m.vt j.v + 1) cur proc u ↔ u = j.v ∨ u ∈ j.vq m
  vt : ∀ u, u ≠ j.v → u ∉ j.vq m → cur.vt u = m.vt u
  foot : ∀ own, Owns own live m (m.vt j.v) (m.vt j.v + 1) cur proc →
    InsertFoot own m j.t j.v (m.vt j.v) (m.vt j.v + 1) j.sq cur
  dmesh : DMesh pos (j.slots m live) (insert j.v vs) cur

theorem Pend.run {j : Job} (h : DMesh pos live vs m) (hj : Pend pos live vs m j) :
    (∀ i, (j.c i).size < live.card) ∧ ∃ cur proc, Inserted pos live vs m j cur proc := by
  obtain ⟨c, cur, proc, tr, sz, ru, st, clo, pr, cor, nd, sv, vtk, foot, dm⟩ :=
    insert_delaunay h hj.new hj.ne hj.tl hj.closed ((within_iff _).mp hj.within) hj.fst hj.snd (by omega) j.o
  have hc : c = j.c := by
    funext i
    exact isCT_unique h.planar _ _ _ _ _ (tr i) (hj.tree i)
  subst hc
  exact ⟨sz, cur, proc, ru, st, pr, cor, nd, sv, vtk, foot, dm⟩

theorem Inserted.split {j : Job} {cur : Mesh} {proc : Finset ℕ} (hi : Inserted pos live vs m j cur proc) {x : ℕ}
    (hx : x ∈ j.slots m live) : x ∈ insert (m.vt j.v) (insert (m.vt j.v + 1) proc) ∨ (x ∈ live ∧ x ∉ proc) := by
  unfold Job.slots at hx
  simp only [Finset.mem_insert] at hx ⊢
  by_cases hp : x ∈ proc
  · exact Or.inl (Or.inr (Or.inr hp))
  · rcases hx with g | g | g
    · exact Or.inl (Or.inl g)
    · exact Or.inl (Or.inr (Or.inl g))
    · exact Or.inr ⟨g, hp⟩

/-- A search tree whose vertices are not reserved by another job stays. -/
theorem tree_keep {j : Job} {cur : Mesh} {proc : Finset ℕ} (h : DMesh pos live vs m) (hj : j.v ∉ vs)
    (hi : Inserted pos live vs m j cur proc) (p : P2 K) :
    ∀ (c : CT) (b a : ℕ), IsCT (fun T => 0 < circT pos m T p) live m b a c → b ∉ j.vq m → a ∉ j.vq m →
      a ∈ vs → (∀ u ∈ c.inord m, u ∉ j.vq m) →
      IsCT (fun T => 0 < circT pos cur T p) (j.slots m live) cur b a c ∧ c.inord cur = c.inord m
  | .stop, b, a, hc, hb, ha, hav, hu => by
    refine ⟨?_, rfl⟩
    intro T hT o e1 e2
    rcases hi.split hT with hs | ⟨hl, hp⟩
    · have : SV (m.vt j.v) (m.vt j.v + 1) cur proc a := ⟨T, hs, _, e1⟩
      rcases (hi.sv a).mp this with e | e
      · exact absurd (e ▸ hav) hj
      · exact absurd e ha
    · have e := hi.st.old T hl hp
      have := hc T hl o (by rw [← e, e1]) (by rw [← e, e2])
      have he : circT pos cur T p = circT pos m T p := by
        unfold circT
        rw [e, e, e]
      show ¬ 0 < circT pos cur T p
      rw [he]
      exact this
  | .step T o l r, b, a, hc, hb, ha, hav, hu => by
    obtain ⟨hT, t1, t2, t3, hl, hr⟩ := hc
    have hTp : T ∉ proc := fun g => ha (t1 ▸ hi.corners T g _)
    have e := hi.st.old T hT hTp
    have hmid : m.vtx T (o + 1) ∉ j.vq m := hu _ (by simp [inord])
    obtain ⟨l1, l2⟩ := tree_keep h hj hi p l _ _ hl hb hmid (h.corner T hT _) fun u k => hu u (by simp [inord, k])
    obtain ⟨r1, r2⟩ := tree_keep h hj hi p r _ _ hr hmid ha hav fun u k => hu u (by simp [inord, k])
    refine ⟨⟨?_, by rw [e, t1], by rw [e, t2], ?_, by rw [e]; exact l1, by rw [e]; exact r1⟩, ?_⟩
    · unfold Job.slots
      simp [hT]
    · have he : circT pos cur T p = circT pos m T p := by
        unfold circT
        rw [e, e, e]
      show 0 < circT pos cur T p
      rw [he]
      exact t3
    · simp only [inord, l2, r2, e]

/-- A job that shares no reserved vertex with the one carried out stays right. -/
theorem Pend.keep {j j' : Job} {cur : Mesh} {proc : Finset ℕ} (h : DMesh pos live vs m) (hj : j.v ∉ vs)
    (hi : Inserted pos live vs m j cur proc) (hj' : Pend pos live vs m j') (hne : pos j.v ≠ pos j'.v)
    (hq : ∀ u ∈ j'.vq m, u ∉ j.vq m) (hs : m.vt j'.v ∉ j.slots m live) (hs' : m.vt j'.v + 1 ∉ j.slots m live) :
    Pend pos (j.slots m live) (insert j.v vs) cur j' ∧ j'.vq cur = j'.vq m ∧ cur.vt j'.v = m.vt j'.v := by
  have hvv : j'.v ≠ j.v := fun e => hne (by rw [e])
  have hcor : ∀ i, m.vtx j'.t i ∈ j'.vq m := by
    intro i
    simp only [Job.vq, vertexQ, List.mem_cons, List.mem_append]
    rcases fin3_cases j'.o i with rfl | rfl | rfl <;> simp
  have hin : ∀ i, ∀ u ∈ (j'.c i).inord m, u ∈ j'.vq m := by
    intro i u hu
    simp only [Job.vq, vertexQ, List.mem_cons, List.mem_append]
    rcases fin3_cases j'.o i with rfl | rfl | rfl <;> simp [hu]
  have htp : j'.t ∉ proc := fun g => hq _ (hcor 0) (hi.corners _ g _)
  have e := hi.st.old j'.t hj'.tl htp
  have htr := fun i => tree_keep h hj hi (pos j'.v) (j'.c i) _ _ (hj'.tree i) (hq _ (hcor _)) (hq _ (hcor _))
    (h.corner _ hj'.tl _) fun u hu => hq u (hin i u hu)
  have hvt : cur.vt j'.v = m.vt j'.v := by
    refine hi.vt _ hvv fun hm => hj'.new ?_
    obtain ⟨x, hx, k, e⟩ := (hi.sv _).mpr (Or.inr hm)
    have := hi.dmesh.corner x (hi.st.star_live hx) k
    rw [e, Finset.mem_insert] at this
    exact this.resolve_left hvv
  refine ⟨⟨?_, ?_, ?_, ?_, ?_, ?_, ?_, ?_⟩, ?_, hvt⟩
  · unfold Job.slots
    simp [hj'.tl]
  · intro i
    rw [e, e]
    exact (htr i).1
  · intro i
    rw [e, e]
    exact hj'.closed i
  · rw [Finset.mem_insert, not_or]
    exact ⟨hvv, hj'.new⟩
  · intro u hu
    rw [Finset.mem_insert] at hu
    rcases hu with rfl | hu
    · exact hne
    · exact hj'.ne u hu
  · intro s d hsd
    exact hj'.within s d ((hi.st.outline h hj s d).mp hsd)
  · rw [hvt]
    exact hs
  · rw [hvt]
    exact hs'
  · simp only [Job.vq, vertexQ, e, (htr _).2]

/-- The insertions of a list of jobs, one after the other. -/
def insertAll (m : Mesh) : List Job → Except Err Mesh
  | [] => .ok m
  | j :: js => (insertMesh m j.v j.t j.sq).bind fun m => insertAll m js

/-- The triangles after the insertions. -/
def slotsOf (m : Mesh) (js : List Job) : Finset ℕ := (js.flatMap fun j => [m.vt j.v, m.vt j.v + 1]).toFinset

def vertsOf (js : List Job) : Finset ℕ := (js.map fun j => j.v).toFinset

/-- Jobs prepared on the same mesh that share no reserved vertex. -/
structure Round (pos : ℕ → P2 K) (live vs : Finset ℕ) (m : Mesh) (js : List Job) : Prop where
  mesh : DMesh pos live vs m
  pend : ∀ j ∈ js, Pend pos live vs m j
  pos : (js.map fun j => pos j.v).Nodup
  vq : js.Pairwise (fun j j' => ∀ u ∈ j'.vq m, u ∉ j.vq m)
  slots : (js.flatMap fun j => [m.vt j.v, m.vt j.v + 1]).Nodup

/-- Carrying out the first job leaves the others right. -/
theorem Round.step {j : Job} {js : List Job} (h : Round pos live vs m (j :: js)) :
    ∃ cur proc, Inserted pos live vs m j cur proc ∧ Round pos (j.slots m live) (insert j.v vs) cur js ∧
      ∀ j' ∈ js, j'.vq cur = j'.vq m ∧ cur.vt j'.v = m.vt j'.v := by
  obtain ⟨h, hp, hpos, hq, hs⟩ := h
  have hj := hp j (by simp)
  obtain ⟨-, cur, proc, hi⟩ := hj.run h
  rw [List.map_cons, List.nodup_cons] at hpos
  rw [List.pairwise_cons] at hq
  rw [List.flatMap_cons, List.nodup_append] at hs
  obtain ⟨-, hs2, hs3⟩ := hs
  have hslot : ∀ j' ∈ js, m.vt j'.v ∉ j.slots m live ∧ m.vt j'.v + 1 ∉ j.slots m live := by
    intro j' hj'
    have hp' := hp j' (by simp [hj'])
    have m1 : m.vt j'.v ∈ js.flatMap fun j => [m.vt j.v, m.vt j.v + 1] :=
      List.mem_flatMap.mpr ⟨j', hj', by simp⟩
    have m2 : m.vt j'.v + 1 ∈ js.flatMap fun j => [m.vt j.v, m.vt j.v + 1] :=
      List.mem_flatMap.mpr ⟨j', hj', by simp⟩
    unfold Job.slots
    simp only [Finset.mem_insert, not_or]
    refine ⟨⟨fun e => hs3 _ (by simp) _ m1 e.symm, fun e => hs3 _ (by simp) _ m1 e.symm, hp'.fst⟩,
      fun e => hs3 _ (by simp) _ m2 e.symm, fun e => hs3 _ (by simp) _ m2 e.symm, hp'.snd⟩
  have hk : ∀ j' ∈ js, _ := fun j' hj' => Pend.keep h hj.new hi (hp j' (by simp [hj']))
    (fun e => hpos.1 (List.mem_map.mpr ⟨j', hj', e.symm⟩)) (hq.1 j' hj') (hslot j' hj').1 (hslot j' hj').2
  have hfm : (js.flatMap fun j => [cur.vt j.v, cur.vt j.v + 1]) = js.flatMap fun j => [m.vt j.v, m.vt j.v + 1] := by
    refine List.flatMap_congr fun j' hj' => ?_
    rw [(hk j' hj').2.2]
  exact ⟨cur, proc, hi, ⟨hi.dmesh, fun j' hj' => (hk j' hj').1, hpos.2,
    hq.2.imp_of_mem (fun {x y} hx hy k => by rw [(hk x hx).2.1, (hk y hy).2.1]; exact k), by rw [hfm]; exact hs2⟩,
    fun j' hj' => (hk j' hj').2⟩

/-- Jobs prepared on the same mesh that share no reserved vertex can be carried out in the order of the list. -/
theorem round_ok : ∀ (js : List Job) (live vs : Finset ℕ) (m : Mesh), Round pos live vs m js →
    ∃ cur, insertAll m js = .ok cur ∧ DMesh pos (slotsOf m js ∪ live) (vertsOf js ∪ vs) cur ∧
      (∀ s d, OutlineEdge (slotsOf m js ∪ live) cur s d ↔ OutlineEdge live m s d) ∧
      ∀ u, u ∉ vertsOf js → (∀ j ∈ js, u ∉ j.vq m) → cur.vt u = m.vt u
  | [], live, vs, m, h => by
    refine ⟨m, rfl, ?_, ?_, fun _ _ _ => rfl⟩
    · simpa [slotsOf, vertsOf] using h.mesh
    · intro s d
      simp [slotsOf]
  | j :: js, live, vs, m, h => by
    obtain ⟨cur, proc, hi, hr, hk⟩ := h.step
    have hj := h.pend j (by simp)
    have hfm : (js.flatMap fun j => [cur.vt j.v, cur.vt j.v + 1]) = js.flatMap fun j => [m.vt j.v, m.vt j.v + 1] := by
      refine List.flatMap_congr fun j' hj' => ?_
      rw [(hk j' hj').2]
    obtain ⟨cur', e1, e2, e3, e4⟩ := round_ok js (j.slots m live) (insert j.v vs) cur hr
    have hsl : slotsOf cur js ∪ j.slots m live = slotsOf m (j :: js) ∪ live := by
      unfold slotsOf
      rw [hfm]
      ext x
      simp only [Job.slots, List.flatMap_cons, List.toFinset_append, Finset.mem_union, Finset.mem_insert,
        List.mem_toFinset, List.mem_cons, List.not_mem_nil, or_false]
      tauto
    have hve : vertsOf js ∪ insert j.v vs = vertsOf (j :: js) ∪ vs := by
      ext x
      simp only [vertsOf, List.map_cons, List.toFinset_cons, Finset.mem_union, Finset.mem_insert]
      tauto
    rw [hsl, hve] at e2
    rw [hsl] at e3
    refine ⟨cur', ?_, e2, ?_, ?_⟩
    · rw [insertAll, hi.run]
      exact e1
    · intro s d
      rw [e3]
      exact hi.st.outline h.mesh hj.new s d
    · intro u hu hu2
      have h1 : u ≠ j.v ∧ u ∉ vertsOf js := by
        simp only [vertsOf, List.map_cons, List.toFinset_cons, Finset.mem_insert, not_or] at hu ⊢
        exact hu
      rw [e4 u h1.2 fun j' hj' => by rw [(hk j' hj').1]; exact hu2 j' (by simp [hj'])]
      exact hi.vt u h1.1 (hu2 j (by simp))

/-- The reserved vertices are vertices of the mesh. -/
theorem Inserted.vq_vs {j : Job} {cur : Mesh} {proc : Finset ℕ} (hi : Inserted pos live vs m j cur proc)
    (hv : j.v ∉ vs) (hc : ∀ x ∈ live, ∀ k, m.vtx x k ∈ vs) : ∀ u ∈ j.vq m, u ∈ insert j.v vs := by
  intro u hu
  obtain ⟨x, hx, k, e⟩ := (hi.sv u).mpr (Or.inr hu)
  exact e ▸ hi.dmesh.corner x (hi.st.star_live hx) k

end

end Verif.Delaunay
