import Verif.Delaunay.ProgLemmas

set_option linter.unusedSectionVars false
set_option linter.unusedVariables false

/-!
The winners of a round touch different cells, so that the insertions may interleave.
-/

namespace Verif.Delaunay

open Verif.Par

variable {K : Type} [Field K] [LinearOrder K] [IsStrictOrderedRing K]
variable {pos : ℕ → P2 K} {live vs : Finset ℕ} {m : Mesh}

/-- What a job may touch: its two new triangles, the triangles with at least two reserved corners, and the pointers of
the reserved vertices and of the new one. -/
def Job.foot (m : Mesh) (live : Finset ℕ) (j : Job) : Cell → Prop
  | .ngh t _ => t = m.vt j.v ∨ t = m.vt j.v + 1 ∨ (t ∈ live ∧ ∃ i k, i ≠ k ∧ m.vtx t i ∈ j.vq m ∧ m.vtx t k ∈ j.vq m)
  | .vtx t _ => t = m.vt j.v ∨ t = m.vt j.v + 1 ∨ (t ∈ live ∧ ∃ i k, i ≠ k ∧ m.vtx t i ∈ j.vq m ∧ m.vtx t k ∈ j.vq m)
  | .vt u => u = j.v ∨ u ∈ j.vq m

theorem Inserted.owns {j : Job} {cur : Mesh} {proc : Finset ℕ} (h : DMesh pos live vs m) (hv : j.v ∉ vs)
    (hi : Inserted pos live vs m j cur proc) :
    Owns (j.foot m live) live m (m.vt j.v) (m.vt j.v + 1) cur proc := by
  have key : ∀ x ∈ live, ∀ i, SV (m.vt j.v) (m.vt j.v + 1) cur proc (m.vtx x i) → m.vtx x i ∈ j.vq m := by
    intro x hx i hs
    rcases (hi.sv _).mp hs with e | e
    · exact absurd (e ▸ h.corner x hx i) hv
    · exact e
  refine ⟨?_, ?_, ?_⟩
  · intro x hx i
    simp only [Finset.mem_insert] at hx
    have : x = m.vt j.v ∨ x = m.vt j.v + 1 ∨
        (x ∈ live ∧ ∃ i k, i ≠ k ∧ m.vtx x i ∈ j.vq m ∧ m.vtx x k ∈ j.vq m) := by
      rcases hx with e | e | e
      · exact Or.inl e
      · exact Or.inr (Or.inl e)
      · exact Or.inr (Or.inr ⟨hi.st.sub e, 0, 1, by decide, hi.corners x e 0, hi.corners x e 1⟩)
    exact ⟨this, this⟩
  · intro x hx i k hik h1 h2 l
    exact Or.inr (Or.inr ⟨hx, i, k, hik, key x hx i h1, key x hx k h2⟩)
  · intro u hu
    exact (hi.sv u).mp hu

theorem two_of_three (i k i' k' : Fin 3) (h : i ≠ k) (h' : i' ≠ k') : i = i' ∨ i = k' ∨ k = i' ∨ k = k' := by
  revert i k i' k'
  decide

theorem Pend.vq_vs {j : Job} (h : DMesh pos live vs m) (hj : Pend pos live vs m j) {u : ℕ} (hu : u ∈ j.vq m) : u ∈ vs := by
  obtain ⟨T, hT, k, rfl⟩ := vertexQ_corner hj.tl hj.tree hu
  exact h.corner T hT k

/-- The footprints of two winners are disjoint. -/
theorem foot_disjoint {j j' : Job} (h : DMesh pos live vs m) (hj : Pend pos live vs m j) (hj' : Pend pos live vs m j')
    (hv : j.v ≠ j'.v) (hq : ∀ u ∈ j'.vq m, u ∉ j.vq m)
    (hs : ∀ x, x = m.vt j.v ∨ x = m.vt j.v + 1 → ¬ (x = m.vt j'.v ∨ x = m.vt j'.v + 1)) (c : Cell) :
    j.foot m live c → ¬ j'.foot m live c := by
  have tri : ∀ t, (t = m.vt j.v ∨ t = m.vt j.v + 1 ∨
      (t ∈ live ∧ ∃ i k, i ≠ k ∧ m.vtx t i ∈ j.vq m ∧ m.vtx t k ∈ j.vq m)) →
      ¬ (t = m.vt j'.v ∨ t = m.vt j'.v + 1 ∨
        (t ∈ live ∧ ∃ i k, i ≠ k ∧ m.vtx t i ∈ j'.vq m ∧ m.vtx t k ∈ j'.vq m)) := by
    intro t h1 h2
    have a1 := hj.fst
    have a2 := hj.snd
    have b1 := hj'.fst
    have b2 := hj'.snd
    rcases h1 with e | e | ⟨e, i, k, hik, q1, q2⟩
    · rcases h2 with e' | e' | e'
      · exact hs t (Or.inl e) (Or.inl e')
      · exact hs t (Or.inl e) (Or.inr e')
      · exact a1 (e ▸ e'.1)
    · rcases h2 with e' | e' | e'
      · exact hs t (Or.inr e) (Or.inl e')
      · exact hs t (Or.inr e) (Or.inr e')
      · exact a2 (e ▸ e'.1)
    · rcases h2 with e' | e' | ⟨-, i', k', hik', q1', q2'⟩
      · exact b1 (e' ▸ e)
      · exact b2 (e' ▸ e)
      · rcases two_of_three i k i' k' hik hik' with rfl | rfl | rfl | rfl
        · exact hq _ q1' q1
        · exact hq _ q2' q1
        · exact hq _ q1' q2
        · exact hq _ q2' q2
  cases c with
  | ngh t i => exact tri t
  | vtx t i => exact tri t
  | vt u =>
    rintro (rfl | e) (e' | e')
    · exact hv e'
    · exact hj.new (hj'.vq_vs h e')
    · exact hj'.new (e' ▸ hj.vq_vs h e)
    · exact hq u e' e

/-- The program of a job. -/
def Job.prog (j : Job) : MProg := insertP j.v j.t j.sq

/-- A job alone. -/
theorem Pend.safe {j : Job} (h : DMesh pos live vs m) (hj : Pend pos live vs m j) :
    ∃ cur n, insertMesh m j.v j.t j.sq = .ok cur ∧ n ≤ 32 + 78 * live.card ∧
      Safe (j.foot m live) n (toMem m) j.prog (toMem cur) := by
  obtain ⟨sz, cur, proc, hi⟩ := hj.run h
  obtain ⟨n, hle, hn⟩ := Good.insert (hi.foot _ (hi.owns h hj.new))
  refine ⟨cur, n, hi.run, ?_, hn⟩
  have hpre : ∀ c : CT, c.pre.length = c.size := by
    intro c
    induction c with
    | stop => rfl
    | step T o l r ihl ihr =>
      simp only [CT.pre, CT.size, List.length_cons, List.length_append, ihl, ihr]
  have hlen : j.sq.length = (j.c j.o).size + (j.c (j.o + 1)).size + (j.c (j.o + 2)).size := by
    simp only [Job.sq, simplexQ, List.length_append, hpre]
    omega
  have a := sz j.o
  have b := sz (j.o + 1)
  have c := sz (j.o + 2)
  omega

/-- One after the other, every cell ends as its owner leaves it alone. -/
theorem seq_mem {own : Job → Cell → Prop} {m0 : Cell → Option ℕ} {f : Job → Cell → Option ℕ} :
    ∀ (js : List Job) (live vs : Finset ℕ) (cur : Mesh), Round pos live vs cur js →
      (∀ j ∈ js, ∃ n, Safe (own j) n m0 j.prog (f j)) →
      (∀ j ∈ js, ∀ c, own j c → toMem cur c = m0 c) →
      js.Pairwise (fun j j' => ∀ c, own j c → ¬ own j' c) →
      ∀ cur', insertAll cur js = .ok cur' →
        (∀ j ∈ js, ∀ c, own j c → toMem cur' c = f j c) ∧
        ∀ c, (∀ j ∈ js, ¬ own j c) → toMem cur' c = toMem cur c
  | [], live, vs, cur, h, hs, hm, hd, cur', hc => by
    cases hc
    exact ⟨by simp, fun _ _ => rfl⟩
  | j :: js, live, vs, cur, h, hs, hm, hd, cur', hc => by
    obtain ⟨cur1, proc, hi, hr, hk⟩ := h.step
    rw [insertAll, hi.run] at hc
    rw [List.pairwise_cons] at hd
    obtain ⟨n, hn⟩ := hs j (by simp)
    obtain ⟨w, w1, w2, w3⟩ := hn.transfer (toMem cur) (hm j (by simp))
    obtain ⟨n', -, hn'⟩ := Good.insert (hi.foot _ (hi.owns h.mesh (h.pend j (by simp)).new))
    have e : toMem cur1 = w := (hn'.det w1).2
    obtain ⟨r1, r2⟩ := seq_mem js _ _ cur1 hr (fun j' hj' => hs j' (by simp [hj'])) (by
      intro j' hj' c hc'
      rw [e, w3 c fun g => hd.1 j' hj' c g hc', hm j' (by simp [hj']) c hc']) hd.2 cur' hc
    refine ⟨?_, ?_⟩
    · intro j' hj' c hc'
      rw [List.mem_cons] at hj'
      rcases hj' with rfl | hj'
      · rw [r2 c fun j'' hj'' => hd.1 j'' hj'' c hc', e]
        exact w2 c hc'
      · exact r1 j' hj' c hc'
    · intro c hc'
      rw [r2 c fun j' hj' => hc' j' (by simp [hj']), e]
      exact w3 c (hc' j (by simp))

theorem Round.foots {js : List Job} (h : Round pos live vs m js) :
    js.Pairwise (fun j j' => ∀ c, j.foot m live c → ¬ j'.foot m live c) := by
  have hp := h.pend
  have h1 := List.pairwise_map.mp h.pos
  have h2 : js.Pairwise fun j j' => ∀ x ∈ [m.vt j.v, m.vt j.v + 1], ∀ y ∈ [m.vt j'.v, m.vt j'.v + 1], x ≠ y := by
    have := h.slots
    rw [List.nodup_flatMap] at this
    refine this.2.imp ?_
    intro a b hab x hx y hy e
    exact hab hx (e ▸ hy)
  refine ((h1.and h2).and h.vq).imp_of_mem ?_
  rintro j j' hj hj' ⟨⟨a, b⟩, c⟩
  refine foot_disjoint h.mesh (hp j hj) (hp j' hj') (fun e => a (by rw [e])) c ?_
  intro x hx hx'
  refine b x (by simpa using hx) x (by simpa using hx') rfl

/-- The threads of the parallel loop: thread `t` carries out job `f t`, if there is one. -/
def threads (f : ℕ → Option Job) (t : ℕ) : MProg :=
  match f t with
  | some j => j.prog
  | none => .done

/-- The parallel insertions, at the granularity of single accesses. -/
theorem round_interleave {js : List Job} (h : Round pos live vs m js) {f : ℕ → Option Job}
    (hf : ∀ t j, f t = some j → j ∈ js) (hinj : ∀ t t' j, f t = some j → f t' = some j → t = t')
    (hsur : ∀ j ∈ js, ∃ t, f t = some j) :
    ∃ cur : Mesh, insertAll m js = .ok cur ∧ ∀ sched : List ℕ,
      (∀ t, (prun ⟨toMem m, threads f⟩ sched).pc t ≠ .abort) ∧
      (∀ t, (f t ≠ none → 32 + 78 * live.card ≤ sched.count t) → (prun ⟨toMem m, threads f⟩ sched).pc t = .done) ∧
      ((∀ t, (prun ⟨toMem m, threads f⟩ sched).pc t = .done) → (prun ⟨toMem m, threads f⟩ sched).mem = toMem cur) := by
  classical
  obtain ⟨cur, hrun, -⟩ := round_ok js live vs m h
  have hsafe := fun j (hj : j ∈ js) => (h.pend j hj).safe h.mesh
  have : Nonempty Mesh := ⟨m⟩
  choose! g n hg using hsafe
  have hd := h.foots
  have hd' : ∀ j ∈ js, ∀ j' ∈ js, j ≠ j' → ∀ c, j.foot m live c → ¬ j'.foot m live c := by
    intro j hj j' hj' hne
    obtain ⟨t, l, rfl⟩ := List.mem_iff_getElem.mp hj
    obtain ⟨t', l', rfl⟩ := List.mem_iff_getElem.mp hj'
    intro c hc hc'
    have htt : t ≠ t' := by
      rintro rfl
      exact hne rfl
    rcases lt_or_gt_of_ne htt with hlt | hlt
    · exact List.pairwise_iff_getElem.mp hd t t' l l' hlt c hc hc'
    · exact List.pairwise_iff_getElem.mp hd t' t l' l hlt c hc' hc
  obtain ⟨s1, s2⟩ := seq_mem (own := Job.foot m live) (m0 := toMem m) (f := fun j => toMem (g j)) js live vs m h
    (fun j hj => ⟨_, (hg j hj).2.2⟩) (fun _ _ _ _ => rfl) hd cur hrun
  let own : ℕ → Cell → Prop := fun t c => ∃ j, f t = some j ∧ j.foot m live c
  let val : ℕ → Cell → Option ℕ := fun t => match f t with
    | some j => toMem (g j)
    | none => toMem m
  let cnt : ℕ → ℕ := fun t => match f t with
    | some j => n j
    | none => 0
  have hdis : ∀ t t' c, own t c → own t' c → t = t' := by
    rintro t t' c ⟨j, e, hc⟩ ⟨j', e', hc'⟩
    by_cases hjj : j = j'
    · subst hjj
      exact hinj t t' j e e'
    · exact absurd hc' (hd' j (hf t j e) j' (hf t' j' e') hjj c hc)
  have hsafe : ∀ t, Safe (own t) (cnt t) (toMem m) (threads f t) (val t) := by
    intro t
    rcases e : f t with _ | j
    · simp only [cnt, val, threads, e]
      exact .done _
    · simp only [cnt, val, threads, e]
      exact (hg j (hf t j e)).2.2.weaken fun c hc => ⟨j, e, hc⟩
  refine ⟨cur, hrun, fun sched => ?_⟩
  obtain ⟨i1, i2, i3⟩ := interleave hdis hsafe sched
  refine ⟨i1, fun t ht => i2 t ?_, fun hall => ?_⟩
  · rcases e : f t with _ | j
    · simp [cnt, e]
    · simp only [cnt, e]
      exact (hg j (hf t j e)).2.1.trans (ht (by simp [e]))
  funext c
  obtain ⟨k1, k2⟩ := i3 hall c
  by_cases hc : ∃ t, own t c
  · obtain ⟨t, ht⟩ := hc
    obtain ⟨j, e, hc⟩ := ht
    rw [k1 t ⟨j, e, hc⟩, s1 j (hf t j e) c hc]
    simp only [val, e]
  · push Not at hc
    rw [k2 hc, s2 c]
    intro j hj hc'
    obtain ⟨t, ht⟩ := hsur j hj
    exact hc t ⟨j, ht, hc'⟩

end Verif.Delaunay
