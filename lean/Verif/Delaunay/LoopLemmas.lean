import Verif.Delaunay.LoopModel
import Verif.Delaunay.RoundProps

set_option linter.unusedSectionVars false
set_option linter.unusedVariables false

/-!
The main loop of the incremental triangulation.
-/

namespace Verif.Delaunay

open Verif.Par Verif.Reserve

variable {K : Type} [Field K] [LinearOrder K] [IsStrictOrderedRing K]

/-- The buffer of a round. -/
theorem buffer_ok {v : List ℕ} {s : LState ℕ} (hv : v.Nodup) (h : LInv v s) (hlt : s.done.length < v.length) :
    ∃ b, fillBuffer v s = .ok b ∧ b ≠ [] ∧ (s.done ++ b).Nodup ∧ (∀ u ∈ s.done ++ b, u ∈ v) ∧ b.length ≤ v.length := by
  have hf := h.fits hlt
  have hle := h.le
  have hrn : numRound v.length s.done.length ≤ v.length - s.done.length := by
    unfold numRound
    omega
  have hr : 0 < numRound v.length s.done.length := by
    unfold numRound maxBlock
    omega
  refine ⟨_, fillBuffer_ok h hlt, ?_, ?_⟩
  · intro hnil
    have : (s.remain ++ ((v.drop (s.done.length + s.remain.length)).take
        (numRound v.length s.done.length - s.remain.length))).length = numRound v.length s.done.length := by
      rw [List.length_append, List.length_take, List.length_drop]
      omega
    rw [hnil] at this
    simp at this
    omega
  have hp : (s.done ++ (s.remain ++ ((v.drop (s.done.length + s.remain.length)).take
      (numRound v.length s.done.length - s.remain.length)))).Perm
      (v.take (s.done.length + numRound v.length s.done.length)) := by
    rw [← List.append_assoc]
    have e : v.take (s.done.length + numRound v.length s.done.length) =
        v.take (s.done.length + s.remain.length) ++
          ((v.drop (s.done.length + s.remain.length)).take (numRound v.length s.done.length - s.remain.length)) := by
      rw [← List.take_add]
      congr 1
      omega
    rw [e]
    exact h.perm.append_right _
  refine ⟨hp.nodup_iff.mpr ((List.take_sublist _ _).nodup hv), fun u hu => ?_, ?_⟩
  · exact List.mem_of_mem_take (hp.mem_iff.mp hu)
  · rw [List.length_append, List.length_take, List.length_drop]
    omega

theorem roundBound_mono {T T' M L L' : ℕ} (h1 : T ≤ T') (h2 : L ≤ L') : roundBound T M L ≤ roundBound T' M L' := by
  unfold roundBound reserveBound
  have a1 : T * M ≤ T' * M := Nat.mul_le_mul_right _ h1
  have a2 : 2 * T * (M * T) ≤ 2 * T' * (M * T') := Nat.mul_le_mul (by omega) (Nat.mul_le_mul_left _ h1)
  omega

section
variable {pos : ℕ → P2 K} {id : ℕ → ℤ} {near : List ℕ → ℕ → ℕ} {live vs : Finset ℕ} {m : Mesh} {v : List ℕ}

/-- What the loop needs of its start. -/
structure LoopPre (pos : ℕ → P2 K) (id : ℕ → ℤ) (near : List ℕ → ℕ → ℕ) (live vs : Finset ℕ) (m : Mesh)
    (v : List ℕ) : Prop where
  mesh : IsDelaunay pos live vs m
  nodup : v.Nodup
  new : ∀ u ∈ v, u ∉ vs
  inj : ∀ u ∈ v, ∀ w, w ∈ v ∨ w ∈ vs → pos u = pos w → u = w
  within : ∀ u ∈ v, Within pos live m (pos u)
  fresh : ∀ u ∈ v, m.vt u ∉ live ∧ m.vt u + 1 ∉ live
  slots : (v.flatMap fun u => [m.vt u, m.vt u + 1]).Nodup
  near : ∀ (pool : List ℕ) u, pool ≠ [] → u ∉ pool → near pool u ∈ pool
  idinj : ∀ u ∈ v, ∀ w ∈ v, id u = id w → u = w
  nonneg : ∀ u ∈ v, 0 ≤ id u

/-- The invariant of the loop. -/
structure AInv (pos : ℕ → P2 K) (live vs : Finset ℕ) (m : Mesh) (v : List ℕ) (s : AState) : Prop where
  linv : LInv v s.loop
  mesh : IsDelaunay pos (allotted m s.loop.done ∪ live) (s.loop.done.toFinset ∪ vs) s.mesh
  outline : ∀ a d, OutlineEdge (allotted m s.loop.done ∪ live) s.mesh a d ↔ OutlineEdge live m a d
  rest : ∀ u ∈ v, u ∉ s.loop.done → s.mesh.vt u = m.vt u
  res : s.res = fun _ => -1
  pool : ∀ u ∈ s.pool, u ∈ s.loop.done ∨ u ∈ vs
  ne : s.pool ≠ []
  next : 0 < s.next

theorem allotted_card (m : Mesh) (l : List ℕ) : (allotted m l).card ≤ 2 * l.length := by
  unfold allotted
  refine (List.toFinset_card_le _).trans ?_
  simp [List.length_flatMap, Nat.mul_comm]

theorem allotted_congr {m m' : Mesh} {l : List ℕ} (h : ∀ u ∈ l, m'.vt u = m.vt u) : allotted m' l = allotted m l := by
  unfold allotted
  congr 1
  refine List.flatMap_congr fun u hu => ?_
  rw [h u hu]

theorem allotted_append (m : Mesh) (l l' : List ℕ) : allotted m (l ++ l') = allotted m l' ∪ allotted m l := by
  unfold allotted
  rw [List.flatMap_append, List.toFinset_append, Finset.union_comm]

/-- A round of the loop. -/
theorem addRound_ok (h : LoopPre pos id near live vs m v) {s : AState} (hs : AInv pos live vs m v s)
    (hlt : s.loop.done.length < v.length) {fuel : ℕ} (hf : 3 * (2 * v.length + live.card) + 2 ≤ fuel) :
    ∃ s', AInv pos live vs m v s' ∧ s.loop.done.length < s'.loop.done.length ∧
      ∀ sc : List ℕ × List ℕ × List ℕ,
        (addRound pos id near fuel v sc s = .error .fuel ∨ addRound pos id near fuel v sc s = .ok s') ∧
        ∀ M : ℕ, (∀ u, u ∈ v ∨ u ∈ vs → u < M) →
          (∀ t < v.length, roundBound v.length M (2 * v.length + live.card) ≤ sc.1.count t ∧
            roundBound v.length M (2 * v.length + live.card) ≤ sc.2.1.count t ∧
            roundBound v.length M (2 * v.length + live.card) ≤ sc.2.2.count t) →
          addRound pos id near fuel v sc s = .ok s' := by
  obtain ⟨b, hb, hbne, hnd, hsub, hbl⟩ := buffer_ok h.nodup hs.linv hlt
  have hbv : ∀ u ∈ b, u ∈ v := fun u hu => hsub u (by simp [hu])
  have hbd : ∀ u ∈ b, u ∉ s.loop.done := fun u hu hd =>
    (List.nodup_append.mp hnd).2.2 u hd u hu rfl
  have hdv : ∀ u ∈ s.loop.done, u ∈ v := fun u hu => hsub u (by simp [hu])
  set nd := s.loop.done.length with hndef
  set pool := if decide (s.next ≤ nd ∧ nd ≤ v.length / 10) = true then s.loop.done else s.pool with hpool
  set next := if decide (s.next ≤ nd ∧ nd ≤ v.length / 10) = true then s.next * 10 else s.next with hnext
  have hpne : pool ≠ [] := by
    rw [hpool]
    split
    · rename_i hc
      simp only [decide_eq_true_eq] at hc
      intro e
      have := hs.next
      rw [hndef, e] at hc
      simp at hc
      omega
    · exact hs.ne
  have hpin : ∀ u ∈ pool, u ∈ s.loop.done ∨ u ∈ vs := by
    rw [hpool]
    split
    · exact fun u hu => Or.inl hu
    · exact hs.pool
  have hcard : (allotted m s.loop.done ∪ live).card ≤ 2 * v.length + live.card := by
    refine (Finset.card_union_le _ _).trans ?_
    have := allotted_card m s.loop.done
    have := hs.linv.le
    omega
  have hvt : ∀ u ∈ b, s.mesh.vt u = m.vt u := fun u hu => hs.rest u (hbv u hu) (hbd u hu)
  have hslots : ∀ u ∈ b, ∀ x, x = m.vt u ∨ x = m.vt u + 1 → x ∉ allotted m s.loop.done ∪ live := by
    intro u hu x hx hm
    rw [Finset.mem_union] at hm
    rcases hm with hm | hm
    · unfold allotted at hm
      rw [List.mem_toFinset, List.mem_flatMap] at hm
      obtain ⟨w, hw, hxw⟩ := hm
      have hne : w ≠ u := fun e => hbd u hu (e ▸ hw)
      have hsl := h.slots
      rw [List.nodup_flatMap] at hsl
      have hd : ∀ a ∈ v, ∀ b ∈ v, a ≠ b → List.Disjoint [m.vt a, m.vt a + 1] [m.vt b, m.vt b + 1] := by
        intro a ha b hb hab
        obtain ⟨i, hi, rfl⟩ := List.mem_iff_getElem.mp ha
        obtain ⟨j, hj, rfl⟩ := List.mem_iff_getElem.mp hb
        have hij : i ≠ j := by
          rintro rfl
          exact hab rfl
        rcases lt_or_gt_of_ne hij with g | g
        · exact List.pairwise_iff_getElem.mp hsl.2 i j hi hj g
        · exact (List.pairwise_iff_getElem.mp hsl.2 j i hj hi g).symm
      exact hd w (hdv w hw) u (hbv u hu) hne hxw (by simpa using hx)
    · rcases hx with rfl | rfl
      · exact (h.fresh u (hbv u hu)).1 hm
      · exact (h.fresh u (hbv u hu)).2 hm
  have hpre : RoundPre pos id (near pool) (allotted m s.loop.done ∪ live) (s.loop.done.toFinset ∪ vs) s.mesh b := by
    refine ⟨hs.mesh, ?_, ?_, ?_, ?_, ?_, ?_, ?_, ?_, ?_⟩
    · intro u hu hm
      rw [Finset.mem_union, List.mem_toFinset] at hm
      rcases hm with hm | hm
      · exact hbd u hu hm
      · exact h.new u (hbv u hu) hm
    · intro u hu w hw e
      rw [Finset.mem_union, List.mem_toFinset] at hw
      rcases hw with hw | hw
      · have := h.inj u (hbv u hu) w (Or.inl (hdv w hw)) e.symm
        exact hbd u hu (this ▸ hw)
      · have := h.inj u (hbv u hu) w (Or.inr hw) e.symm
        exact h.new u (hbv u hu) (this ▸ hw)
    · intro u hu a d had
      exact h.within u (hbv u hu) a d ((hs.outline a d).mp had)
    · refine List.Nodup.map_on ?_ (List.nodup_append.mp hnd).2.1
      intro u hu w hw e
      exact h.inj u (hbv u hu) w (Or.inl (hbv w hw)) e
    · intro u hu
      rw [hvt u hu]
      exact ⟨hslots u hu _ (Or.inl rfl), hslots u hu _ (Or.inr rfl)⟩
    · have e : (b.flatMap fun u => [s.mesh.vt u, s.mesh.vt u + 1]) = b.flatMap fun u => [m.vt u, m.vt u + 1] := by
        refine List.flatMap_congr fun u hu => ?_
        rw [hvt u hu]
      rw [e]
      have hsl := h.slots
      rw [List.nodup_flatMap] at hsl ⊢
      refine ⟨fun u hu => hsl.1 u (hbv u hu), ?_⟩
      have hbn : b.Nodup := (List.nodup_append.mp hnd).2.1
      refine hbn.imp_of_mem ?_
      intro a c ha hc hac
      obtain ⟨i, hi, rfl⟩ := List.mem_iff_getElem.mp (hbv a ha)
      obtain ⟨j, hj, rfl⟩ := List.mem_iff_getElem.mp (hbv c hc)
      have hij : i ≠ j := by
        rintro rfl
        exact hac rfl
      rcases lt_or_gt_of_ne hij with g | g
      · exact List.pairwise_iff_getElem.mp hsl.2 i j hi hj g
      · exact (List.pairwise_iff_getElem.mp hsl.2 j i hj hi g).symm
    · intro u hu
      rw [Finset.mem_union, List.mem_toFinset]
      refine hpin _ (h.near pool u hpne fun hup => ?_)
      rcases hpin u hup with hd | hd
      · exact hbd u hu hd
      · exact h.new u (hbv u hu) hd
    · intro u hu w hw
      exact h.idinj u (hbv u hu) w (hbv w hw)
    · intro u hu
      exact h.nonneg u (hbv u hu)
  obtain ⟨m', flags, hok, hrun⟩ := c62_round hpre (fuel := fuel) (by omega)
  obtain ⟨l', hl1, hl2, hl3⟩ := packRound_ok hs.linv hlt hb hok.length (hok.progress hbne)
  have hdone : l'.done = s.loop.done ++ succeeded b flags := by
    unfold packRound at hl1
    simp only at hl1
    split at hl1
    · cases hl1
      rfl
    · cases hl1
  have hsb : ∀ u ∈ succeeded b flags, u ∈ b := by
    intro u hu
    unfold succeeded at hu
    rw [List.mem_map] at hu
    obtain ⟨a, ha, rfl⟩ := hu
    exact (List.of_mem_zip (List.mem_of_mem_filter ha)).1
  have hal : allotted s.mesh (succeeded b flags) ∪ (allotted m s.loop.done ∪ live) = allotted m l'.done ∪ live := by
    rw [hdone, allotted_append, allotted_congr fun u hu => hvt u (hsb u hu), Finset.union_assoc]
  have hve : (succeeded b flags).toFinset ∪ (s.loop.done.toFinset ∪ vs) = l'.done.toFinset ∪ vs := by
    rw [hdone, List.toFinset_append, ← Finset.union_assoc, Finset.union_comm (succeeded b flags).toFinset]
  have hround : ∀ sc : List ℕ × List ℕ × List ℕ, addRound pos id near fuel v sc s =
      (insertRound pos id (near pool) fuel s.mesh (fun _ => -1) b sc.1 sc.2.1 sc.2.2).bind fun x =>
        (packRound v.length s.loop b x.2.2).map fun l => ⟨l, x.1, x.2.1, pool, next⟩ := by
    intro sc
    unfold addRound
    rw [hb, hs.res]
    rfl
  refine ⟨⟨l', m', fun _ => -1, pool, next⟩, ⟨hl2, ?_, ?_, ?_, rfl, ?_, hpne, ?_⟩, hl3, ?_⟩
  · have := hok.delaunay
    rw [hal, hve] at this
    exact this
  · intro a d
    have := hok.outline a d
    rw [hal] at this
    exact this.trans (hs.outline a d)
  · intro u hu hud
    simp only [hdone, List.mem_append, not_or] at hud
    refine (hok.rest u ?_ hud.2).trans (hs.rest u hu hud.1)
    rw [Finset.mem_union, List.mem_toFinset, not_or]
    exact ⟨hud.1, h.new u hu⟩
  · intro u hu
    simp only [hdone, List.mem_append]
    rcases hpin u hu with g | g
    · exact Or.inl (Or.inl g)
    · exact Or.inr g
  · simp only [hnext]
    have := hs.next
    split <;> omega
  · intro sc
    have hgood : insertRound pos id (near pool) fuel s.mesh (fun _ => -1) b sc.1 sc.2.1 sc.2.2 =
        .ok (m', fun _ => -1, flags) → addRound pos id near fuel v sc s = .ok ⟨l', m', fun _ => -1, pool, next⟩ := by
      intro e
      rw [hround, e]
      simp only [Except.bind]
      rw [hl1]
      rfl
    refine ⟨?_, ?_⟩
    · rcases (hrun sc.1 sc.2.1 sc.2.2).1 with e | e
      · left
        rw [hround, e]
        rfl
      · exact Or.inr (hgood e)
    · intro M hM hfair
      refine hgood ((hrun sc.1 sc.2.1 sc.2.2).2 M ?_ ?_)
      · intro u hu
        rw [Finset.mem_union, List.mem_toFinset] at hu
        rcases hu with hu | hu
        · exact hM u (Or.inl (hdv u hu))
        · exact hM u (Or.inr hu)
      · intro t ht
        have hle := roundBound_mono (M := M) hbl hcard
        obtain ⟨f1, f2, f3⟩ := hfair t (by omega)
        exact ⟨hle.trans f1, hle.trans f2, hle.trans f3⟩

/-- The loop. -/
theorem addPoints_ok (h : LoopPre pos id near live vs m v) {fuel : ℕ}
    (hf : 3 * (2 * v.length + live.card) + 2 ≤ fuel) :
    ∀ (rounds k : ℕ) (s : AState), AInv pos live vs m v s → v.length ≤ s.loop.done.length + rounds →
    ∃ s', AInv pos live vs m v s' ∧ v.length ≤ s'.loop.done.length ∧
      ∀ sched : ℕ → List ℕ × List ℕ × List ℕ,
        (addPoints pos id near fuel v sched rounds k s = .error .fuel ∨
          addPoints pos id near fuel v sched rounds k s = .ok s') ∧
        ∀ M : ℕ, (∀ u, u ∈ v ∨ u ∈ vs → u < M) →
          (∀ k, ∀ t < v.length, roundBound v.length M (2 * v.length + live.card) ≤ (sched k).1.count t ∧
            roundBound v.length M (2 * v.length + live.card) ≤ (sched k).2.1.count t ∧
            roundBound v.length M (2 * v.length + live.card) ≤ (sched k).2.2.count t) →
          addPoints pos id near fuel v sched rounds k s = .ok s' := by
  intro rounds
  induction rounds with
  | zero =>
    intro k s hs hle
    refine ⟨s, hs, by omega, fun sched => ?_⟩
    have : addPoints pos id near fuel v sched 0 k s = .ok s := by
      rw [addPoints, if_pos (by omega)]
    exact ⟨Or.inr this, fun _ _ _ => this⟩
  | succ rounds ih =>
    intro k s hs hle
    by_cases hd : v.length ≤ s.loop.done.length
    · refine ⟨s, hs, hd, fun sched => ?_⟩
      have : addPoints pos id near fuel v sched (rounds + 1) k s = .ok s := by
        rw [addPoints, if_pos hd]
      exact ⟨Or.inr this, fun _ _ _ => this⟩
    · obtain ⟨s1, i1, i2, i3⟩ := addRound_ok h hs (by omega) hf
      obtain ⟨s', j1, j2, j3⟩ := ih (k + 1) s1 i1 (by omega)
      refine ⟨s', j1, j2, fun sched => ?_⟩
      have e : addPoints pos id near fuel v sched (rounds + 1) k s =
          (addRound pos id near fuel v (sched k) s).bind fun s => addPoints pos id near fuel v sched rounds (k + 1) s := by
        rw [addPoints, if_neg hd]
      have hgood : addRound pos id near fuel v (sched k) s = .ok s1 →
          addPoints pos id near fuel v sched (rounds + 1) k s = addPoints pos id near fuel v sched rounds (k + 1) s1 := by
        intro g
        rw [e, g]
        rfl
      refine ⟨?_, fun M hM hfair => ?_⟩
      · rcases (i3 (sched k)).1 with g | g
        · left
          rw [e, g]
          rfl
        · rw [hgood g]
          exact (j3 sched).1
      · rw [hgood ((i3 (sched k)).2 M hM (hfair k))]
        exact (j3 sched).2 M hM hfair

end

end Verif.Delaunay
