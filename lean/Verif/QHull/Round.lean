import Mathlib.Data.List.Perm.Basic
import Mathlib.Data.List.Chain
import Verif.QHull.LinkStep
import Verif.QHull.Place

set_option linter.unusedSectionVars false
set_option linter.unusedVariables false

/-!
One round of the quickhull in space keeps the surface closed and convex and loses no point.
-/

namespace Verif.QHull

open Verif Verif.Hull3d

variable {K : Type} [Field K] [LinearOrder K] [IsStrictOrderedRing K]

/-- The invariant of the loop. -/
structure Good (Q : List (P3 K)) (st : Hull K) : Prop where
  mesh : Mesh Q st.heap st.live
  fresh : ∀ i ∈ st.live, i < st.next
  start : st.H ∈ st.live
  size : st.hSize = st.live.length
  see : ∀ i ∈ st.live, ∀ v ∈ st.pts i, v.1 ∈ Q ∧ v.2 = i ∧ 0 < fsv (st.heap i) v.1
  cov : ∀ q ∈ Q, (∃ i ∈ st.live, ∃ v ∈ st.pts i, v.1 = q) ∨ ∀ i ∈ st.live, fsv (st.heap i) q ≤ 0

/-- The number of points still to be looked at. -/
def total (st : Hull K) : ℕ := (st.live.map fun i => (st.pts i).length).sum

section

variable {eps : K} {Q : List (P3 K)} {st : Hull K} {p : P3 K} {fr : Fr K}

theorem FrontierOK.next (hF : FrontierOK eps st p fr) {k : ℕ} {e e' : Edge K} (hk : fr.1[k]? = some e)
    (hk' : fr.1[(k + 1) % fr.1.length]? = some e') : e.b = e'.a := by
  obtain ⟨hlt, rfl⟩ := List.getElem?_eq_some_iff.mp hk
  by_cases hl : k + 1 < fr.1.length
  · rw [Nat.mod_eq_of_lt hl] at hk'
    obtain ⟨hlt', rfl⟩ := List.getElem?_eq_some_iff.mp hk'
    have := List.isChain_iff_getElem.mp hF.chain k (by simpa using hl)
    simpa [key] using this
  · have hk1 : k + 1 = fr.1.length := by omega
    rw [hk1, Nat.mod_self] at hk'
    refine hF.closed _ _ ?_ ?_
    · rw [List.getLast?_eq_getElem?, show fr.1.length - 1 = k by omega]; exact hk
    · rw [List.head?_eq_getElem?]; exact hk'

theorem FrontierOK.closedChain (hF : FrontierOK eps st p fr) : closedChain fr.1 = true := by
  unfold QHull.closedChain
  rw [List.all_eq_true]
  intro k _
  cases h1 : fr.1[k]? with
  | none => rfl
  | some e =>
    cases h2 : fr.1[(k + 1) % fr.1.length]? with
    | none => rfl
    | some e' => simpa using hF.next h1 h2

theorem FrontierOK.horizon (hg : GenPos eps Q) (hM : Mesh Q st.heap st.live) (hp : Apex Q st.heap st.live p)
    (hF : FrontierOK eps st p fr) {e : Edge K} (he : e ∈ fr.1) : ∃ i j z w, Horizon st.heap st.live p i j e.a e.b z w :=
  hM.horizon hg hp ((hF.mem _).mp (List.mem_map.mpr ⟨e, he, rfl⟩))

/-- The facets that stay. -/
def keptOld (st : Hull K) (fr : Fr K) : List ℕ := st.live.filter fun i => decide (i ∉ fr.2)
/-- The facets after the round. -/
def liveNew (st : Hull K) (fr : Fr K) : List ℕ := List.range' st.next fr.1.length ++ keptOld st fr

theorem mem_keptOld (hF : FrontierOK eps st p fr) {i : ℕ} :
    i ∈ keptOld st fr ↔ i ∈ st.live ∧ visible eps (st.heap i) p = false := by
  unfold keptOld
  rw [List.mem_filter, decide_eq_true_eq, hF.fac]
  cases h : visible eps (st.heap i) p <;> simp

theorem alloc_old (eps : K) (st : Hull K) (fr : List (Edge K)) (p : P3 K) {i : ℕ} (hi : i < st.next) :
    (allocNew eps st fr p).heap i = st.heap i := by
  unfold allocNew
  simp only
  rw [if_neg (by omega)]

theorem alloc_new (hg : GenPos eps Q) (hM : Mesh Q st.heap st.live) (hp : Apex Q st.heap st.live p)
    (hF : FrontierOK eps st p fr) {k : ℕ} {e : Edge K} (hk : fr.1[k]? = some e) :
    (allocNew eps st fr.1 p).heap (st.next + k) = ⟨e.a, e.b, p, none, none, none⟩ := by
  obtain ⟨hlt, rfl⟩ := List.getElem?_eq_some_iff.mp hk
  obtain ⟨i, j, z, w, H⟩ := hF.horizon hg hM hp (List.getElem_mem hlt)
  unfold allocNew
  simp only
  rw [if_pos (by omega), show st.next + k - st.next = k by omega, hk]
  simp only
  unfold mkLinked
  rw [if_neg]
  have := H.det hM
  have := hg.nn
  linarith

theorem mem_liveNew (hF : FrontierOK eps st p fr) {i : ℕ} : i ∈ liveNew st fr ↔
    (∃ k e, fr.1[k]? = some e ∧ i = st.next + k) ∨ (i ∈ st.live ∧ visible eps (st.heap i) p = false) := by
  unfold liveNew
  rw [List.mem_append, mem_keptOld hF, List.mem_range'_1]
  constructor
  · rintro (⟨h1, h2⟩ | h)
    · refine Or.inl ⟨i - st.next, fr.1[i - st.next], ?_, by omega⟩
      exact List.getElem?_eq_some_iff.mpr ⟨by omega, rfl⟩
    · exact Or.inr h
  · rintro (⟨k, e, hk, rfl⟩ | h)
    · obtain ⟨hlt, _⟩ := List.getElem?_eq_some_iff.mp hk
      exact Or.inl ⟨by omega, by omega⟩
    · exact Or.inr h

/-- The new facets and the ones that stay are in convex position. -/
theorem round_pre (hg : GenPos eps Q) (hG : Good Q st) (hp : Apex Q st.heap st.live p) (hF : FrontierOK eps st p fr) :
    PreMesh Q (allocNew eps st fr.1 p).heap (liveNew st fr) := by
  have hM := hG.mesh
  set h0 := (allocNew eps st fr.1 p).heap with hh0
  have hold : ∀ i ∈ st.live, h0 i = st.heap i := fun i hi => alloc_old eps st fr.1 p (hG.fresh i hi)
  have hnew : ∀ (k : ℕ) (e : Edge K), fr.1[k]? = some e → h0 (st.next + k) = ⟨e.a, e.b, p, none, none, none⟩ :=
    fun k e hk => alloc_new hg hM hp hF hk
  have hor : ∀ (k : ℕ) (e : Edge K), fr.1[k]? = some e → ∃ i j z w, Horizon st.heap st.live p i j e.a e.b z w :=
    fun k e hk => hF.horizon hg hM hp (List.mem_of_getElem? hk)
  have hvnew : ∀ k e v, fr.1[k]? = some e → IsV (h0 (st.next + k)) v → v = p ∨ ∃ i ∈ st.live, IsV (st.heap i) v := by
    intro k e v hk hv
    rw [hnew k e hk] at hv
    obtain ⟨i, j, z, w, H⟩ := hor k e hk
    rcases hv with hv | hv | hv
    · exact Or.inr ⟨i, H.hi, hv ▸ H.isV.1⟩
    · exact Or.inr ⟨i, H.hi, hv ▸ H.isV.2⟩
    · exact Or.inl hv
  have hvall : ∀ i ∈ liveNew st fr, ∀ v, IsV (h0 i) v → v = p ∨ ∃ i ∈ st.live, IsV (st.heap i) v := by
    intro i hi v hv
    rcases (mem_liveNew hF).mp hi with ⟨k, e, hk, rfl⟩ | ⟨hi, _⟩
    · exact hvnew k e v hk hv
    · exact Or.inr ⟨i, hi, hold i hi ▸ hv⟩
  refine ⟨?_, ?_, ?_, ?_, ?_, ?_⟩
  · intro hc
    unfold liveNew at hc
    obtain ⟨h1, _⟩ := List.append_eq_nil_iff.mp hc
    have := congrArg List.length h1
    rw [List.length_range', List.length_nil, List.length_eq_zero_iff] at this
    exact hF.ne this
  · unfold liveNew
    rw [List.nodup_append]
    refine ⟨List.nodup_range', hM.nodup.filter _, ?_⟩
    rintro a ha b hb rfl
    have h1 := (List.mem_range'_1.mp ha).1
    have h2 := hG.fresh a ((mem_keptOld hF).mp hb).1
    omega
  · intro i hi v hv
    rcases hvall i hi v hv with rfl | ⟨j, hj, hv⟩
    · exact hp.mem
    · exact hM.vert j hj v hv
  · intro i hi
    rcases (mem_liveNew hF).mp hi with ⟨k, e, hk, rfl⟩ | ⟨hi, _⟩
    · obtain ⟨_, _, _, _, H⟩ := hor k e hk
      rw [hnew k e hk]
      exact H.det hM
    · rw [hold i hi]; exact hM.ori i hi
  · intro i hi j hj v hv
    have hv' := hvall j hj v hv
    rcases (mem_liveNew hF).mp hi with ⟨k, e, hk, rfl⟩ | ⟨hi, hni⟩
    · obtain ⟨_, _, _, _, H⟩ := hor k e hk
      rw [hnew k e hk]
      show sv e.a e.b p v ≤ 0
      rcases hv' with rfl | ⟨m, hm, hv'⟩
      · rw [sv_c]
      · exact H.le_vert hM hm hv'
    · rw [hold i hi]
      rcases hv' with rfl | ⟨m, hm, hv'⟩
      · exact (hM.not_vis hg hp hi hni).le
      · exact hM.conv i hi m hm v hv'
  · intro i hi j hj hsub
    rcases (mem_liveNew hF).mp hi with ⟨k, e, hk, rfl⟩ | ⟨hi, hni⟩
    · obtain ⟨_, _, _, _, H⟩ := hor k e hk
      rw [hnew k e hk] at hsub
      rcases (mem_liveNew hF).mp hj with ⟨k', e', hk', rfl⟩ | ⟨hj, hnj⟩
      · obtain ⟨_, _, _, _, H'⟩ := hor k' e' hk'
        rw [hnew k' e' hk'] at hsub
        have ha : e.a = e'.a ∨ e.a = e'.b := by
          rcases hsub e.a (Or.inl rfl) with h | h | h
          · exact Or.inl h
          · exact Or.inr h
          · exact absurd (show IsV _ p from (show e.a = p from h) ▸ H.isV.1) (hp.out _ H.hi)
        have hb : e.b = e'.a ∨ e.b = e'.b := by
          rcases hsub e.b (Or.inr (Or.inl rfl)) with h | h | h
          · exact Or.inl h
          · exact Or.inr h
          · exact absurd (show IsV _ p from (show e.b = p from h) ▸ H.isV.2) (hp.out _ H.hi)
        have hab := (tri_ne (hM.ori _ H.hi) H.ti).1
        have hkey : key e = key e' := by
          unfold key
          rcases ha with ha | ha
          · rcases hb with hb | hb
            · exact absurd (ha.trans hb.symm) hab
            · rw [ha, hb]
          · rcases hb with hb | hb
            · exfalso
              have h1 := H.det hM
              have h2 := H'.det hM
              rw [ha, hb, det3_swap] at h1
              linarith
            · exact absurd (ha.trans hb.symm) hab
        obtain ⟨hlt, he⟩ := List.getElem?_eq_some_iff.mp hk
        obtain ⟨hlt', he'⟩ := List.getElem?_eq_some_iff.mp hk'
        have := (List.Nodup.getElem_inj_iff hF.nodup (i := k) (j := k') (hi := by simpa using hlt) (hj := by simpa using hlt')).mp
          (by simpa [he, he'] using hkey)
        rw [this]
      · rw [hold j hj] at hsub
        exact absurd (hsub p (Or.inr (Or.inr rfl))) (hp.out j hj)
    · rw [hold i hi] at hsub
      rcases (mem_liveNew hF).mp hj with ⟨k', e', hk', rfl⟩ | ⟨hj, hnj⟩
      · exfalso
        rw [hnew k' e' hk'] at hsub
        obtain ⟨n1, n2, n3⟩ := hM.proper hi
        have hh : ∀ v, IsV (st.heap i) v → v = e'.a ∨ v = e'.b := by
          intro v hv
          rcases hsub v hv with h | h | h
          · exact Or.inl h
          · exact Or.inr h
          · exact absurd (show IsV _ p from (show v = p from h) ▸ hv) (hp.out i hi)
        have ha := hh _ (Or.inl rfl)
        have hb := hh _ (Or.inr (Or.inl rfl))
        have hc := hh _ (Or.inr (Or.inr rfl))
        rcases ha with ha | ha <;> rcases hb with hb | hb <;> rcases hc with hc | hc
        · exact n1 (ha.trans hb.symm)
        · exact n1 (ha.trans hb.symm)
        · exact n3 (hc.trans ha.symm)
        · exact n2 (hb.trans hc.symm)
        · exact n2 (hb.trans hc.symm)
        · exact n3 (hc.trans ha.symm)
        · exact n1 (ha.trans hb.symm)
        · exact n1 (ha.trans hb.symm)
      · rw [hold j hj] at hsub
        exact hM.dist i hi j hj hsub

/-- The three neighbours of a new facet. -/
theorem new_nbrs (hg : GenPos eps Q) (hG : Good Q st) (hp : Apex Q st.heap st.live p) (hF : FrontierOK eps st p fr) {k : ℕ}
    {e : Edge K} (hk : fr.1[k]? = some e) : ∃ j, e.ff = some j ∧ j ∈ st.live ∧
      Share (allocNew eps st fr.1 p).heap (liveNew st fr) (st.next + k) j s(e.a, e.b) ∧
      Share (allocNew eps st fr.1 p).heap (liveNew st fr) (st.next + k) (st.next + (k + 1) % fr.1.length) s(e.b, p) ∧
      Share (allocNew eps st fr.1 p).heap (liveNew st fr) (st.next + k) (st.next + (k + fr.1.length - 1) % fr.1.length) s(p, e.a) := by
  have hM := hG.mesh
  obtain ⟨hlt, he⟩ := List.getElem?_eq_some_iff.mp hk
  have hpos : 0 < fr.1.length := by omega
  have hem : e ∈ fr.1 := List.mem_of_getElem? hk
  obtain ⟨i, hi, j, hfb, hff, hd⟩ := hF.edge e hem
  obtain ⟨j', hj, hji, hjj, hd'⟩ := hM.adj hg hi hd
  obtain rfl := Option.some.inj hjj
  obtain ⟨w, tw⟩ := hd'.tri
  obtain ⟨_, _, hnv⟩ := (hF.mem (key e)).mp (List.mem_map.mpr ⟨e, hem, rfl⟩)
  have hnj : visible eps (st.heap j) p = false := by
    rw [← hM.dvis_eq hg p hj tw]; exact hnv
  have hlk : st.next + k ∈ liveNew st fr := (mem_liveNew hF).mpr (Or.inl ⟨k, e, hk, rfl⟩)
  have hek := alloc_new hg hM hp hF hk
  obtain ⟨_, _, _, _, H⟩ := hF.horizon hg hM hp hem
  have hab := (tri_ne (hM.ori _ H.hi) H.ti).1
  -- the cell after and the cell before
  obtain ⟨e2, h2⟩ : ∃ e2, fr.1[(k + 1) % fr.1.length]? = some e2 := ⟨_, List.getElem?_eq_some_iff.mpr ⟨Nat.mod_lt _ hpos, rfl⟩⟩
  obtain ⟨e3, h3⟩ : ∃ e3, fr.1[(k + fr.1.length - 1) % fr.1.length]? = some e3 :=
    ⟨_, List.getElem?_eq_some_iff.mpr ⟨Nat.mod_lt _ hpos, rfl⟩⟩
  have hback : ((k + fr.1.length - 1) % fr.1.length + 1) % fr.1.length = k := by
    rw [Nat.mod_add_mod, show k + fr.1.length - 1 + 1 = k + fr.1.length by omega, Nat.add_mod_right, Nat.mod_eq_of_lt hlt]
  have c2 := hF.next hk h2
  have c3 := hF.next h3 (by rw [hback]; exact hk)
  refine ⟨j, hff, hj, ⟨hlk, (mem_liveNew hF).mpr (Or.inr ⟨hj, hnj⟩), ?_, ?_, ?_⟩,
    ⟨hlk, (mem_liveNew hF).mpr (Or.inl ⟨_, e2, h2, rfl⟩), ?_, ?_, ?_⟩,
    ⟨hlk, (mem_liveNew hF).mpr (Or.inl ⟨_, e3, h3, rfl⟩), ?_, ?_, ?_⟩⟩
  · have := hG.fresh j hj; omega
  · rw [hek]; exact Or.inl rfl
  · rw [alloc_old eps st fr.1 p (hG.fresh j hj)]
    exact isEdge_tri.mpr ⟨w, Or.inr tw⟩
  · intro hc
    have hkk : (k + 1) % fr.1.length = k := by omega
    rw [hkk, hk] at h2
    obtain rfl := Option.some.inj h2
    exact hab c2.symm
  · rw [hek]; exact Or.inr (Or.inl rfl)
  · rw [alloc_new hg hM hp hF h2]
    exact Or.inr (Or.inr (by rw [c2]; exact Sym2.eq_swap))
  · intro hc
    have hkk : (k + fr.1.length - 1) % fr.1.length = k := by omega
    rw [hkk, hk] at h3
    obtain rfl := Option.some.inj h3
    exact hab c3.symm
  · rw [hek]; exact Or.inr (Or.inr rfl)
  · rw [alloc_new hg hM hp hF h3]
    exact Or.inr (Or.inl (by rw [c3]; exact Sym2.eq_swap))

/-- Linking the new facets. -/
theorem linkNew_ok (hg : GenPos eps Q) (hG : Good Q st) (hp : Apex Q st.heap st.live p) (hF : FrontierOK eps st p fr) :
    ∀ (idxs : List ℕ) (st1 : Hull K), (∀ k ∈ idxs, k < fr.1.length) → st1.live = (allocNew eps st fr.1 p).live →
      (∀ g, SameV (st1.heap g) ((allocNew eps st fr.1 p).heap g)) →
      ∃ h2, linkNew st.next fr.1 idxs st1 = .ok { st1 with heap := h2 } ∧
        (∀ g, SameV (h2 g) ((allocNew eps st fr.1 p).heap g)) ∧
        ∀ g j e, Share (allocNew eps st fr.1 p).heap (liveNew st fr) g j e →
          (Mut st1.heap g j e → Mut h2 g j e) ∧
          ∀ k ∈ idxs, IsEdge ((allocNew eps st fr.1 p).heap (st.next + k)) e → Mut h2 g j e := by
  set h0 := (allocNew eps st fr.1 p).heap with hh0
  have hP := round_pre hg hG hp hF
  rw [← hh0] at hP
  have hsub : ∀ i ∈ liveNew st fr, i ∈ (allocNew eps st fr.1 p).live := by
    intro i hi
    unfold liveNew keptOld at hi
    unfold allocNew
    simp only
    rcases List.mem_append.mp hi with h | h
    · exact List.mem_append_left _ h
    · exact List.mem_append_right _ (List.mem_filter.mp h).1
  intro idxs
  induction idxs with
  | nil =>
    intro st1 _ _ hs
    exact ⟨st1.heap, rfl, hs, fun g j e _ => ⟨fun h => h, by simp⟩⟩
  | cons k idxs ih =>
    intro st1 hidx hl hs
    have hklt := hidx k (by simp)
    have hk : fr.1[k]? = some fr.1[k] := List.getElem?_eq_some_iff.mpr ⟨hklt, rfl⟩
    set e := fr.1[k] with he
    obtain ⟨j, hff, hj, S1, S2, S3⟩ := new_nbrs hg hG hp hF hk
    rw [← hh0] at S1 S2 S3
    have hek : h0 (st.next + k) = ⟨e.a, e.b, p, none, none, none⟩ := alloc_new hg hG.mesh hp hF hk
    have hP1 := hP.sameV hs
    obtain ⟨sa, sb, sc⟩ := hs (st.next + k)
    rw [hek] at sa sb sc
    simp only at sa sb sc
    have edge : ∀ g e, IsEdge (h0 g) e → IsEdge (st1.heap g) e := fun g e h => ((hs g).isEdge e).mpr h
    obtain ⟨h', hlk, hsv, hmut⟩ := hP1.link_step hg (x := st.next + (k + 1) % fr.1.length) (y := j)
      (z := st.next + (k + fr.1.length - 1) % fr.1.length) S1.1 S1.2.1 S2.2.1 S3.2.1 S1.2.2.1.symm S2.2.2.1.symm S3.2.2.1.symm
      (List.Perm.swap _ _ _) (by rw [sa, sb]; exact edge _ _ S1.2.2.2.2) (by rw [sb, sc]; exact edge _ _ S2.2.2.2.2)
      (by rw [sc, sa]; exact edge _ _ S3.2.2.2.2)
    have hs' : ∀ g, SameV (h' g) (h0 g) := fun g =>
      ⟨(hsv g).1.trans (hs g).1, (hsv g).2.1.trans (hs g).2.1, (hsv g).2.2.trans (hs g).2.2⟩
    obtain ⟨h2, hn, hs2, hm2⟩ := ih { st1 with heap := h' } (fun i hi => hidx i (by simp [hi])) hl hs'
    refine ⟨h2, ?_, hs2, ?_⟩
    · rw [linkNew]
      simp only [hk]
      have d1 : ∀ i ∈ liveNew st fr, deref st1 (some i) = .ok (i, st1.heap i) := fun i hi => by
        unfold deref
        simp only
        rw [if_pos (hl ▸ hsub i hi)]
      unfold linkAt
      rw [d1 _ S1.1, d1 _ S2.2.1, hff, d1 _ S1.2.1, d1 _ S3.2.1]
      simp only [Except.bind]
      rw [hlk]
      simp only [Except.map]
      exact hn
    · intro g i ed hS
      have hS1 : Share st1.heap (liveNew st fr) g i ed := ⟨hS.1, hS.2.1, hS.2.2.1, edge _ _ hS.2.2.2.1, edge _ _ hS.2.2.2.2⟩
      obtain ⟨m1, m2⟩ := hmut g i ed hS1
      obtain ⟨m3, m4⟩ := hm2 g i ed hS
      refine ⟨fun h => m3 (m2 h), ?_⟩
      intro k' hk' hE
      rcases List.mem_cons.mp hk' with rfl | hk'
      · exact m3 (m1 (edge _ _ hE))
      · exact m4 k' hk' hE

/-- Every edge after the round is shared. -/
theorem round_closed (hg : GenPos eps Q) (hG : Good Q st) (hp : Apex Q st.heap st.live p) (hF : FrontierOK eps st p fr) :
    ∀ g ∈ liveNew st fr, ∀ e, IsEdge ((allocNew eps st fr.1 p).heap g) e →
      ∃ j, Share (allocNew eps st fr.1 p).heap (liveNew st fr) g j e := by
  have hM := hG.mesh
  intro g hgl e he
  rcases (mem_liveNew hF).mp hgl with ⟨k, ed, hk, rfl⟩ | ⟨hi, hni⟩
  · obtain ⟨j, _, _, S1, S2, S3⟩ := new_nbrs hg hG hp hF hk
    rw [alloc_new hg hM hp hF hk] at he
    rcases he with rfl | rfl | rfl
    · exact ⟨_, S1⟩
    · exact ⟨_, S2⟩
    · exact ⟨_, S3⟩
  · have hold := alloc_old eps st fr.1 p (hG.fresh g hi)
    have key : ∀ x y z, Tri (st.heap g) x y z → ∃ j, Share (allocNew eps st fr.1 p).heap (liveNew st fr) g j s(x, y) := by
      intro x y z ht
      obtain ⟨j, hj, hji, w, tj, _⟩ := hM.adj_tri hg hi ht
      have hge : IsEdge ((allocNew eps st fr.1 p).heap g) s(x, y) := by
        rw [hold]; exact isEdge_tri.mpr ⟨z, Or.inl ht⟩
      by_cases hv : visible eps (st.heap j) p = true
      · have hfront : Dfs.Front (dD st.heap st.live) (dvis eps p st.heap st.live) (y, x) := by
          refine ⟨mem_dD.mpr ⟨j, hj, w, tj⟩, ?_, ?_⟩
          · rw [hM.dvis_eq hg p hj tj]; exact hv
          · unfold Dfs.tw
            rw [hM.dvis_eq hg p hi ht]; exact hni
        obtain ⟨ed, hed, hke⟩ := List.mem_map.mp ((hF.mem _).mpr hfront)
        obtain ⟨k, hk⟩ := List.mem_iff_getElem?.mp hed
        refine ⟨st.next + k, hgl, (mem_liveNew hF).mpr (Or.inl ⟨k, ed, hk, rfl⟩), ?_, hge, ?_⟩
        · have := hG.fresh g hi; omega
        · rw [alloc_new hg hM hp hF hk]
          unfold key at hke
          obtain ⟨h1, h2⟩ := Prod.mk.inj hke
          refine Or.inl ?_
          rw [h1, h2]
          exact Sym2.eq_swap
      · refine ⟨j, hgl, (mem_liveNew hF).mpr (Or.inr ⟨hj, by simpa using hv⟩), hji.symm, hge, ?_⟩
        rw [alloc_old eps st fr.1 p (hG.fresh j hj)]
        exact isEdge_tri.mpr ⟨w, Or.inr tj⟩
    rw [hold] at he
    rcases he with rfl | rfl | rfl
    · exact key _ _ _ (Tri.self _)
    · exact key _ _ _ (Tri.self _).rot
    · exact key _ _ _ (Tri.self _).rot.rot

end

end Verif.QHull
