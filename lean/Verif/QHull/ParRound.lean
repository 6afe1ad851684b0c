import Mathlib.Data.List.Sort
import Verif.QHull.ParCommit
import Verif.Reserve.Props
import Verif.Reserve.Fair

set_option linter.unusedSectionVars false
set_option linter.unusedVariables false

/-!
A round of the parallel quickhull in space.
-/

namespace Verif.QHull

open Verif Verif.Hull3d Verif.Par Verif.Reserve

variable {K : Type} [Field K] [LinearOrder K] [IsStrictOrderedRing K]

/-- What is known of an oracle: different facets have different addresses, and the orders are orders. -/
structure Oracle.Fine (o : Oracle K) : Prop where
  inj : Function.Injective o.addr
  order : ∀ l, (o.order l).Perm l
  arr : ∀ t l, (o.arr t l).Perm l

/-- A choice of apexes finds one in every list that has any. -/
def Picks (pick : Pick K) : Prop := ∀ i f l, l ≠ [] → ∃ v ∈ l, pick i f l = some v

theorem mapE_ok {α β : Type} {f : α → Except Err β} {R : α → β → Prop} : ∀ (l : List α), (∀ x ∈ l, ∃ y, f x = .ok y ∧ R x y) →
    ∃ r, mapE f l = .ok r ∧ List.Forall₂ R l r
  | [], _ => ⟨[], rfl, .nil⟩
  | x :: l, h => by
    obtain ⟨y, hy, hR⟩ := h x (by simp)
    obtain ⟨r, hr, hF⟩ := mapE_ok l fun z hz => h z (by simp [hz])
    refine ⟨y :: r, ?_, .cons hR hF⟩
    rw [mapE, hy]
    simp only [Except.bind]
    rw [hr]
    rfl

/-! ### The facets with apexes -/

theorem uniqNFrom_sub : ∀ (l : List ℕ) (p : ℕ), ∀ i ∈ uniqNFrom p l, i ∈ l
  | [], p, i, h => by simp [uniqNFrom] at h
  | q :: l, p, i, h => by
    rw [uniqNFrom] at h
    split at h
    · exact List.mem_cons_of_mem _ (uniqNFrom_sub l q i h)
    · rcases List.mem_cons.mp h with rfl | h
      · simp
      · exact List.mem_cons_of_mem _ (uniqNFrom_sub l q i h)

theorem uniqN_sub (l : List ℕ) : ∀ i ∈ uniqN l, i ∈ l := by
  cases l with
  | nil => simp [uniqN]
  | cons p l =>
    intro i h
    rcases List.mem_cons.mp h with rfl | h
    · simp
    · exact List.mem_cons_of_mem _ (uniqNFrom_sub l p i h)

theorem uniqNFrom_length : ∀ (l : List ℕ) (p : ℕ), (uniqNFrom p l).length ≤ l.length
  | [], p => by simp [uniqNFrom]
  | q :: l, p => by
    rw [uniqNFrom]
    have := uniqNFrom_length l q
    split <;> simp only [List.length_cons] <;> omega

theorem uniqN_length (l : List ℕ) : (uniqN l).length ≤ l.length := by
  cases l with
  | nil => simp [uniqN]
  | cons p l =>
    have := uniqNFrom_length l p
    simp only [uniqN, List.length_cons]
    omega

theorem uniqNFrom_sorted {f : ℕ → ℕ} (hf : Function.Injective f) : ∀ (l : List ℕ) (p : ℕ),
    (p :: l).Pairwise (fun i j => f i ≤ f j) → (p :: uniqNFrom p l).Pairwise fun i j => f i < f j
  | [], p, _ => by simp [uniqNFrom]
  | q :: l, p, h => by
    rw [List.pairwise_cons] at h
    have ih := uniqNFrom_sorted hf l q h.2
    rw [uniqNFrom]
    split
    · rename_i he
      subst he
      exact ih
    · rename_i hne
      refine List.pairwise_cons.mpr ⟨?_, ih⟩
      have hpq : f p < f q := lt_of_le_of_ne (h.1 q (by simp)) fun hc => hne (hf hc).symm
      intro j hj
      rcases List.mem_cons.mp hj with rfl | hj
      · exact hpq
      · exact hpq.trans ((List.pairwise_cons.mp ih).1 j hj)

theorem uniqN_nodup {f : ℕ → ℕ} (hf : Function.Injective f) (l : List ℕ) (h : l.Pairwise fun i j => f i ≤ f j) :
    (uniqN l).Nodup := by
  cases l with
  | nil => simp [uniqN]
  | cons p l => exact (uniqNFrom_sorted hf l p h).imp fun hlt hc => by rw [hc] at hlt; exact lt_irrefl _ hlt

section

variable {eps : K} {Q : List (P3 K)} {st : Hull K}

theorem seenFacets_mem (hG : Good Q st) {o : Oracle K} (ho : o.Fine) (n : ℕ) {i : ℕ} (hi : i ∈ seenFacets o n st) :
    i ∈ st.live ∧ st.pts i ≠ [] := by
  have h1 := uniqN_sub _ _ hi
  rw [List.mem_insertionSort] at h1
  obtain ⟨v, hv, rfl⟩ := List.mem_map.mp h1
  have h2 := (ho.order _).mem_iff.mp (List.mem_of_mem_take hv)
  obtain ⟨k, hk, hvk⟩ := List.mem_flatMap.mp h2
  obtain ⟨_, rfl, _⟩ := hG.see k hk v hvk
  exact ⟨hk, List.ne_nil_of_mem hvk⟩

theorem seenFacets_nodup {o : Oracle K} (ho : o.Fine) (n : ℕ) (st : Hull K) : (seenFacets o n st).Nodup := by
  refine uniqN_nodup ho.inj _ ?_
  have : Std.Total (fun i j : ℕ => o.addr i ≤ o.addr j) := ⟨fun i j => le_total _ _⟩
  have : IsTrans ℕ (fun i j : ℕ => o.addr i ≤ o.addr j) := ⟨fun _ _ _ h1 h2 => le_trans h1 h2⟩
  exact List.pairwise_insertionSort _ _

theorem seenFacets_length (o : Oracle K) (n : ℕ) (st : Hull K) : (seenFacets o n st).length ≤ n := by
  refine (uniqN_length _).trans ?_
  rw [List.length_insertionSort, List.length_map, List.length_take]
  exact min_le_left _ _

theorem seenFacets_ne {o : Oracle K} (ho : o.Fine) {n : ℕ} (hn : 1 ≤ n) (hne : st.live.flatMap st.pts ≠ []) :
    seenFacets o n st ≠ [] := by
  intro hc
  unfold seenFacets at hc
  have : ((((o.order (st.live.flatMap st.pts)).take n).map Prod.snd).insertionSort fun i j => o.addr i ≤ o.addr j) ≠ [] := by
    rw [← List.length_pos_iff, List.length_insertionSort, List.length_map, List.length_take, (ho.order _).length_eq]
    have := List.length_pos_of_ne_nil hne
    omega
  revert hc this
  generalize (((o.order (st.live.flatMap st.pts)).take n).map Prod.snd).insertionSort (fun i j => o.addr i ≤ o.addr j) = l
  intro h1 h2
  cases l with
  | nil => exact h2 rfl
  | cons a l => simp [uniqN] at h1

theorem Good.apex (hG : Good Q st) {v : Vtx K} (hi : v.2 ∈ st.live) (hv : v ∈ st.pts v.2) : Apex Q st.heap st.live v.1 := by
  obtain ⟨q1, _, q3⟩ := hG.see v.2 hi v hv
  refine ⟨q1, fun m hm hV => ?_⟩
  have := hG.mesh.conv v.2 hi m hm v.1 hV
  linarith

theorem tasks_ok (hg : GenPos eps Q) (hG : Good Q st) {o : Oracle K} (ho : o.Fine) {pick : Pick K} (hp : Picks pick) (n : ℕ)
    {fuel : ℕ} (hf : 9 * Q.length ^ 3 + 5 ≤ fuel) : ∃ vs js, apexes pick o n st = .ok vs ∧ tasks eps fuel st vs = .ok js ∧
      js.map (fun j => j.1.2) = seenFacets o n st ∧ ∀ w ∈ js, Ready eps Q st w := by
  have hlen := hG.mesh.length_le
  obtain ⟨vs, h1, h2⟩ := mapE_ok (f := fun x : ℕ × ℕ => (deref st (some x.1)).bind fun (_, f) =>
      match pick x.2 f (st.pts x.1) with
      | some v => .ok v
      | none => .error .ub) (R := fun x (v : Vtx K) => v ∈ st.pts x.1 ∧ v.2 = x.1 ∧ x.1 ∈ st.live) (seenFacets o n st).zipIdx (by
    rintro ⟨i, t⟩ hx
    have hi : i ∈ seenFacets o n st := by
      have := List.mem_map_of_mem (f := Prod.fst) hx
      rwa [List.zipIdx_map_fst] at this
    obtain ⟨hl, hne⟩ := seenFacets_mem hG ho n hi
    obtain ⟨v, hv, he⟩ := hp t (st.heap i) (st.pts i) hne
    refine ⟨v, ?_, hv, (hG.see i hl v hv).2.1, hl⟩
    rw [deref_some hl]
    simp only [Except.bind]
    rw [he])
  have hv2 : vs.map Prod.snd = seenFacets o n st ∧ ∀ v ∈ vs, v.2 ∈ st.live ∧ v ∈ st.pts v.2 := by
    have e : (seenFacets o n st) = (seenFacets o n st).zipIdx.map Prod.fst := by rw [List.zipIdx_map_fst]
    rw [e]
    revert h2
    generalize (seenFacets o n st).zipIdx = l
    intro h2
    clear h1 e
    induction h2 with
    | nil => simp
    | cons hR _ ih =>
      obtain ⟨r1, r2, r3⟩ := hR
      refine ⟨by rw [List.map_cons, List.map_cons, ih.1, r2], ?_⟩
      intro v hv
      rcases List.mem_cons.mp hv with rfl | hv
      · rw [r2]; exact ⟨r3, r1⟩
      · exact ih.2 v hv
  obtain ⟨js, h3, h4⟩ := mapE_ok (f := fun v : Vtx K => (computeFrontier eps fuel st v).map fun fr => (v, fr))
    (R := fun v (w : Task K) => w.1 = v ∧ Ready eps Q st w) vs (by
    intro v hv
    obtain ⟨hi, hvp⟩ := hv2.2 v hv
    have hap := hG.apex hi hvp
    obtain ⟨fr, hfr, hF⟩ := computeFrontier_ok hg hG.mesh hap hi
      ((hG.mesh.vis_iff hg hap.mem hi).mpr (hG.see _ hi _ hvp).2.2) (n := fuel) (by omega)
    refine ⟨(v, fr), ?_, rfl, hap, hF, hi, hvp⟩
    rw [hfr]
    rfl)
  refine ⟨vs, js, h1, h3, ?_, ?_⟩
  · rw [← hv2.1]
    clear h1 h2 h3 hv2
    induction h4 with
    | nil => rfl
    | cons hR _ ih => rw [List.map_cons, List.map_cons, ih, hR.1]
  · clear h1 h2 h3 hv2
    induction h4 with
    | nil => simp
    | cons hR _ ih =>
      intro w hw
      rcases List.mem_cons.mp hw with rfl | hw
      · exact hR.2
      · exact ih w hw

/-! ### The cells that are reserved and checked -/

theorem mem_ptrs {f : Facet (P3 K)} {o : Option ℕ} : o ∈ ptrs f ↔ ∃ d, IsDart f d o := by
  unfold ptrs IsDart
  simp only [List.mem_cons, List.not_mem_nil, or_false]
  constructor
  · rintro (rfl | rfl | rfl)
    · exact ⟨_, Or.inr (Or.inl ⟨rfl, rfl⟩)⟩
    · exact ⟨_, Or.inr (Or.inr ⟨rfl, rfl⟩)⟩
    · exact ⟨_, Or.inl ⟨rfl, rfl⟩⟩
  · rintro ⟨d, ⟨_, rfl⟩ | ⟨_, rfl⟩ | ⟨_, rfl⟩⟩ <;> simp

theorem checkCells_ok (hg : GenPos eps Q) (hG : Good Q st) : ∀ (l : List ℕ), (∀ i ∈ l, i ∈ st.live) →
    ∃ c, checkCells st l = .ok c ∧ ∀ x, x ∈ c ↔ ∃ i ∈ l, x = i ∨ some x ∈ ptrs (st.heap i)
  | [], _ => ⟨[], rfl, by simp⟩
  | i :: l, h => by
    have hi := h i (by simp)
    obtain ⟨c, hc, hm⟩ := checkCells_ok hg hG l fun j hj => h j (by simp [hj])
    obtain ⟨x, hx, ex⟩ := hG.mesh.ptr hg hi (o := (st.heap i).ab) (by simp [ptrs])
    obtain ⟨y, hy, ey⟩ := hG.mesh.ptr hg hi (o := (st.heap i).bc) (by simp [ptrs])
    obtain ⟨z, hz, ez⟩ := hG.mesh.ptr hg hi (o := (st.heap i).ca) (by simp [ptrs])
    refine ⟨i :: x :: y :: z :: c, ?_, ?_⟩
    · rw [checkCells, deref_some hi]
      simp only [Except.bind]
      rw [ex, ey, ez, deref_some hx]
      simp only
      rw [deref_some hy]
      simp only
      rw [deref_some hz]
      simp only
      rw [hc]
      rfl
    · intro u
      simp only [List.mem_cons, hm, ptrs, List.not_mem_nil, or_false]
      constructor
      · rintro (rfl | rfl | rfl | rfl | ⟨k, hk, h⟩)
        · exact ⟨u, Or.inl rfl, Or.inl rfl⟩
        · exact ⟨i, Or.inl rfl, by rw [ex, ey, ez]; simp⟩
        · exact ⟨i, Or.inl rfl, by rw [ex, ey, ez]; simp⟩
        · exact ⟨i, Or.inl rfl, by rw [ex, ey, ez]; simp⟩
        · exact ⟨k, Or.inr hk, h⟩
      · rintro ⟨k, rfl | hk, hu⟩
        · rw [ex, ey, ez] at hu
          simp only [Option.some.injEq] at hu
          tauto
        · exact Or.inr (Or.inr (Or.inr (Or.inr ⟨k, hk, hu⟩)))

theorem touch_iff (hg : GenPos eps Q) (hG : Good Q st) {w : Task K} (hw : Ready eps Q st w) (x : ℕ) :
    (∃ i ∈ w.2.2, x = i ∨ some x ∈ ptrs (st.heap i)) ↔ touch w x := by
  have hM := hG.mesh
  have hF := hw.front
  constructor
  · rintro ⟨i, hi, rfl | hx⟩
    · exact Or.inl hi
    · obtain ⟨d, hd⟩ := mem_ptrs.mp hx
      obtain ⟨hil, hiv⟩ := (hF.fac i).mp hi
      obtain ⟨x', hxl, _, hxe, hd'⟩ := hM.adj hg hil hd
      obtain rfl := Option.some.inj hxe
      by_cases hxv : visible eps (st.heap x) w.1.1 = true
      · exact Or.inl ((hF.fac x).mpr ⟨hxl, hxv⟩)
      · obtain ⟨z, tz⟩ := hd.tri
        obtain ⟨z', tz'⟩ := hd'.tri
        have hfront : Dfs.Front (dD st.heap st.live) (dvis eps w.1.1 st.heap st.live) d := by
          refine ⟨mem_dD.mpr ⟨i, hil, z, tz⟩, ?_, ?_⟩
          · rw [show d = (d.1, d.2) from rfl, hM.dvis_eq hg _ hil tz]; exact hiv
          · rw [show Dfs.tw d = ((Dfs.tw d).1, (Dfs.tw d).2) from rfl, hM.dvis_eq hg _ hxl tz']; simpa using hxv
        obtain ⟨e, he, hke⟩ := List.mem_map.mp ((hF.mem d).mpr hfront)
        obtain ⟨i', hi', j, h1, h2, h3⟩ := hF.edge e he
        rw [hke] at h3
        obtain ⟨j', hjl, _, hje, hd2⟩ := hM.adj hg hi' h3
        obtain rfl := Option.some.inj hje
        obtain ⟨z2, tz2⟩ := hd2.tri
        obtain rfl : j = x := hM.uniq hg hjl hxl tz2 tz'
        exact Or.inr ⟨e, he, h2⟩
  · rintro (hx | ⟨e, he, hx⟩)
    · exact ⟨x, hx, Or.inl rfl⟩
    · obtain ⟨i, hi, j, h1, h2, h3⟩ := hF.edge e he
      rw [h2] at hx
      obtain rfl := Option.some.inj hx
      have hfront := (hF.mem (key e)).mp (List.mem_map_of_mem he)
      obtain ⟨z, tz⟩ := h3.tri
      have hv := hfront.2.1
      rw [show key e = ((key e).1, (key e).2) from rfl, hM.dvis_eq hg _ hi tz] at hv
      exact ⟨i, (hF.fac i).mpr ⟨hi, hv⟩, Or.inr (mem_ptrs.mpr ⟨_, h3⟩)⟩

theorem Ready.sizes (hG : Good Q st) {w : Task K} (hw : Ready eps Q st w) :
    w.2.1.length ≤ 3 * Q.length ^ 3 ∧ w.2.2.length ≤ Q.length ^ 3 := by
  have hlen := hG.mesh.length_le
  constructor
  · have h1 : (w.2.1.map key) ⊆ dD st.heap st.live := fun d hd => ((hw.front.mem d).mp hd).1
    have h2 := (List.subperm_of_subset hw.front.nodup h1).length_le
    rw [List.length_map, length_dD] at h2
    omega
  · have h1 : w.2.2 ⊆ st.live := fun i hi => ((hw.front.fac i).mp hi).1
    have h2 := (List.subperm_of_subset hw.front.fnodup h1).length_le
    omega

/-! ### The round -/

theorem reservingF_done {cs : List (Contender Res)} {sched : List ℕ}
    (h : (List.range cs.length).any (reservingF cs (reserve noRes cs sched)) = false) (t : ℕ) :
    rdone cs (reserve noRes cs sched) t := by
  intro k hk
  have hinv := rinv_run sched _ (rinv_start noRes cs)
  have ht : t < cs.length := (List.getElem?_eq_some_iff.mp hk).1
  have h1 := List.any_eq_false.mp h t (List.mem_range.mpr ht)
  have hle := hinv.le t k hk
  unfold reservingF at h1
  rw [hk] at h1
  unfold reserve at h1 ⊢
  cases hp : (sched.foldl (rstep cs) ⟨fun _ => noRes, fun _ => .load 0⟩).pc t with
  | load i =>
    rw [hp] at hle h1
    simp only [RPc.pos, decide_eq_true_eq] at hle h1
    congr 1
    omega
  | cas i seen => rw [hp] at h1; simp at h1

theorem reservingF_false {cs : List (Contender Res)} {s : RState Res} (h : ∀ t, rdone cs s t) :
    (List.range cs.length).any (reservingF cs s) = false := by
  rw [List.any_eq_false]
  intro t ht
  rw [List.mem_range] at ht
  have hk : cs[t]? = some cs[t] := List.getElem?_eq_getElem ht
  unfold reservingF
  rw [hk, h t _ hk]
  simp

theorem contenders_get (o : Oracle K) (js : List (Task K)) {t : ℕ} {k : Contender Res} (hk : (contenders o js)[t]? = some k) :
    ∃ j, js[t]? = some j ∧ k = ⟨OrderDual.toDual (o.addr j.1.2 : WithTop ℕ), o.arr t (j.2.2 ++ j.2.1.filterMap fun e => e.ff)⟩ := by
  unfold contenders at hk
  rw [List.getElem?_mapIdx] at hk
  obtain ⟨j, hj, rfl⟩ := Option.map_eq_some_iff.mp hk
  exact ⟨j, hj, rfl⟩

theorem contenders_length (o : Oracle K) (js : List (Task K)) : (contenders o js).length = js.length := by
  unfold contenders
  rw [List.length_mapIdx]

theorem goodIds {o : Oracle K} (ho : o.Fine) {js : List (Task K)} (hnd : (js.map fun j => j.1.2).Nodup) :
    GoodIds noRes (contenders o js) := by
  constructor
  · intro t t' k k' hk hk' he
    obtain ⟨j, hj, rfl⟩ := contenders_get o js hk
    obtain ⟨j', hj', rfl⟩ := contenders_get o js hk'
    have h1 : (o.addr j.1.2 : WithTop ℕ) = (o.addr j'.1.2 : WithTop ℕ) := OrderDual.toDual.injective he
    have h2 : j.1.2 = j'.1.2 := ho.inj (WithTop.coe_injective h1)
    have h3 : (js.map fun j => j.1.2)[t]? = some j.1.2 := by rw [List.getElem?_map, hj]; rfl
    have h4 : (js.map fun j => j.1.2)[t']? = some j.1.2 := by rw [List.getElem?_map, hj', h2]; rfl
    obtain ⟨ht, _⟩ := List.getElem?_eq_some_iff.mp h3
    exact (List.getElem?_inj ht hnd).mp (h3.trans h4.symm)
  · intro k hk
    obtain ⟨t, ht⟩ := List.mem_iff_getElem?.mp hk
    obtain ⟨j, _, rfl⟩ := contenders_get o js ht
    exact OrderDual.toDual_lt_toDual.mpr (WithTop.coe_lt_top _)

theorem checks_ok (hg : GenPos eps Q) (hG : Good Q st) (o : Oracle K) {js : List (Task K)} (hr : ∀ w ∈ js, Ready eps Q st w) :
    ∃ chk, checks o st js = .ok chk ∧ chk.length = js.length ∧ ∀ (t : ℕ) (j : Task K) (k : Contender Res), js[t]? = some j →
      chk[t]? = some k → k.id = OrderDual.toDual (o.addr j.1.2 : WithTop ℕ) ∧ ∀ c, c ∈ k.cells ↔ touch j c := by
  obtain ⟨chk, h1, h2⟩ := mapE_ok (f := fun j : Task K => (checkCells st j.2.2).map fun c =>
      (⟨OrderDual.toDual (o.addr j.1.2 : WithTop ℕ), c⟩ : Contender Res))
    (R := fun j k => k.id = OrderDual.toDual (o.addr j.1.2 : WithTop ℕ) ∧ ∀ c, c ∈ k.cells ↔ touch j c) js (by
    intro j hj
    obtain ⟨c, hc, hm⟩ := checkCells_ok hg hG j.2.2 fun i hi => (((hr j hj).front.fac i).mp hi).1
    refine ⟨⟨OrderDual.toDual (o.addr j.1.2 : WithTop ℕ), c⟩, ?_, rfl, fun x => (hm x).trans (touch_iff hg hG (hr j hj) x)⟩
    rw [hc]
    rfl)
  refine ⟨chk, h1, h2.length_eq.symm, ?_⟩
  intro t j k hj hk
  obtain ⟨ht, rfl⟩ := List.getElem?_eq_some_iff.mp hj
  obtain ⟨ht', rfl⟩ := List.getElem?_eq_some_iff.mp hk
  exact (List.forall₂_iff_get.mp h2).2 t ht ht'

theorem exists_beats {neutral : Res} {cs : List (Contender Res)} (hid : GoodIds neutral cs) (hne : cs ≠ []) :
    ∃ t < cs.length, Beats cs t := by
  obtain ⟨t, ht, hmax⟩ := Finset.exists_max_image (Finset.range cs.length) (fun t => (cs[t]?.map fun k => k.id).getD neutral)
    ⟨0, Finset.mem_range.mpr (List.length_pos_of_ne_nil hne)⟩
  refine ⟨t, Finset.mem_range.mp ht, ?_⟩
  intro k k' t' hk hk' hn _
  have h1 := hmax t' (Finset.mem_range.mpr (List.getElem?_eq_some_iff.mp hk').1)
  rw [hk, hk'] at h1
  simp only [Option.map_some, Option.getD_some] at h1
  exact lt_of_le_of_ne h1 fun he => hn (hid.inj t' t k' k hk' hk he)

theorem dropBad_self {js : List (Task K)} (hr : ∀ w ∈ js, Ready eps Q st w) : dropBad js st = st := by
  have : (js.filter fun j => !closedChain j.2.1) = [] := by
    rw [List.filter_eq_nil_iff]
    intro j hj
    rw [(hr j hj).front.closedChain]
    simp
  unfold dropBad
  rw [this]
  simp

/-- How many accesses every thread needs at most in a round: `n` threads, `M` facets, `N` bounds the facets of a surface. -/
def fairBound (n M N : ℕ) : ℕ := 2 * (n * (4 * N)) + 2 * n * (M * n) + 1 + 76 * N

/-- A round of the parallel branch ends in a good state with fewer points, or is not through. If every thread gets enough accesses,
it is through. -/
theorem parRound_ok (hg : GenPos eps Q) (hG : Good Q st) {o : Oracle K} (ho : o.Fine) {pick : Pick K} (hp : Picks pick) {n : ℕ}
    (hn : seenFacets o n st ≠ []) {fuel : ℕ} (hf : 9 * Q.length ^ 3 + 5 ≤ fuel) :
    (parRound eps fuel pick n o st (fun _ => noRes) = .error .fuel ∨
      ∃ s, parRound eps fuel pick n o st (fun _ => noRes) = .ok (s, fun _ => noRes) ∧ Good Q s ∧ total s < total st ∧
        s.next + 3 * Q.length ^ 3 * total s ≤ st.next + 3 * Q.length ^ 3 * total st) ∧
    ∀ M, st.next ≤ M → (∀ t < n, fairBound n M (Q.length ^ 3) ≤ o.s1.count t ∧ fairBound n M (Q.length ^ 3) ≤ o.s2.count t) →
      parRound eps fuel pick n o st (fun _ => noRes) ≠ .error .fuel := by
  obtain ⟨vs, js, h1, h2, hseen, hr⟩ := tasks_ok hg hG ho hp n hf
  obtain ⟨chk, h3, hcl, hck⟩ := checks_ok hg hG o hr
  have hid : GoodIds noRes (contenders o js) := goodIds ho (by rw [hseen]; exact seenFacets_nodup ho n st)
  have hjl : js.length = (seenFacets o n st).length := by rw [← hseen, List.length_map]
  have hjn : js.length ≤ n := by rw [hjl]; exact seenFacets_length o n st
  have hlen := contenders_length o js
  have hcne : contenders o js ≠ [] := by
    rw [← List.length_pos_iff, hlen, hjl]
    exact List.length_pos_of_ne_nil hn
  have hcell : ∀ (t : ℕ) (j : Task K) (k : Contender Res), js[t]? = some j → (contenders o js)[t]? = some k →
      ∀ c, c ∈ k.cells ↔ touch j c := by
    intro t j k hj hk c
    obtain ⟨j', hj', rfl⟩ := contenders_get o js hk
    rw [hj] at hj'
    obtain rfl := Option.some.inj hj'
    simp only
    rw [(ho.arr t _).mem_iff, List.mem_append, List.mem_filterMap]
    rfl
  have hpar : parRound eps fuel pick n o st (fun _ => noRes) =
      if (List.range (contenders o js).length).any (reservingF (contenders o js) (reserve noRes (contenders o js) o.s1)) then
        .error .fuel
      else (commit eps o st (winners (reserve noRes (contenders o js) o.s1).mem js chk)).map fun st' =>
        (st', fun c => if st.next ≤ c then noRes else
          wipe noRes (reserve noRes (contenders o js) o.s1).mem (chk.flatMap fun k => k.cells) c) := by
    unfold parRound
    rw [h1]
    simp only [Except.bind]
    rw [h2]
    simp only
    rw [h3, dropBad_self hr]
    rfl
  rw [hpar]
  -- the reservations are made
  by_cases hres : (List.range (contenders o js).length).any
      (reservingF (contenders o js) (reserve noRes (contenders o js) o.s1)) = true
  · rw [if_pos hres]
    refine ⟨Or.inl rfl, ?_⟩
    intro M hM hfair _
    have hdone := rdone_of_fair_len (neutral := noRes) (cs := contenders o js) (M := M) (L := 4 * Q.length ^ 3) (sched := o.s1)
      (by
        intro k hk c hc
        obtain ⟨t, ht⟩ := List.mem_iff_getElem?.mp hk
        obtain ⟨j, hj, _⟩ := contenders_get o js ht
        have := hG.fresh c ((hr j (List.mem_of_getElem? hj)).touch_live hg hG ((hcell t j k hj ht c).mp hc))
        omega)
      (by
        intro k hk
        obtain ⟨t, ht⟩ := List.mem_iff_getElem?.mp hk
        obtain ⟨j, hj, rfl⟩ := contenders_get o js ht
        simp only
        rw [(ho.arr t _).length_eq, List.length_append]
        have h4 := (hr j (List.mem_of_getElem? hj)).sizes hG
        have h5 := List.length_filterMap_le (fun e : Edge K => e.ff) j.2.1
        omega)
      (by
        intro t ht
        rw [hlen] at ht ⊢
        have h4 := (hfair t (by omega)).1
        have h5 : js.length * (4 * Q.length ^ 3) ≤ n * (4 * Q.length ^ 3) := Nat.mul_le_mul_right _ hjn
        have h6 : 2 * js.length * (M * js.length) ≤ 2 * n * (M * n) :=
          Nat.mul_le_mul (Nat.mul_le_mul_left _ hjn) (Nat.mul_le_mul_left _ hjn)
        unfold fairBound at h4
        omega)
    rw [reservingF_false hdone] at hres
    exact absurd hres (by simp)
  · rw [if_neg hres]
    have hdone := reservingF_done (by simpa using hres : (List.range (contenders o js).length).any
      (reservingF (contenders o js) (reserve noRes (contenders o js) o.s1)) = false)
    obtain ⟨hconf, hwipe⟩ := c40_confirm hid (by rw [hcl, hlen]) (chk := chk) (by
      intro t k k' hk hk'
      obtain ⟨j, hj, e⟩ := contenders_get o js hk
      obtain ⟨g1, g2⟩ := hck t j k' hj hk'
      refine ⟨by rw [g1, e], fun c => (g2 c).trans (hcell t j k hj hk c).symm⟩) hdone
    set mem := (reserve noRes (contenders o js) o.s1).mem with hmem
    set ws := winners mem js chk with hws
    -- winners
    have hsub : ∀ w ∈ ws, w ∈ js := by
      intro w hw
      obtain ⟨x, hx, rfl⟩ := List.mem_map.mp hw
      exact (List.of_mem_zip (List.mem_of_mem_filter hx)).1
    have hdis : ws.Pairwise fun w u => ∀ c, touch w c → ¬ touch u c := by
      rw [hws, winners, List.pairwise_map, List.pairwise_filter, List.pairwise_iff_getElem]
      intro t t' ht ht' hlt hc1 hc2 c
      rw [List.length_zip] at ht ht'
      have e1 : js[t]? = some js[t] := List.getElem?_eq_getElem (by omega)
      have e2 : chk[t]? = some chk[t] := List.getElem?_eq_getElem (by omega)
      have e3 : js[t']? = some js[t'] := List.getElem?_eq_getElem (by omega)
      have e4 : chk[t']? = some chk[t'] := List.getElem?_eq_getElem (by omega)
      have e5 : (contenders o js)[t]? = some (contenders o js)[t] := List.getElem?_eq_getElem (by omega)
      have e6 : (contenders o js)[t']? = some (contenders o js)[t'] := List.getElem?_eq_getElem (by omega)
      simp only [List.getElem_zip, Bool.and_eq_true] at hc1 hc2 ⊢
      intro m1 m2
      have b1 := (hconf t _ e2).mp hc1.1
      have b2 := (hconf t' _ e4).mp hc2.1
      have n1 := (hcell t _ _ e1 e5 c).mpr m1
      have n2 := (hcell t' _ _ e3 e6 c).mpr m2
      exact lt_asymm (b1 _ _ t' e5 e6 (by omega) ⟨c, n1, n2⟩) (b2 _ _ t e6 e5 (by omega) ⟨c, n2, n1⟩)
    have hwne : ws ≠ [] := by
      obtain ⟨t, ht, hb⟩ := exists_beats hid hcne
      rw [hlen] at ht
      have e2 : chk[t]? = some chk[t] := List.getElem?_eq_getElem (by omega)
      have hmemz : (js[t], chk[t]) ∈ js.zip chk := by
        refine List.mem_iff_getElem.mpr ⟨t, by rw [List.length_zip]; omega, ?_⟩
        rw [List.getElem_zip]
      refine List.ne_nil_of_mem (a := js[t]) ?_
      rw [hws, winners]
      refine List.mem_map.mpr ⟨_, List.mem_filter.mpr ⟨hmemz, ?_⟩, rfl⟩
      rw [Bool.and_eq_true]
      exact ⟨(hconf t _ e2).mpr hb, (hr _ (List.getElem_mem ht)).front.closedChain⟩
    have hrw : ∀ w ∈ ws, Ready eps Q st w := fun w hw => hr w (hsub w hw)
    have hlive : ∀ w ∈ ws, ∀ c, touch w c → c ∈ st.live := fun w hw c hc => (hrw w hw).touch_live hg hG hc
    obtain ⟨st', hC⟩ := chained_ok hg st.live ws st hG hrw hlive hdis
    obtain ⟨c1, c2⟩ := commit_ok hG hC hdis hlive (fun w hw => (hrw w hw).front.ne) o
    have hres' : (fun c => if st.next ≤ c then noRes else wipe noRes mem (chk.flatMap fun k => k.cells) c) = fun _ => noRes := by
      funext c
      rw [hwipe _ (List.Perm.refl _) c]
      simp
    rw [hres']
    have hwl : ws.length ≤ js.length := by
      rw [hws, winners, List.length_map]
      refine (List.length_filter_le _ _).trans ?_
      rw [List.length_zip]
      exact min_le_left _ _
    constructor
    · rcases c1 with c1 | ⟨b, c1, hGb⟩
      · rw [c1]; exact Or.inl rfl
      · rw [c1]
        refine Or.inr ⟨_, rfl, hGb, ?_, ?_⟩
        · have h4 := hC.less
          have h5 := List.length_pos_of_ne_nil hwne
          show total st' < total st
          omega
        · show st'.next + 3 * Q.length ^ 3 * total st' ≤ _
          rw [hC.next]
          have h4 : (ws.map fun j => j.2.1.length).sum ≤ ws.length • (3 * Q.length ^ 3) := by
            have := List.sum_le_card_nsmul (ws.map fun j => j.2.1.length) (3 * Q.length ^ 3) (by
              intro x hx
              obtain ⟨w, hw, rfl⟩ := List.mem_map.mp hx
              exact ((hrw w hw).sizes hG).1)
            rwa [List.length_map] at this
          rw [smul_eq_mul] at h4
          have h5 : 3 * Q.length ^ 3 * (total st' + ws.length) ≤ 3 * Q.length ^ 3 * total st := Nat.mul_le_mul_left _ hC.less
          rw [Nat.mul_add] at h5
          rw [Nat.mul_comm ws.length] at h4
          omega
    · intro M hM hfair hc
      have h4 := c2 (76 * Q.length ^ 3) (by
        intro w hw
        have := (hrw w hw).sizes hG
        omega) (by
        intro t ht
        have := (hfair t (by omega)).2
        unfold fairBound at this
        omega)
      rcases c1 with c1 | ⟨b, c1, _⟩
      · exact h4 c1
      · rw [c1] at hc
        simp [Except.map] at hc

end

end Verif.QHull
