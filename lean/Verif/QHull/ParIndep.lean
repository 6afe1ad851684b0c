import Verif.QHull.ParProg
import Verif.QHull.RoundMain
import Verif.QHull.Loop

set_option linter.unusedSectionVars false
set_option linter.unusedVariables false

/-!
Apexes whose frontiers touch different facets do not disturb each other.
-/

namespace Verif.QHull

open Verif Verif.Hull3d Verif.Par

variable {K : Type} [Field K] [LinearOrder K] [IsStrictOrderedRing K]

/-- A task that can be carried out on the surface. -/
structure Ready (eps : K) (Q : List (P3 K)) (st : Hull K) (w : Task K) : Prop where
  apex : Apex Q st.heap st.live w.1.1
  front : FrontierOK eps st w.1.1 w.2
  live : w.1.2 ∈ st.live
  pts : w.1 ∈ st.pts w.1.2

/-- The old facets a task touches. -/
def touch (w : Task K) (c : ℕ) : Prop := c ∈ w.2.2 ∨ ∃ e ∈ w.2.1, e.ff = some c

section

variable {eps : K} {Q : List (P3 K)} {st : Hull K} {w : Task K}

theorem Ready.beneath (hg : GenPos eps Q) (hG : Good Q st) (hw : Ready eps Q st w) : w.1.2 ∈ w.2.2 :=
  (hw.front.fac _).mpr ⟨hw.live, (hG.mesh.vis_iff hg hw.apex.mem hw.live).mpr (hG.see _ hw.live _ hw.pts).2.2⟩

theorem Ready.touch_live (hg : GenPos eps Q) (hG : Good Q st) (hw : Ready eps Q st w) {c : ℕ} (hc : touch w c) : c ∈ st.live := by
  rcases hc with hc | ⟨e, he, hc⟩
  · exact ((hw.front.fac c).mp hc).1
  · obtain ⟨i, hi, j, h1, h2, h3⟩ := hw.front.edge e he
    obtain ⟨j', hj', _, h4, _⟩ := hG.mesh.adj hg hi h3
    rw [h2] at hc
    obtain rfl := Option.some.inj hc
    obtain rfl := Option.some.inj h4
    exact hj'

/-- What a round does to the surface. -/
structure Shape (eps : K) (Q : List (P3 K)) (st st' : Hull K) (w : Task K) : Prop where
  ok : round eps st w.1.1 w.2 = .ok st'
  good : Good Q st'
  less : total st' < total st
  live : st'.live = liveNew st w.2
  next : st'.next = st.next + w.2.1.length
  size : st'.hSize + w.2.2.length = st.hSize + w.2.1.length
  pts : ∀ i ∈ st.live, st'.pts i = st.pts i
  old : ∀ i ∈ st.live, SameV (st'.heap i) (st.heap i)
  new : ∀ k e, w.2.1[k]? = some e → SameV (st'.heap (st.next + k)) ⟨e.a, e.b, w.1.1, none, none, none⟩

theorem round_shape (hg : GenPos eps Q) (hG : Good Q st) (hw : Ready eps Q st w) : ∃ st', Shape eps Q st st' w := by
  obtain ⟨v, fr⟩ := w
  obtain ⟨hp, hF, hi, hv⟩ := hw
  simp only at hp hF hi hv
  obtain ⟨st', hok, hgood, hless⟩ := round_ok hg hG hp hF hi hv
  obtain ⟨h2, hl, hs, hm⟩ := linkNew_ok hg hG hp hF (List.range fr.1.length) (allocNew eps st fr.1 v.1)
    (fun k hk => List.mem_range.mp hk) rfl (fun g => ⟨rfl, rfl, rfl⟩)
  have hlive : (List.range' st.next fr.1.length ++ st.live).filter (fun i => decide (i ∉ fr.2)) = liveNew st fr := by
    rw [List.filter_append]
    unfold liveNew keptOld
    congr 1
    rw [List.filter_eq_self]
    intro i hi
    rw [decide_eq_true_eq]
    intro hc
    have h1 := (List.mem_range'_1.mp hi).1
    have h2 := hG.fresh i ((hF.fac i).mp hc).1
    omega
  have hok0 := hok
  unfold round at hok
  rw [if_neg hF.ne, hl] at hok
  simp only [Except.bind, redistribute, foldl_flat, Except.ok.injEq, List.length_range'] at hok
  have hle : fr.2.length ≤ st.hSize := by
    have h1 := (frontier_perm hG hF).length_eq
    rw [List.length_append] at h1
    rw [hG.size]
    omega
  refine ⟨st', hok0, hgood, hless, ?_, ?_, ?_, ?_, ?_, ?_⟩
  all_goals subst hok
  · exact hlive
  · rfl
  · show st.hSize + fr.1.length - fr.2.length + fr.2.length = st.hSize + fr.1.length
    omega
  · intro i hi
    show (List.foldl (place eps h2 _) _ _) i = _
    rw [foldl_place]
    have : ((fr.2.flatMap (allocNew eps st fr.1 v.1).pts).filter fun u => decide ((List.find? (fun j => keep eps (h2 j) u.1)
        (List.range' st.next fr.1.length)) = some i)) = [] := by
      rw [List.filter_eq_nil_iff]
      intro u _ hc
      have := (List.mem_range'_1.mp (List.mem_of_find?_eq_some (of_decide_eq_true hc))).1
      have := hG.fresh i hi
      omega
    rw [this]
    have h3 : (allocNew eps st fr.1 v.1).pts i = st.pts i := by
      unfold allocNew
      simp only
      rw [if_neg]
      have := hG.fresh i hi
      omega
    rw [h3]
    simp
  · intro i hi
    have := hs i
    rw [alloc_old eps st fr.1 v.1 (hG.fresh i hi)] at this
    exact this
  · intro k e hk
    have := hs (st.next + k)
    rw [alloc_new hg hG.mesh hp hF hk] at this
    exact this

theorem SameV.visible {g g' : Facet (P3 K)} (h : SameV g g') (p : P3 K) : visible eps g p = visible eps g' p := by
  have := SameV.fsv h p
  unfold QHull.fsv at this
  unfold QHull.visible
  rw [this]

/-- The footprint of a task. -/
theorem own_iff (b : ℕ) (w : Task K) (c : ℕ) : ownW b w.2 c ↔ (b ≤ c ∧ c < b + w.2.1.length) ∨ touch w c := Iff.rfl

/-- After a round, a task that touches other facets can still be carried out. -/
theorem Ready.after (hg : GenPos eps Q) (hG : Good Q st) (hw : Ready eps Q st w) {st' : Hull K} (hS : Shape eps Q st st' w)
    (hframe : ∀ c, c < st.next → ¬ touch w c → st'.heap c = st.heap c) {u : Task K} (hu : Ready eps Q st u)
    (hd : ∀ c, touch w c → ¬ touch u c) : Ready eps Q st' u := by
  have hM := hG.mesh
  have hM' := hS.good.mesh
  have hF := hw.front
  have hFu := hu.front
  -- facets beneath the other apex stay as they are
  have hkeepT : ∀ c, touch u c → c ∈ st'.live ∧ st'.heap c = st.heap c := by
    intro c hc
    have hcl := hu.touch_live hg hG hc
    have hnt : ¬ touch w c := fun h => hd c h hc
    refine ⟨?_, hframe c (hG.fresh c hcl) hnt⟩
    rw [hS.live]
    refine (mem_liveNew hF).mpr (Or.inr ⟨hcl, ?_⟩)
    by_contra hv
    rw [Bool.not_eq_false] at hv
    exact hnt (Or.inl ((hF.fac c).mpr ⟨hcl, hv⟩))
  have hsee : ∀ i ∈ st.live, ¬ i ∈ u.2.2 → fsv (st.heap i) u.1.1 ≤ 0 := by
    intro i hi hn
    by_contra hc
    exact hn ((hFu.fac i).mpr ⟨hi, (hM.vis_iff hg hu.apex.mem hi).mpr (not_le.mp hc)⟩)
  have hhor : ∀ (k : ℕ) (e : Edge K), w.2.1[k]? = some e → ∃ i j z y, Horizon st.heap st.live w.1.1 i j e.a e.b z y ∧ touch w i ∧ touch w j := by
    intro k e hk
    have he := List.mem_of_getElem? hk
    obtain ⟨i, j, z, y, H⟩ := hF.horizon hg hM hw.apex he
    refine ⟨i, j, z, y, H, ?_, ?_⟩
    · exact Or.inl ((hF.fac i).mpr ⟨H.hi, (hM.vis_iff hg hw.apex.mem H.hi).mpr H.vi⟩)
    · obtain ⟨i', hi', j', h1, h2, h3⟩ := hF.edge e he
      obtain ⟨z', t'⟩ := h3.tri
      obtain rfl : i' = i := hM.uniq hg hi' H.hi t' H.ti
      obtain ⟨j2, hj2, _, h4, h5⟩ := hM.adj hg hi' h3
      obtain rfl := Option.some.inj h4
      obtain ⟨y', t2⟩ := h5.tri
      obtain rfl : j' = j := hM.uniq hg hj2 H.hj t2 H.tj
      exact Or.inr ⟨e, he, h2⟩
  have hnewle : ∀ (k : ℕ) (e : Edge K), w.2.1[k]? = some e → fsv (st'.heap (st.next + k)) u.1.1 ≤ 0 := by
    intro k e hk
    rw [SameV.fsv (hS.new k e hk)]
    obtain ⟨i, j, z, y, H, ti, tj⟩ := hhor k e hk
    exact H.le (hsee i H.hi fun hc => hd i ti (Or.inl hc)) (hsee j H.hj fun hc => hd j tj (Or.inl hc))
  have hne : w.1.1 ≠ u.1.1 := by
    intro he
    have h1 := hw.beneath hg hG
    have h2 := (hF.fac _).mp h1
    rw [he] at h2
    exact hd _ (Or.inl h1) (Or.inl ((hFu.fac _).mpr h2))
  have hap : Apex Q st'.heap st'.live u.1.1 := by
    refine ⟨hu.apex.mem, fun i hi hv => ?_⟩
    rw [hS.live] at hi
    rcases (mem_liveNew hF).mp hi with ⟨k, e, hk, rfl⟩ | ⟨hi, _⟩
    · rw [SameV.isV (hS.new k e hk)] at hv
      obtain ⟨i, j, z, y, H, _, _⟩ := hhor k e hk
      rcases hv with hv | hv | hv
      · exact hu.apex.out i H.hi (hv ▸ H.isV.1)
      · exact hu.apex.out i H.hi (hv ▸ H.isV.2)
      · exact hne hv.symm
    · exact hu.apex.out i hi ((SameV.isV (hS.old i hi) _).mp hv)
  have hfac : ∀ k, k ∈ u.2.2 ↔ k ∈ st'.live ∧ visible eps (st'.heap k) u.1.1 = true := by
    intro k
    constructor
    · intro hk
      obtain ⟨h1, h2⟩ := hkeepT k (Or.inl hk)
      exact ⟨h1, by rw [h2]; exact ((hFu.fac k).mp hk).2⟩
    · rintro ⟨hk, hv⟩
      have hpos := (hM'.vis_iff hg hu.apex.mem hk).mp hv
      rw [hS.live] at hk
      rcases (mem_liveNew hF).mp hk with ⟨m, e, hm, rfl⟩ | ⟨hkl, _⟩
      · exact absurd (hnewle m e hm) (not_le.mpr hpos)
      · rw [hFu.fac]
        exact ⟨hkl, by rw [← SameV.visible (hS.old k hkl)]; exact hv⟩
  refine ⟨hap, ⟨hFu.ne, ?_, hFu.nodup, hFu.chain, hFu.closed, ?_, hFu.fnodup, hfac⟩, ?_, ?_⟩
  · rintro ⟨x, y⟩
    constructor
    · intro hd'
      obtain ⟨e, he, hke⟩ := List.mem_map.mp hd'
      obtain ⟨f1, f2, f3⟩ := (hFu.mem (x, y)).mp hd'
      obtain ⟨i, hi, j, h1, h2, h3⟩ := hFu.edge e he
      rw [hke] at h3
      obtain ⟨z, t⟩ := h3.tri
      rw [hM.dvis_eq hg _ hi t] at f2
      have hib : i ∈ u.2.2 := (hFu.fac i).mpr ⟨hi, f2⟩
      obtain ⟨hi', hei⟩ := hkeepT i (Or.inl hib)
      obtain ⟨hj', hej⟩ := hkeepT j (Or.inr ⟨e, he, h2⟩)
      obtain ⟨j2, hj2, _, h4, h5⟩ := hM.adj hg hi h3
      obtain rfl := Option.some.inj h4
      obtain ⟨z2, t2⟩ := h5.tri
      have t2' : Tri (st.heap j) y x z2 := t2
      unfold Dfs.tw at f3
      rw [hM.dvis_eq hg _ hj2 t2'] at f3
      refine ⟨mem_dD.mpr ⟨i, hi', z, by rw [hei]; exact t⟩, ?_, ?_⟩
      · rw [hM'.dvis_eq hg _ hi' (hei ▸ t), hei]; exact f2
      · unfold Dfs.tw
        rw [hM'.dvis_eq hg _ hj' (hej ▸ t2'), hej]; exact f3
    · rintro ⟨f1, f2, f3⟩
      obtain ⟨i, hi', z, t⟩ := mem_dD.mp f1
      rw [hM'.dvis_eq hg _ hi' t] at f2
      have hib : i ∈ u.2.2 := (hfac i).mpr ⟨hi', f2⟩
      obtain ⟨_, hei⟩ := hkeepT i (Or.inl hib)
      have hi := ((hFu.fac i).mp hib).1
      have t0 : Tri (st.heap i) x y z := hei ▸ t
      obtain ⟨o, hdart⟩ := t0.dart
      obtain ⟨j, hj, _, ho, h5⟩ := hM.adj hg hi hdart
      obtain ⟨z2, t2⟩ := h5.tri
      have t2' : Tri (st.heap j) y x z2 := t2
      refine (hFu.mem (x, y)).mpr ⟨mem_dD.mpr ⟨i, hi, z, t0⟩, ?_, ?_⟩
      · rw [hM.dvis_eq hg _ hi t0, ← hei]; exact f2
      · unfold Dfs.tw
        rw [hM.dvis_eq hg _ hj t2']
        by_contra hc
        rw [Bool.not_eq_false] at hc
        have hjb : j ∈ u.2.2 := (hFu.fac j).mpr ⟨hj, hc⟩
        obtain ⟨hj', hej⟩ := hkeepT j (Or.inl hjb)
        unfold Dfs.tw at f3
        rw [hM'.dvis_eq hg _ hj' (hej ▸ t2'), hej, hc] at f3
        simp at f3
  · intro e he
    obtain ⟨i, hi, j, h1, h2, h3⟩ := hFu.edge e he
    have hmem := (hFu.mem _).mp (List.mem_map.mpr ⟨e, he, rfl⟩)
    obtain ⟨z, t⟩ := h3.tri
    have f2 := hmem.2.1
    have hk : key e = ((key e).1, (key e).2) := rfl
    rw [hk, hM.dvis_eq hg _ hi t] at f2
    obtain ⟨hi', hei⟩ := hkeepT i (Or.inl ((hFu.fac i).mpr ⟨hi, f2⟩))
    exact ⟨i, hi', j, h1, h2, by rw [hei]; exact h3⟩
  · exact (hkeepT _ (Or.inl (hu.beneath hg hG))).1
  · rw [hS.pts _ hu.live]
    exact hu.pts

/-- The same round as a program. -/
theorem Shape.safe (hg : GenPos eps Q) (hG : Good Q st) (hw : Ready eps Q st w) {st' : Hull K} (hS : Shape eps Q st st' w)
    (live0 : List ℕ) (h0 : ∀ c, touch w c → c ∈ live0) :
    ∃ n ≤ 25 * w.2.1.length + w.2.2.length,
      Safe (ownW st.next w.2) n (memOf st) (procP eps live0 st.next w.1.1 w.2) (memOf st') :=
  procP_safe eps live0 st st' w.1.1 w.2 (fun i hi => ⟨h0 i (Or.inl hi), hG.fresh i ((hw.front.fac i).mp hi).1⟩)
    (fun e he j hj => h0 j (Or.inr ⟨e, he, hj⟩)) hS.ok

end

/-- Bases are at least the first. -/
theorem withBase_ge : ∀ (ws : List (Task K)) (b : ℕ), ∀ x ∈ withBase b ws, b ≤ x.1
  | [], b, x, hx => by simp [withBase] at hx
  | w :: ws, b, x, hx => by
    simp only [withBase, List.mem_cons] at hx
    rcases hx with rfl | hx
    · exact le_refl _
    · have := withBase_ge ws _ x hx
      omega

theorem withBase_mem : ∀ (ws : List (Task K)) (b : ℕ), ∀ x ∈ withBase b ws, x.2 ∈ ws
  | [], b, x, hx => by simp [withBase] at hx
  | w :: ws, b, x, hx => by
    simp only [withBase, List.mem_cons] at hx
    rcases hx with rfl | hx
    · simp
    · simp [withBase_mem ws _ x hx]

theorem withBase_length : ∀ (ws : List (Task K)) (b : ℕ), (withBase b ws).length = ws.length
  | [], _ => rfl
  | w :: ws, b => by simp [withBase, withBase_length ws]

section

variable {eps : K} {Q : List (P3 K)}

/-- The tasks one after the other. -/
structure Chained (eps : K) (Q : List (P3 K)) (live0 : List ℕ) (st st' : Hull K) (ws : List (Task K)) : Prop where
  good : Good Q st'
  less : total st' + ws.length ≤ total st
  live : st'.live = (((withBase st.next ws).reverse.flatMap fun w => List.range' w.1 w.2.2.1.length) ++ st.live).filter fun i =>
      decide (i ∉ ws.flatMap fun j => j.2.2)
  next : st'.next = st.next + (ws.map fun j => j.2.1.length).sum
  size : st'.hSize + (ws.map fun j => j.2.2.length).sum = st.hSize + (ws.map fun j => j.2.1.length).sum
  each : ∀ x ∈ withBase st.next ws, ∃ n ≤ 25 * x.2.2.1.length + x.2.2.2.length, ∃ f,
      Safe (ownW x.1 x.2.2) n (memOf st) (procP eps live0 x.1 x.2.1.1 x.2.2) f ∧ ∀ c, ownW x.1 x.2.2 c → f c = memOf st' c
  rest : ∀ c, (∀ x ∈ withBase st.next ws, ¬ ownW x.1 x.2.2 c) → memOf st' c = memOf st c

theorem chained_ok (hg : GenPos eps Q) (live0 : List ℕ) : ∀ (ws : List (Task K)) (st : Hull K), Good Q st →
    (∀ w ∈ ws, Ready eps Q st w) → (∀ w ∈ ws, ∀ c, touch w c → c ∈ live0) → ws.Pairwise (fun w u => ∀ c, touch w c → ¬ touch u c) →
    ∃ st', Chained eps Q live0 st st' ws
  | [], st, hG, _, _, _ => ⟨st, hG, by simp, by simp [withBase], by simp, by simp, by simp [withBase], fun _ _ => rfl⟩
  | w :: ws, st, hG, hr, h0, hd => by
    rw [List.pairwise_cons] at hd
    have hw := hr w (by simp)
    obtain ⟨st1, hS⟩ := round_shape hg hG hw
    obtain ⟨n1, hn1, hs1⟩ := hS.safe hg hG hw live0 (h0 w (by simp))
    have hfr : ∀ c, c < st.next → ¬ touch w c → st1.heap c = st.heap c := by
      intro c hc hnt
      have := hs1.frame c (fun h => by
        rcases (own_iff _ _ _).mp h with h | h
        · omega
        · exact hnt h)
      exact congrArg Prod.fst this
    obtain ⟨st', hC⟩ := chained_ok hg live0 ws st1 hS.good
      (fun u hu => hw.after hg hG hS hfr (hr u (by simp [hu])) (hd.1 u hu)) (fun u hu => h0 u (by simp [hu])) hd.2
    have hnx := hS.next
    -- footprints of later tasks are apart from this one
    have hapart : ∀ x ∈ withBase st1.next ws, ∀ c, ownW x.1 x.2.2 c → ¬ ownW st.next w.2 c := by
      intro x hx c h1 h2
      have hge := withBase_ge ws _ x hx
      have hm := withBase_mem ws _ x hx
      rcases (own_iff _ _ _).mp h1 with h1 | h1 <;> rcases (own_iff _ _ _).mp h2 with h2 | h2
      · omega
      · have := hG.fresh c (hw.touch_live hg hG h2)
        omega
      · have := hG.fresh c ((hr x.2 (by simp [hm])).touch_live hg hG h1)
        omega
      · exact hd.1 x.2 hm c h2 h1
    refine ⟨st', hC.good, ?_, ?_, ?_, ?_, ?_, ?_⟩
    · have h1 := hC.less
      have h2 := hS.less
      rw [List.length_cons]
      omega
    · rw [hC.live, hS.live]
      simp only [withBase, List.reverse_cons, List.flatMap_append, List.flatMap_cons, List.flatMap_nil, List.append_nil]
      rw [← hnx]
      unfold liveNew keptOld
      simp only [List.filter_append, List.filter_filter, List.append_assoc]
      congr 1
      · apply List.filter_congr
        intro i hi
        obtain ⟨x, hx, hi⟩ := List.mem_flatMap.mp hi
        have h1 := withBase_ge ws _ x (List.mem_reverse.mp hx)
        have h2 := (List.mem_range'_1.mp hi).1
        have h3 : i ∉ w.2.2 := by
          intro hc
          have := hG.fresh i ((hw.front.fac i).mp hc).1
          omega
        simp [h3]
      · congr 1
        · apply List.filter_congr
          intro i hi
          have h2 := (List.mem_range'_1.mp hi).1
          have h3 : i ∉ w.2.2 := by
            intro hc
            have := hG.fresh i ((hw.front.fac i).mp hc).1
            omega
          simp [h3]
        · apply List.filter_congr
          intro i _
          by_cases h1 : i ∈ w.2.2 <;> simp [h1]
    · rw [hC.next, hnx, List.map_cons, List.sum_cons]
      omega
    · have h1 := hC.size
      have h2 := hS.size
      rw [List.map_cons, List.sum_cons, List.map_cons, List.sum_cons]
      omega
    · intro x hx
      simp only [withBase, List.mem_cons] at hx
      rcases hx with rfl | hx
      · refine ⟨n1, hn1, memOf st1, hs1, fun c hc => ?_⟩
        exact (hC.rest c fun x hx hx' => hapart x hx c hx' hc).symm
      · rw [← hnx] at hx
        obtain ⟨n, hn, f, hs, hf⟩ := hC.each x hx
        obtain ⟨f', h1, h2, h3⟩ := hs.transfer (memOf st) fun c hc => (hs1.frame c (hapart x hx c hc)).symm
        exact ⟨n, hn, f', h1, fun c hc => (h2 c hc).trans (hf c hc)⟩
    · intro c hc
      rw [hC.rest c fun x hx => hc x (by simp only [withBase, List.mem_cons]; rw [← hnx]; exact Or.inr hx)]
      exact hs1.frame c (hc (st.next, w) (by simp [withBase]))

end

end Verif.QHull
