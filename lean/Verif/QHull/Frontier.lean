import Verif.QHull.MeshGeo

set_option linter.unusedSectionVars false
set_option linter.unusedVariables false

/-!
`computeFrontier` finds the visible facets and their boundary, in order.
-/

namespace Verif.QHull

open Verif Verif.Hull3d

variable {K : Type} [Field K] [LinearOrder K] [IsStrictOrderedRing K]

/-- The dart of an edge. -/
def key (e : Edge K) : P3 K × P3 K := (e.a, e.b)

/-- An edge of the stack: `fb` has the dart, `ff` is across it. -/
def EdgeOK (st : Hull K) (e : Edge K) : Prop :=
  ∃ i ∈ st.live, ∃ j, e.fb = some i ∧ e.ff = some j ∧ IsDart (st.heap i) (key e) (some j)

section

variable {eps : K} {Q : List (P3 K)} {st : Hull K} {p : P3 K}

/-- The facets collected so far. -/
structure FacInv (eps : K) (st : Hull K) (p : P3 K) (t : P3 K × P3 K) (S : List (Edge K)) (V : List (P3 K × P3 K)) (F : List ℕ) :
    Prop where
  nodup : F.Nodup
  vis : ∀ k ∈ F, k ∈ st.live ∧ visible eps (st.heap k) p = true
  stack : ∀ e ∈ S, ∀ i, e.fb = some i → visible eps (st.heap i) p = true → i ∈ F
  seen : ∀ d ∈ V, d ≠ t → ∀ i ∈ st.live, d ∈ darts (st.heap i) → visible eps (st.heap i) p = true → i ∈ F

theorem deref_some {i : ℕ} (hi : i ∈ st.live) : deref st (some i) = .ok (i, st.heap i) := by
  simp [deref, hi]

theorem pushEdges_keys {f : Facet (P3 K)} {h : Heap (P3 K)} (hf : fdet f < 0) {x y z : P3 K} (ht : Tri f x y z) (i : ℕ) :
    (pushEdges i f x).map key = [(y, z), (z, x), (x, y)] := by
  obtain ⟨n1, n2, n3⟩ := tri_ne hf (Tri.self f)
  unfold pushEdges
  rcases ht with ⟨rfl, rfl, rfl⟩ | ⟨rfl, rfl, rfl⟩ | ⟨rfl, rfl, rfl⟩
  · simp [key]
  · simp [key, n1]
  · simp [key, n2, n3.symm]

theorem pushEdges_ok {i : ℕ} {x : P3 K} {e : Edge K} (he : e ∈ pushEdges i (st.heap i) x) :
    e.fb = some i ∧ IsDart (st.heap i) (key e) e.ff := by
  unfold pushEdges at he
  unfold IsDart key
  split at he
  · simp only [List.mem_cons, List.not_mem_nil, or_false] at he
    rcases he with rfl | rfl | rfl <;> simp
  · split at he
    · simp only [List.mem_cons, List.not_mem_nil, or_false] at he
      rcases he with rfl | rfl | rfl <;> simp
    · split at he
      · simp only [List.mem_cons, List.not_mem_nil, or_false] at he
        rcases he with rfl | rfl | rfl <;> simp
      · simp at he

theorem Mesh.pushed (hg : GenPos eps Q) (hM : Mesh Q st.heap st.live) {i : ℕ} (hi : i ∈ st.live) {x : P3 K} {e : Edge K}
    (he : e ∈ pushEdges i (st.heap i) x) : EdgeOK st e := by
  obtain ⟨h1, h2⟩ := pushEdges_ok he
  obtain ⟨j, _, _, ho, _⟩ := hM.adj hg hi h2
  exact ⟨i, hi, j, h1, ho, ho ▸ h2⟩

theorem IsDart.mem {f : Facet (P3 K)} {d : P3 K × P3 K} {o : Option ℕ} (h : IsDart f d o) : d ∈ darts f :=
  mem_darts.mpr h.tri

/-- The traversal of the code follows the abstract one. -/
theorem dfsEdge_sim (hg : GenPos eps Q) (hM : Mesh Q st.heap st.live) (p : P3 K) (t : P3 K × P3 K) :
    ∀ n S V (s : Fr K), (∀ e ∈ S, EdgeOK st e) → (∀ e ∈ s.1, EdgeOK st e) → FacInv eps st p t S V s.2 → ∀ V' E',
      Dfs.go (dth st.heap st.live) (dvis eps p st.heap st.live) n (S.map key) V (s.1.map key) = some (V', E') →
      ∃ s', dfsEdge eps st p n S V s = .ok s' ∧ s'.1.map key = E' ∧ (∀ e ∈ s'.1, EdgeOK st e) ∧
        FacInv eps st p t [] V' s'.2 := by
  intro n
  induction n with
  | zero => intro S V s _ _ _ V' E' h; simp [Dfs.go] at h
  | succ n ih =>
    intro S V s hS hs hF V' E' hgo
    cases S with
    | nil =>
      simp only [List.map_nil, Dfs.go, Option.some.injEq, Prod.mk.injEq] at hgo
      obtain ⟨rfl, rfl⟩ := hgo
      exact ⟨s, rfl, rfl, hs, hF⟩
    | cons e S =>
      obtain ⟨i, hi, j, hfb, hff, hd⟩ := hS e (by simp)
      have hS' : ∀ e ∈ S, EdgeOK st e := fun e he => hS e (by simp [he])
      have hF' : FacInv eps st p t S V s.2 := ⟨hF.nodup, hF.vis, fun e he => hF.stack e (by simp [he]), hF.seen⟩
      rw [List.map_cons, Dfs.go] at hgo
      rw [dfsEdge]
      by_cases hV : (e.a, e.b) ∈ V
      · rw [if_pos (show key e ∈ V from hV)] at hgo
        rw [if_pos hV]
        exact ih S V s hS' hs hF' V' E' hgo
      · rw [if_neg (show key e ∉ V from hV)] at hgo
        rw [if_neg hV]
        obtain ⟨z, tz⟩ := hd.tri
        have hvis : dvis eps p st.heap st.live (key e) = visible eps (st.heap i) p := hM.dvis_eq hg p hi tz
        have hfv : frVisit eps st p e = .ok (visible eps (st.heap i) p) := by
          unfold frVisit
          rw [hfb]
          simp only [deref_some hi]
          rfl
        rw [hfv]
        simp only [Except.bind]
        rw [hvis] at hgo
        by_cases hv : visible eps (st.heap i) p = true
        · rw [if_pos hv] at hgo
          rw [if_pos hv]
          obtain ⟨j', hj, hji, hjj, hd'⟩ := hM.adj hg hi hd
          obtain rfl := Option.some.inj hjj
          obtain ⟨w, tw⟩ := hd'.tri
          have htw : dvis eps p st.heap st.live (Dfs.tw (key e)) = visible eps (st.heap j) p := hM.dvis_eq hg p hj tw
          have hth : dth st.heap st.live e.b e.a = w := hM.dth_eq hg hj tw
          have hfd : frDo eps st p s e = .ok (if visible eps (st.heap j) p = true then s.1 else s.1 ++ [e],
              if visible eps (st.heap j) p = true ∧ j ∉ s.2 then s.2 ++ [j] else s.2) := by
            unfold frDo
            rw [hff, hfb]
            simp only [deref_some hi, deref_some hj, Except.bind, hv]
            by_cases hvj : visible eps (st.heap j) p = true
            · simp [hvj]
            · simp [hvj]
          rw [hfd]
          simp only
          rw [hff]
          simp only [deref_some hj]
          refine ih _ _ _ ?_ ?_ ?_ V' E' ?_
          · intro e' he'
            rcases List.mem_append.mp he' with he' | he'
            · exact hM.pushed hg hj he'
            · exact hS' e' he'
          · intro e' he'
            simp only at he'
            split at he'
            · exact hs e' he'
            · rcases List.mem_append.mp he' with he' | he'
              · exact hs e' he'
              · rw [List.mem_singleton] at he'
                subst he'
                exact ⟨i, hi, j, hfb, hff, hd⟩
          · have hsub : ∀ k ∈ s.2, k ∈ (if visible eps (st.heap j) p = true ∧ j ∉ s.2 then s.2 ++ [j] else s.2) := by
              intro k hk
              split
              · exact List.mem_append_left _ hk
              · exact hk
            have hj' : visible eps (st.heap j) p = true →
                j ∈ (if visible eps (st.heap j) p = true ∧ j ∉ s.2 then s.2 ++ [j] else s.2) := by
              intro hvj
              split
              · simp
              · rename_i hn
                by_contra hc
                exact hn ⟨hvj, hc⟩
            refine ⟨?_, ?_, ?_, ?_⟩
            · simp only
              split
              · rename_i hn
                rw [List.nodup_append]
                refine ⟨hF.nodup, by simp, ?_⟩
                rintro a ha b hb rfl
                rw [List.mem_singleton] at hb
                subst hb
                exact hn.2 ha
              · exact hF.nodup
            · intro k hk
              simp only at hk
              split at hk
              · rename_i hn
                rcases List.mem_append.mp hk with hk | hk
                · exact hF.vis k hk
                · rw [List.mem_singleton] at hk
                  subst hk
                  exact ⟨hj, hn.1⟩
              · exact hF.vis k hk
            · intro e' he' k hk hkv
              rcases List.mem_append.mp he' with he' | he'
              · obtain ⟨h1, _⟩ := pushEdges_ok he'
                rw [h1] at hk
                obtain rfl := Option.some.inj hk
                exact hj' hkv
              · exact hsub k (hF'.stack e' he' k hk hkv)
            · intro d hd1 hd2 k hk hkd hkv
              rcases List.mem_cons.mp hd1 with rfl | hd1
              · refine hsub k (hF.stack e (by simp) k ?_ hkv)
                rw [hfb]
                obtain ⟨z', tz'⟩ := mem_darts.mp hkd
                rw [hM.uniq hg hi hk tz tz']
              · exact hsub k (hF.seen d hd1 hd2 k hk hkd hkv)
          · rw [← hgo]
            have hpk : (pushEdges j (st.heap j) e.b ++ S).map key =
                Dfs.nx (dth st.heap st.live) (Dfs.tw (key e)) :: Dfs.pv (dth st.heap st.live) (Dfs.tw (key e)) ::
                  Dfs.tw (key e) :: S.map key := by
              rw [List.map_append, pushEdges_keys (h := st.heap) (hM.ori j hj) (show Tri (st.heap j) e.b e.a w from tw)]
              simp only [Dfs.nx, Dfs.pv, Dfs.tw, key, hth]
              rfl
            rw [hpk, htw]
            congr 1
            simp only
            split <;> simp
        · have hv' : visible eps (st.heap i) p = false := by simpa using hv
          rw [if_neg hv] at hgo
          rw [hv']
          exact ih S V s hS' hs hF' V' E' hgo

/-- What `computeFrontier` returns. -/
structure FrontierOK (eps : K) (st : Hull K) (p : P3 K) (fr : Fr K) : Prop where
  ne : fr.1 ≠ []
  mem : ∀ d, d ∈ fr.1.map key ↔ Dfs.Front (dD st.heap st.live) (dvis eps p st.heap st.live) d
  nodup : (fr.1.map key).Nodup
  chain : (fr.1.map key).IsChain fun e e' => e.2 = e'.1
  closed : ∀ l f, fr.1.getLast? = some l → fr.1.head? = some f → l.b = f.a
  edge : ∀ e ∈ fr.1, EdgeOK st e
  fnodup : fr.2.Nodup
  fac : ∀ k, k ∈ fr.2 ↔ k ∈ st.live ∧ visible eps (st.heap k) p = true

theorem length_dD (h : Heap (P3 K)) (live : List ℕ) : (dD h live).length = 3 * live.length := by
  unfold dD
  rw [List.length_flatMap]
  simp only [darts, List.length_cons, List.length_nil]
  rw [List.map_const', List.sum_replicate, smul_eq_mul]
  ring

theorem computeFrontier_ok (hg : GenPos eps Q) (hM : Mesh Q st.heap st.live) {v : Vtx K} (hp : Apex Q st.heap st.live v.1)
    (hi : v.2 ∈ st.live) (hv : visible eps (st.heap v.2) v.1 = true) {n : ℕ} (hn : 9 * st.live.length + 5 ≤ n) :
    ∃ fr, computeFrontier eps n st v = .ok fr ∧ FrontierOK eps st v.1 fr := by
  have hS := hM.surf hg v.1
  have hG := hM.geo hg hp
  set f := st.heap v.2 with hf
  have t0 : Tri f f.a f.b f.c := Tri.self f
  have hD : (f.a, f.b) ∈ dD st.heap st.live := mem_dD.mpr ⟨v.2, hi, f.c, t0⟩
  have hvd : dvis eps v.1 st.heap st.live (f.a, f.b) = true := by
    rw [hM.dvis_eq hg v.1 hi t0]; exact hv
  have hth : dth st.heap st.live f.a f.b = f.c := hM.dth_eq hg hi t0
  obtain ⟨n, rfl⟩ : ∃ m, n = m + 1 := ⟨n - 1, by omega⟩
  have hinv := Dfs.Inv.start hS hD hvd
  obtain ⟨V', E', z', hgo, hfin⟩ := Dfs.go_spec hS hG _ n _ _ _ _ hinv (by
    have := List.length_filter_le (fun d => decide (d ∉ [Dfs.tw (f.a, f.b)])) (dD st.heap st.live)
    rw [length_dD] at this
    simp only [List.length_cons, List.length_nil]
    omega)
  have hall := hfin.all_visited hS hG
  obtain ⟨g1, g2, g3, g4⟩ := hfin.final hS hG
  -- the first step of the code
  have hstep : computeFrontier eps (n + 1) st v =
      dfsEdge eps st v.1 n (pushEdges v.2 f f.a) [(f.b, f.a)] ([], [v.2]) := by
    unfold computeFrontier
    rw [deref_some hi]
    simp only [Except.bind, ← hf]
    rw [dfsEdge]
    simp only [List.not_mem_nil, if_false, frVisit, Except.bind, if_true, frDo, deref_some hi, ← hf]
    simp
  obtain ⟨s', h1, h2, h3, h4⟩ := dfsEdge_sim hg hM v.1 (Dfs.tw (f.a, f.b)) n (pushEdges v.2 f f.a) [(f.b, f.a)] ([], [v.2])
    (fun e he => hM.pushed hg hi he) (by simp) (by
      refine ⟨by simp, ?_, ?_, ?_⟩
      · intro k hk
        rw [List.mem_singleton] at hk
        subst hk
        exact ⟨hi, hv⟩
      · intro e he k hk _
        obtain ⟨h1, _⟩ := pushEdges_ok he
        rw [h1] at hk
        simpa using hk.symm
      · intro d hd hne
        rw [List.mem_singleton] at hd
        exact absurd hd hne) V' E' (by
      rw [← hgo]
      congr 1
      rw [pushEdges_keys (h := st.heap) (hM.ori _ hi) t0]
      simp only [Dfs.nx, Dfs.pv, hth])
  refine ⟨s', by rw [hstep, h1], ?_⟩
  have hmem : ∀ d, d ∈ s'.1.map key ↔ Dfs.Front (dD st.heap st.live) (dvis eps v.1 st.heap st.live) d := by
    intro d; rw [h2]; exact g1 d
  refine ⟨?_, hmem, h2 ▸ g2, h2 ▸ g3, ?_, h3, h4.nodup, ?_⟩
  · intro hc
    obtain ⟨d, hd⟩ := hM.front_exists hg hp hi ((hM.vis_iff hg hp.mem hi).mp hv)
    have := (hmem d).mpr hd
    rw [hc] at this
    simp at this
  · intro l f' hl hf'
    refine g4 (key l) (key f') ?_ ?_
    · rw [← h2, List.getLast?_map, hl]; rfl
    · rw [← h2, List.head?_map, hf']; rfl
  · intro k
    constructor
    · exact h4.vis k
    · rintro ⟨hk, hkv⟩
      -- a dart of the facet that is not the first one
      have hex : ∃ d, d ∈ darts (st.heap k) ∧ d ≠ Dfs.tw (f.a, f.b) := by
        by_cases h : ((st.heap k).a, (st.heap k).b) = Dfs.tw (f.a, f.b)
        · refine ⟨((st.heap k).b, (st.heap k).c), by simp [darts], ?_⟩
          rw [← h]
          intro hc
          have := tri_ne (hM.ori k hk) (Tri.self _)
          exact this.1 (Prod.mk.inj hc).1.symm
        · exact ⟨_, by simp [darts], h⟩
      obtain ⟨d, hd, hdn⟩ := hex
      obtain ⟨z, tz⟩ := mem_darts.mp hd
      refine h4.seen d (hall d (mem_dD.mpr ⟨k, hk, z, tz⟩) ?_) hdn k hk hd hkv
      exact (hM.dvis_eq hg v.1 hk tz).trans hkv

end

end Verif.QHull
