import Verif.Emst.ConcModel
import Verif.Emst.Round

set_option linter.unusedSectionVars false
set_option linter.unusedVariables false

/-! Lemmas for C16: the rho traversal and `mark` under every interleaving. -/

namespace Verif.Emst

open Verif.KdTree Verif.UF Verif.Mst Verif.ForkJoin Verif.ForkJoin.FJ

variable {d : ℕ} {K : Type}

/-! ### The rho traversal -/

/-- The other threads lower `rho`. -/
def Down (s s' : WithTop ℝ) : Prop := s' ≤ s

theorem down_refl (a : WithTop ℝ) : Down a a := le_refl a
theorem down_trans (a b c : WithTop ℝ) (h : Down a b) (h' : Down b c) : Down a c := le_trans h' h

/-- The triple of the rho traversal: `rho` takes values in a finite set and only decreases. -/
abbrev rwp (V : Finset (WithTop ℝ)) (p : RhoProg) (Q : WithTop ℝ → Prop) (s : WithTop ℝ) : Prop :=
  wp (fun s => s ∈ V) Down p (fun _ s' => Q s') s

theorem rwp_ret {V : Finset (WithTop ℝ)} {Q : WithTop ℝ → Prop} (hQ : ∀ s s', s' ≤ s → Q s → Q s') {s : WithTop ℝ}
    (h : Q s) : rwp V (.ret ()) Q s := fun s' h' _ => hQ s s' h' h

theorem writeMinP_wp (V : Finset (WithTop ℝ)) (x : WithTop ℝ) (hx : x ∈ V) (g : ℕ) (s : WithTop ℝ)
    (hg : (V.filter (· < s)).card < g) : rwp V (writeMinP x g) (fun s => s ≤ x) s := by
  classical
  induction g generalizing s with
  | zero => omega
  | succ g ih =>
    unfold writeMinP
    intro s1 h1 i1
    refine ⟨i1, le_refl _, ?_⟩
    dsimp only
    split
    · rename_i hlt
      intro s2 h2 i2
      have h2' : s2 ≤ s1 := h2
      dsimp only
      by_cases he : s2 = s1
      · rw [if_pos he, if_pos he]
        refine ⟨hx, ?_, ?_⟩
        · exact he ▸ hlt.le
        · exact rwp_ret (fun a b h h' => h.trans h') (le_refl _)
      · rw [if_neg he, if_neg he]
        refine ⟨i2, le_refl _, ih s2 ?_⟩
        have hlt2 : s2 < s1 := lt_of_le_of_ne h2' he
        have h1' : s1 ≤ s := h1
        have : (V.filter (· < s2)).card < (V.filter (· < s)).card := by
          apply Finset.card_lt_card
          rw [Finset.ssubset_iff_of_subset]
          · exact ⟨s2, by simp [i2, lt_of_lt_of_le hlt2 h1'], by simp⟩
          · intro j hj
            simp only [Finset.mem_filter] at hj ⊢
            exact ⟨hj.1, lt_of_lt_of_le (hj.2.trans hlt2) h1'⟩
        omega
    · rename_i hle
      exact rwp_ret (fun a b h h' => h.trans h') (not_lt.mp hle)

/-- A reason for the traversal to stop at a pair of nodes. -/
def Cut (beta : ℕ) (s : WithTop ℝ) (u v : NTree ℕ ℝ d) : Prop :=
  sameId u v = true ∨ u.size + v.size ≤ beta ∨ s ≤ (nodeDist u.box v.box : WithTop ℝ)

/-- The pairs of `out0` below `u` and `v` are dealt with. -/
def FCov (beta : ℕ) (u v : NTree ℕ ℝ d) (out0 : List (Tree ℕ ℝ d × Tree ℕ ℝ d)) (s : WithTop ℝ) : Prop :=
  ∀ P ∈ out0, s ≤ (nodeDist P.1.box P.2.box : WithTop ℝ) ∨
    ∃ u' v', NPair u' v' u v ∧ Cut beta s u' v' ∧ TPair P u'.tree v'.tree

theorem Cut.mono {beta : ℕ} {s s' : WithTop ℝ} (h : s' ≤ s) {u v : NTree ℕ ℝ d} (hc : Cut beta s u v) :
    Cut beta s' u v := hc.imp id (Or.imp id h.trans)

theorem FCov.mono {beta : ℕ} {u v : NTree ℕ ℝ d} {out0 : List (Tree ℕ ℝ d × Tree ℕ ℝ d)} (s s' : WithTop ℝ)
    (h : s' ≤ s) (hc : FCov beta u v out0 s) : FCov beta u v out0 s' := fun P hP =>
  (hc P hP).imp h.trans fun ⟨u', v', a, b, c⟩ => ⟨u', v', a, b.mono h, c⟩

theorem FCov.swap {beta : ℕ} {u v : NTree ℕ ℝ d} {out0 : List (Tree ℕ ℝ d × Tree ℕ ℝ d)} {s : WithTop ℝ}
    (hc : FCov beta u v out0 s) : FCov beta v u out0 s := fun P hP =>
  (hc P hP).imp id fun ⟨u', v', a, b, c⟩ => ⟨u', v', a.swap, b, c⟩

theorem FCov.node {beta : ℕ} {i b} {l r w : NTree ℕ ℝ d} {o1 o2 : List (Tree ℕ ℝ d × Tree ℕ ℝ d)} {s : WithTop ℝ}
    (h1 : FCov beta l w o1 s) (h2 : FCov beta r w o2 s) : FCov beta (.node i b l r) w (o1 ++ o2) s := by
  intro P hP
  rcases List.mem_append.mp hP with hP | hP
  · exact (h1 P hP).imp id fun ⟨u', v', a, b, c⟩ => ⟨u', v', a.left, b, c⟩
  · exact (h2 P hP).imp id fun ⟨u', v', a, b, c⟩ => ⟨u', v', a.right, b, c⟩

theorem moveonP_wp {V : Finset (WithTop ℝ)} {beta : ℕ} {u v : NTree ℕ ℝ d}
    {out0 : List (Tree ℕ ℝ d × Tree ℕ ℝ d)} {yes : RhoProg} (hb : ∀ P ∈ out0, TPair P u.tree v.tree)
    (h : ∀ s ∈ V, rwp V yes (FCov beta u v out0) s) (s : WithTop ℝ) (hs : s ∈ V) :
    rwp V (moveonP beta u v yes) (FCov beta u v out0) s := by
  have hcut : ∀ s, Cut beta s u v → rwp V (.ret ()) (FCov beta u v out0) s := fun s hc =>
    rwp_ret FCov.mono fun P hP => Or.inr ⟨u, v, Or.inl ⟨.refl _, .refl _⟩, hc, hb P hP⟩
  unfold moveonP
  split
  · exact hcut s (Or.inl (by assumption))
  split
  · exact hcut s (Or.inr (Or.inl (by assumption)))
  intro s1 h1 i1
  refine ⟨i1, le_refl _, ?_⟩
  dsimp only
  split
  · exact hcut s1 (Or.inr (Or.inr (by assumption)))
  · exact h s1 i1

/-- Two searches one after the other. -/
theorem rwp_bind {V : Finset (WithTop ℝ)} {p q : RhoProg} {A B C : WithTop ℝ → Prop} (hA : ∀ s s', s' ≤ s → A s → A s')
    (hC : ∀ s, A s → B s → C s) {s : WithTop ℝ} (hs : s ∈ V) (hp : rwp V p A s) (hq : ∀ s ∈ V, rwp V q B s) :
    rwp V (p.bind fun _ => q) C s := by
  refine wp_bind down_refl hs (wp_post down_refl down_trans hp fun _ s1 _ i1 h1 => ?_)
  exact wp_post down_refl down_trans (hq s1 i1) fun _ s2 g2 _ h2 => hC s2 (hA s1 s2 g2 h1) h2

/-- Two searches concurrently. -/
theorem rwp_par {V : Finset (WithTop ℝ)} {p q : RhoProg} {A B C : WithTop ℝ → Prop}
    (hC : ∀ s, A s → B s → C s) (hC' : ∀ s s', s' ≤ s → C s → C s') {s : WithTop ℝ} (hp : rwp V p A s) (hq : rwp V q B s) :
    rwp V (.par p q fun _ _ => .ret ()) C s :=
  ⟨_, _, hp, hq, fun _ _ s1 _ _ h1 h2 => rwp_ret hC' (hC s1 h1 h2)⟩

theorem findPairSerialP_wp {V : Finset (WithTop ℝ)} {g : ℕ} (hg : V.card < g) (beta fuel : ℕ)
    (u v : NTree ℕ ℝ d) (out0 : List (Tree ℕ ℝ d × Tree ℕ ℝ d))
    (h : findPairSerial (geomWellSeparated 2) fuel u.tree v.tree = .ok out0)
    (hV : ∀ P ∈ out0, (nodeDist P.1.box P.2.box : WithTop ℝ) ∈ V) (s : WithTop ℝ) (hs : s ∈ V) :
    rwp V (findPairSerialP beta g fuel u v) (FCov beta u v out0) s := by
  induction fuel generalizing u v out0 s with
  | zero => cases h
  | succ fuel ih =>
    have hbel := findPairSerial_below (geomWellSeparated 2) _ _ _ _ h
    unfold findPairSerialP
    refine moveonP_wp hbel (fun s hs => ?_) s hs
    unfold findPairSerial at h
    by_cases hws : geomWellSeparated 2 u.tree v.tree
    · rw [if_pos hws] at h ⊢
      cases h
      refine wp_post down_refl down_trans (writeMinP_wp V _ (hV _ (List.mem_singleton_self _)) g s
        (lt_of_le_of_lt (Finset.card_le_card (Finset.filter_subset _ _)) hg)) fun _ s1 _ _ h1 => ?_
      intro P hP
      rw [List.mem_singleton] at hP
      subst hP
      exact Or.inl h1
    · rw [if_neg hws] at h ⊢
      have split : ∀ i b (l r w : NTree ℕ ℝ d),
          (do return (← findPairSerial (geomWellSeparated 2) fuel l.tree w.tree) ++
            (← findPairSerial (geomWellSeparated 2) fuel r.tree w.tree)) = (.ok out0 : Except Err _) →
          rwp V ((findPairSerialP beta g fuel l w).bind fun _ => findPairSerialP beta g fuel r w)
            (FCov beta (.node i b l r) w out0) s := by
        intro i b l r w h
        obtain ⟨o1, o2, h1, h2, rfl⟩ := bind_append_ok h
        exact rwp_bind FCov.mono (fun s a b => a.node b) hs
          (ih l w o1 h1 (fun P hP => hV P (List.mem_append_left _ hP)) s hs)
          (fun s hs => ih r w o2 h2 (fun P hP => hV P (List.mem_append_right _ hP)) s hs)
      have swap : ∀ {a b : NTree ℕ ℝ d} {p : RhoProg}, rwp V p (FCov beta a b out0) s →
          rwp V p (FCov beta b a out0) s := fun h =>
        wp_post down_refl down_trans h fun _ _ _ _ h => h.swap
      cases u with
      | leaf ju bu iu =>
        cases v with
        | leaf jv bv iv => cases h
        | node jv bv vl vr => exact swap (split jv bv vl vr (.leaf ju bu iu) h)
      | node ju bu ul ur =>
        cases v with
        | leaf jv bv iv => exact split ju bu ul ur (.leaf jv bv iv) h
        | node jv bv vl vr =>
          simp only [NTree.tree] at h ⊢
          split_ifs at h ⊢
          · exact split ju bu ul ur (.node jv bv vl vr) h
          · exact swap (split jv bv vl vr (.node ju bu ul ur) h)

theorem findPairParallelP_wp {V : Finset (WithTop ℝ)} {g : ℕ} (hg : V.card < g) (beta fuel : ℕ)
    (u v : NTree ℕ ℝ d) (out0 : List (Tree ℕ ℝ d × Tree ℕ ℝ d))
    (h : findPairSerial (geomWellSeparated 2) fuel u.tree v.tree = .ok out0)
    (hV : ∀ P ∈ out0, (nodeDist P.1.box P.2.box : WithTop ℝ) ∈ V) (s : WithTop ℝ) (hs : s ∈ V) :
    rwp V (findPairParallelP beta g fuel u v) (FCov beta u v out0) s := by
  induction fuel generalizing u v out0 s with
  | zero => cases h
  | succ fuel ih =>
    have hbel := findPairSerial_below (geomWellSeparated 2) _ _ _ _ h
    unfold findPairParallelP
    refine moveonP_wp hbel (fun s hs => ?_) s hs
    split
    · exact findPairSerialP_wp hg beta (fuel + 1) u v out0 h hV s hs
    unfold findPairSerial at h
    by_cases hws : geomWellSeparated 2 u.tree v.tree
    · rw [if_pos hws] at h ⊢
      cases h
      refine wp_post down_refl down_trans (writeMinP_wp V _ (hV _ (List.mem_singleton_self _)) g s
        (lt_of_le_of_lt (Finset.card_le_card (Finset.filter_subset _ _)) hg)) fun _ s1 _ _ h1 => ?_
      intro P hP
      rw [List.mem_singleton] at hP
      subst hP
      exact Or.inl h1
    · rw [if_neg hws] at h ⊢
      have split : ∀ i b (l r w : NTree ℕ ℝ d),
          (do return (← findPairSerial (geomWellSeparated 2) fuel l.tree w.tree) ++
            (← findPairSerial (geomWellSeparated 2) fuel r.tree w.tree)) = (.ok out0 : Except Err _) →
          rwp V (.par (findPairParallelP beta g fuel l w) (findPairParallelP beta g fuel r w) fun _ _ => .ret ())
            (FCov beta (.node i b l r) w out0) s := by
        intro i b l r w h
        obtain ⟨o1, o2, h1, h2, rfl⟩ := bind_append_ok h
        exact rwp_par (fun s a b => FCov.node a b) FCov.mono
          (ih l w o1 h1 (fun P hP => hV P (List.mem_append_left _ hP)) s hs)
          (ih r w o2 h2 (fun P hP => hV P (List.mem_append_right _ hP)) s hs)
      have swap : ∀ {a b : NTree ℕ ℝ d} {p : RhoProg}, rwp V p (FCov beta a b out0) s →
          rwp V p (FCov beta b a out0) s := fun h =>
        wp_post down_refl down_trans h fun _ _ _ _ h => h.swap
      cases u with
      | leaf ju bu iu =>
        cases v with
        | leaf jv bv iv => cases h
        | node jv bv vl vr => exact swap (split jv bv vl vr (.leaf ju bu iu) h)
      | node ju bu ul ur =>
        cases v with
        | leaf jv bv iv => exact split ju bu ul ur (.leaf jv bv iv) h
        | node jv bv vl vr =>
          simp only [NTree.tree] at h ⊢
          split_ifs at h ⊢
          · exact split ju bu ul ur (.node jv bv vl vr) h
          · exact swap (split jv bv vl vr (.node ju bu ul ur) h)

/-- The pairs of `out0` below `t` are dealt with. -/
def WCov (beta : ℕ) (t : NTree ℕ ℝ d) (out0 : List (Tree ℕ ℝ d × Tree ℕ ℝ d)) (s : WithTop ℝ) : Prop :=
  ∀ P ∈ out0, s ≤ (nodeDist P.1.box P.2.box : WithTop ℝ) ∨
    (∃ u' v', NBelow u' t ∧ NBelow v' t ∧ Cut beta s u' v' ∧ TPair P u'.tree v'.tree) ∨
    ∃ t', NBelow t' t ∧ t'.size ≤ beta ∧ Below P.1 t'.tree ∧ Below P.2 t'.tree

theorem WCov.mono {beta : ℕ} {t : NTree ℕ ℝ d} {out0 : List (Tree ℕ ℝ d × Tree ℕ ℝ d)} (s s' : WithTop ℝ)
    (h : s' ≤ s) (hc : WCov beta t out0 s) : WCov beta t out0 s' := fun P hP =>
  (hc P hP).imp h.trans (Or.imp (fun ⟨u', v', a, b, c, e⟩ => ⟨u', v', a, b, c.mono h, e⟩) id)

theorem WCov.node {beta : ℕ} {i b} {l r : NTree ℕ ℝ d} {o1 o2 o3 : List (Tree ℕ ℝ d × Tree ℕ ℝ d)} {s : WithTop ℝ}
    (h1 : WCov beta l o1 s) (h2 : WCov beta r o2 s) (h3 : FCov beta l r o3 s) :
    WCov beta (.node i b l r) (o1 ++ o2 ++ o3) s := by
  intro P hP
  simp only [List.mem_append] at hP
  rcases hP with (hP | hP) | hP
  · rcases h1 P hP with h | ⟨u', v', g1, g2, g3⟩ | ⟨t', g1, g2⟩
    · exact Or.inl h
    · exact Or.inr (Or.inl ⟨u', v', .left g1, .left g2, g3⟩)
    · exact Or.inr (Or.inr ⟨t', .left g1, g2⟩)
  · rcases h2 P hP with h | ⟨u', v', g1, g2, g3⟩ | ⟨t', g1, g2⟩
    · exact Or.inl h
    · exact Or.inr (Or.inl ⟨u', v', .right g1, .right g2, g3⟩)
    · exact Or.inr (Or.inr ⟨t', .right g1, g2⟩)
  · rcases h3 P hP with h | ⟨u', v', g1, g3⟩
    · exact Or.inl h
    · rcases g1 with ⟨g1, g2⟩ | ⟨g1, g2⟩
      · exact Or.inr (Or.inl ⟨u', v', .left g1, .right g2, g3⟩)
      · exact Or.inr (Or.inl ⟨u', v', .right g1, .left g2, g3⟩)

theorem WCov.start {beta : ℕ} {t : NTree ℕ ℝ d} {out0 : List (Tree ℕ ℝ d × Tree ℕ ℝ d)} {s : WithTop ℝ}
    (h : wspdSerial (geomWellSeparated 2) t.tree = .ok out0) (hs : ¬ rhoStart beta t = true) :
    WCov beta t out0 s := fun P hP =>
  Or.inr (Or.inr ⟨t, .refl _, by simpa [rhoStart] using hs, wspdSerial_below _ _ _ h P hP⟩)

theorem wspdSerialP_wp {V : Finset (WithTop ℝ)} {g : ℕ} (hg : V.card < g) (beta : ℕ)
    (t : NTree ℕ ℝ d) (out0 : List (Tree ℕ ℝ d × Tree ℕ ℝ d))
    (h : wspdSerial (geomWellSeparated 2) t.tree = .ok out0)
    (hV : ∀ P ∈ out0, (nodeDist P.1.box P.2.box : WithTop ℝ) ∈ V) (s : WithTop ℝ) (hs : s ∈ V) :
    rwp V (wspdSerialP beta g t) (WCov beta t out0) s := by
  induction t generalizing out0 s with
  | leaf i b items =>
    cases h
    exact rwp_ret WCov.mono (by simp [WCov])
  | node i b l r ihl ihr =>
    unfold wspdSerialP
    have h0 := h
    simp only [NTree.tree, wspdSerial] at h
    obtain ⟨o1, o2, o3, h1, h2, h3, rfl⟩ := bind_append3_ok h
    split
    · refine rwp_bind (A := WCov beta l o1) (B := fun s => WCov beta r o2 s ∧ FCov beta l r o3 s) WCov.mono
        (fun s a b => a.node b.1 b.2) hs (ihl o1 h1 (fun P hP => hV P (by simp [hP])) s hs) fun s hs => ?_
      exact rwp_bind (A := WCov beta r o2) (B := FCov beta l r o3) WCov.mono (fun s a b => ⟨a, b⟩) hs
        (ihr o2 h2 (fun P hP => hV P (by simp [hP])) s hs) fun s hs =>
        findPairSerialP_wp hg beta _ l r o3 h3 (fun P hP => hV P (by simp [hP])) s hs
    · rename_i hst
      exact rwp_ret WCov.mono (WCov.start h0 hst)

theorem wspdParallelP_wp {V : Finset (WithTop ℝ)} {g : ℕ} (hg : V.card < g) (beta : ℕ)
    (t : NTree ℕ ℝ d) (out0 : List (Tree ℕ ℝ d × Tree ℕ ℝ d))
    (h : wspdSerial (geomWellSeparated 2) t.tree = .ok out0)
    (hV : ∀ P ∈ out0, (nodeDist P.1.box P.2.box : WithTop ℝ) ∈ V) (s : WithTop ℝ) (hs : s ∈ V) :
    rwp V (wspdParallelP beta g t) (WCov beta t out0) s := by
  induction t generalizing out0 s with
  | leaf i b items =>
    unfold wspdParallelP
    split
    · exact wspdSerialP_wp hg beta _ out0 h hV s hs
    cases h
    exact rwp_ret WCov.mono (by simp [WCov])
  | node i b l r ihl ihr =>
    unfold wspdParallelP
    split
    · exact wspdSerialP_wp hg beta _ out0 h hV s hs
    have h0 := h
    simp only [NTree.tree, wspdSerial] at h
    obtain ⟨o1, o2, o3, h1, h2, h3, rfl⟩ := bind_append3_ok h
    split
    · refine ⟨fun _ => WCov beta l o1, fun _ => WCov beta r o2,
        ihl o1 h1 (fun P hP => hV P (by simp [hP])) s hs, ihr o2 h2 (fun P hP => hV P (by simp [hP])) s hs,
        fun _ _ s1 _ i1 a1 a2 => ?_⟩
      exact wp_post down_refl down_trans (findPairParallelP_wp hg beta _ l r o3 h3
        (fun P hP => hV P (by simp [hP])) s1 i1) fun _ s2 g2 _ h2 =>
          WCov.node (WCov.mono s1 s2 g2 a1) (WCov.mono s1 s2 g2 a2) h2
    · rename_i hst
      exact rwp_ret WCov.mono (WCov.start h0 hst)

theorem rhoConc_top (w : ℕ → List Bool) (g beta : ℕ) (t : NTree ℕ ℝ d) (h : t.size ≤ beta) :
    rhoConc w g beta t = .ok ⊤ := by
  have hs : rhoStart beta t = false := by simp [rhoStart, h]
  have hp : wspdParallelP beta g t = .ret () := by
    cases t with
    | leaf i b items =>
      unfold wspdParallelP
      split <;> rfl
    | node i b l r =>
      unfold wspdParallelP wspdSerialP
      simp [hs]
  unfold rhoConc
  rw [hp]
  unfold FJ.run
  rfl

/-- The traversal under every interleaving meets the requirement. -/
theorem rhoConc_ok {n : ℕ} (w : ℕ → List Bool) (g beta : ℕ) (t : NTree ℕ ℝ d)
    {out0 : List (Tree ℕ ℝ d × Tree ℕ ℝ d)} (h : wspdSerial (geomWellSeparated 2) t.tree = .ok out0)
    (hn : out0.length ≤ n) (hg : n + 2 ≤ g) : ∃ r, rhoConc w g beta t = .ok r ∧ RhoOk beta t r := by
  classical
  set V : Finset (WithTop ℝ) := Insert.insert ⊤
    (out0.map fun P => (nodeDist P.1.box P.2.box : WithTop ℝ)).toFinset with hVdef
  have hcard : V.card < g := by
    have h1 : V.card ≤ _ + 1 := Finset.card_insert_le _ _
    have h2 := List.toFinset_card_le (out0.map fun P => (nodeDist P.1.box P.2.box : WithTop ℝ))
    rw [List.length_map] at h2
    omega
  have hV : ∀ P ∈ out0, (nodeDist P.1.box P.2.box : WithTop ℝ) ∈ V := fun P hP => by
    rw [hVdef, Finset.mem_insert, List.mem_toFinset]
    exact Or.inr (List.mem_map_of_mem (f := fun P : Tree ℕ ℝ d × Tree ℕ ℝ d =>
      (nodeDist P.1.box P.2.box : WithTop ℝ)) hP)
  have htop : (⊤ : WithTop ℝ) ∈ V := Finset.mem_insert_self _ _
  obtain ⟨_, r, h1, h2, -, -⟩ := run_wp down_refl down_trans w htop
    (wspdParallelP_wp hcard beta t out0 h hV ⊤ htop) 0
  have hr : rhoConc w g beta t = .ok r := by unfold rhoConc; rw [h1]; rfl
  refine ⟨r, hr, fun hs => ?_, fun out1 h' P hP => ?_⟩
  · have := rhoConc_top w g beta t hs
    rw [hr] at this
    exact Except.ok.inj this
  · rw [h] at h'
    cases h'
    exact h2 P hP

/-! ### `mark` -/

/-- The triple of `mark`: the other threads only shortcut paths. -/
abbrev mwp (n : ℕ) (rt dep : ℕ → ℕ) (p : MarkProg K d) (Q : NTree ℕ K d → Prop) (P : List ℤ) : Prop :=
  wp (fun P => Forest P n rt dep) (fun _ _ => True) p (fun t _ => Q t) P

theorem readP_wp {n : ℕ} {rt dep : ℕ → ℕ} {k : ℤ → MarkProg K d} {Q : NTree ℕ K d → Prop} (i : ℕ) (hi : i < n)
    (h : ∀ P, Forest P n rt dep → (rt i = i → mwp n rt dep (k (-1)) Q P) ∧
      ∀ p : ℕ, p < n → rt i = rt p → dep p < dep i → rt i ≠ i → mwp n rt dep (k (p : ℤ)) Q P)
    (P : List ℤ) : mwp n rt dep (readP i k) Q P := by
  intro P1 _ i1
  refine ⟨i1, trivial, ?_⟩
  dsimp only
  rcases i1.get i hi with ⟨h1, h2⟩ | ⟨p, hp, h1, h2, h3, h4⟩
  · rw [h1]
    exact (h P1 i1).1 h2
  · rw [h1]
    exact (h P1 i1).2 p hp h2 h3 h4

theorem writeP_wp {n : ℕ} {rt dep : ℕ → ℕ} {k : MarkProg K d} {Q : NTree ℕ K d → Prop} (i g : ℕ) (hi : i < n)
    (hg : g < n) (hr : rt g = rt i) (hd : dep g < dep i)
    (h : ∀ P, Forest P n rt dep → mwp n rt dep k Q P) (P : List ℤ) : mwp n rt dep (writeP i g k) Q P := by
  intro P1 _ i1
  dsimp only
  rw [put_ok P1 i _ (by rw [i1.len]; exact hi)]
  have i2 := i1.shortcut i g hi hg hr hd
  exact ⟨i2, trivial, h _ i2⟩

theorem findLoopP_wp {n : ℕ} {rt dep : ℕ → ℕ} {k : ℤ → MarkProg K d} {Q : NTree ℕ K d → Prop} (f i p : ℕ)
    (hi : i < n) (hp : p < n) (hr : rt p = rt i) (hd : dep p < dep i) (hnr : rt p ≠ p) (hf : meas n dep p ≤ f)
    (h : ∀ P, Forest P n rt dep → mwp n rt dep (k (rt i : ℕ)) Q P) (P : List ℤ) (hP : Forest P n rt dep) :
    mwp n rt dep (findLoopP k f i p) Q P := by
  induction f generalizing i p P with
  | zero =>
    exfalso
    rcases hP.get p hp with ⟨_, h2⟩ | ⟨g, hg, _, _, hd2, _⟩
    · exact hnr h2
    · have := meas_lt (n := n) hg hd2
      omega
  | succ f ih =>
    unfold findLoopP
    refine readP_wp p hp (fun P1 i1 => ⟨fun h => absurd h hnr, fun gp hgp h1 h2 _ => ?_⟩) P
    refine writeP_wp i gp hi hgp (by rw [← h1, hr]) (by omega) (fun P2 i2 => ?_) P1
    refine readP_wp gp hgp (fun P3 i3 => ⟨fun h3 => ?_, fun q hq h3 h4 h5 => ?_⟩) P2
    · rw [if_pos rfl]
      have : gp = rt i := by rw [← hr, h1, h3]
      rw [this]
      exact h P3 i3
    · rw [if_neg (by omega)]
      refine ih p gp hp hgp h1.symm h2 h5 ?_ (fun P4 i4 => ?_) P3 i3
      · have := meas_lt (n := n) hgp h2
        omega
      · rw [hr]
        exact h P4 i4

theorem findP_wp {n : ℕ} {rt dep : ℕ → ℕ} {k : ℤ → MarkProg K d} {Q : NTree ℕ K d → Prop} (i : ℕ) (hi : i < n)
    (h : ∀ P, Forest P n rt dep → mwp n rt dep (k (rt i : ℕ)) Q P) (P : List ℤ) :
    mwp n rt dep (findP n i k) Q P := by
  unfold findP
  refine readP_wp i hi (fun P1 i1 => ⟨fun h1 => ?_, fun p hp h1 h2 h3 => ?_⟩) P
  · rw [if_pos rfl]
    have := h P1 i1
    rwa [h1] at this
  · rw [if_neg (by omega)]
    refine readP_wp i hi (fun P2 i2 => ⟨fun h => absurd h h3, fun p hp h1 h2 _ => ?_⟩) P1
    refine readP_wp p hp (fun P3 i3 => ⟨fun h4 => ?_, fun q hq h4 h5 h6 => ?_⟩) P2
    · rw [if_pos rfl]
      have := h P3 i3
      rwa [h1, h4] at this
    · rw [if_neg (by omega)]
      exact findLoopP_wp n i p hi hp h1.symm h2 h6 (meas_lt_n hp).le h P3 i3

theorem markLeafP_wp {n : ℕ} {rt dep : ℕ → ℕ} {k : Bool → MarkProg K d} {Q : NTree ℕ K d → Prop} (r : ℕ)
    (xs : List ℕ) (hx : ∀ x ∈ xs, x < n)
    (h : ∀ s, (s = true ↔ ∀ x ∈ xs, rt x = r) → ∀ P, Forest P n rt dep → mwp n rt dep (k s) Q P) (P : List ℤ)
    (hP : Forest P n rt dep) : mwp n rt dep (markLeafP n r k xs) Q P := by
  induction xs generalizing P with
  | nil => exact h true (by simp) P hP
  | cons x xs ih =>
    unfold markLeafP
    refine findP_wp x (hx x (by simp)) (fun P1 i1 => ?_) P
    by_cases hr : (r : ℤ) = (rt x : ℤ)
    · rw [if_neg (not_not.mpr hr)]
      refine ih (fun y hy => hx y (by simp [hy])) (fun s hs => h s ?_) P1 i1
      rw [hs]
      have : rt x = r := by omega
      simp [this]
    · rw [if_pos hr]
      refine h false ?_ P1 i1
      have : rt x ≠ r := by omega
      simp [this]

theorem mwp_ret {n : ℕ} {rt dep : ℕ → ℕ} {t : NTree ℕ K d} {Q : NTree ℕ K d → Prop} (h : Q t) (P : List ℤ) :
    mwp n rt dep (.ret t) Q P := fun _ _ _ => h

theorem markP_wp {n : ℕ} {rt dep : ℕ → ℕ} (t : NTree ℕ K d)
    (hx : ∀ x ∈ t.tree.items, x < n) (hne : NonEmpty t) (hs : Stale rt t) (P : List ℤ) (hP : Forest P n rt dep) :
    mwp n rt dep (markP n t) (fun t' => t'.tree = t.tree ∧ Marked rt t') P := by
  induction t generalizing P with
  | leaf i b items =>
    cases items with
    | nil => exact absurd rfl hne
    | cons x xs =>
      have hxx : x < n := hx x (by simp [NTree.tree, Tree.items])
      unfold markP
      refine findP_wp x hxx (fun P1 i1 => ?_) P
      by_cases hi : i.isSome = true
      · rw [if_pos hi, Int.toNat_natCast]
        refine mwp_ret ⟨markAll_tree _ _, markAll_ok rt _ _ hne hs ?_⟩ P1
        intro y hy
        exact hs hi y hy x (by simp)
      · rw [if_neg hi]
        refine markLeafP_wp (rt x) xs (fun y hy => hx y (by simp [NTree.tree, Tree.items, hy]))
          (fun s g3 P2 i2 => mwp_ret ⟨rfl, ?_⟩ P2) P1 i1
        rw [Int.toNat_natCast]
        intro r
        cases s with
        | false =>
          simp only [Bool.false_eq_true, if_false]
          constructor
          · intro h; cases h
          · intro h
            exact absurd (g3.mpr fun y hy => by
              rw [h y (by simp [hy]), h x (by simp)]) (by simp)
        | true =>
          simp only [if_true]
          apply iff_of_forall (by simp)
          intro y hy
          rcases List.mem_cons.mp hy with rfl | hy
          · rfl
          · exact (g3.mp rfl) y hy
  | node i b l r ihl ihr =>
    have hne' : l.tree.items ++ r.tree.items ≠ [] := NonEmpty.items hne
    have hall : ∀ x ∈ l.tree.items ++ r.tree.items, x < n := hx
    unfold markP
    obtain ⟨x, xs, hxs⟩ := List.exists_cons_of_ne_nil hne'
    rw [hxs]
    have hxm : x ∈ l.tree.items ++ r.tree.items := by rw [hxs]; simp
    refine findP_wp x (hall x hxm) (fun P1 i1 => ?_) P
    rw [Int.toNat_natCast]
    by_cases hi : i.isSome = true
    · rw [if_pos hi]
      refine mwp_ret ⟨markAll_tree _ _, markAll_ok rt _ _ hne hs ?_⟩ P1
      intro y hy
      exact (hs.1 hi).1 y hy x hxm
    · rw [if_neg hi]
      have hl := ihl (fun y hy => hall y (List.mem_append_left _ hy)) hne.1 hs.2.1
      have hr := ihr (fun y hy => hall y (List.mem_append_right _ hy)) hne.2 hs.2.2
      have hrest : ∀ l' r' : NTree ℕ K d, (l'.tree = l.tree ∧ Marked rt l') → (r'.tree = r.tree ∧ Marked rt r') →
          ∀ P, mwp n rt dep (.ret (.node (if l'.id ≠ some (rt x) then none
            else if r'.id ≠ some (rt x) then none else some (rt x)) b l' r') : MarkProg K d)
            (fun t' => t'.tree = (NTree.node i b l r).tree ∧ Marked rt t') P := by
        rintro l' r' ⟨g3, g4⟩ ⟨f3, f4⟩ P
        refine mwp_ret ⟨by simp [NTree.tree, g3, f3], ?_, g4, f4⟩ P
        rw [g3, f3]
        have el := g4.id_iff (rt x)
        have er := f4.id_iff (rt x)
        rw [g3] at el
        rw [f3] at er
        intro c
        by_cases hl : l'.id = some (rt x)
        · rw [if_neg (not_not.mpr hl)]
          by_cases hr : r'.id = some (rt x)
          · rw [if_neg (not_not.mpr hr)]
            apply iff_of_forall hne'
            intro y hy
            rcases List.mem_append.mp hy with hy | hy
            · exact el.mp hl y hy
            · exact er.mp hr y hy
          · rw [if_pos hr]
            constructor
            · intro h; cases h
            · intro h
              exact absurd (er.mpr fun y hy => by
                rw [h y (List.mem_append_right _ hy), h x hxm]) hr
        · rw [if_pos hl]
          constructor
          · intro h; cases h
          · intro h
            exact absurd (el.mpr fun y hy => by
              rw [h y (List.mem_append_left _ hy), h x hxm]) hl
      dsimp only
      split
      · exact ⟨_, _, hl P1 i1, hr P1 i1, fun a c s1 _ _ q1 q2 => hrest a c q1 q2 s1⟩
      · refine wp_bind (fun _ => trivial) i1 (wp_post (fun _ => trivial) (fun _ _ _ _ _ => trivial) (hl P1 i1)
          fun a s1 _ j1 q1 => ?_)
        refine wp_bind (fun _ => trivial) j1 (wp_post (fun _ => trivial) (fun _ _ _ _ _ => trivial) (hr s1 j1)
          fun c s2 _ _ q2 => ?_)
        exact hrest a c q1 q2 s2

/-- `mark` under every interleaving. -/
theorem markConc_ok {n : ℕ} {rt dep : ℕ → ℕ} (w : ℕ → List Bool) (t : NTree ℕ K d) (P : List ℤ)
    (hF : Forest P n rt dep) (hx : ∀ x ∈ t.tree.items, x < n) (hne : NonEmpty t) (hs : Stale rt t) :
    ∃ t' P', markConc w t P = .ok (t', P') ∧ Forest P' n rt dep ∧ t'.tree = t.tree ∧ Marked rt t' := by
  unfold markConc
  rw [hF.len]
  obtain ⟨t', P', h1, h2, h3, -⟩ := run_wp (I := fun P => Forest P n rt dep) (G := fun _ _ => True)
    (fun _ => trivial) (fun _ _ _ _ _ => trivial) w hF
    (markP_wp t hx hne hs P hF) 0
  exact ⟨t', P', h1, h3, h2⟩

end Verif.Emst
