import Verif.SpatialGraph.SpannerFloatModel
import Verif.SpatialGraph.SpannerProps
import Verif.KdTree.WspdFloatProps

set_option linter.unusedSectionVars false
set_option linter.unusedVariables false

/-!
Property C96: the t-spanner in rounded arithmetic.
-/

namespace Verif.SpatialGraph

open Verif.KdTree Verif.Float

variable {d : ℕ} {fl : ℝ → ℝ} {u : ℝ}

/-- Going through representatives of the two sides costs at most `t` times the distance. -/
def Detour (pos : ℕ → Point ℝ d) (t : ℝ) (A B : List ℕ) : Prop :=
  ∀ x a y b, x ∈ A → a ∈ A → y ∈ B → b ∈ B →
    t * eucl (pos x) (pos a) + eucl (pos a) (pos b) + t * eucl (pos b) (pos y) ≤ t * eucl (pos x) (pos y)

theorem Detour.swap {pos : ℕ → Point ℝ d} {t : ℝ} {A B : List ℕ} (h : Detour pos t A B) :
    Detour pos t B A := by
  intro x a y b hx ha hy hb
  have := h y b x a hy hb hx ha
  rw [eucl_comm (pos y) (pos b), eucl_comm (pos b) (pos a), eucl_comm (pos a) (pos x),
    eucl_comm (pos y) (pos x)] at this
  linarith

/-- Induction on the tree: the edges of the decomposition below a node span its items. -/
theorem walk_treeFl (hf : IsMonoRounding fl) (pos : ℕ → Point ℝ d) (t s : ℝ) (Q : Prop)
    (tree : Tree ℕ ℝ d) (hsound : Sound pos 1 tree) (hnd : tree.items.Nodup)
    (E : List (ℕ × ℕ)) (out : List (Tree ℕ ℝ d × Tree ℕ ℝ d))
    (hout : wspdSerialFl fl (geomWellSeparatedFl fl s) tree = .ok out)
    (hE : ∀ p ∈ out, ∀ e, pairEdge p = .ok e → e ∈ E) (hQ : Q → ∀ p ∈ out, Detour pos t p.1.items p.2.items) :
    ∀ x ∈ tree.items, ∀ y ∈ tree.items,
      ∃ l, Walk E (fun a b => eucl (pos a) (pos b)) x y l ∧ (Q → l ≤ t * eucl (pos x) (pos y)) := by
  have hlen : ∀ a b : ℕ, eucl (pos a) (pos b) = eucl (pos b) (pos a) := fun a b => eucl_comm _ _
  induction tree generalizing out with
  | leaf b items =>
    intro x hx y hy
    have h1 : items.length ≤ 1 := hsound.2.1
    have hx' : x ∈ items := hx
    have hy' : y ∈ items := hy
    have : x = y := by
      match items, h1, hx', hy' with
      | [c], _, hx', hy' => simp at hx' hy'; rw [hx', hy']
    subst this
    exact ⟨0, .nil x, fun _ => by rw [eucl_self]; simp⟩
  | node b L R ihL ihR =>
    have hsL : Sound pos 1 L := hsound.2.2.1
    have hsR : Sound pos 1 R := hsound.2.2.2
    have hnd' : (L.items ++ R.items).Nodup := hnd
    obtain ⟨hndL, hndR, hdisj⟩ := List.nodup_append.mp hnd'
    obtain ⟨outL, hL, -⟩ := wspdSerialFl_ok fl (geomWellSeparatedFl fl s) L
      (fun bu iu bv iv hu hv => geomWellSeparatedFl_leaf hf (hsL.below hu) (hsL.below hv))
      hsL.singleLeaves hndL
    obtain ⟨outR, hR, -⟩ := wspdSerialFl_ok fl (geomWellSeparatedFl fl s) R
      (fun bu iu bv iv hu hv => geomWellSeparatedFl_leaf hf (hsR.below hu) (hsR.below hv))
      hsR.singleLeaves hndR
    obtain ⟨outP, hP, hPb, hPc⟩ := findPairSerialFl_ok fl (geomWellSeparatedFl fl s) (L.height + R.height + 1) L R
      (by omega)
      (fun bu iu bv iv hu hv => ⟨geomWellSeparatedFl_leaf hf (hsL.below hu) (hsR.below hv),
        geomWellSeparatedFl_leaf hf (hsR.below hv) (hsL.below hu)⟩) hnd'
    have hout' : out = outL ++ outR ++ outP := by
      simp only [wspdSerialFl, hL, hR, hP, bind, Except.bind, pure, Except.pure] at hout
      exact (Except.ok.inj hout).symm
    subst hout'
    have wL := ihL hsL hndL outL hL (fun p hp => hE p (by simp [hp]))
      (fun q p hp => hQ q p (by simp [hp]))
    have wR := ihR hsR hndR outR hR (fun p hp => hE p (by simp [hp]))
      (fun q p hp => hQ q p (by simp [hp]))
    -- across
    have across : ∀ x ∈ L.items, ∀ y ∈ R.items,
        (∃ l, Walk E (fun a b => eucl (pos a) (pos b)) x y l ∧ (Q → l ≤ t * eucl (pos x) (pos y))) ∧
        (∃ l, Walk E (fun a b => eucl (pos a) (pos b)) y x l ∧ (Q → l ≤ t * eucl (pos x) (pos y))) := by
      intro x hx y hy
      classical
      have hcount := hPc x y
      rw [if_pos (show Covers x y (L, R) from Or.inl ⟨hx, hy⟩)] at hcount
      have hpos : 0 < outP.countP (fun p => decide (Covers x y p)) := by
        convert (show 0 < 1 by omega)
      obtain ⟨p, hp, hcov⟩ := List.countP_pos_iff.mp hpos
      have hcov : Covers x y p := by simpa using hcov
      obtain ⟨hws, hbel⟩ := hPb p hp
      -- orient the pair
      have orient : ∃ A B : Tree ℕ ℝ d, Below A L ∧ Below B R ∧ x ∈ A.items ∧ y ∈ B.items ∧
          (Q → Detour pos t A.items B.items) ∧ ∀ a b la lb, A.items = a :: la → B.items = b :: lb →
            mkEdge a b ∈ E ∨ mkEdge b a ∈ E := by
        rcases hbel with ⟨hb1, hb2⟩ | ⟨hb1, hb2⟩
        · refine ⟨p.1, p.2, hb1, hb2, ?_, ?_, ?_, ?_⟩
          · rcases hcov with h | h
            · exact h.1
            · exact absurd rfl (hdisj _ hx _ (Below.items_sub hb2 _ h.2))
          · rcases hcov with h | h
            · exact h.2
            · exact absurd rfl (hdisj _ (Below.items_sub hb1 _ h.1) _ hy)
          · exact fun q => hQ q p (by simp [hp])
          · intro a b la lb h1 h2
            left
            refine hE p (by simp [hp]) _ ?_
            simp [pairEdge, h1, h2]
        · refine ⟨p.2, p.1, hb2, hb1, ?_, ?_, ?_, ?_⟩
          · rcases hcov with h | h
            · exact absurd rfl (hdisj _ hx _ (Below.items_sub hb1 _ h.1))
            · exact h.2
          · rcases hcov with h | h
            · exact absurd rfl (hdisj _ (Below.items_sub hb2 _ h.2) _ hy)
            · exact h.1
          · exact fun q => (hQ q p (by simp [hp])).swap
          · intro a b la lb h1 h2
            right
            refine hE p (by simp [hp]) _ ?_
            simp [pairEdge, h1, h2]
      obtain ⟨A, B, hA, hB, hxA, hyB, hsep, hedge⟩ := orient
      obtain ⟨a, la, hla⟩ := List.exists_cons_of_ne_nil (List.ne_nil_of_mem hxA)
      obtain ⟨b', lb, hlb⟩ := List.exists_cons_of_ne_nil (List.ne_nil_of_mem hyB)
      have haA : a ∈ A.items := by rw [hla]; simp
      have hbB : b' ∈ B.items := by rw [hlb]; simp
      have hw : Walk E (fun a b => eucl (pos a) (pos b)) a b' (eucl (pos a) (pos b')) ∧
          Walk E (fun a b => eucl (pos a) (pos b)) b' a (eucl (pos a) (pos b')) := by
        rcases hedge a b' la lb hla hlb with h | h
        · exact edge_walk hlen a b' h
        · have := edge_walk hlen b' a h
          rw [hlen b' a] at this
          exact this.symm
      constructor
      · obtain ⟨l1, w1, e1⟩ := wL x hx a (Below.items_sub hA _ haA)
        obtain ⟨l2, w2, e2⟩ := wR b' (Below.items_sub hB _ hbB) y hy
        refine ⟨_, (w1.trans hw.1).trans w2, fun q => ?_⟩
        have hth := hsep q x a y b' hxA haA hyB hbB
        have e1 := e1 q
        have e2 := e2 q
        linarith
      · obtain ⟨l1, w1, e1⟩ := wL a (Below.items_sub hA _ haA) x hx
        obtain ⟨l2, w2, e2⟩ := wR y hy b' (Below.items_sub hB _ hbB)
        refine ⟨_, (w2.trans hw.2).trans w1, fun q => ?_⟩
        have hth := hsep q x a y b' hxA haA hyB hbB
        have e1 := e1 q
        have e2 := e2 q
        rw [hlen y b'] at e2
        rw [hlen a x] at e1
        linarith
    intro x hx y hy
    rcases List.mem_append.mp hx with hx | hx <;> rcases List.mem_append.mp hy with hy | hy
    · exact wL x hx y hy
    · exact (across x hx y hy).1
    · obtain ⟨l, w, e⟩ := (across y hy x hx).2
      exact ⟨l, w, by rw [hlen x y]; exact e⟩
    · exact wR x hx y hy

/-- A pair that passed the computed separation test: if points are equal or at least `δ` apart, where
the error of the box centres is at most `κ δ`, a detour through the pair costs at most a factor `τ`. -/
theorem detour_of_sep {pos : ℕ → Point ℝ d} {M s τ κ δ : ℝ} {A B : List ℕ} (hu0 : 0 ≤ u) (hu : u < 1)
    (hM : 0 ≤ M) (hτ : 1 < τ) (hκ : 0 ≤ κ) (hκ1 : κ ≤ 1) (hδ : 0 < δ)
    (hE : 6 * Real.sqrt d * u * M ≤ κ * δ)
    (hs : 4 * (τ + 1) * ((1 + u) ^ (d + 7) * (1 + κ)) ≤
      (τ - 1) * ((1 - u) ^ (d + 7) * s - 2 * ((1 + u) ^ (d + 7) - (1 - u) ^ (d + 7))))
    (hsep : ∀ x ∈ A ++ B, ∀ y ∈ A ++ B, eucl (pos x) (pos y) = 0 ∨ δ ≤ eucl (pos x) (pos y))
    (h : WellSeparatedUpTo u M pos s A B) : Detour pos τ A B := by
  obtain ⟨cA, cB, rA, rB, r1, r2, r3, r4, r5⟩ := h
  intro x a y b hx ha hy hb
  set A' := (1 - u) ^ (d + 7) with hA'
  set B' := (1 + u) ^ (d + 7) with hB'
  set E := 6 * Real.sqrt d * u * M with hEdef
  set m := max rA rB with hm
  set e := eucl (pos x) (pos y) with he
  have ha0 : 0 ≤ A' := pow_nonneg (by linarith) _
  have ha1 : A' ≤ 1 := pow_le_one₀ (by linarith) (by linarith)
  have hb1 : 1 ≤ B' := one_le_pow₀ (by linarith)
  have hE0 : 0 ≤ E := by positivity
  have he0 : 0 ≤ e := eucl_nonneg _ _
  have hmA : rA ≤ m := le_max_left _ _
  have hmB : rB ≤ m := le_max_right _ _
  have hm0 : 0 ≤ m := r1.trans hmA
  have tri : eucl cA cB ≤ rA + e + rB := by
    have t1 := eucl_triangle cA (pos x) cB
    have t2 := eucl_triangle (pos x) (pos y) cB
    have t3 := r3 x hx
    have t4 := r4 y hy
    rw [eucl_comm] at t3
    linarith
  -- the radius
  have rad : (A' * s - 2 * (B' - A')) * m ≤ B' * (e + E) := by
    have g1 : B' * (eucl cA cB + E) ≤ B' * (rA + e + rB + E) := mul_le_mul_of_nonneg_left (by linarith) (by linarith)
    have g2 : (B' - A') * (rA + rB) ≤ (B' - A') * (2 * m) := mul_le_mul_of_nonneg_left (by linarith) (by linarith)
    nlinarith
  have hBp : 0 < B' * (1 + κ) := by positivity
  -- bound of the radius by `e + E`
  have rad2 : 4 * (τ + 1) * (1 + κ) * m ≤ (τ - 1) * (e + E) := by
    have g1 := mul_le_mul_of_nonneg_right hs hm0
    have g2 := mul_le_mul_of_nonneg_left rad (by linarith : 0 ≤ τ - 1)
    have g3 : B' * (4 * (τ + 1) * (1 + κ) * m) ≤ B' * ((τ - 1) * (e + E)) := by nlinarith
    exact le_of_mul_le_mul_left g3 (by linarith)
  have hxa : eucl (pos x) (pos a) ≤ 2 * m := by
    have := eucl_triangle (pos x) cA (pos a)
    have h5 := r3 x hx
    have h6 := r3 a ha
    rw [eucl_comm cA] at this
    linarith
  have hby : eucl (pos b) (pos y) ≤ 2 * m := by
    have := eucl_triangle (pos b) cB (pos y)
    have h5 := r4 y hy
    have h6 := r4 b hb
    rw [eucl_comm cB] at this
    linarith
  have hab : eucl (pos a) (pos b) ≤ eucl (pos x) (pos a) + e + eucl (pos b) (pos y) := by
    have g1 := eucl_triangle (pos a) (pos x) (pos b)
    have g2 := eucl_triangle (pos x) (pos y) (pos b)
    rw [eucl_comm (pos a) (pos x)] at g1
    rw [eucl_comm (pos y) (pos b)] at g2
    linarith
  rcases hsep x (List.mem_append_left _ hx) y (List.mem_append_right _ hy) with hz | hz
  · -- the two points are equal: so are all points of the pair
    have hsmall : 2 * m < δ := by
      have g1 : (τ - 1) * (e + E) ≤ (τ - 1) * δ := by
        apply mul_le_mul_of_nonneg_left _ (by linarith)
        rw [he, hz]
        have : κ * δ ≤ 1 * δ := mul_le_mul_of_nonneg_right hκ1 hδ.le
        linarith
      have g2 : 4 * (τ + 1) * m ≤ 4 * (τ + 1) * (1 + κ) * m := by
        have : 0 ≤ 4 * (τ + 1) * m := by positivity
        nlinarith
      have g3 : (2 * m) * (τ + 1) * 2 < δ * (τ + 1) * 2 := by nlinarith
      nlinarith
    have h1 : eucl (pos x) (pos a) = 0 := by
      rcases hsep x (List.mem_append_left _ hx) a (List.mem_append_left _ ha) with h | h
      · exact h
      · linarith
    have h2 : eucl (pos b) (pos y) = 0 := by
      rcases hsep b (List.mem_append_right _ hb) y (List.mem_append_right _ hy) with h | h
      · exact h
      · linarith
    have hz' : e = 0 := hz
    rw [h1, h2] at hab ⊢
    rw [hz'] at hab ⊢
    linarith
  · have hz' : δ ≤ e := hz
    have hEe : E ≤ κ * e := hE.trans (mul_le_mul_of_nonneg_left hz' hκ)
    have rad3 : 4 * (τ + 1) * m ≤ (τ - 1) * e := by
      have g1 : (τ - 1) * (e + E) ≤ (τ - 1) * ((1 + κ) * e) :=
        mul_le_mul_of_nonneg_left (by linarith) (by linarith)
      have g2 : (1 + κ) * (4 * (τ + 1) * m) ≤ (1 + κ) * ((τ - 1) * e) := by linarith
      exact le_of_mul_le_mul_left g2 (by linarith)
    have g1 : (τ + 1) * eucl (pos x) (pos a) ≤ (τ + 1) * (2 * m) := mul_le_mul_of_nonneg_left hxa (by linarith)
    have g2 : (τ + 1) * eucl (pos b) (pos y) ≤ (τ + 1) * (2 * m) := mul_le_mul_of_nonneg_left hby (by linarith)
    linarith

/-- What both parts of C96 use. -/
theorem spannerFl_any (hf : IsMonoRounding fl) (w bs : ℕ) (hw : 0 < w) (hb : 0 < bs) (hd : 0 < d)
    (S : List (Point ℝ d)) (hS : 2 ≤ S.length) (t τ : ℝ) :
    ∃ E tree out, spannerFl fl w bs S t = .ok E ∧ (∀ e ∈ E, e.1 < e.2 ∧ e.2 < S.length) ∧
      buildFl fl w bs (ptAt S) 1 true (List.range S.length) = .ok tree ∧
      wspdSerialFl fl (geomWellSeparatedFl fl (sepFl fl t)) tree = .ok out ∧
      (∀ p ∈ out, ∀ x ∈ p.1.items ++ p.2.items, x < S.length) ∧
      ∀ i j, i < S.length → j < S.length → ∃ l, Walk E (fun a b => eucl (ptAt S a) (ptAt S b)) i j l ∧
        ((∀ p ∈ out, Detour (ptAt S) τ p.1.items p.2.items) → l ≤ τ * eucl (ptAt S i) (ptAt S j)) := by
  obtain ⟨tree, h1, h2, h3⟩ := c91_build hf w bs hw hb hd (ptAt S) 1 (le_refl _) true
    (List.range S.length) (by simp; intro h; rw [h] at hS; simp at hS)
  have hnd : tree.items.Nodup := h2.nodup_iff.mpr List.nodup_range
  have hmem : ∀ x, x ∈ tree.items ↔ x < S.length := by
    intro x; rw [h2.mem_iff, List.mem_range]
  obtain ⟨out, h4, h5, -⟩ := wspdSerialFl_ok fl (geomWellSeparatedFl fl (sepFl fl t)) tree
    (fun bu iu bv iv hu hv => geomWellSeparatedFl_leaf hf (h3.below hu) (h3.below hv))
    h3.singleLeaves hnd
  have hne : ∀ u : Tree ℕ ℝ d, Below u tree → ∃ a l, u.items = a :: l := by
    intro u hu
    exact List.exists_cons_of_ne_nil (sound_items_ne (h3.below hu))
  obtain ⟨E, h6, h7, h8⟩ := mapM_ok pairEdge out (by
    intro p hp
    obtain ⟨-, b1, b2, -⟩ := h5 p hp
    obtain ⟨a, la, ha⟩ := hne _ b1
    obtain ⟨b, lb, hb⟩ := hne _ b2
    exact ⟨_, by simp only [pairEdge, ha, hb]; rfl⟩)
  refine ⟨E, tree, out, ?_, ?_, h1, h4, ?_, ?_⟩
  · unfold spannerFl
    rw [if_neg (by omega)]
    simp only [h1, Except.bind, wspdParallelFl_eq, h4, h6]
  · intro e he
    obtain ⟨p, hp, hpe⟩ := h8 e he
    obtain ⟨-, b1, b2, hdis⟩ := h5 p hp
    obtain ⟨a, la, ha⟩ := hne _ b1
    obtain ⟨b, lb, hb⟩ := hne _ b2
    simp only [pairEdge, ha, hb] at hpe
    have hea := (hmem a).mp (Below.items_sub b1 a (by rw [ha]; simp))
    have heb := (hmem b).mp (Below.items_sub b2 b (by rw [hb]; simp))
    have hab : a ≠ b := hdis a (by rw [ha]; simp) b (by rw [hb]; simp)
    rw [← Except.ok.inj hpe]
    unfold mkEdge
    split <;> constructor <;> simp only <;> omega
  · intro p hp x hx
    obtain ⟨-, b1, b2, -⟩ := h5 p hp
    rcases List.mem_append.mp hx with hx | hx
    · exact (hmem x).mp (Below.items_sub b1 x hx)
    · exact (hmem x).mp (Below.items_sub b2 x hx)
  · intro i j hi hj
    exact walk_treeFl hf (ptAt S) τ (sepFl fl t) (∀ p ∈ out, Detour (ptAt S) τ p.1.items p.2.items) tree h3 hnd
      E out h4 h7 (fun q => q) i ((hmem i).mpr hi) j ((hmem j).mpr hj)

/-- **C96, connected.** With any monotone odd rounding, for every list of at least two points and every `t`
whose difference to 1 does not round to zero, `spanner` returns a graph on the input indices, with no loops,
that connects any two points. -/
theorem c96_connected (hf : IsMonoRounding fl) (w bs : ℕ) (hw : 0 < w) (hb : 0 < bs) (hd : 0 < d)
    (S : List (Point ℝ d)) (hS : 2 ≤ S.length) (t : ℝ) (ht : 0 < fl (t - 1)) :
    ∃ E, spannerFl fl w bs S t = .ok E ∧ (∀ e ∈ E, e.1 < e.2 ∧ e.2 < S.length) ∧
      ∀ i j, i < S.length → j < S.length → ∃ l, Walk E (fun a b => eucl (ptAt S a) (ptAt S b)) i j l := by
  obtain ⟨E, _, _, h1, h2, _, _, _, h3⟩ := spannerFl_any hf w bs hw hb hd S hS t t
  exact ⟨E, h1, h2, fun i j hi hj => (h3 i j hi hj).imp fun l h => h.1⟩

theorem sepFl_ge (hf : IsRounding u fl) (hu : u < 1) {t : ℝ} (ht : 1 < t) :
    (1 - u) ^ 3 * (4 * (t + 1)) ≤ (1 + u) * (t - 1) * sepFl fl t := by
  have hu0 := u_nonneg hf
  have h1 : 0 < t - 1 := by linarith
  have g1 := fl_ge hf (x := t + 1) (by linarith)
  have g2 := fl_le hf (x := t - 1) h1.le
  have g2' := fl_ge hf (x := t - 1) h1.le
  have hpos : 0 < fl (t - 1) := lt_of_lt_of_le (mul_pos (by linarith) h1) g2'
  have hn : 0 ≤ fl (t + 1) := hf.toIsMonoRounding.nonneg (by linarith)
  have g3 := fl_ge hf (x := 4 * fl (t + 1)) (by linarith)
  have hn2 : 0 ≤ fl (4 * fl (t + 1)) := hf.toIsMonoRounding.nonneg (by linarith)
  have g4 := fl_ge hf (x := fl (4 * fl (t + 1)) / fl (t - 1)) (div_nonneg hn2 hpos.le)
  have hs : 0 ≤ sepFl fl t := hf.toIsMonoRounding.nonneg (div_nonneg hn2 hpos.le)
  have e1 : (1 - u) * fl (4 * fl (t + 1)) ≤ fl (t - 1) * sepFl fl t := by
    have := mul_le_mul_of_nonneg_left g4 hpos.le
    have e : fl (t - 1) * ((1 - u) * (fl (4 * fl (t + 1)) / fl (t - 1))) = (1 - u) * fl (4 * fl (t + 1)) := by
      field_simp
    rw [e] at this
    exact this
  have e2 : fl (t - 1) * sepFl fl t ≤ (1 + u) * (t - 1) * sepFl fl t := mul_le_mul_of_nonneg_right g2 hs
  have e3 : (1 - u) * ((1 - u) * (4 * ((1 - u) * (t + 1)))) ≤ (1 - u) * fl (4 * fl (t + 1)) := by
    apply mul_le_mul_of_nonneg_left _ (by linarith)
    refine le_trans ?_ g3
    apply mul_le_mul_of_nonneg_left _ (by linarith)
    linarith
  calc (1 - u) ^ 3 * (4 * (t + 1)) = (1 - u) * ((1 - u) * (4 * ((1 - u) * (t + 1)))) := by ring
    _ ≤ _ := e3.trans (e1.trans e2)

/-- **C96, the stretch.** With a rounding of relative error `u < 1`: if the coordinates have size at most
`M`, and two input points are equal or at least `δ` apart, where `6 sqrt(d) u M ≤ κ δ`, then the graph
contains between any two points a walk of total length at most `τ` times their distance, for every `τ` that
meets the inequality of the exact algorithm up to the factors of the roundings; with `u = κ = 0` it is met
by `τ = t`. -/
theorem c96_stretch (hf : IsRounding u fl) (hu : u < 1) (w bs : ℕ) (hw : 0 < w) (hb : 0 < bs) (hd : 0 < d)
    (S : List (Point ℝ d)) (hS : 2 ≤ S.length) (t : ℝ) (ht : 1 < t) (M δ κ τ : ℝ)
    (hM : ∀ p ∈ S, ∀ i, |p i| ≤ M) (hδ : 0 < δ) (hκ : 0 ≤ κ) (hκ1 : κ ≤ 1)
    (hsep : ∀ p ∈ S, ∀ q ∈ S, p = q ∨ δ ≤ eucl p q) (hE : 6 * Real.sqrt d * u * M ≤ κ * δ) (hτ : 1 < τ)
    (hs : 4 * (τ + 1) * ((1 + u) ^ (d + 7) * (1 + κ)) ≤
      (τ - 1) * ((1 - u) ^ (d + 7) * ((1 - u) ^ 3 * (4 * (t + 1)) / ((1 + u) * (t - 1)))
        - 2 * ((1 + u) ^ (d + 7) - (1 - u) ^ (d + 7)))) :
    ∃ E, spannerFl fl w bs S t = .ok E ∧ (∀ e ∈ E, e.1 < e.2 ∧ e.2 < S.length) ∧
      ∀ i j p q, S[i]? = some p → S[j]? = some q →
        ∃ l, Walk E (fun a b => eucl (ptAt S a) (ptAt S b)) i j l ∧ l ≤ τ * eucl p q := by
  have hu0 := u_nonneg hf
  obtain ⟨E, tree, out, h1, h2, h3, h4, h5, h6⟩ := spannerFl_any hf.toIsMonoRounding w bs hw hb hd S hS t τ
  have hin : ∀ x, x < S.length → ptAt S x ∈ S := by
    intro x hx
    unfold ptAt
    rw [List.getElem?_eq_getElem hx]
    exact List.getElem_mem hx
  have hne : List.range S.length ≠ [] := by
    intro h
    have := congrArg List.length h
    simp at this
    rw [this] at hS
    simp at hS
  have hM0 : 0 ≤ M := (abs_nonneg _).trans (hM _ (hin 0 (by omega)) ⟨0, hd⟩)
  have hsf := sepFl_ge hf hu ht
  have h1u : 0 < (1 + u) * (t - 1) := mul_pos (by linarith) (by linarith)
  have hs1 : (1 - u) ^ 3 * (4 * (t + 1)) / ((1 + u) * (t - 1)) ≤ sepFl fl t := by
    rw [div_le_iff₀ h1u]
    linarith
  have hs0 : 0 ≤ sepFl fl t := le_trans (div_nonneg (mul_nonneg (pow_nonneg (by linarith) _) (by linarith)) h1u.le) hs1
  obtain ⟨o2, q3, q4⟩ := c94_separated hf hu w bs hw hb hd (ptAt S) true (List.range S.length) hne
    List.nodup_range M (fun x hx i => hM _ (hin x (List.mem_range.mp hx)) i) tree h3 (sepFl fl t) hs0
  rw [h4] at q3
  cases q3
  have hdet : ∀ p ∈ out, Detour (ptAt S) τ p.1.items p.2.items := by
    intro p hp
    refine detour_of_sep hu0 hu hM0 hτ hκ hκ1 hδ hE (hs.trans ?_) ?_ (q4 p hp)
    · apply mul_le_mul_of_nonneg_left _ (by linarith)
      have := mul_le_mul_of_nonneg_left hs1 (pow_nonneg (by linarith : 0 ≤ 1 - u) (d + 7))
      linarith
    · intro x hx y hy
      rcases hsep _ (hin x (h5 p hp x hx)) _ (hin y (h5 p hp y hy)) with h | h
      · left
        rw [h, eucl_self]
      · exact Or.inr h
  refine ⟨E, h1, h2, ?_⟩
  intro i j p q hi hj
  obtain ⟨l, h7, h8⟩ := h6 i j (List.getElem?_eq_some_iff.mp hi).1 (List.getElem?_eq_some_iff.mp hj).1
  have hp : ptAt S i = p := by simp [ptAt, hi]
  have hq : ptAt S j = q := by simp [ptAt, hj]
  have := h8 hdet
  rw [hp, hq] at this
  exact ⟨l, h7, this⟩

/-- `spanner` aborts for fewer than two points. -/
theorem c96_small (fl : ℝ → ℝ) (w bs : ℕ) (S : List (Point ℝ d)) (hS : S.length < 2) (t : ℝ) :
    spannerFl fl w bs S t = .error .throws := by
  unfold spannerFl; rw [if_pos hS]

/-- With exact arithmetic the requirement of `c96_stretch` is met by `τ = t`. -/
example (t : ℝ) (ht : 1 < t) : 4 * (t + 1) * ((1 + (0 : ℝ)) ^ (2 + 7) * (1 + 0)) ≤
    (t - 1) * ((1 - (0 : ℝ)) ^ (2 + 7) * ((1 - 0) ^ 3 * (4 * (t + 1)) / ((1 + 0) * (t - 1)))
      - 2 * ((1 + 0) ^ (2 + 7) - (1 - 0) ^ (2 + 7))) := by
  have : 0 < t - 1 := by linarith
  apply le_of_eq
  field_simp
  ring

/-- Non-vacuity of `c96_connected` and `c96_stretch`: four points in `double`, two of them equal; the
2-spanner has stretch at most 2.000001. -/
example : ∃ E, spannerFl (rne 53) 4 100 ([![0, 0], ![0, 0], ![10, 0], ![10, 3]] : List (Point ℝ 2)) 2 = .ok E ∧
    ∀ i j p q, ([![0, 0], ![0, 0], ![10, 0], ![10, 3]] : List (Point ℝ 2))[i]? = some p →
      ([![0, 0], ![0, 0], ![10, 0], ![10, 3]] : List (Point ℝ 2))[j]? = some q →
      ∃ l, Walk E (fun a b => eucl (ptAt [![0, 0], ![0, 0], ![10, 0], ![10, 3]] a)
        (ptAt [![0, 0], ![0, 0], ![10, 0], ![10, 3]] b)) i j l ∧ l ≤ 2.000001 * eucl p q := by
  have hf := isRounding_rne (p := 53) (by norm_num)
  have hE : (6 * Real.sqrt (2 : ℕ) * (2 : ℝ)⁻¹ ^ 53 * 10) ≤ (2 : ℝ)⁻¹ ^ 40 * 1 := by
    have : Real.sqrt (2 : ℕ) ≤ 2 := by
      rw [Real.sqrt_le_iff]
      norm_num
    have h2 : 6 * Real.sqrt (2 : ℕ) * (2 : ℝ)⁻¹ ^ 53 * 10 ≤ 6 * 2 * (2 : ℝ)⁻¹ ^ 53 * 10 := by
      gcongr
    refine h2.trans ?_
    norm_num
  have hsep : ∀ p ∈ ([![0, 0], ![0, 0], ![10, 0], ![10, 3]] : List (Point ℝ 2)),
      ∀ q ∈ ([![0, 0], ![0, 0], ![10, 0], ![10, 3]] : List (Point ℝ 2)), p = q ∨ 1 ≤ eucl p q := by
    have far : ∀ p q : Point ℝ 2, 1 ≤ distSqr p q → 1 ≤ eucl p q := by
      intro p q h
      unfold eucl
      rw [Real.one_le_sqrt]
      exact h
    intro p hp q hq
    simp only [List.mem_cons, List.not_mem_nil, or_false] at hp hq
    rcases hp with rfl | rfl | rfl | rfl <;> rcases hq with rfl | rfl | rfl | rfl <;>
      first
        | exact Or.inl rfl
        | (right; apply far; simp [distSqr, Fin.sum_univ_two]; try norm_num)
  obtain ⟨E, h1, -, h2⟩ := c96_stretch hf (by norm_num) 4 100 (by norm_num) (by norm_num) (by norm_num)
    ([![0, 0], ![0, 0], ![10, 0], ![10, 3]] : List (Point ℝ 2)) (by simp) 2 (by norm_num) 10 1 ((2 : ℝ)⁻¹ ^ 40)
    2.000001 (by
      intro p hp i
      simp only [List.mem_cons, List.not_mem_nil, or_false] at hp
      rcases hp with rfl | rfl | rfl | rfl <;> fin_cases i <;> norm_num [abs_of_nonneg])
    (by norm_num) (by norm_num) (by norm_num) hsep hE (by norm_num) (by norm_num)
  exact ⟨E, h1, h2⟩

end Verif.SpatialGraph
