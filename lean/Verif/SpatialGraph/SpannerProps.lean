import Verif.SpatialGraph.SpannerModel
import Verif.KdTree.WspdProps

set_option linter.unusedSectionVars false
set_option linter.unusedVariables false

/-!
Property C17: the t-spanner.
-/

namespace Verif.SpatialGraph

open Verif.KdTree

/-- Specification of C17: a walk in the undirected graph `E` from one vertex to another, with its
total length. -/
inductive Walk (E : List (ℕ × ℕ)) (len : ℕ → ℕ → ℝ) : ℕ → ℕ → ℝ → Prop
  | nil (a : ℕ) : Walk E len a a 0
  | cons {a b c : ℕ} {l : ℝ} : (a, b) ∈ E ∨ (b, a) ∈ E → Walk E len b c l → Walk E len a c (len a b + l)

variable {E E' : List (ℕ × ℕ)} {len : ℕ → ℕ → ℝ} {a b c : ℕ} {l l' : ℝ}

theorem Walk.trans (h : Walk E len a b l) (h' : Walk E len b c l') : Walk E len a c (l + l') := by
  induction h with
  | nil a => simpa using h'
  | cons he _ ih => rw [add_assoc]; exact .cons he (ih h')

theorem Walk.mono (h : Walk E len a b l) (hs : ∀ e ∈ E, e ∈ E') : Walk E' len a b l := by
  induction h with
  | nil a => exact .nil a
  | cons he _ ih => exact .cons (he.imp (hs _) (hs _)) ih

variable {d : ℕ}

theorem mkEdge_cases (u v : ℕ) : mkEdge u v = (u, v) ∨ mkEdge u v = (v, u) := by
  unfold mkEdge; split <;> simp

theorem edge_walk (hl : ∀ a b, len a b = len b a) (u v : ℕ) (h : mkEdge u v ∈ E) :
    Walk E len u v (len u v) ∧ Walk E len v u (len u v) := by
  have h1 : (u, v) ∈ E ∨ (v, u) ∈ E := by
    rcases mkEdge_cases u v with h' | h' <;> rw [h'] at h
    · exact Or.inl h
    · exact Or.inr h
  constructor
  · simpa using Walk.cons h1 (.nil v)
  · have := Walk.cons (len := len) h1.symm (.nil u)
    rw [hl v u] at this
    simpa using this

/-- One pair of the decomposition: going through its representatives costs at most `t` times the
distance. -/
theorem through (pos : ℕ → Point ℝ d) (t s : ℝ) (ht : 1 < t) (hs : s = 4 * (t + 1) / (t - 1))
    (A B : List ℕ) (hw : WellSeparated pos s A B) (x a y b : ℕ) (hx : x ∈ A) (ha : a ∈ A)
    (hy : y ∈ B) (hb : b ∈ B) :
    t * eucl (pos x) (pos a) + eucl (pos a) (pos b) + t * eucl (pos b) (pos y) ≤
      t * eucl (pos x) (pos y) := by
  obtain ⟨cA, cB, r, hr, h1, h2, h3⟩ := hw
  have hxa : eucl (pos x) (pos a) ≤ 2 * r := by
    have := eucl_triangle (pos x) cA (pos a)
    have h5 := h1 x hx
    have h6 := h1 a ha
    rw [eucl_comm cA] at this
    linarith
  have hby : eucl (pos b) (pos y) ≤ 2 * r := by
    have := eucl_triangle (pos b) cB (pos y)
    have h5 := h2 y hy
    have h6 := h2 b hb
    rw [eucl_comm cB] at this
    linarith
  have hab : eucl (pos a) (pos b) ≤ eucl (pos x) (pos a) + eucl (pos x) (pos y) + eucl (pos b) (pos y) := by
    have g1 := eucl_triangle (pos a) (pos x) (pos b)
    have g2 := eucl_triangle (pos x) (pos y) (pos b)
    rw [eucl_comm (pos a) (pos x)] at g1
    rw [eucl_comm (pos y) (pos b)] at g2
    linarith
  have hc : s * r ≤ eucl (pos x) (pos y) := by
    have g1 := eucl_triangle cA (pos x) cB
    have g2 := eucl_triangle (pos x) (pos y) cB
    have h5 := h1 x hx
    have h6 := h2 y hy
    rw [eucl_comm cA (pos x)] at g1
    linarith
  have ht1 : 0 < t - 1 := by linarith
  have hs2 : (t - 1) * s = 4 * (t + 1) := by rw [hs]; field_simp
  have hc2 : 4 * (t + 1) * r ≤ (t - 1) * eucl (pos x) (pos y) := by
    rw [← hs2, mul_assoc]
    exact mul_le_mul_of_nonneg_left hc ht1.le
  nlinarith

theorem mapM_ok {α β : Type} (f : α → Except Err β) (l : List α) (h : ∀ x ∈ l, ∃ y, f x = .ok y) :
    ∃ out, l.mapM f = .ok out ∧ (∀ x ∈ l, ∀ y, f x = .ok y → y ∈ out) ∧
      ∀ y ∈ out, ∃ x ∈ l, f x = .ok y := by
  induction l with
  | nil => exact ⟨[], rfl, by simp, by simp⟩
  | cons a l ih =>
    obtain ⟨y, hy⟩ := h a (by simp)
    obtain ⟨out, h1, h2, h3⟩ := ih (fun x hx => h x (by simp [hx]))
    refine ⟨y :: out, by simp [List.mapM_cons, hy, h1, bind, Except.bind, pure, Except.pure], ?_, ?_⟩
    · intro x hx z hz
      rcases List.mem_cons.mp hx with rfl | hx
      · rw [hy] at hz
        rw [Except.ok.inj hz]; simp
      · exact List.mem_cons_of_mem _ (h2 x hx z hz)
    · intro z hz
      rcases List.mem_cons.mp hz with rfl | hz
      · exact ⟨a, by simp, hy⟩
      · obtain ⟨x, hx, hx2⟩ := h3 z hz
        exact ⟨x, by simp [hx], hx2⟩

theorem sound_items_ne {pos : ℕ → Point ℝ d} {k : ℕ} {t : Tree ℕ ℝ d} (h : Sound pos k t) :
    t.items ≠ [] := by
  cases t with
  | leaf b i => exact h.1
  | node b l r =>
    intro he
    have := h.1
    rw [show l.items ++ r.items = [] from he] at this
    simp at this

theorem Below.items_sub {a t : Tree ℕ ℝ d} (h : Below a t) : ∀ x ∈ a.items, x ∈ t.items := by
  induction h with
  | refl => exact fun x hx => hx
  | left _ ih => exact fun x hx => List.mem_append_left _ (ih x hx)
  | right _ ih => exact fun x hx => List.mem_append_right _ (ih x hx)

/-- Induction on the tree: the edges of the decomposition below a node span its items. -/
theorem walk_tree (pos : ℕ → Point ℝ d) (t s : ℝ) (ht : 1 < t) (hs : s = 4 * (t + 1) / (t - 1))
    (tree : Tree ℕ ℝ d) (hsound : Sound pos 1 tree) (hnd : tree.items.Nodup)
    (E : List (ℕ × ℕ)) (out : List (Tree ℕ ℝ d × Tree ℕ ℝ d))
    (hout : wspdSerial (geomWellSeparated s) tree = .ok out)
    (hE : ∀ p ∈ out, ∀ e, pairEdge p = .ok e → e ∈ E) :
    ∀ x ∈ tree.items, ∀ y ∈ tree.items,
      ∃ l, Walk E (fun a b => eucl (pos a) (pos b)) x y l ∧ l ≤ t * eucl (pos x) (pos y) := by
  have hs0 : 0 ≤ s := by
    rw [hs]
    apply div_nonneg <;> linarith
  have hlen : ∀ a b : ℕ, eucl (pos a) (pos b) = eucl (pos b) (pos a) := fun a b => eucl_comm _ _
  induction tree generalizing out with
  | leaf b items =>
    intro x hx y hy
    have h1 : items.length ≤ 1 := hsound.2.1
    have hx' : x ∈ items := hx
    have hy' : y ∈ items := hy
    have : x = y := by
      match items, h1, hx', hy' with
      | [c], _, hx', hy' => simp at hx' hy'; rw [hx', hy']
    subst this
    exact ⟨0, .nil x, by rw [eucl_self]; simp⟩
  | node b L R ihL ihR =>
    have hsL : Sound pos 1 L := hsound.2.2.1
    have hsR : Sound pos 1 R := hsound.2.2.2
    have hnd' : (L.items ++ R.items).Nodup := hnd
    obtain ⟨hndL, hndR, hdisj⟩ := List.nodup_append.mp hnd'
    obtain ⟨outL, hL, -⟩ := wspdSerial_ok (geomWellSeparated s) L
      (fun bu iu bv iv hu hv => geomWellSeparated_leaf (hsL.below hu) (hsL.below hv))
      hsL.singleLeaves hndL
    obtain ⟨outR, hR, -⟩ := wspdSerial_ok (geomWellSeparated s) R
      (fun bu iu bv iv hu hv => geomWellSeparated_leaf (hsR.below hu) (hsR.below hv))
      hsR.singleLeaves hndR
    obtain ⟨outP, hP, hPb, hPc⟩ := findPairSerial_ok (geomWellSeparated s) (L.height + R.height + 1) L R
      (by omega)
      (fun bu iu bv iv hu hv => ⟨geomWellSeparated_leaf (hsL.below hu) (hsR.below hv),
        geomWellSeparated_leaf (hsR.below hv) (hsL.below hu)⟩) hnd'
    have hout' : out = outL ++ outR ++ outP := by
      simp only [wspdSerial, hL, hR, hP, bind, Except.bind, pure, Except.pure] at hout
      exact (Except.ok.inj hout).symm
    subst hout'
    have wL := ihL hsL hndL outL hL (fun p hp => hE p (by simp [hp]))
    have wR := ihR hsR hndR outR hR (fun p hp => hE p (by simp [hp]))
    -- across
    have across : ∀ x ∈ L.items, ∀ y ∈ R.items,
        (∃ l, Walk E (fun a b => eucl (pos a) (pos b)) x y l ∧ l ≤ t * eucl (pos x) (pos y)) ∧
        (∃ l, Walk E (fun a b => eucl (pos a) (pos b)) y x l ∧ l ≤ t * eucl (pos x) (pos y)) := by
      intro x hx y hy
      classical
      have hcount := hPc x y
      rw [if_pos (show Covers x y (L, R) from Or.inl ⟨hx, hy⟩)] at hcount
      have hpos : 0 < outP.countP (fun p => decide (Covers x y p)) := by
        convert (show 0 < 1 by omega)
      obtain ⟨p, hp, hcov⟩ := List.countP_pos_iff.mp hpos
      have hcov : Covers x y p := by simpa using hcov
      obtain ⟨hws, hbel⟩ := hPb p hp
      -- orient the pair
      have orient : ∃ A B : Tree ℕ ℝ d, Below A L ∧ Below B R ∧ x ∈ A.items ∧ y ∈ B.items ∧
          WellSeparated pos s A.items B.items ∧ ∀ a b la lb, A.items = a :: la → B.items = b :: lb →
            mkEdge a b ∈ E ∨ mkEdge b a ∈ E := by
        rcases hbel with ⟨hb1, hb2⟩ | ⟨hb1, hb2⟩
        · refine ⟨p.1, p.2, hb1, hb2, ?_, ?_, ?_, ?_⟩
          · rcases hcov with h | h
            · exact h.1
            · exact absurd rfl (hdisj _ hx _ (Below.items_sub hb2 _ h.2))
          · rcases hcov with h | h
            · exact h.2
            · exact absurd rfl (hdisj _ (Below.items_sub hb1 _ h.1) _ hy)
          · exact geomWellSeparated_sound pos s hs0 p.1 p.2 (hsL.below hb1).mem_box
              (hsR.below hb2).mem_box hws
          · intro a b la lb h1 h2
            left
            refine hE p (by simp [hp]) _ ?_
            simp [pairEdge, h1, h2]
        · refine ⟨p.2, p.1, hb2, hb1, ?_, ?_, ?_, ?_⟩
          · rcases hcov with h | h
            · exact absurd rfl (hdisj _ hx _ (Below.items_sub hb1 _ h.1))
            · exact h.2
          · rcases hcov with h | h
            · exact absurd rfl (hdisj _ (Below.items_sub hb2 _ h.2) _ hy)
            · exact h.1
          · obtain ⟨cA, cB, r, g1, g2, g3, g4⟩ := geomWellSeparated_sound pos s hs0 p.1 p.2
              (hsR.below hb1).mem_box (hsL.below hb2).mem_box hws
            exact ⟨cB, cA, r, g1, g3, g2, by rw [eucl_comm cB]; exact g4⟩
          · intro a b la lb h1 h2
            right
            refine hE p (by simp [hp]) _ ?_
            simp [pairEdge, h1, h2]
      obtain ⟨A, B, hA, hB, hxA, hyB, hsep, hedge⟩ := orient
      obtain ⟨a, la, hla⟩ := List.exists_cons_of_ne_nil (List.ne_nil_of_mem hxA)
      obtain ⟨b', lb, hlb⟩ := List.exists_cons_of_ne_nil (List.ne_nil_of_mem hyB)
      have haA : a ∈ A.items := by rw [hla]; simp
      have hbB : b' ∈ B.items := by rw [hlb]; simp
      have hw : Walk E (fun a b => eucl (pos a) (pos b)) a b' (eucl (pos a) (pos b')) ∧
          Walk E (fun a b => eucl (pos a) (pos b)) b' a (eucl (pos a) (pos b')) := by
        rcases hedge a b' la lb hla hlb with h | h
        · exact edge_walk hlen a b' h
        · have := edge_walk hlen b' a h
          rw [hlen b' a] at this
          exact this.symm
      have hth := through pos t s ht hs _ _ hsep x a y b' hxA haA hyB hbB
      constructor
      · obtain ⟨l1, w1, e1⟩ := wL x hx a (Below.items_sub hA _ haA)
        obtain ⟨l2, w2, e2⟩ := wR b' (Below.items_sub hB _ hbB) y hy
        refine ⟨_, (w1.trans hw.1).trans w2, ?_⟩
        linarith
      · obtain ⟨l1, w1, e1⟩ := wL a (Below.items_sub hA _ haA) x hx
        obtain ⟨l2, w2, e2⟩ := wR y hy b' (Below.items_sub hB _ hbB)
        refine ⟨_, (w2.trans hw.2).trans w1, ?_⟩
        rw [hlen y b'] at e2
        rw [hlen a x] at e1
        linarith
    intro x hx y hy
    rcases List.mem_append.mp hx with hx | hx <;> rcases List.mem_append.mp hy with hy | hy
    · exact wL x hx y hy
    · exact (across x hx y hy).1
    · obtain ⟨l, w, e⟩ := (across y hy x hx).2
      exact ⟨l, w, by rw [hlen x y]; exact e⟩
    · exact wR x hx y hy

/-- **C17.** For every list of at least two points (repetitions allowed) and every `t > 1`, `spanner`
returns a graph on the input indices, with no loops, that contains between any two points a walk of
total length at most `t` times their distance. -/
theorem c17_spanner (w bs : ℕ) (hw : 0 < w) (hb : 0 < bs) (hd : 0 < d) (S : List (Point ℝ d))
    (hS : 2 ≤ S.length) (t : ℝ) (ht : 1 < t) :
    ∃ E, spanner w bs S t = .ok E ∧ (∀ e ∈ E, e.1 < e.2 ∧ e.2 < S.length) ∧
      ∀ i j p q, S[i]? = some p → S[j]? = some q →
        ∃ l, Walk E (fun a b => eucl (ptAt S a) (ptAt S b)) i j l ∧ l ≤ t * eucl p q := by
  obtain ⟨tree, h1, h2, h3, -⟩ := c01_build w bs hw hb hd (ptAt S) 1 (le_refl _) true
    (List.range S.length) (by simp; intro h; rw [h] at hS; simp at hS)
  have hnd : tree.items.Nodup := h2.nodup_iff.mpr List.nodup_range
  have hmem : ∀ x, x ∈ tree.items ↔ x < S.length := by
    intro x; rw [h2.mem_iff, List.mem_range]
  obtain ⟨out, h4, h5, -⟩ := wspdSerial_ok (geomWellSeparated (4 * (t + 1) / (t - 1))) tree
    (fun bu iu bv iv hu hv => geomWellSeparated_leaf (h3.below hu) (h3.below hv))
    h3.singleLeaves hnd
  have hne : ∀ u : Tree ℕ ℝ d, Below u tree → ∃ a l, u.items = a :: l := by
    intro u hu
    exact List.exists_cons_of_ne_nil (sound_items_ne (h3.below hu))
  obtain ⟨E, h6, h7, h8⟩ := mapM_ok pairEdge out (by
    intro p hp
    obtain ⟨-, b1, b2, -⟩ := h5 p hp
    obtain ⟨a, la, ha⟩ := hne _ b1
    obtain ⟨b, lb, hb⟩ := hne _ b2
    exact ⟨_, by simp only [pairEdge, ha, hb]; rfl⟩)
  refine ⟨E, ?_, ?_, ?_⟩
  · unfold spanner
    rw [if_neg (by omega)]
    simp only [h1, Except.bind, wspdParallel_eq, h4, h6]
  · intro e he
    obtain ⟨p, hp, hpe⟩ := h8 e he
    obtain ⟨-, b1, b2, hdis⟩ := h5 p hp
    obtain ⟨a, la, ha⟩ := hne _ b1
    obtain ⟨b, lb, hb⟩ := hne _ b2
    simp only [pairEdge, ha, hb] at hpe
    have hea := (hmem a).mp (Below.items_sub b1 a (by rw [ha]; simp))
    have heb := (hmem b).mp (Below.items_sub b2 b (by rw [hb]; simp))
    have hab : a ≠ b := hdis a (by rw [ha]; simp) b (by rw [hb]; simp)
    rw [← Except.ok.inj hpe]
    unfold mkEdge
    split <;> constructor <;> simp only <;> omega
  · intro i j p q hi hj
    have hi' : i < S.length := (List.getElem?_eq_some_iff.mp hi).1
    have hj' : j < S.length := (List.getElem?_eq_some_iff.mp hj).1
    have := walk_tree (ptAt S) t _ ht rfl tree h3 hnd E out h4 h7 i ((hmem i).mpr hi') j
      ((hmem j).mpr hj')
    have hp : ptAt S i = p := by simp [ptAt, hi]
    have hq : ptAt S j = q := by simp [ptAt, hj]
    rw [hp, hq] at this
    exact this

/-- `spanner` aborts for fewer than two points. -/
theorem c17_spanner_small (w bs : ℕ) (S : List (Point ℝ d)) (hS : S.length < 2) (t : ℝ) :
    spanner w bs S t = .error .throws := by
  unfold spanner; rw [if_pos hS]

/-- Non-vacuity: four points, two of them equal, `t = 2`. -/
example : ∃ E, spanner 4 100 ([![0, 0], ![0, 0], ![10, 0], ![10, 3]] : List (Point ℝ 2)) 2 = .ok E ∧
    ∃ l, Walk E (fun a b => eucl (ptAt [![0, 0], ![0, 0], ![10, 0], ![10, 3]] a)
      (ptAt [![0, 0], ![0, 0], ![10, 0], ![10, 3]] b)) 0 3 l := by
  obtain ⟨E, h1, -, h2⟩ := c17_spanner 4 100 (by norm_num) (by norm_num) (by norm_num)
    ([![0, 0], ![0, 0], ![10, 0], ![10, 3]] : List (Point ℝ 2)) (by simp) 2 (by norm_num)
  obtain ⟨l, h3, -⟩ := h2 0 3 _ _ rfl rfl
  exact ⟨E, h1, l, h3⟩

end Verif.SpatialGraph
