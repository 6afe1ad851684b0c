import Verif.Mst.KruskalModel
import Verif.Mst.Graph
import Verif.UnionFind.Lemmas

set_option linter.unusedSectionVars false
set_option linter.unusedVariables false

namespace Verif.Mst

open Verif.UF

theorem rd_ok {T : Type} {l : List T} {i : ℕ} {x : T} (h : l[i]? = some x) : rd l (i : ℤ) = .ok x := by
  simp [rd, h]

theorem wr_ok {T : Type} {l : List T} {i : ℕ} (x : T) (h : i < l.length) :
    wr l (i : ℤ) x = .ok (l.set i x) := by
  simp [wr, h]

theorem getElem?_set_if {T : Type} {l : List T} {i j : ℕ} {x : T} (h : i < l.length) :
    (l.set i x)[j]? = if j = i then some x else l[j]? := by
  by_cases he : j = i
  · subst he; simp [h]
  · rw [if_neg he, List.getElem?_set_ne (fun h => he h.symm)]

section

/-- Fixed data of a run: `n` vertices, `m` edges with end points `u`, `v`, and the components `c` at the
beginning. -/
structure Data where
  n : ℕ
  m : ℕ
  u : ℕ → ℕ
  v : ℕ → ℕ
  c : ℕ → ℕ
  hu : ∀ i < m, u i < n
  hv : ∀ i < m, v i < n

/-- Ends of the edges in the contracted graph. -/
def Data.cu (D : Data) (i : ℕ) : ℕ := D.c (D.u i)

/-- Ends of the edges in the contracted graph. -/
def Data.cv (D : Data) (i : ℕ) : ℕ := D.c (D.v i)

/-- The records stay good when an edge is accepted. `G rt T o` says that `o` is right for the forest
with roots `rt` and accepted edges `T`. -/
structure RecOk {σ : Type} (D : Data) (rec : Recorder σ) (G : (ℕ → ℕ) → Set ℕ → σ → Prop) : Prop where
  step : ∀ (rt : ℕ → ℕ) (T : Set ℕ) (o : σ) (i x y : ℕ) (side : Bool), G rt T o → i < D.m → i ∉ T →
    x < D.n → y < D.n → (∀ z < D.n, rt (rt z) = rt z) → rt x = x → rt y ≠ x →
    (if side then rt (D.v i) = x ∧ rt (D.u i) = rt y else rt (D.u i) = x ∧ rt (D.v i) = rt y) →
    ∃ o', rec o i x side = .ok o' ∧ G (linkRt rt x y) (insert i T) o'

variable {σ : Type} (D : Data)

/-- Edge `i` joins two different classes. -/
def Active (rt : ℕ → ℕ) (i : ℕ) : Prop := rt (D.u i) ≠ rt (D.v i)

/-- Edge `i` joins two different classes, one of which is represented by `x`. -/
def Touches (rt : ℕ → ℕ) (i x : ℕ) : Prop := Active D rt i ∧ (x = rt (D.u i) ∨ x = rt (D.v i))

/-- `r` is the least index in `A` of an edge touching `x`. -/
def IsMin (rt : ℕ → ℕ) (A : List ℕ) (x : ℕ) (r : Option ℕ) : Prop :=
  (∀ j ∈ A, Touches D rt j x → ∃ i, r = some i ∧ i ≤ j) ∧
  (∀ i, r = some i → i ∈ A ∧ Touches D rt i x)

/-- Parts of the state that describe the graph so far. -/
structure Base (G : (ℕ → ℕ) → Set ℕ → σ → Prop) (rt dep : ℕ → ℕ) (T : Set ℕ) (s : KSt σ) : Prop where
  forest : Forest s.P D.n rt dep
  conn : ∀ a b, rt a = rt b ↔ ConnS D.cu D.cv T (D.c a) (D.c b)
  euLen : s.eu.length = D.m
  evLen : s.ev.length = D.m
  RLen : s.R.length = D.n
  eu : ∀ i < D.m, ∃ a : ℕ, a < D.n ∧ s.eu[i]? = some (a : ℤ) ∧ rt a = rt (D.u i)
  ev : ∀ i < D.m, ∃ a : ℕ, a < D.n ∧ s.ev[i]? = some (a : ℤ) ∧ rt a = rt (D.v i)
  out : G rt T s.out

/-- Invariant of the reserve phase after the iterations in `A`. -/
structure RInv (G : (ℕ → ℕ) → Set ℕ → σ → Prop) (rt dep : ℕ → ℕ) (T : Set ℕ) (A : List ℕ) (s : KSt σ) : Prop where
  base : Base D G rt dep T s
  eu : ∀ i ∈ A, s.eu[i]? = some ((rt (D.u i) : ℕ) : ℤ)
  ev : ∀ i ∈ A, s.ev[i]? = some ((rt (D.v i) : ℕ) : ℤ)
  R : ∀ x < D.n, rt x = x → ∃ r, s.R[x]? = some r ∧ IsMin D rt A x r

variable {D} {G : (ℕ → ℕ) → Set ℕ → σ → Prop} {rec : Recorder σ}

theorem IsMin.add {rt : ℕ → ℕ} {A : List ℕ} {x i : ℕ} {r : Option ℕ} (h : IsMin D rt A x r)
    (hi : Touches D rt i x) :
    IsMin D rt (i :: A) x (minOpt r i) := by
  obtain ⟨h1, h2⟩ := h
  cases r with
  | none =>
    refine ⟨?_, ?_⟩
    · intro j hj ht
      rcases List.mem_cons.mp hj with rfl | hj
      · exact ⟨j, rfl, le_refl j⟩
      · obtain ⟨k, hk, _⟩ := h1 j hj ht
        simp at hk
    · intro k hk
      simp only [minOpt, Option.some.injEq] at hk
      subst hk
      exact ⟨List.mem_cons_self, hi⟩
  | some k =>
    refine ⟨?_, ?_⟩
    · intro j hj ht
      refine ⟨min i k, rfl, ?_⟩
      rcases List.mem_cons.mp hj with rfl | hj
      · exact min_le_left _ _
      · obtain ⟨k', hk, hle⟩ := h1 j hj ht
        simp only [Option.some.injEq] at hk
        subst hk
        exact (min_le_right _ _).trans hle
    · intro j hj
      simp only [minOpt, Option.some.injEq] at hj
      rcases le_total i k with hik | hik
      · rw [min_eq_left hik] at hj
        subst hj
        exact ⟨List.mem_cons_self, hi⟩
      · rw [min_eq_right hik] at hj
        subst hj
        obtain ⟨h3, h4⟩ := h2 k rfl
        exact ⟨List.mem_cons_of_mem _ h3, h4⟩

theorem IsMin.skip {rt : ℕ → ℕ} {A : List ℕ} {x i : ℕ} {r : Option ℕ} (h : IsMin D rt A x r)
    (hi : ¬ Touches D rt i x) : IsMin D rt (i :: A) x r := by
  obtain ⟨h1, h2⟩ := h
  refine ⟨?_, ?_⟩
  · intro j hj ht
    rcases List.mem_cons.mp hj with rfl | hj
    · exact absurd ht hi
    · exact h1 j hj ht
  · intro k hk
    obtain ⟨h3, h4⟩ := h2 k hk
    exact ⟨List.mem_cons_of_mem _ h3, h4⟩

theorem resv_ok {R : List (Option ℕ)} {x i : ℕ} {r : Option ℕ} (h : R[x]? = some r) :
    resv R x i = .ok (R.set x (minOpt r i)) := by
  unfold resv
  rw [rd_ok h]
  simp only [Except.bind]
  exact wr_ok _ (List.getElem?_eq_some_iff.mp h).1

theorem reserve_ok {rt dep : ℕ → ℕ} {T : Set ℕ} {A : List ℕ} {s : KSt σ} (h : RInv D G rt dep T A s)
    (i : ℕ) (hi : i < D.m) :
    ∃ b s', reserve i s = .ok (b, s') ∧ (b = true ↔ Active D rt i) ∧ RInv D G rt dep T (i :: A) s' := by
  obtain ⟨a, ha, hea, hra⟩ := h.base.eu i hi
  obtain ⟨c, hc, hec, hrc⟩ := h.base.ev i hi
  obtain ⟨P1, hf1, hF1⟩ := find_ok s.P h.base.forest a ha
  obtain ⟨P2, hf2, hF2⟩ := find_ok P1 hF1 c hc
  have hilu : i < s.eu.length := by rw [h.base.euLen]; exact hi
  have hilv : i < s.ev.length := by rw [h.base.evLen]; exact hi
  obtain ⟨hun, _, hur⟩ := hF2.root a ha
  obtain ⟨hvn, _, hvr⟩ := hF2.root c hc
  -- the parts that do not depend on the branch
  have base' : ∀ R : List (Option ℕ), R.length = D.n →
      Base D G rt dep T { s with
        eu := s.eu.set i ((rt a : ℕ) : ℤ)
        ev := s.ev.set i ((rt c : ℕ) : ℤ)
        P := P2
        R := R } := by
    intro R hR
    refine ⟨hF2, h.base.conn, by simpa using h.base.euLen, by simpa using h.base.evLen, hR, ?_, ?_,
      h.base.out⟩
    · intro j hj
      simp only [getElem?_set_if hilu]
      split
      · rename_i he
        subst he
        exact ⟨rt a, hun, rfl, by rw [hur, hra]⟩
      · exact h.base.eu j hj
    · intro j hj
      simp only [getElem?_set_if hilv]
      split
      · rename_i he
        subst he
        exact ⟨rt c, hvn, rfl, by rw [hvr, hrc]⟩
      · exact h.base.ev j hj
  have eu' : ∀ j ∈ i :: A, (s.eu.set i ((rt a : ℕ) : ℤ))[j]? = some ((rt (D.u j) : ℕ) : ℤ) := by
    intro j hj
    rw [getElem?_set_if hilu]
    split
    · rename_i he; subst he; rw [hra]
    · rename_i he
      rcases List.mem_cons.mp hj with hj | hj
      · exact absurd hj he
      · exact h.eu j hj
  have ev' : ∀ j ∈ i :: A, (s.ev.set i ((rt c : ℕ) : ℤ))[j]? = some ((rt (D.v j) : ℕ) : ℤ) := by
    intro j hj
    rw [getElem?_set_if hilv]
    split
    · rename_i he; subst he; rw [hrc]
    · rename_i he
      rcases List.mem_cons.mp hj with hj | hj
      · exact absurd hj he
      · exact h.ev j hj
  unfold reserve
  simp only [rd_ok hea, rd_ok hec, Except.bind, hf1, hf2, wr_ok _ hilu, wr_ok _ hilv]
  by_cases he : rt a = rt c
  · rw [if_neg (by simp [he])]
    have hna : ¬ Active D rt i := by unfold Active; rw [← hra, ← hrc]; simp [he]
    refine ⟨false, _, rfl, by simp [hna], base' s.R h.base.RLen, eu', ev', ?_⟩
    intro x hx hrx
    obtain ⟨r, h1, h2⟩ := h.R x hx hrx
    exact ⟨r, h1, h2.skip fun ht => hna ht.1⟩
  · rw [if_pos (by simpa using he)]
    have hact : Active D rt i := by unfold Active; rw [← hra, ← hrc]; exact he
    obtain ⟨rv, hrv, hmv⟩ := h.R (rt c) hvn hvr
    obtain ⟨ru, hru, hmu⟩ := h.R (rt a) hun hur
    have hvl : rt c < s.R.length := (List.getElem?_eq_some_iff.mp hrv).1
    have hul : rt a < s.R.length := (List.getElem?_eq_some_iff.mp hru).1
    simp only [resv_ok hrv]
    have hru' : (s.R.set (rt c) (minOpt rv i))[rt a]? =
        some ru := by
      rw [getElem?_set_if hvl, if_neg he, hru]
    simp only [resv_ok hru', Except.map]
    refine ⟨true, _, rfl, by simp [hact], base' _ (by simpa using h.base.RLen), eu', ev', ?_⟩
    intro x hx hrx
    simp only
    rw [getElem?_set_if (by simpa using hul)]
    split
    · rename_i hxa
      subst hxa
      exact ⟨_, rfl, hmu.add ⟨hact, Or.inl hra⟩⟩
    · rename_i hxa
      rw [getElem?_set_if hvl]
      split
      · rename_i hxc
        subst hxc
        exact ⟨_, rfl, hmv.add ⟨hact, Or.inr hrc⟩⟩
      · rename_i hxc
        obtain ⟨r, h1, h2⟩ := h.R x hx hrx
        refine ⟨r, h1, h2.skip ?_⟩
        rintro ⟨_, h3 | h3⟩
        · rw [← hra] at h3; exact hxa h3
        · rw [← hrc] at h3; exact hxc h3

theorem reserve_phase {rt dep : ℕ → ℕ} {T : Set ℕ} (is : List ℕ) (hi : ∀ i ∈ is, i < D.m) {A : List ℕ}
    {s : KSt σ} (h : RInv D G rt dep T A s) :
    ∃ kept s', phase reserve is s = .ok (kept, s') ∧
      (∀ i, i ∈ kept ↔ i ∈ is ∧ Active D rt i) ∧
      ∃ A', RInv D G rt dep T A' s' ∧ ∀ i, i ∈ A' ↔ i ∈ is ∨ i ∈ A := by
  induction is generalizing s A with
  | nil => exact ⟨[], s, rfl, by simp, A, h, by simp⟩
  | cons i is ih =>
    obtain ⟨b, s1, h1, h2, h3⟩ := reserve_ok h i (hi i (by simp))
    obtain ⟨kept, s2, h4, h5, A', h6, h7⟩ := ih (fun j hj => hi j (by simp [hj])) h3
    refine ⟨if b then i :: kept else kept, s2, ?_, ?_, A', h6, ?_⟩
    · simp only [phase, h1, Except.bind, h4, Except.map]
    · intro j
      by_cases hb : b = true
      · have ha := h2.mp hb
        rw [if_pos hb, List.mem_cons, h5, List.mem_cons]
        constructor
        · rintro (rfl | ⟨h8, h9⟩)
          · exact ⟨Or.inl rfl, ha⟩
          · exact ⟨Or.inr h8, h9⟩
        · rintro ⟨rfl | h8, h9⟩
          · exact Or.inl rfl
          · exact Or.inr ⟨h8, h9⟩
      · have ha : ¬ Active D rt i := fun h => hb (h2.mpr h)
        rw [if_neg hb, h5, List.mem_cons]
        constructor
        · rintro ⟨h8, h9⟩; exact ⟨Or.inr h8, h9⟩
        · rintro ⟨rfl | h10, h11⟩
          · exact absurd h11 ha
          · exact ⟨h10, h11⟩
    · intro j
      rw [h7, List.mem_cons, List.mem_cons]
      tauto

/-! ### Commit phase -/

variable (D)

/-- Edge `i` holds a reservation of one of its ends. -/
def Wins (rt0 : ℕ → ℕ) (r : ℕ → Option ℕ) (i : ℕ) : Prop :=
  r (rt0 (D.u i)) = some i ∨ r (rt0 (D.v i)) = some i

/-- The reservation of `x` has been reset by the iterations in `B`. -/
def WasReset (rt0 : ℕ → ℕ) (r : ℕ → Option ℕ) (B : List ℕ) (x : ℕ) : Prop :=
  ∃ i ∈ B, x = rt0 (D.u i) ∧ r x = some i ∧ r (rt0 (D.v i)) = some i

/-- Invariant of the commit phase after the iterations in `B`; `rt0`, `T0` describe the graph at the
beginning of the phase, `r` the reservations then, `its` the iterations of the round. -/
structure CInv (G : (ℕ → ℕ) → Set ℕ → σ → Prop) (rt0 : ℕ → ℕ) (T0 : Set ℕ) (r : ℕ → Option ℕ) (its : List ℕ) (rt dep : ℕ → ℕ)
    (B : List ℕ) (s : KSt σ) : Prop where
  base : Base D G rt dep (T0 ∪ {i | i ∈ B ∧ Wins D rt0 r i}) s
  eu : ∀ i ∈ its, s.eu[i]? = some ((rt0 (D.u i) : ℕ) : ℤ)
  ev : ∀ i ∈ its, s.ev[i]? = some ((rt0 (D.v i) : ℕ) : ℤ)
  R : ∀ x < D.n, rt0 x = x → ∃ q, s.R[x]? = some q ∧
    (q = r x ∨ q = none) ∧ (q ≠ r x → WasReset D rt0 r B x) ∧ (WasReset D rt0 r B x → q = none)
  key : ∀ x < D.n, rt0 x = x → ∀ i, r x = some i → ∃ j ≤ i, r (rt x) = some j
  roots : ∀ x < D.n, rt x = x → rt0 x = x
  linked : ∀ x < D.n, rt0 x = x → rt x ≠ x → ∃ i ∈ B, r x = some i
  fin : ∀ x < D.n, rt0 x = x → ∀ i ∈ B, r x = some i → Touches D rt0 i x →
    rt x ≠ x ∨ WasReset D rt0 r B x

variable {D}

theorem linkRt_iff {rt : ℕ → ℕ} {x y p q a b : ℕ} (hp : rt p = x) (hq : rt q = rt y)
    (hne : rt y ≠ x) :
    linkRt rt x y a = linkRt rt x y b ↔ rt a = rt b ∨ (rt a = rt p ∧ rt q = rt b) ∨
      (rt a = rt q ∧ rt p = rt b) := by
  unfold linkRt
  rw [hp, hq]
  split_ifs with h1 h2 h2
  · simp [h1, h2]
  · constructor
    · intro h; exact Or.inr (Or.inl ⟨h1, h⟩)
    · rintro (h | ⟨_, h⟩ | ⟨h, _⟩)
      · exact absurd (h.symm.trans h1) h2
      · exact h
      · exact absurd (h.symm.trans h1) hne
  · constructor
    · intro h; exact Or.inr (Or.inr ⟨h, h2.symm⟩)
    · rintro (h | ⟨h, _⟩ | ⟨h, _⟩)
      · exact absurd (h.trans h2) h1
      · exact absurd h h1
      · exact h
  · constructor
    · intro h; exact Or.inl h
    · rintro (h | ⟨h, _⟩ | ⟨_, h⟩)
      · exact h
      · exact absurd h h1
      · exact absurd h.symm h2

/-- Accepting edge `i` by linking `x` below `y`. -/
theorem accept_ok (hrec : RecOk D rec G) {rt dep : ℕ → ℕ} {T : Set ℕ} {s : KSt σ}
    (hb : Base D G rt dep T s) (i : ℕ)
    (hi : i < D.m) (x y : ℕ) (hx : x < D.n) (hy : y < D.n) (hrx : rt x = x) (hne : rt y ≠ x)
    (side : Bool)
    (hxy : if side then rt (D.v i) = x ∧ rt (D.u i) = rt y else rt (D.u i) = x ∧ rt (D.v i) = rt y)
    (R : List (Option ℕ)) (hR : R.length = D.n) :
    ∃ s', accept rec i x y side R s = .ok (true, s') ∧
      Base D G (linkRt rt x y) (linkDep rt dep x y) (insert i T) s' ∧ s'.R = R ∧ s'.eu = s.eu ∧
      s'.ev = s.ev := by
  obtain ⟨hl, hF⟩ := hb.forest.link x y hx hy hrx hne
  have hiT : i ∉ T := by
    intro h
    have h1 := (hb.conn (D.u i) (D.v i)).mpr (.edge h)
    cases side
    · simp only [Bool.false_eq_true, if_false] at hxy
      exact hne (hxy.2.symm.trans (h1.symm.trans hxy.1))
    · simp only [if_true] at hxy
      exact hne (hxy.2.symm.trans (h1.trans hxy.1))
  obtain ⟨o, ho1, ho2⟩ := hrec.step rt T s.out i x y side hb.out hi hiT hx hy
    (fun z hz => (hb.forest.root z hz).2.2) hrx hne hxy
  unfold accept
  simp only [hl, Except.bind, ho1, Except.map]
  refine ⟨_, rfl, ⟨hF, ?_, hb.euLen, hb.evLen, hR, ?_, ?_, ho2⟩, rfl, rfl, rfl⟩
  · intro a b
    have e1 : D.cu i = D.c (D.u i) := rfl
    have e2 : D.cv i = D.c (D.v i) := rfl
    rw [connS_insert, e1, e2, ← hb.conn, ← hb.conn, ← hb.conn, ← hb.conn, ← hb.conn]
    cases side
    · simp only [Bool.false_eq_true, if_false] at hxy
      exact linkRt_iff hxy.1 hxy.2 hne
    · simp only [if_true] at hxy
      rw [linkRt_iff hxy.1 hxy.2 hne]
      tauto
  · intro j hj
    obtain ⟨a, h1, h2, h3⟩ := hb.eu j hj
    exact ⟨a, h1, h2, linkRt_congr x y h3⟩
  · intro j hj
    obtain ⟨a, h1, h2, h3⟩ := hb.ev j hj
    exact ⟨a, h1, h2, linkRt_congr x y h3⟩

theorem wasReset_cons {rt0 : ℕ → ℕ} {r : ℕ → Option ℕ} {B : List ℕ} {x i : ℕ} :
    WasReset D rt0 r (i :: B) x ↔
      (x = rt0 (D.u i) ∧ r x = some i ∧ r (rt0 (D.v i)) = some i) ∨ WasReset D rt0 r B x := by
  unfold WasReset
  simp

/-- What the commit phase of a round starts from. -/
structure Start (D : Data) (rt0 : ℕ → ℕ) (T0 : Set ℕ) (r : ℕ → Option ℕ) (its : List ℕ) : Prop where
  conn : ∀ a b, rt0 a = rt0 b ↔ ConnS D.cu D.cv T0 (D.c a) (D.c b)
  root : ∀ x < D.n, rt0 x < D.n ∧ rt0 (rt0 x) = rt0 x
  min : ∀ x < D.n, rt0 x = x → IsMin D rt0 its x (r x)
  lt : ∀ i ∈ its, i < D.m

theorem CInv.coarser {rt0 : ℕ → ℕ} {T0 : Set ℕ} {r : ℕ → Option ℕ} {its : List ℕ} {rt dep : ℕ → ℕ}
    {B : List ℕ} {s : KSt σ} (h : CInv D G rt0 T0 r its rt dep B s) (hs : Start D rt0 T0 r its) (a b : ℕ)
    (hab : rt0 a = rt0 b) : rt a = rt b :=
  (h.base.conn a b).mpr (((hs.conn a b).mp hab).mono Set.subset_union_left)

theorem commit_link (hrec : RecOk D rec G) {rt0 : ℕ → ℕ} {T0 : Set ℕ} {r : ℕ → Option ℕ} {its : List ℕ} {rt dep : ℕ → ℕ}
    {B : List ℕ} {s : KSt σ} (h : CInv D G rt0 T0 r its rt dep B s) (hs : Start D rt0 T0 r its)
    (i : ℕ) (hi : i ∈ its) (hiB : i ∉ B) (hact : Active D rt0 i) (x y : ℕ)
    (side : Bool)
    (hxys : if side then x = rt0 (D.v i) ∧ y = rt0 (D.u i) else x = rt0 (D.u i) ∧ y = rt0 (D.v i))
    (hrx : r x = some i) (hry : r y = some i → x = rt0 (D.v i)) (R : List (Option ℕ))
    (hRl : R.length = D.n)
    (hR : ∀ z < D.n, rt0 z = z → ∃ q, R[z]? = some q ∧
      (q = r z ∨ q = none) ∧ (q ≠ r z → WasReset D rt0 r (i :: B) z) ∧
      (WasReset D rt0 r (i :: B) z → q = none)) :
    ∃ s' rt' dep', accept rec i x y side R s = .ok (true, s') ∧
      CInv D G rt0 T0 r its rt' dep' (i :: B) s' := by
  have hm := hs.lt i hi
  have hxy : (x = rt0 (D.u i) ∧ y = rt0 (D.v i)) ∨ (x = rt0 (D.v i) ∧ y = rt0 (D.u i)) := by
    cases side
    · exact Or.inl (by simpa using hxys)
    · exact Or.inr (by simpa using hxys)
  obtain ⟨hUn, hUr⟩ := hs.root _ (D.hu i hm)
  obtain ⟨hVn, hVr⟩ := hs.root _ (D.hv i hm)
  have hact' : rt0 (D.u i) ≠ rt0 (D.v i) := hact
  have hxn : x < D.n := by rcases hxy with ⟨rfl, _⟩ | ⟨rfl, _⟩ <;> assumption
  have hyn : y < D.n := by rcases hxy with ⟨_, rfl⟩ | ⟨_, rfl⟩ <;> assumption
  have hx0 : rt0 x = x := by rcases hxy with ⟨rfl, _⟩ | ⟨rfl, _⟩ <;> assumption
  have hy0 : rt0 y = y := by rcases hxy with ⟨_, rfl⟩ | ⟨_, rfl⟩ <;> assumption
  have hne0 : y ≠ x := by
    rcases hxy with ⟨rfl, rfl⟩ | ⟨rfl, rfl⟩
    · exact hact'.symm
    · exact hact'
  have hty : Touches D rt0 i y := ⟨hact, by rcases hxy with ⟨_, rfl⟩ | ⟨_, rfl⟩ <;> simp⟩
  have hwin : Wins D rt0 r i := by
    rcases hxy with ⟨rfl, _⟩ | ⟨rfl, _⟩
    · exact Or.inl hrx
    · exact Or.inr hrx
  -- x is still a root
  have hrtx : rt x = x := by
    by_contra hc
    obtain ⟨j, hj, h1⟩ := h.linked x hxn hx0 hc
    rw [hrx] at h1
    simp only [Option.some.injEq] at h1
    subst h1
    exact hiB hj
  -- reservation of y
  obtain ⟨k, hk1, hk2⟩ := (hs.min y hyn hy0).1 i hi hty
  -- no cycle
  have hne : rt y ≠ x := by
    intro hc
    have hyl : rt y ≠ y := by rw [hc]; exact fun h => hne0 h.symm
    obtain ⟨j, hj, h1⟩ := h.linked y hyn hy0 hyl
    obtain ⟨j', hj', h2⟩ := h.key y hyn hy0 j h1
    rw [hc, hrx] at h2
    simp only [Option.some.injEq] at h2
    rw [hk1] at h1
    simp only [Option.some.injEq] at h1
    have : i = j := by omega
    subst this
    exact hiB hj
  have hrry := (h.base.forest.root y hyn).2.2
  have hxy' : if side then rt (D.v i) = x ∧ rt (D.u i) = rt y else
      rt (D.u i) = x ∧ rt (D.v i) = rt y := by
    cases side
    · simp only [Bool.false_eq_true, if_false] at hxys ⊢
      obtain ⟨h1, h2⟩ := hxys
      refine ⟨?_, h.coarser hs _ _ (by rw [h2, hVr])⟩
      rw [h.coarser hs (D.u i) x (by rw [hx0, h1]), hrtx]
    · simp only [if_true] at hxys ⊢
      obtain ⟨h1, h2⟩ := hxys
      refine ⟨?_, h.coarser hs _ _ (by rw [h2, hUr])⟩
      rw [h.coarser hs (D.v i) x (by rw [hx0, h1]), hrtx]
  obtain ⟨s', ha1, ha2, ha3, ha4, ha5⟩ := accept_ok hrec h.base i hm x y hxn hyn hrtx hne side hxy' R hRl
  refine ⟨s', linkRt rt x y, linkDep rt dep x y, ha1, ?_, by rw [ha4]; exact h.eu, by rw [ha5]; exact h.ev, by rw [ha3]; exact hR,
    ?_, ?_, ?_, ?_⟩
  · have : T0 ∪ {j | j ∈ i :: B ∧ Wins D rt0 r j} = insert i (T0 ∪ {j | j ∈ B ∧ Wins D rt0 r j}) := by
      ext j
      simp only [Set.mem_union, Set.mem_ofPred_eq, Set.mem_insert_iff, List.mem_cons]
      constructor
      · rintro (h1 | ⟨rfl | h1, h2⟩)
        · exact Or.inr (Or.inl h1)
        · exact Or.inl rfl
        · exact Or.inr (Or.inr ⟨h1, h2⟩)
      · rintro (rfl | h1 | ⟨h1, h2⟩)
        · exact Or.inr ⟨Or.inl rfl, hwin⟩
        · exact Or.inl h1
        · exact Or.inr ⟨Or.inr h1, h2⟩
    rw [this]
    exact ha2
  · intro z hz hz0 j hj
    obtain ⟨j1, hj1, h1⟩ := h.key z hz hz0 j hj
    unfold linkRt
    split
    · rename_i hzx
      rw [hzx, hrx] at h1
      simp only [Option.some.injEq] at h1
      obtain ⟨j2, hj2, h2⟩ := h.key y hyn hy0 k hk1
      exact ⟨j2, by omega, h2⟩
    · exact ⟨j1, hj1, h1⟩
  · intro z hz hzr
    apply h.roots z hz
    unfold linkRt at hzr
    split at hzr
    · rename_i hzx
      exfalso
      rw [hzr] at hrry
      rw [hrry] at hzx
      exact hne (hzr.trans hzx)
    · exact hzr
  · intro z hz hz0 hzr
    by_cases hzz : rt z = z
    · unfold linkRt at hzr
      split at hzr
      · rename_i hzx
        rw [hzz] at hzx
        subst hzx
        exact ⟨i, List.mem_cons_self, hrx⟩
      · exact absurd hzz hzr
    · obtain ⟨j, hj, h1⟩ := h.linked z hz hz0 hzz
      exact ⟨j, List.mem_cons_of_mem _ hj, h1⟩
  · intro z hz hz0 j hj hrz htz
    rcases List.mem_cons.mp hj with rfl | hj
    · have hzxy : z = x ∨ z = y := by
        rcases hxy with ⟨h1, h2⟩ | ⟨h1, h2⟩ <;> rcases htz.2 with h3 | h3
        · exact Or.inl (h3.trans h1.symm)
        · exact Or.inr (h3.trans h2.symm)
        · exact Or.inr (h3.trans h2.symm)
        · exact Or.inl (h3.trans h1.symm)
      rcases hzxy with rfl | rfl
      · left
        unfold linkRt
        rw [if_pos hrtx]
        exact hne
      · right
        have hxV := hry hrz
        rw [wasReset_cons]
        left
        refine ⟨?_, hrz, by rw [← hxV]; exact hrx⟩
        rcases hxy with ⟨h1, h2⟩ | ⟨h1, h2⟩
        · exact absurd (h2.trans hxV.symm) hne0
        · exact h2
    · rcases h.fin z hz hz0 j hj hrz htz with h1 | h1
      · exact Or.inl (linkRt_ne hrry h1)
      · right
        rw [wasReset_cons]
        exact Or.inr h1

theorem commit_ok (hrec : RecOk D rec G) {rt0 : ℕ → ℕ} {T0 : Set ℕ} {r : ℕ → Option ℕ} {its : List ℕ} {rt dep : ℕ → ℕ}
    {B : List ℕ} {s : KSt σ} (h : CInv D G rt0 T0 r its rt dep B s) (hs : Start D rt0 T0 r its)
    (i : ℕ) (hi : i ∈ its) (hiB : i ∉ B) (hact : Active D rt0 i) :
    ∃ b s' rt' dep', commit rec i s = .ok (b, s') ∧ (b = true ↔ Wins D rt0 r i) ∧
      CInv D G rt0 T0 r its rt' dep' (i :: B) s' := by
  have hm := hs.lt i hi
  obtain ⟨hUn, hUr⟩ := hs.root _ (D.hu i hm)
  obtain ⟨hVn, hVr⟩ := hs.root _ (D.hv i hm)
  have hact' : rt0 (D.u i) ≠ rt0 (D.v i) := hact
  obtain ⟨qV, hqV, hV1, hV2, hV3⟩ := h.R _ hVn hVr
  obtain ⟨qU, hqU, hU1, hU2, hU3⟩ := h.R _ hUn hUr
  have own : ∀ z q, (q = r z ∨ q = none) → (q ≠ r z → WasReset D rt0 r B z) →
      (q = some i ↔ r z = some i) := by
    intro z q h1 h2
    constructor
    · intro h3
      rcases h1 with h1 | h1
      · rw [← h1, h3]
      · rw [h1] at h3; simp at h3
    · intro h3
      by_contra h4
      obtain ⟨j, hj, _, h5, _⟩ := h2 (by rw [h3]; exact h4)
      rw [h3] at h5
      simp only [Option.some.injEq] at h5
      subst h5
      exact hiB hj
  have ownV := own _ _ hV1 hV2
  have ownU := own _ _ hU1 hU2
  unfold commit
  simp only [rd_ok (h.eu i hi), rd_ok (h.ev i hi), rd_ok hqV, rd_ok hqU, Except.bind]
  by_cases hrV : r (rt0 (D.v i)) = some i
  · rw [if_pos (ownV.mpr hrV)]
    unfold checkReset
    simp only [rd_ok hqU, Except.bind]
    have hUl : rt0 (D.u i) < s.R.length := by rw [h.base.RLen]; exact hUn
    by_cases hrU : r (rt0 (D.u i)) = some i
    · rw [if_pos (ownU.mpr hrU), wr_ok _ hUl]
      obtain ⟨s', rt', dep', h1, h2⟩ := commit_link hrec h hs i hi hiB hact (rt0 (D.v i)) (rt0 (D.u i))
        true (by simp) hrV (fun _ => rfl) (s.R.set (rt0 (D.u i)) none)
        (by simpa using h.base.RLen) (by
          intro z hz hz0
          rw [getElem?_set_if hUl]
          split
          · rename_i hzU
            refine ⟨none, rfl, Or.inr rfl, ?_, fun _ => rfl⟩
            intro _
            rw [wasReset_cons]
            exact Or.inl ⟨hzU, by rw [hzU]; exact hrU, hrV⟩
          · rename_i hzU
            obtain ⟨q, h1, h2, h3, h4⟩ := h.R z hz hz0
            refine ⟨q, h1, h2, fun h5 => wasReset_cons.mpr (Or.inr (h3 h5)), fun h5 => ?_⟩
            rcases wasReset_cons.mp h5 with h5 | h5
            · exact absurd h5.1 hzU
            · exact h4 h5)
      exact ⟨true, s', rt', dep', h1, by simp [Wins, hrV], h2⟩
    · rw [if_neg (fun h => hrU (ownU.mp h))]
      obtain ⟨s', rt', dep', h1, h2⟩ := commit_link hrec h hs i hi hiB hact (rt0 (D.v i)) (rt0 (D.u i))
        true (by simp) hrV (fun _ => rfl) s.R h.base.RLen (by
          intro z hz hz0
          obtain ⟨q, h1, h2, h3, h4⟩ := h.R z hz hz0
          refine ⟨q, h1, h2, fun h5 => wasReset_cons.mpr (Or.inr (h3 h5)), fun h5 => ?_⟩
          rcases wasReset_cons.mp h5 with h5 | h5
          · exact absurd (h5.1 ▸ h5.2.1) hrU
          · exact h4 h5)
      exact ⟨true, s', rt', dep', h1, by simp [Wins, hrV], h2⟩
  · rw [if_neg (fun h => hrV (ownV.mp h))]
    by_cases hrU : r (rt0 (D.u i)) = some i
    · rw [if_pos (ownU.mpr hrU)]
      obtain ⟨s', rt', dep', h1, h2⟩ := commit_link hrec h hs i hi hiB hact (rt0 (D.u i)) (rt0 (D.v i))
        false (by simp) hrU (fun h => absurd h hrV) s.R h.base.RLen (by
          intro z hz hz0
          obtain ⟨q, h1, h2, h3, h4⟩ := h.R z hz hz0
          refine ⟨q, h1, h2, fun h5 => wasReset_cons.mpr (Or.inr (h3 h5)), fun h5 => ?_⟩
          rcases wasReset_cons.mp h5 with h5 | h5
          · exact absurd h5.2.2 hrV
          · exact h4 h5)
      exact ⟨true, s', rt', dep', h1, by simp [Wins, hrU], h2⟩
    · rw [if_neg (fun h => hrU (ownU.mp h))]
      have hnw : ¬ Wins D rt0 r i := by
        rintro (h1 | h1)
        · exact hrU h1
        · exact hrV h1
      refine ⟨false, s, rt, dep, rfl, by simp [hnw], ?_, h.eu, h.ev, ?_, h.key, h.roots, ?_, ?_⟩
      · have : T0 ∪ {j | j ∈ i :: B ∧ Wins D rt0 r j} = T0 ∪ {j | j ∈ B ∧ Wins D rt0 r j} := by
          ext j
          simp only [Set.mem_union, Set.mem_ofPred_eq, List.mem_cons]
          constructor
          · rintro (h1 | ⟨rfl | h1, h2⟩)
            · exact Or.inl h1
            · exact absurd h2 hnw
            · exact Or.inr ⟨h1, h2⟩
          · rintro (h1 | ⟨h1, h2⟩)
            · exact Or.inl h1
            · exact Or.inr ⟨Or.inr h1, h2⟩
        rw [this]
        exact h.base
      · intro z hz hz0
        obtain ⟨q, h1, h2, h3, h4⟩ := h.R z hz hz0
        refine ⟨q, h1, h2, fun h5 => wasReset_cons.mpr (Or.inr (h3 h5)), fun h5 => ?_⟩
        rcases wasReset_cons.mp h5 with h5 | h5
        · exact absurd h5.2.2 hrV
        · exact h4 h5
      · intro z hz hz0 hzr
        obtain ⟨j, hj, h1⟩ := h.linked z hz hz0 hzr
        exact ⟨j, List.mem_cons_of_mem _ hj, h1⟩
      · intro z hz hz0 j hj hrz htz
        rcases List.mem_cons.mp hj with rfl | hj
        · rcases htz.2 with rfl | rfl
          · exact absurd hrz hrU
          · exact absurd hrz hrV
        · rcases h.fin z hz hz0 j hj hrz htz with h1 | h1
          · exact Or.inl h1
          · exact Or.inr (wasReset_cons.mpr (Or.inr h1))

theorem commit_phase (hrec : RecOk D rec G) {rt0 : ℕ → ℕ} {T0 : Set ℕ} {r : ℕ → Option ℕ} {its : List ℕ}
    (hs : Start D rt0 T0 r its) (is : List ℕ) (hi : ∀ i ∈ is, i ∈ its ∧ Active D rt0 i)
    {rt dep : ℕ → ℕ} {B : List ℕ} {s : KSt σ} (h : CInv D G rt0 T0 r its rt dep B s)
    (hnd : is.Nodup) (hB : ∀ i ∈ is, i ∉ B) :
    ∃ committed s' rt' dep' B', phase (commit rec) is s = .ok (committed, s') ∧
      (∀ i, i ∈ committed ↔ i ∈ is ∧ Wins D rt0 r i) ∧
      CInv D G rt0 T0 r its rt' dep' B' s' ∧ ∀ i, i ∈ B' ↔ i ∈ is ∨ i ∈ B := by
  induction is generalizing s B rt dep with
  | nil => exact ⟨[], s, rt, dep, B, rfl, by simp, h, by simp⟩
  | cons i is ih =>
    obtain ⟨h1, h2⟩ := hi i (by simp)
    obtain ⟨b, s1, rt1, dep1, h3, h4, h5⟩ := commit_ok hrec h hs i h1 (hB i (by simp)) h2
    rw [List.nodup_cons] at hnd
    obtain ⟨com, s2, rt2, dep2, B', h6, h7, h8, h9⟩ := ih (fun j hj => hi j (by simp [hj])) h5 hnd.2 (by
      intro j hj hjB
      rcases List.mem_cons.mp hjB with rfl | hjB
      · exact hnd.1 hj
      · exact hB j (by simp [hj]) hjB)
    refine ⟨if b then i :: com else com, s2, rt2, dep2, B', ?_, ?_, h8, ?_⟩
    · simp only [phase, h3, Except.bind, h6, Except.map]
    · intro j
      by_cases hb : b = true
      · have ha := h4.mp hb
        rw [if_pos hb, List.mem_cons, h7, List.mem_cons]
        constructor
        · rintro (rfl | ⟨h8, h9⟩)
          · exact ⟨Or.inl rfl, ha⟩
          · exact ⟨Or.inr h8, h9⟩
        · rintro ⟨rfl | h8, h9⟩
          · exact Or.inl rfl
          · exact Or.inr ⟨h8, h9⟩
      · have ha : ¬ Wins D rt0 r i := fun h => hb (h4.mpr h)
        rw [if_neg hb, h7, List.mem_cons]
        constructor
        · rintro ⟨h8, h9⟩; exact ⟨Or.inr h8, h9⟩
        · rintro ⟨rfl | h10, h11⟩
          · exact absurd h11 ha
          · exact ⟨h10, h11⟩
    · intro j
      rw [h9, List.mem_cons, List.mem_cons]
      tauto

end

end Verif.Mst
