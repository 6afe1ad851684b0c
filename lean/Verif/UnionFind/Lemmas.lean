import Verif.UnionFind.Model
import Mathlib.Logic.Relation
import Mathlib.Data.Finset.Card
import Mathlib.Data.Finset.Range
import Mathlib.Tactic.Linarith

set_option linter.unusedSectionVars false
set_option linter.unusedVariables false

namespace Verif.UF

/-- Specification: the equivalence generated by a list of pairs. -/
def Conn (ls : List (ℕ × ℕ)) : ℕ → ℕ → Prop := Relation.EqvGen fun a b => (a, b) ∈ ls

theorem Conn.refl (l : List (ℕ × ℕ)) (a : ℕ) : Conn l a a := Relation.EqvGen.refl a
theorem Conn.symm {l : List (ℕ × ℕ)} {a b : ℕ} (h : Conn l a b) : Conn l b a :=
  Relation.EqvGen.symm _ _ h
theorem Conn.trans {l : List (ℕ × ℕ)} {a b c : ℕ} (h : Conn l a b) (h' : Conn l b c) : Conn l a c :=
  Relation.EqvGen.trans _ _ _ h h'
theorem Conn.of_mem {l : List (ℕ × ℕ)} {a b : ℕ} (h : (a, b) ∈ l) : Conn l a b :=
  Relation.EqvGen.rel _ _ h

theorem Conn.of_sub {l m : List (ℕ × ℕ)} (h : ∀ a b, (a, b) ∈ l → Conn m a b) {a b : ℕ}
    (hc : Conn l a b) : Conn m a b := by
  unfold Conn at hc
  induction hc with
  | rel x y h1 => exact h x y h1
  | refl x => exact Conn.refl m x
  | symm x y _ ih => exact ih.symm
  | trans x y z _ _ ih1 ih2 => exact ih1.trans ih2

theorem Conn.mono {l m : List (ℕ × ℕ)} (h : ∀ e ∈ l, e ∈ m) {a b : ℕ} (hc : Conn l a b) :
    Conn m a b := hc.of_sub fun x y hxy => Conn.of_mem (h _ hxy)

/-- `f` is constant on the pairs, hence on the classes. -/
theorem Conn.const {β : Type*} {l : List (ℕ × ℕ)} {f : ℕ → β} (h : ∀ a b, (a, b) ∈ l → f a = f b)
    {a b : ℕ} (hc : Conn l a b) : f a = f b := by
  unfold Conn at hc
  induction hc with
  | rel x y h1 => exact h x y h1
  | refl x => rfl
  | symm x y _ ih => exact ih.symm
  | trans x y z _ _ ih1 ih2 => exact ih1.trans ih2

/-- The array is a forest with root function `rt` and depth function `dep`. -/
structure Forest (P : List ℤ) (n : ℕ) (rt dep : ℕ → ℕ) : Prop where
  len : P.length = n
  out : ∀ i, n ≤ i → rt i = i
  node : ∀ i, i < n → (P[i]? = some (-1) ∧ rt i = i) ∨
    ∃ p : ℕ, p < n ∧ P[i]? = some (p : ℤ) ∧ rt i = rt p ∧ dep p < dep i

theorem Forest.root {P n rt dep} (h : Forest P n rt dep) (i : ℕ) (hi : i < n) :
    rt i < n ∧ P[rt i]? = some (-1) ∧ rt (rt i) = rt i := by
  generalize hd : dep i = d
  induction d using Nat.strong_induction_on generalizing i with
  | _ d ih =>
    rcases h.node i hi with ⟨h1, h2⟩ | ⟨p, h1, h2, h3, h4⟩
    · rw [h2]; exact ⟨hi, h1, h2⟩
    · rw [h3]
      exact ih (dep p) (by omega) p h1 rfl

theorem Forest.root_iff {P n rt dep} (h : Forest P n rt dep) (i : ℕ) (hi : i < n) :
    P[i]? = some (-1) ↔ rt i = i := by
  constructor
  · intro h1
    rcases h.node i hi with ⟨_, h2⟩ | ⟨p, _, h2, _⟩
    · exact h2
    · rw [h1] at h2
      simp only [Option.some.injEq] at h2
      omega
  · intro h1
    have := (h.root i hi).2.1
    rwa [h1] at this

theorem Forest.get {P n rt dep} (h : Forest P n rt dep) (i : ℕ) (hi : i < n) :
    (UF.get P i = .ok (-1) ∧ rt i = i) ∨
    ∃ p : ℕ, p < n ∧ UF.get P i = .ok (p : ℤ) ∧ rt i = rt p ∧ dep p < dep i ∧ rt i ≠ i := by
  unfold UF.get
  simp only [Int.natCast_nonneg, if_true, Int.toNat_natCast]
  rcases h.node i hi with ⟨h1, h2⟩ | ⟨p, h1, h2, h3, h4⟩
  · left; rw [h1]; exact ⟨rfl, h2⟩
  · right
    refine ⟨p, h1, by rw [h2], h3, h4, ?_⟩
    intro h5
    have := (h.root_iff i hi).mpr h5
    rw [h2] at this
    simp only [Option.some.injEq] at this
    omega

theorem put_ok (P : List ℤ) (i : ℕ) (x : ℤ) (h : i < P.length) : put P i x = .ok (P.set i x) := by
  unfold put
  rw [if_pos]
  · simp
  · exact ⟨Int.natCast_nonneg i, by simpa using h⟩

/-- A shortcut write keeps the forest, its roots and depths. -/
theorem Forest.shortcut {P n rt dep} (h : Forest P n rt dep) (i g : ℕ) (hi : i < n) (hg : g < n)
    (hr : rt g = rt i) (hd : dep g < dep i) : Forest (P.set i (g : ℤ)) n rt dep := by
  refine ⟨by simpa using h.len, h.out, ?_⟩
  intro j hj
  have hlen : i < P.length := by rw [h.len]; exact hi
  by_cases he : j = i
  · subst he
    right
    exact ⟨g, hg, by simp [hlen], hr.symm, hd⟩
  · rw [List.getElem?_set_ne (fun h => he h.symm)]
    exact h.node j hj

/-- Number of elements strictly closer to a root; decreases along parents. -/
def meas (n : ℕ) (dep : ℕ → ℕ) (i : ℕ) : ℕ := ((Finset.range n).filter fun j => dep j < dep i).card

theorem meas_lt {n : ℕ} {dep : ℕ → ℕ} {p i : ℕ} (hp : p < n) (h : dep p < dep i) :
    meas n dep p < meas n dep i := by
  unfold meas
  apply Finset.card_lt_card
  rw [Finset.ssubset_iff_of_subset]
  · exact ⟨p, by simp [hp, h], by simp⟩
  · intro j hj
    simp only [Finset.mem_filter] at hj ⊢
    exact ⟨hj.1, by omega⟩

theorem meas_lt_n {n : ℕ} {dep : ℕ → ℕ} {i : ℕ} (hi : i < n) : meas n dep i < n := by
  unfold meas
  calc _ < (Finset.range n).card := by
        apply Finset.card_lt_card
        rw [Finset.ssubset_iff_of_subset (Finset.filter_subset _ _)]
        exact ⟨i, by simp [hi], by simp⟩
    _ = n := by simp

theorem findLoop_ok {n : ℕ} {rt dep : ℕ → ℕ} (k : ℕ) (P : List ℤ) (h : Forest P n rt dep) (i p : ℕ)
    (hi : i < n) (hp : p < n) (hr : rt p = rt i) (hd : dep p < dep i) (hnr : rt p ≠ p)
    (hk : meas n dep p ≤ k) :
    ∃ P', findLoop k P i p = .ok ((rt i : ℕ), P') ∧ Forest P' n rt dep := by
  induction k generalizing P i p with
  | zero =>
    rcases h.get p hp with ⟨_, h2⟩ | ⟨g, hg, _, _, hd2, _⟩
    · exact absurd h2 hnr
    · have := meas_lt (n := n) hg hd2
      omega
  | succ k ih =>
    rcases h.get p hp with ⟨_, h2⟩ | ⟨g, hg, hget, hrg, hd2, _⟩
    · exact absurd h2 hnr
    · simp only [findLoop, hget, Except.bind]
      rw [put_ok P i _ (by rw [h.len]; exact hi)]
      simp only
      have hF := h.shortcut i g hi hg (by rw [← hrg, hr]) (by omega)
      rcases hF.get g hg with ⟨h3, h4⟩ | ⟨q, hq, h3, h4, h5, h6⟩
      · simp only [h3, if_true]
        refine ⟨_, ?_, hF⟩
        rw [← hr, hrg, h4]
      · simp only [h3]
        rw [if_neg (by omega)]
        obtain ⟨P', h7, h8⟩ := ih _ hF p g hp hg hrg.symm hd2 h6 (by
          have := meas_lt (n := n) hg hd2
          omega)
        exact ⟨P', by rw [h7, hr], h8⟩

theorem find_ok {n : ℕ} {rt dep : ℕ → ℕ} (P : List ℤ) (h : Forest P n rt dep) (i : ℕ) (hi : i < n) :
    ∃ P', find P i = .ok ((rt i : ℕ), P') ∧ Forest P' n rt dep := by
  unfold find
  rcases h.get i hi with ⟨h1, h2⟩ | ⟨p, hp, h1, h2, h3, h4⟩
  · simp only [h1, Except.bind, if_true]
    exact ⟨P, by rw [h2], h⟩
  · simp only [h1, Except.bind]
    rw [if_neg (by omega)]
    rcases h.get p hp with ⟨h5, h6⟩ | ⟨q, hq, h5, h6, h7, h8⟩
    · simp only [h5, if_true]
      exact ⟨P, by rw [h2, h6], h⟩
    · simp only [h5]
      rw [if_neg (by omega), h.len]
      exact findLoop_ok n P h i p hi hp h2.symm h3 h8 (meas_lt_n hp).le

/-- Roots after linking root `u` below `v`. -/
def linkRt (rt : ℕ → ℕ) (u v : ℕ) : ℕ → ℕ := fun i => if rt i = u then rt v else rt i

/-- Depths after linking root `u` below `v`. -/
def linkDep (rt dep : ℕ → ℕ) (u v : ℕ) : ℕ → ℕ :=
  fun i => if rt i = u then dep i + dep v + 1 else dep i

theorem Forest.link {P n rt dep} (h : Forest P n rt dep) (u v : ℕ) (hu : u < n) (hv : v < n)
    (hru : rt u = u) (hne : rt v ≠ u) :
    UF.link P u v = .ok (P.set u (v : ℤ)) ∧
    Forest (P.set u (v : ℤ)) n (linkRt rt u v) (linkDep rt dep u v) := by
  have hlen : u < P.length := by rw [h.len]; exact hu
  refine ⟨put_ok P u _ hlen, by simpa using h.len, ?_, ?_⟩
  · intro i hi
    unfold linkRt
    rw [h.out i hi, if_neg (by omega)]
  · intro i hi
    by_cases he : i = u
    · subst he
      right
      refine ⟨v, hv, by simp [hlen], ?_, ?_⟩
      · simp [linkRt, hru]
      · unfold linkDep
        rw [if_neg hne, if_pos hru]
        omega
    · rw [List.getElem?_set_ne (fun h => he h.symm)]
      rcases h.node i hi with ⟨h1, h2⟩ | ⟨p, h1, h2, h3, h4⟩
      · left
        refine ⟨h1, ?_⟩
        unfold linkRt
        rw [h2, if_neg he]
      · right
        refine ⟨p, h1, h2, ?_, ?_⟩
        · unfold linkRt; rw [h3]
        · unfold linkDep; rw [h3]; split_ifs <;> omega

/-- The forest represents the equivalence generated by the links `ls`. -/
structure Rep (P : List ℤ) (n : ℕ) (rt dep : ℕ → ℕ) (ls : List (ℕ × ℕ)) : Prop where
  forest : Forest P n rt dep
  conn : ∀ i, Conn ls i (rt i)
  resp : ∀ a b, (a, b) ∈ ls → rt a = rt b

theorem Rep.iff {P n rt dep ls} (h : Rep P n rt dep ls) (i j : ℕ) : rt i = rt j ↔ Conn ls i j := by
  constructor
  · intro he
    have h1 := h.conn i
    have h2 := h.conn j
    rw [he] at h1
    exact h1.trans h2.symm
  · exact fun hc => hc.const h.resp

theorem Rep.link {P n rt dep ls} (h : Rep P n rt dep ls) (u v : ℕ) (hu : u < n) (hv : v < n)
    (hru : rt u = u) (hne : rt v ≠ u) (a b : ℕ) (ha : rt a = u) (hb : rt b = rt v) :
    Rep (P.set u (v : ℤ)) n (linkRt rt u v) (linkDep rt dep u v) (ls ++ [(a, b)]) := by
  refine ⟨(h.forest.link u v hu hv hru hne).2, ?_, ?_⟩
  · intro i
    have hm : ∀ {x y}, Conn ls x y → Conn (ls ++ [(a, b)]) x y :=
      fun hc => hc.mono (fun e he => by simp [he])
    unfold linkRt
    split
    · rename_i hi
      have h1 : Conn ls i a := (h.iff i a).mp (by rw [hi, ha])
      have h2 : Conn ls b (rt v) := by rw [← hb]; exact h.conn b
      exact ((hm h1).trans (Conn.of_mem (by simp))).trans (hm h2)
    · exact hm (h.conn i)
  · intro x y hxy
    rw [List.mem_append, List.mem_singleton, Prod.mk.injEq] at hxy
    unfold linkRt
    rcases hxy with hxy | ⟨rfl, rfl⟩
    · rw [h.resp x y hxy]
    · rw [if_pos ha, hb, if_neg hne]

theorem Rep.add {P n rt dep ls} (h : Rep P n rt dep ls) (a b : ℕ) (hab : rt a = rt b) :
    Rep P n rt dep (ls ++ [(a, b)]) := by
  refine ⟨h.forest, ?_, ?_⟩
  · exact fun i => (h.conn i).mono (fun e he => by simp [he])
  · intro x y hxy
    rw [List.mem_append, List.mem_singleton, Prod.mk.injEq] at hxy
    rcases hxy with hxy | ⟨rfl, rfl⟩
    · exact h.resp x y hxy
    · exact hab

theorem rep_init (n : ℕ) : Rep (init n) n id (fun _ => 0) [] := by
  refine ⟨⟨by simp [init], fun _ _ => rfl, ?_⟩, fun i => Conn.refl _ i, by simp⟩
  intro i hi
  left
  exact ⟨by simp [init, hi], rfl⟩

/-- The pairs joined by a history. -/
def unions : List Op → List (ℕ × ℕ)
  | [] => []
  | .find _ :: ops => unions ops
  | .union i j :: ops => (i, j) :: unions ops

/-- All elements named in a history are below `n`. -/
def InRange (n : ℕ) : List Op → Prop
  | [] => True
  | .find i :: ops => i < n ∧ InRange n ops
  | .union i j :: ops => i < n ∧ j < n ∧ InRange n ops

theorem union_ok {P n rt dep ls} (h : Rep P n rt dep ls) (a b : ℕ) (ha : a < n) (hb : b < n) :
    ∃ P' rt' dep', union P a b = .ok P' ∧ Rep P' n rt' dep' (ls ++ [(a, b)]) := by
  unfold union
  obtain ⟨P1, h1, h2⟩ := find_ok P h.forest a ha
  obtain ⟨P2, h3, h4⟩ := find_ok P1 h2 b hb
  simp only [h1, h3, Except.bind]
  have hR : Rep P2 n rt dep ls := ⟨h4, h.conn, h.resp⟩
  by_cases he : rt a = rt b
  · rw [if_neg (by simp [he])]
    exact ⟨P2, rt, dep, rfl, hR.add a b he⟩
  · rw [if_pos (by simpa using he)]
    have hrb := h4.root b hb
    have hra := h4.root a ha
    have h5 := h4.link (rt b) (rt a) hrb.1 hra.1 hrb.2.2 (by rw [hra.2.2]; exact he)
    have h6 := hR.link (rt b) (rt a) hrb.1 hra.1 hrb.2.2 (by rw [hra.2.2]; exact he) b a rfl
      hra.2.2.symm
    refine ⟨_, _, _, h5.1, h6.forest, ?_, ?_⟩
    · intro i
      refine (h6.conn i).of_sub fun x y hxy => ?_
      rw [List.mem_append, List.mem_singleton, Prod.mk.injEq] at hxy
      rcases hxy with hxy | ⟨rfl, rfl⟩
      · exact Conn.of_mem (by simp [hxy])
      · exact (Conn.of_mem (by simp)).symm
    · intro x y hxy
      rw [List.mem_append, List.mem_singleton, Prod.mk.injEq] at hxy
      rcases hxy with hxy | ⟨rfl, rfl⟩
      · exact h6.resp x y (by simp [hxy])
      · exact (h6.resp _ _ (by simp)).symm

theorem run_ok (ops : List Op) (P n rt dep ls) (h : Rep P n rt dep ls) (hr : InRange n ops) :
    ∃ P' rt' dep', run ops P = .ok P' ∧ Rep P' n rt' dep' (ls ++ unions ops) := by
  induction ops generalizing P rt dep ls with
  | nil => exact ⟨P, rt, dep, rfl, by simpa [unions] using h⟩
  | cons op ops ih =>
    cases op with
    | find i =>
      obtain ⟨P1, h1, h2⟩ := find_ok P h.forest i hr.1
      obtain ⟨P', rt', dep', h3, h4⟩ := ih P1 rt dep ls ⟨h2, h.conn, h.resp⟩ hr.2
      exact ⟨P', rt', dep', by simp only [run, h1, Except.bind, h3], h4⟩
    | union i j =>
      obtain ⟨P1, rt1, dep1, h1, h2⟩ := union_ok h i j hr.1 hr.2.1
      obtain ⟨P', rt', dep', h3, h4⟩ := ih P1 rt1 dep1 _ h2 hr.2.2
      refine ⟨P', rt', dep', by simp only [run, h1, Except.bind, h3], ?_⟩
      simpa [unions] using h4

/-! ### Concurrent finds -/

/-- What a finding thread knows: everything it holds is in the class of its argument `x`, at
decreasing depth, and the vertices it moved away from are not roots any more. -/
def PcOk (n : ℕ) (rt dep : ℕ → ℕ) (x : ℕ) : Pc → Prop
  | .test i => i = (x : ℤ)
  | .load i => i = (x : ℤ) ∧ rt x ≠ x
  | .testP i p => ∃ a b : ℕ, i = a ∧ p = b ∧ a < n ∧ b < n ∧ rt a = rt x ∧ rt b = rt x ∧
      dep b < dep a
  | .loadGp i p => ∃ a b : ℕ, i = a ∧ p = b ∧ a < n ∧ b < n ∧ rt a = rt x ∧ rt b = rt x ∧
      dep b < dep a ∧ rt b ≠ b
  | .store i p g => ∃ a b c : ℕ, i = a ∧ p = b ∧ g = c ∧ a < n ∧ b < n ∧ c < n ∧ rt a = rt x ∧
      rt b = rt x ∧ rt c = rt x ∧ dep b < dep a ∧ dep c < dep b
  | .testGp i p => ∃ a b : ℕ, i = a ∧ p = b ∧ a < n ∧ b < n ∧ rt a = rt x ∧ rt b = rt x ∧
      dep b < dep a
  | .done r => True

theorem linkRt_ne {rt : ℕ → ℕ} {u v b : ℕ} (hv : rt (rt v) = rt v) (hb : rt b ≠ b) :
    linkRt rt u v b ≠ b := by
  unfold linkRt
  split
  · intro h2
    rw [h2] at hv
    exact hb hv
  · exact hb

theorem linkRt_congr {rt : ℕ → ℕ} {a b : ℕ} (u v : ℕ) (h : rt a = rt b) :
    linkRt rt u v a = linkRt rt u v b := by unfold linkRt; rw [h]

theorem linkDep_lt {rt dep : ℕ → ℕ} {a b : ℕ} (u v : ℕ) (h : rt a = rt b) (hd : dep a < dep b) :
    linkDep rt dep u v a < linkDep rt dep u v b := by
  unfold linkDep; rw [h]; split_ifs <;> omega

theorem PcOk.link {n : ℕ} {rt dep : ℕ → ℕ} {x : ℕ} {pc : Pc} {u v : ℕ} (hv : rt (rt v) = rt v)
    (h : PcOk n rt dep x pc) : PcOk n (linkRt rt u v) (linkDep rt dep u v) x pc := by
  cases pc with
  | test i => exact h
  | load i => exact ⟨h.1, linkRt_ne hv h.2⟩
  | testP i p =>
    obtain ⟨a, b, h1, h2, h3, h4, h5, h6, h7⟩ := h
    exact ⟨a, b, h1, h2, h3, h4, linkRt_congr u v h5, linkRt_congr u v h6,
      linkDep_lt u v (by rw [h5, h6]) h7⟩
  | loadGp i p =>
    obtain ⟨a, b, h1, h2, h3, h4, h5, h6, h7, h8⟩ := h
    exact ⟨a, b, h1, h2, h3, h4, linkRt_congr u v h5, linkRt_congr u v h6,
      linkDep_lt u v (by rw [h5, h6]) h7, linkRt_ne hv h8⟩
  | store i p g =>
    obtain ⟨a, b, c, h1, h2, h3, h4, h5, h6, h7, h8, h9, h10, h11⟩ := h
    exact ⟨a, b, c, h1, h2, h3, h4, h5, h6, linkRt_congr u v h7, linkRt_congr u v h8,
      linkRt_congr u v h9, linkDep_lt u v (by rw [h7, h8]) h10, linkDep_lt u v (by rw [h9, h8]) h11⟩
  | testGp i p =>
    obtain ⟨a, b, h1, h2, h3, h4, h5, h6, h7⟩ := h
    exact ⟨a, b, h1, h2, h3, h4, linkRt_congr u v h5, linkRt_congr u v h6,
      linkDep_lt u v (by rw [h5, h6]) h7⟩
  | done r => trivial

/-- Bound on the number of further accesses of a thread, without links. -/
def pcWork (n : ℕ) (dep : ℕ → ℕ) : Pc → ℕ
  | .test _ => 3 * n + 3
  | .load _ => 3 * n + 2
  | .testP _ p => 3 * meas n dep p.toNat + 3
  | .loadGp _ p => 3 * meas n dep p.toNat + 2
  | .store _ p g => 3 * meas n dep g.toNat + 4
  | .testGp _ p => 3 * meas n dep p.toNat + 3
  | .done _ => 0

theorem pcStep_ok {P n rt dep} (h : Forest P n rt dep) (x : ℕ) (hx : x < n) (pc : Pc)
    (hp : PcOk n rt dep x pc) :
    ∃ pc' P', pcStep P pc = .ok (pc', P') ∧ Forest P' n rt dep ∧ PcOk n rt dep x pc' ∧
      (∀ r, pc' = .done r → pc ≠ .done r → r = (rt x : ℕ)) ∧
      ((∀ r, pc ≠ .done r) → pcWork n dep pc' < pcWork n dep pc) := by
  cases pc with
  | test i =>
    have hp : i = (x : ℤ) := hp
    subst hp
    rcases h.get x hx with ⟨h1, h2⟩ | ⟨p, hp, h1, h2, h3, h4⟩
    · exact ⟨.done x, P, by simp [pcStep, h1, Except.map], h, trivial,
        by intro r hr _; cases hr; rw [h2], by simp [pcWork]⟩
    · exact ⟨.load x, P, by simp [pcStep, h1, Except.map], h, ⟨rfl, h4⟩, by simp,
        by simp [pcWork]⟩
  | load i =>
    obtain ⟨hi, hn⟩ := hp
    subst hi
    rcases h.get x hx with ⟨h1, h2⟩ | ⟨p, hp, h1, h2, h3, h4⟩
    · exact absurd h2 hn
    · refine ⟨.testP x p, P, by simp [pcStep, h1, Except.map], h,
        ⟨x, p, rfl, rfl, hx, hp, rfl, h2.symm, h3⟩, by simp, ?_⟩
      intro _
      have := meas_lt_n (dep := dep) hp
      simp only [pcWork, Int.toNat_natCast]
      omega
  | testP i p =>
    obtain ⟨a, b, rfl, rfl, ha, hb, hra, hrb, hd⟩ := hp
    rcases h.get b hb with ⟨h1, h2⟩ | ⟨q, hq, h1, h2, h3, h4⟩
    · exact ⟨.done b, P, by simp [pcStep, h1, Except.map], h, trivial,
        by intro r hr _; cases hr; rw [← hrb, h2], by simp [pcWork]⟩
    · exact ⟨.loadGp a b, P, by simp [pcStep, h1, Except.map], h,
        ⟨a, b, rfl, rfl, ha, hb, hra, hrb, hd, h4⟩, by simp, by simp [pcWork]⟩
  | loadGp i p =>
    obtain ⟨a, b, rfl, rfl, ha, hb, hra, hrb, hd, hn⟩ := hp
    rcases h.get b hb with ⟨h1, h2⟩ | ⟨q, hq, h1, h2, h3, h4⟩
    · exact absurd h2 hn
    · refine ⟨.store a b q, P, by simp [pcStep, h1, Except.map], h,
        ⟨a, b, q, rfl, rfl, rfl, ha, hb, hq, hra, hrb, h2.symm.trans hrb, hd, h3⟩, by simp, ?_⟩
      intro _
      have := meas_lt (n := n) hq h3
      simp only [pcWork, Int.toNat_natCast]
      omega
  | store i p g =>
    obtain ⟨a, b, c, rfl, rfl, rfl, ha, hb, hc, hra, hrb, hrc, hd, hd2⟩ := hp
    refine ⟨.testGp b c, P.set a (c : ℤ), ?_, h.shortcut a c ha hc (by rw [hrc, hra]) (by omega),
      ⟨b, c, rfl, rfl, hb, hc, hrb, hrc, hd2⟩, by simp, by simp [pcWork]⟩
    simp only [pcStep, put_ok P a _ (by rw [h.len]; exact ha), Except.map]
  | testGp i p =>
    obtain ⟨a, b, rfl, rfl, ha, hb, hra, hrb, hd⟩ := hp
    rcases h.get b hb with ⟨h1, h2⟩ | ⟨q, hq, h1, h2, h3, h4⟩
    · exact ⟨.done b, P, by simp [pcStep, h1, Except.map], h, trivial,
        by intro r hr _; cases hr; rw [← hrb, h2], by simp [pcWork]⟩
    · exact ⟨.loadGp a b, P, by simp [pcStep, h1, Except.map], h,
        ⟨a, b, rfl, rfl, ha, hb, hra, hrb, hd, h4⟩, by simp, by simp [pcWork]⟩
  | done r => exact ⟨.done r, P, rfl, h, trivial, by simp, by simp⟩

/-- The links of an execution. -/
def linksOf : List CStep → List (ℕ × ℕ)
  | [] => []
  | .thread _ :: es => linksOf es
  | .link u v :: es => (u, v) :: linksOf es

theorem linksOf_append (a b : List CStep) : linksOf (a ++ b) = linksOf a ++ linksOf b := by
  induction a with
  | nil => rfl
  | cons e a ih => cases e <;> simp [linksOf, ih]

theorem crun_append (a b : List CStep) (s : CState) : crun (a ++ b) s = (crun a s).bind (crun b) := by
  induction a generalizing s with
  | nil => rfl
  | cons e a ih =>
    simp only [List.cons_append, crun]
    rcases cstep s e with _ | s'
    · rfl
    · exact ih s'

/-- Precondition of `link(u, v)` in a history: `u` has never been linked before (it is a root) and
`v` is in another class. -/
def ValidLinks (n : ℕ) (es : List CStep) : Prop :=
  ∀ pre u v post, es = pre ++ .link u v :: post →
    u < n ∧ v < n ∧ (∀ w, (u, w) ∉ linksOf pre) ∧ ¬ Conn (linksOf pre) v u

/-- `r` is the representative of the class of `x` under the links `ls`: it is in the class and has
not been linked below another element. -/
def IsRep (ls : List (ℕ × ℕ)) (x r : ℕ) : Prop := Conn ls x r ∧ ∀ w, (r, w) ∉ ls

structure CInv (n : ℕ) (xs : List ℕ) (es : List CStep) (s : CState) (rt dep : ℕ → ℕ) : Prop where
  rep : Rep s.parents n rt dep (linksOf es)
  roots : ∀ i, rt i = i ↔ ∀ w, (i, w) ∉ linksOf es
  len : s.pcs.length = xs.length
  pcs : ∀ (t x : ℕ) (pc : Pc), xs[t]? = some x → s.pcs[t]? = some pc → PcOk n rt dep x pc
  fin : ∀ (t x : ℕ) (r : ℤ), xs[t]? = some x → s.pcs[t]? = some (.done r) →
    ∃ pre, pre <+: es ∧ ∃ ρ : ℕ, r = ρ ∧ IsRep (linksOf pre) x ρ

theorem crun_inv (n : ℕ) (xs : List ℕ) (hxs : ∀ x ∈ xs, x < n) (es : List CStep)
    (hv : ValidLinks n es) :
    ∃ s rt dep, crun es ⟨init n, xs.map fun x : ℕ => .test (x : ℤ)⟩ = .ok s ∧ CInv n xs es s rt dep := by
  induction es using List.reverseRecOn with
  | nil =>
    refine ⟨_, id, fun _ => 0, rfl, rep_init n, by simp [linksOf], by simp, ?_, ?_⟩
    · intro t x pc h1 h2
      simp only [List.getElem?_map, h1, Option.map_some, Option.some.injEq] at h2
      subst h2
      rfl
    · intro t x r h1 h2
      simp [List.getElem?_map, h1] at h2
  | append_singleton es e ih =>
    obtain ⟨s, rt, dep, h1, h2⟩ := ih (by
      intro pre u v post he
      exact hv pre u v (post ++ [e]) (by rw [he]; simp))
    rw [crun_append, h1]
    simp only [Except.bind, crun]
    cases e with
    | thread t =>
      have hl : linksOf (es ++ [.thread t]) = linksOf es := by simp [linksOf_append, linksOf]
      simp only [cstep]
      rcases hp : s.pcs[t]? with _ | pc
      · refine ⟨s, rt, dep, rfl, by rw [hl]; exact h2.rep, by rw [hl]; exact h2.roots, h2.len,
          h2.pcs, ?_⟩
        intro t' x r h3 h4
        obtain ⟨pre, h5, h6⟩ := h2.fin t' x r h3 h4
        exact ⟨pre, h5.trans (List.prefix_append _ _), h6⟩
      · have ht : t < s.pcs.length := (List.getElem?_eq_some_iff.mp hp).1
        have htx : t < xs.length := by rw [← h2.len]; exact ht
        have hx : xs[t]? = some xs[t] := List.getElem?_eq_getElem htx
        obtain ⟨pc', P', h3, h4, h5, h6, _⟩ := pcStep_ok h2.rep.forest xs[t] (hxs _ (by simp)) pc
          (h2.pcs t _ pc hx hp)
        simp only [h3, Except.map]
        have hset : ∀ t', (s.pcs.set t pc')[t']? = if t' = t then some pc' else s.pcs[t']? := by
          intro t'
          by_cases he : t' = t
          · subst he; simp [ht]
          · rw [if_neg he, List.getElem?_set_ne (fun h => he h.symm)]
        refine ⟨_, rt, dep, rfl, ⟨h4, by rw [hl]; exact h2.rep.conn, by rw [hl]; exact h2.rep.resp⟩,
          by rw [hl]; exact h2.roots, by simpa using h2.len, ?_, ?_⟩
        · intro t' x q h7 h8
          simp only [hset] at h8
          split at h8
          · rename_i he
            subst he
            rw [hx] at h7
            simp only [Option.some.injEq] at h7 h8
            subst h7 h8
            exact h5
          · exact h2.pcs t' x q h7 h8
        · intro t' x r h7 h8
          simp only [hset] at h8
          split at h8
          · rename_i he
            subst he
            rw [hx] at h7
            simp only [Option.some.injEq] at h7 h8
            subst h7 h8
            by_cases hdone : pc = .done r
            · subst hdone
              obtain ⟨pre, h9, h10⟩ := h2.fin t' _ r hx hp
              exact ⟨pre, h9.trans (List.prefix_append _ _), h10⟩
            · refine ⟨es, List.prefix_append _ _, rt xs[t'], h6 r rfl hdone, h2.rep.conn _, ?_⟩
              rw [← h2.roots]
              exact (h2.rep.forest.root _ (hxs _ (by simp))).2.2
          · obtain ⟨pre, h9, h10⟩ := h2.fin t' x r h7 h8
            exact ⟨pre, h9.trans (List.prefix_append _ _), h10⟩
    | link u v =>
      have hl : linksOf (es ++ [.link u v]) = linksOf es ++ [(u, v)] := by
        simp [linksOf_append, linksOf]
      obtain ⟨hu, hvn, hroot, hne⟩ := hv es u v [] rfl
      rw [← h2.roots] at hroot
      have hne' : rt v ≠ u := by
        intro h
        rw [← hroot] at h
        exact hne ((h2.rep.iff v u).mp h)
      have hrv := (h2.rep.forest.root v hvn).2.2
      obtain ⟨h3, _⟩ := h2.rep.forest.link u v hu hvn hroot hne'
      have h4 := h2.rep.link u v hu hvn hroot hne' u v hroot rfl
      simp only [cstep, h3, Except.map]
      refine ⟨_, _, _, rfl, by rw [hl]; exact h4, ?_, h2.len, ?_, ?_⟩
      · intro i
        rw [hl]
        have h5 : (∀ w, (i, w) ∉ linksOf es ++ [(u, v)]) ↔ (rt i = i ∧ i ≠ u) := by
          rw [h2.roots]
          constructor
          · intro h
            refine ⟨fun w hw => h w (by simp [hw]), ?_⟩
            rintro rfl
            exact h v (by simp)
          · rintro ⟨h6, h7⟩ w hw
            rw [List.mem_append, List.mem_singleton, Prod.mk.injEq] at hw
            rcases hw with hw | ⟨hw, _⟩
            · exact h6 w hw
            · exact h7 hw
        rw [h5]
        constructor
        · intro h6
          unfold linkRt at h6
          split at h6
          · rename_i h7
            rw [h6] at hrv
            exfalso
            rw [h7] at hrv
            exact hne' (h6.trans hrv.symm)
          · rename_i h7
            exact ⟨h6, fun h8 => h7 (by rw [h6, h8])⟩
        · rintro ⟨h6, h7⟩
          unfold linkRt
          rw [h6, if_neg h7]
      · intro t x pc h5 h6
        exact (h2.pcs t x pc h5 h6).link hrv
      · intro t x r h5 h6
        obtain ⟨pre, h7, h8⟩ := h2.fin t x r h5 h6
        exact ⟨pre, h7.trans (List.prefix_append _ _), h8⟩

end Verif.UF
