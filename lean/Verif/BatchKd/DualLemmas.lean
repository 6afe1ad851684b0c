import Verif.BatchKd.KnnLemmas

set_option linter.unusedSectionVars false
set_option linter.unusedVariables false

/-! The dual-tree search of the batch kd-tree. -/

namespace Verif.BatchKd

variable {α K : Type} {d : ℕ}

namespace QT

/-- A query tree without its `dualKnnDist` values. -/
def erase : QT K d → QT K d
  | nil => nil
  | leaf s e b _ => leaf s e b none
  | node s e b _ l r => node s e b none l.erase r.erase

theorem erase_ofBT (t : BT K d) : (ofBT t).erase = ofBT t := by
  induction t with
  | nil => rfl
  | leaf => rfl
  | node _ _ _ _ _ _ l r ihl ihr => simp [ofBT, erase, ihl, ihr]

theorem start_erase (t : QT K d) : t.erase.start = t.start := by cases t <;> rfl
theorem stop_erase (t : QT K d) : t.erase.stop = t.stop := by cases t <;> rfl
theorem height_erase (t : QT K d) : t.erase.height = t.height := by
  induction t with
  | nil => rfl
  | leaf => rfl
  | node _ _ _ _ l r ihl ihr => simp [erase, height, ihl, ihr]

theorem height_ofBT (t : BT K d) : (ofBT t).height = t.height := by
  induction t with
  | nil => rfl
  | leaf => rfl
  | node _ _ _ _ _ _ l r ihl ihr => simp [ofBT, height, BT.height, ihl, ihr]

end QT

section
variable [Field K] [LinearOrder K] [IsStrictOrderedRing K]

/-- The queries of a slice are inside the box of the node, and slices of children make up the slice of the
parent. -/
def QGood (qpos : ℕ → Option (Point K d)) : QT K d → Prop
  | .nil => False
  | .leaf s e b _ => s ≤ e ∧ ∀ i, s ≤ i → i < e → ∃ p, qpos i = some p ∧ b.Mem p
  | .node s e b _ l r => (∀ i, s ≤ i → i < e → ∃ p, qpos i = some p ∧ b.Mem p) ∧
      QGood qpos l ∧ QGood qpos r ∧ l.start = s ∧ l.stop = r.start ∧ r.stop = e

variable {qpos : ℕ → Option (Point K d)}

theorem QGood.of_erase {Q : QT K d} : QGood qpos Q.erase ↔ QGood qpos Q := by
  induction Q with
  | nil => rfl
  | leaf => rfl
  | node s e b x l r ihl ihr =>
    simp only [QT.erase, QGood, ihl, ihr, QT.start_erase, QT.stop_erase]

theorem QGood.not_nil {Q : QT K d} (h : QGood qpos Q) : Q.isNil = false := by
  cases Q with
  | nil => exact absurd h (by simp [QGood])
  | leaf => rfl
  | node => rfl

theorem QGood.le {Q : QT K d} (h : QGood qpos Q) : Q.start ≤ Q.stop := by
  induction Q with
  | nil => exact le_refl _
  | leaf s e b x => exact h.1
  | node s e b x l r ihl ihr =>
    obtain ⟨_, h1, h2, h3, h4, h5⟩ := h
    have := ihl h1
    have := ihr h2
    simp only [QT.start, QT.stop]
    omega

theorem QGood.mem {Q : QT K d} (h : QGood qpos Q) :
    ∀ i, Q.start ≤ i → i < Q.stop → ∃ p, qpos i = some p := by
  cases Q with
  | nil => exact absurd h (by simp [QGood])
  | leaf s e b x =>
    intro i h1 h2
    obtain ⟨p, hp, _⟩ := h.2 i h1 h2
    exact ⟨p, hp⟩
  | node s e b x l r =>
    intro i h1 h2
    obtain ⟨p, hp, _⟩ := h.1 i h1 h2
    exact ⟨p, hp⟩

variable (dist : Point K d → Point K d → K) (pos : α → Point K d) (k : ℕ)
variable (qpos)

/-- Every `dualKnnDist` is an upper bound for the radius of the queries below the node. -/
def DDok (I : ℕ → List α) : QT K d → Prop
  | .nil => True
  | .leaf s e _ dd => ∀ i p, s ≤ i → i < e → qpos i = some p →
      Within k (fun x => dist p (pos x)) (I i) dd
  | .node s e _ dd l r => (∀ i p, s ≤ i → i < e → qpos i = some p →
      Within k (fun x => dist p (pos x)) (I i) dd) ∧ DDok I l ∧ DDok I r

/-- Every buffer holds the items inserted into it. -/
def BufsOk (I : ℕ → List α) (bufs : List (BBuf α K)) : Prop :=
  ∀ i p, qpos i = some p → i < bufs.length →
    ∃ b, bufs[i]? = some b ∧ BHolds k (fun x => dist p (pos x)) (I i) b

variable {dist pos k qpos}

theorem DDok.root {I : ℕ → List α} {Q : QT K d} (h : DDok qpos dist pos k I Q) :
    ∀ i p, Q.start ≤ i → i < Q.stop → qpos i = some p →
      Within k (fun x => dist p (pos x)) (I i) Q.dd := by
  cases Q with
  | nil => intro i p h1 h2; simp [QT.stop] at h2
  | leaf s e b x => exact h
  | node s e b x l r => exact h.1

theorem DDok.congr {I I' : ℕ → List α} {Q : QT K d} (hg : QGood qpos Q)
    (h : DDok qpos dist pos k I Q) (hI : ∀ i, Q.start ≤ i → i < Q.stop → I' i = I i) :
    DDok qpos dist pos k I' Q := by
  induction Q with
  | nil => trivial
  | leaf s e b x =>
    intro i p h1 h2 hp
    rw [hI i h1 h2]
    exact h i p h1 h2 hp
  | node s e b x l r ihl ihr =>
    obtain ⟨_, g1, g2, g3, g4, g5⟩ := hg
    have := g1.le
    have := g2.le
    simp only [QT.start, QT.stop] at hI
    refine ⟨?_, ihl g1 h.2.1 fun i h1 h2 => hI i (by omega) (by omega),
      ihr g2 h.2.2 fun i h1 h2 => hI i (by omega) (by omega)⟩
    intro i p h1 h2 hp
    rw [hI i h1 h2]
    exact h.1 i p h1 h2 hp

theorem Within.omax_left {cost : α → K} {I : List α} {a b : Option K} (h : Within k cost I a) :
    Within k cost I (omax a b) := by
  intro r hr
  cases a with
  | none => simp [omax] at hr
  | some x =>
    cases b with
    | none => simp [omax] at hr
    | some y =>
      simp only [omax, Option.some.injEq] at hr
      exact (h x rfl).trans (countP_le_mono (hr ▸ le_max_left x y))

theorem Within.omax_right {cost : α → K} {I : List α} {a b : Option K} (h : Within k cost I b) :
    Within k cost I (omax a b) := by
  intro r hr
  cases a with
  | none => simp [omax] at hr
  | some x =>
    cases b with
    | none => simp [omax] at hr
    | some y =>
      simp only [omax, Option.some.injEq] at hr
      exact (h y rfl).trans (countP_le_mono (hr ▸ le_max_right x y))

variable (qpos dist pos k) in
/-- Effect of a call of the dual search on the query node `Q` for the items `L`. -/
structure DPost (Q Q' : QT K d) (bufs bufs' : List (BBuf α K)) (I I' : ℕ → List α) (L : List α) :
    Prop where
  shape : Q'.erase = Q.erase
  len : bufs'.length = bufs.length
  st : BufsOk qpos dist pos k I' bufs'
  dd : DDok qpos dist pos k I' Q'
  out : ∀ i, (i < Q.start ∨ Q.stop ≤ i) → I' i = I i
  outB : ∀ i, (i < Q.start ∨ Q.stop ≤ i) → bufs'[i]? = bufs[i]?
  ext : ∀ i p, Q.start ≤ i → i < Q.stop → qpos i = some p →
    Ext k (fun x => dist p (pos x)) (I i) (I' i) L

theorem DPost.start {Q Q' : QT K d} {bufs bufs' : List (BBuf α K)} {I I' : ℕ → List α} {L : List α}
    (h : DPost qpos dist pos k Q Q' bufs bufs' I I' L) : Q'.start = Q.start := by
  rw [← QT.start_erase, h.shape, QT.start_erase]

theorem DPost.stop {Q Q' : QT K d} {bufs bufs' : List (BBuf α K)} {I I' : ℕ → List α} {L : List α}
    (h : DPost qpos dist pos k Q Q' bufs bufs' I I' L) : Q'.stop = Q.stop := by
  rw [← QT.stop_erase, h.shape, QT.stop_erase]

theorem DPost.height {Q Q' : QT K d} {bufs bufs' : List (BBuf α K)} {I I' : ℕ → List α} {L : List α}
    (h : DPost qpos dist pos k Q Q' bufs bufs' I I' L) : Q'.height = Q.height := by
  rw [← QT.height_erase, h.shape, QT.height_erase]

theorem DPost.good {Q Q' : QT K d} {bufs bufs' : List (BBuf α K)} {I I' : ℕ → List α} {L : List α}
    (h : DPost qpos dist pos k Q Q' bufs bufs' I I' L) (hg : QGood qpos Q) : QGood qpos Q' := by
  rw [← QGood.of_erase, h.shape, QGood.of_erase]
  exact hg

theorem DPost.perm {Q Q' : QT K d} {bufs bufs' : List (BBuf α K)} {I I' : ℕ → List α} {L L' : List α}
    (h : DPost qpos dist pos k Q Q' bufs bufs' I I' L) (hp : L.Perm L') :
    DPost qpos dist pos k Q Q' bufs bufs' I I' L' :=
  ⟨h.shape, h.len, h.st, h.dd, h.out, h.outB, fun i p h1 h2 h3 => (h.ext i p h1 h2 h3).perm hp⟩

/-- Two calls on the same query node. -/
theorem DPost.trans {Q Q1 Q2 : QT K d} {B B1 B2 : List (BBuf α K)} {I I1 I2 : ℕ → List α}
    {L1 L2 : List α} (h : DPost qpos dist pos k Q Q1 B B1 I I1 L1)
    (h' : DPost qpos dist pos k Q1 Q2 B1 B2 I1 I2 L2) :
    DPost qpos dist pos k Q Q2 B B2 I I2 (L1 ++ L2) := by
  have e1 := h.start
  have e2 := h.stop
  refine ⟨h'.shape.trans h.shape, h'.len.trans h.len, h'.st, h'.dd, ?_, ?_, ?_⟩
  · intro i hi
    rw [h'.out i (by rw [e1, e2]; exact hi), h.out i hi]
  · intro i hi
    rw [h'.outB i (by rw [e1, e2]; exact hi), h.outB i hi]
  · intro i p h1 h2 hp
    exact (h.ext i p h1 h2 hp).trans (h'.ext i p (by omega) (by omega) hp)

/-- Calls on the two children of a query node, in sequence. -/
theorem DPost.kids {s e : ℕ} {b : Box K d} {x : Option K} {l l' r r' : QT K d}
    (hg : QGood qpos (.node s e b x l r)) {B B1 B2 : List (BBuf α K)} {I I1 I2 : ℕ → List α} {L : List α}
    (hl : DPost qpos dist pos k l l' B B1 I I1 L) (hr : DPost qpos dist pos k r r' B1 B2 I1 I2 L) :
    DPost qpos dist pos k (.node s e b x l r) (.node s e b (omax l'.dd r'.dd) l' r') B B2 I I2 L := by
  obtain ⟨g0, g1, g2, g3, g4, g5⟩ := hg
  have hl1 := g1.le
  have hr1 := g2.le
  have hl2 := hl.start
  have hl3 := hl.stop
  have hr2 := hr.start
  have hr3 := hr.stop
  have hI2 : ∀ i, l'.start ≤ i → i < l'.stop → I2 i = I1 i := fun i h1 h2 => hr.out i (by omega)
  have hdl := hl.dd.congr (hl.good g1) hI2
  refine ⟨by simp only [QT.erase, hl.shape, hr.shape], hr.len.trans hl.len, hr.st,
    ⟨?_, hdl, hr.dd⟩, ?_, ?_, ?_⟩
  · intro i p h1 h2 hp
    by_cases hi : i < l.stop
    · exact (hdl.root i p (by omega) (by omega) hp).omax_left
    · exact (hr.dd.root i p (by omega) (by omega) hp).omax_right
  · intro i hi
    simp only [QT.start, QT.stop] at hi
    rw [hr.out i (by omega), hl.out i (by omega)]
  · intro i hi
    simp only [QT.start, QT.stop] at hi
    rw [hr.outB i (by omega), hl.outB i (by omega)]
  · intro i p h1 h2 hp
    simp only [QT.start, QT.stop] at h1 h2
    by_cases hi : i < l.stop
    · rw [hr.out i (by omega)]
      exact hl.ext i p (by omega) hi hp
    · rw [← hl.out i (by omega)]
      exact hr.ext i p (by omega) (by omega) hp

theorem omax_comm (a b : Option K) : omax a b = omax b a := by
  cases a <;> cases b <;> simp [omax, max_comm]

/-- The same with the right child first. -/
theorem DPost.kids' {s e : ℕ} {b : Box K d} {x : Option K} {l l' r r' : QT K d}
    (hg : QGood qpos (.node s e b x l r)) {B B1 B2 : List (BBuf α K)} {I I1 I2 : ℕ → List α} {L : List α}
    (hr : DPost qpos dist pos k r r' B B1 I I1 L) (hl : DPost qpos dist pos k l l' B1 B2 I1 I2 L) :
    DPost qpos dist pos k (.node s e b x l r) (.node s e b (omax l'.dd r'.dd) l' r') B B2 I I2 L := by
  obtain ⟨g0, g1, g2, g3, g4, g5⟩ := hg
  have hl1 := g1.le
  have hr1 := g2.le
  have hl2 := hl.start
  have hl3 := hl.stop
  have hr2 := hr.start
  have hr3 := hr.stop
  have hI2 : ∀ i, r'.start ≤ i → i < r'.stop → I2 i = I1 i := fun i h1 h2 => hl.out i (by omega)
  have hdr := hr.dd.congr (hr.good g2) hI2
  refine ⟨by simp only [QT.erase, hl.shape, hr.shape], hl.len.trans hr.len, hl.st,
    ⟨?_, hl.dd, hdr⟩, ?_, ?_, ?_⟩
  · intro i p h1 h2 hp
    by_cases hi : i < l.stop
    · exact (hl.dd.root i p (by omega) (by omega) hp).omax_left
    · exact (hdr.root i p (by omega) (by omega) hp).omax_right
  · intro i hi
    simp only [QT.start, QT.stop] at hi
    rw [hl.out i (by omega), hr.out i (by omega)]
  · intro i hi
    simp only [QT.start, QT.stop] at hi
    rw [hl.outB i (by omega), hr.outB i (by omega)]
  · intro i p h1 h2 hp
    simp only [QT.start, QT.stop] at h1 h2
    by_cases hi : i < l.stop
    · rw [← hr.out i (by omega)]
      exact hl.ext i p (by omega) hi hp
    · rw [hl.out i (by omega)]
      exact hr.ext i p (by omega) (by omega) hp

/-- Four calls: left child, right child, left child again, right child again. -/
theorem DPost.four {s e : ℕ} {b : Box K d} {x : Option K} {l l1 l2 r r1 r2 : QT K d}
    (hg : QGood qpos (.node s e b x l r)) {B B1 B2 B3 B4 : List (BBuf α K)}
    {I I1 I2 I3 I4 : ℕ → List α} {A A' C C' L : List α}
    (h1 : DPost qpos dist pos k l l1 B B1 I I1 A) (h2 : DPost qpos dist pos k r r1 B1 B2 I1 I2 C)
    (h3 : DPost qpos dist pos k l1 l2 B2 B3 I2 I3 A') (h4 : DPost qpos dist pos k r1 r2 B3 B4 I3 I4 C')
    (hA : (A ++ A').Perm L) (hC : (C ++ C').Perm L) :
    DPost qpos dist pos k (.node s e b x l r) (.node s e b (omax l2.dd r2.dd) l2 r2) B B4 I I4 L := by
  obtain ⟨g0, g1, g2, g3, g4, g5⟩ := hg
  have hl1 := g1.le
  have hr1 := g2.le
  have a1 := h1.start
  have a2 := h1.stop
  have a3 := h2.start
  have a4 := h2.stop
  have a5 := h3.start
  have a6 := h3.stop
  have a7 := h4.start
  have a8 := h4.stop
  have hI2 : ∀ i, l2.start ≤ i → i < l2.stop → I4 i = I3 i := fun i h1 h2 => h4.out i (by omega)
  have hdl := h3.dd.congr (h3.good (h1.good g1)) hI2
  refine ⟨by simp only [QT.erase, h3.shape, h1.shape, h4.shape, h2.shape],
    h4.len.trans (h3.len.trans (h2.len.trans h1.len)), h4.st, ⟨?_, hdl, h4.dd⟩, ?_, ?_, ?_⟩
  · intro i p b1 b2 hp
    by_cases hi : i < l.stop
    · exact (hdl.root i p (by omega) (by omega) hp).omax_left
    · exact (h4.dd.root i p (by omega) (by omega) hp).omax_right
  · intro i hi
    simp only [QT.start, QT.stop] at hi
    rw [h4.out i (by omega), h3.out i (by omega), h2.out i (by omega), h1.out i (by omega)]
  · intro i hi
    simp only [QT.start, QT.stop] at hi
    rw [h4.outB i (by omega), h3.outB i (by omega), h2.outB i (by omega), h1.outB i (by omega)]
  · intro i p b1 b2 hp
    simp only [QT.start, QT.stop] at b1 b2
    by_cases hi : i < l.stop
    · have e1 := h1.ext i p (by omega) hi hp
      have e2 := h3.ext i p (by omega) (by omega) hp
      rw [h2.out i (by omega)] at e2
      rw [h4.out i (by omega)]
      exact (e1.trans e2).perm hA
    · have e1 := h2.ext i p (by omega) (by omega) hp
      have e2 := h4.ext i p (by omega) (by omega) hp
      rw [h3.out i (by omega)] at e2
      rw [h1.out i (by omega)] at e1
      exact (e1.trans e2).perm hC

variable {nth : ℕ → List (K × α) → List (K × α)} {items : List α} {present : List Bool}

theorem qRadius_ok (hn : NthPairs nth) {cost : α → K} {I : List α} {b : BBuf α K}
    (h : BHolds k cost I b) :
    ∃ b' r, qRadius nth b = .ok (b', r) ∧ BHolds k cost I b' ∧ Within k cost I r := by
  unfold qRadius
  split
  · rename_i hK
    obtain ⟨b', r, h1, h2, h3, -⟩ := h.keepK hn (by simpa using (NBInv.hasK_iff h).1 hK)
    refine ⟨b', some r.1, by rw [h1]; rfl, h2, ?_⟩
    intro x hx
    simp only [Option.some.injEq] at hx
    subst hx
    exact h3
  · exact ⟨b, none, rfl, h, fun r hr => by simp at hr⟩

theorem dualOne_ok (hn : NthPairs nth) (q : Point K d) {I : List α} {b : BBuf α K} (s e : ℕ)
    (h : BHolds k (fun x => dist q (pos x)) I b) :
    ∃ b' r I', dualOne nth dist pos items present s e q b = .ok (b', r) ∧
      BHolds k (fun x => dist q (pos x)) I' b' ∧ Within k (fun x => dist q (pos x)) I' r ∧
      Ext k (fun x => dist q (pos x)) I I' (live items present s e) := by
  obtain ⟨b1, r1, h1, h2, h3⟩ := qRadius_ok hn h
  obtain ⟨b2, I2, h4, h5, h6⟩ := knnAdd_ok (items := items) (present := present) hn q r1 s e I b1 h2 h3
  obtain ⟨b3, r3, h7, h8, h9⟩ := qRadius_ok hn h5
  refine ⟨b3, r3, I2, ?_, h8, h9, h6⟩
  unfold dualOne
  rw [h1]
  simp only [Except.bind]
  rw [h4]
  exact h7

theorem dualLeaf_ok (hn : NthPairs nth) (s e : ℕ) (n i : ℕ) (rad : Option K) (bufs : List (BBuf α K))
    (I : ℕ → List α) (hq : ∀ j, i ≤ j → j < i + n → ∃ p, qpos j = some p)
    (hlen : i + n ≤ bufs.length) (hb : BufsOk qpos dist pos k I bufs) :
    ∃ rad' bufs' I', dualLeaf nth dist pos qpos items present s e n i rad bufs = .ok (rad', bufs') ∧
      bufs'.length = bufs.length ∧ BufsOk qpos dist pos k I' bufs' ∧
      (∀ j, (j < i ∨ i + n ≤ j) → I' j = I j ∧ bufs'[j]? = bufs[j]?) ∧
      (∀ (cost : α → K) (J : List α), Within k cost J rad → Within k cost J rad') ∧
      ∀ j p, i ≤ j → j < i + n → qpos j = some p →
        Within k (fun x => dist p (pos x)) (I' j) rad' ∧
        Ext k (fun x => dist p (pos x)) (I j) (I' j) (live items present s e) := by
  induction n generalizing i rad bufs I with
  | zero =>
    exact ⟨rad, bufs, I, rfl, rfl, hb, fun j _ => ⟨rfl, rfl⟩, fun _ _ h => h, fun j p h1 h2 => by omega⟩
  | succ n ih =>
    obtain ⟨q, hq0⟩ := hq i (le_refl _) (by omega)
    obtain ⟨b, hb1, hb2⟩ := hb i q hq0 (by omega)
    obtain ⟨b', r, J, h1, h2, h3, h4⟩ := dualOne_ok (items := items) (present := present) hn q s e hb2
    have hb' : BufsOk qpos dist pos k (Function.update I i J) (bufs.set i b') := by
      intro j p hp hj
      rw [List.length_set] at hj
      by_cases hji : j = i
      · subst hji
        rw [hq0, Option.some.injEq] at hp
        subst hp
        exact ⟨b', by rw [List.getElem?_set_self hj], by rw [Function.update_self]; exact h2⟩
      · rw [List.getElem?_set_ne (Ne.symm hji), Function.update_of_ne hji]
        exact hb j p hp hj
    obtain ⟨rad', bufs', I', g1, g2, g3, g4, g5, g6⟩ := ih (i + 1) (omax rad r) (bufs.set i b')
      (Function.update I i J) (fun j a b => hq j (by omega) (by omega))
      (by rw [List.length_set]; omega) hb'
    refine ⟨rad', bufs', I', ?_, by rw [g2, List.length_set], g3, ?_, ?_, ?_⟩
    · unfold dualLeaf
      rw [hq0, hb1]
      simp only
      rw [h1]
      exact g1
    · intro j hj
      obtain ⟨a1, a2⟩ := g4 j (by omega)
      have hji : j ≠ i := by omega
      rw [a1, a2, Function.update_of_ne hji, List.getElem?_set_ne (Ne.symm hji)]
      exact ⟨rfl, rfl⟩
    · intro cost J' hJ
      exact g5 cost J' hJ.omax_left
    · intro j p a1 a2 hp
      by_cases hji : j = i
      · subst hji
        rw [hq0, Option.some.injEq] at hp
        subst hp
        rw [(g4 j (by omega)).1, Function.update_self]
        exact ⟨g5 _ _ h3.omax_right, h4⟩
      · obtain ⟨c1, c2⟩ := g6 j p (by omega) (by omega) hp
        rw [Function.update_of_ne hji] at c2
        exact ⟨c1, c2⟩

/-- A pruned call. -/
theorem DPost.pruned {boxDist : Box K d → Box K d → K}
    (hbd : ∀ a b p q, a.Mem p → b.Mem q → boxDist a b ≤ dist p q) {Q : QT K d}
    {bufs : List (BBuf α K)} {I : ℕ → List α} {L : List α} {qb rb : Box K d}
    (hQ : ∀ i p, Q.start ≤ i → i < Q.stop → qpos i = some p → qb.Mem p)
    (hL : ∀ x ∈ L, rb.Mem (pos x)) (hb : BufsOk qpos dist pos k I bufs)
    (hd : DDok qpos dist pos k I Q) (hp : prunes (boxDist qb rb) Q.dd = true) :
    DPost qpos dist pos k Q Q bufs bufs I I L := by
  refine ⟨rfl, rfl, hb, hd, fun _ _ => rfl, fun _ _ => rfl, ?_⟩
  intro i p h1 h2 hq
  refine Ext.none fun y hy => ?_
  have hw := hd.root i p h1 h2 hq
  cases hdd : Q.dd with
  | none => rw [hdd] at hp; simp [prunes] at hp
  | some r =>
    rw [hdd] at hp
    simp only [prunes, decide_eq_true_eq] at hp
    exact (hw r hdd).trans (countP_le_mono (hp.le.trans (hbd qb rb p (pos y) (hQ i p h1 h2 hq) (hL y hy))))

theorem QGood.box {s e : ℕ} {b : Box K d} (h : ∀ i, s ≤ i → i < e → ∃ p, qpos i = some p ∧ b.Mem p) :
    ∀ i p, s ≤ i → i < e → qpos i = some p → b.Mem p := by
  intro i p h1 h2 hp
  obtain ⟨p', h3, h4⟩ := h i h1 h2
  rw [h3, Option.some.injEq] at hp
  subst hp
  exact h4

theorem dualHelper_ok (hn : NthPairs nth) {boxDist : Box K d → Box K d → K}
    (hbd : ∀ a b p q, a.Mem p → b.Mem q → boxDist a b ≤ dist p q)
    (fuel : ℕ) (Q : QT K d) (R : BT K d) (hf : Q.height + R.height ≤ fuel) (hQ : QGood qpos Q)
    (hR : Good pos items present R) (bufs : List (BBuf α K)) (I : ℕ → List α)
    (hlen : Q.stop ≤ bufs.length) (hb : BufsOk qpos dist pos k I bufs)
    (hd : DDok qpos dist pos k I Q) :
    ∃ Q' bufs' I', dualHelper nth dist pos boxDist qpos items present fuel Q R bufs = .ok (Q', bufs') ∧
      DPost qpos dist pos k Q Q' bufs bufs' I I' (live items present R.start R.stop) := by
  induction fuel generalizing Q R bufs I with
  | zero =>
    cases Q with
    | nil => exact absurd hQ (by simp [QGood])
    | leaf => simp [QT.height] at hf
    | node => simp [QT.height] at hf
  | succ fuel ih =>
    cases Q with
    | nil => exact absurd hQ (by simp [QGood])
    | leaf qs qe qb dd =>
      cases R with
      | nil => exact absurd hR (by simp [Good])
      | leaf ri rs re rc rb =>
        unfold dualHelper
        simp only
        split
        · rename_i hp
          exact ⟨_, _, _, rfl, DPost.pruned hbd (Q := .leaf qs qe qb dd) (QGood.box hQ.2) hR.2.2.2 hb hd hp⟩
        · obtain ⟨rad', bufs', I', g1, g2, g3, g4, g5, g6⟩ := dualLeaf_ok (items := items)
            (present := present) hn rs re (qe - qs) qs (some 0) bufs I
            (fun j h1 h2 => QGood.mem hQ j h1 (by simp only [QT.stop]; omega))
            (by have := hQ.1; simp only [QT.stop] at hlen; omega) hb
          have hle := hQ.1
          refine ⟨.leaf qs qe qb rad', bufs', I', by rw [g1]; rfl, rfl, g2, g3, ?_, ?_, ?_, ?_⟩
          · intro i p h1 h2 hp
            exact (g6 i p h1 (by omega) hp).1
          · intro i hi
            simp only [QT.start, QT.stop] at hi
            exact (g4 i (by omega)).1
          · intro i hi
            simp only [QT.start, QT.stop] at hi
            exact (g4 i (by omega)).2
          · intro i p h1 h2 hp
            simp only [QT.start, QT.stop] at h1 h2
            exact (g6 i p h1 (by omega) hp).2
      | node ri rs re rdim rval rb rl rr =>
        have hnl := hR.2.1.not_nil
        have hnr := hR.2.2.1.not_nil
        simp only [QT.height, BT.height] at hf
        unfold dualHelper
        simp only [hnl, hnr, Bool.not_false, Bool.and_false, Bool.false_and, Bool.and_true,
          Bool.false_eq_true, if_false]
        split
        · rename_i hp
          exact ⟨_, _, _, rfl, DPost.pruned hbd (Q := .leaf qs qe qb dd) (QGood.box hQ.2) hR.1 hb hd hp⟩
        · simp only [BT.start, BT.stop]
          rw [hR.node_live]
          split
          · obtain ⟨Q1, B1, I1, a1, a2⟩ := ih (.leaf qs qe qb dd) rl (by simp only [QT.height]; omega) hQ
              hR.2.1 bufs I hlen hb hd
            obtain ⟨Q2, B2, I2, c1, c2⟩ := ih Q1 rr (by rw [a2.height]; simp only [QT.height]; omega)
              (a2.good hQ) hR.2.2.1 B1 I1 (by rw [a2.stop, a2.len]; exact hlen) a2.st a2.dd
            rw [a1]
            exact ⟨Q2, B2, I2, c1, a2.trans c2⟩
          · obtain ⟨Q1, B1, I1, a1, a2⟩ := ih (.leaf qs qe qb dd) rr (by simp only [QT.height]; omega) hQ
              hR.2.2.1 bufs I hlen hb hd
            obtain ⟨Q2, B2, I2, c1, c2⟩ := ih Q1 rl (by rw [a2.height]; simp only [QT.height]; omega)
              (a2.good hQ) hR.2.1 B1 I1 (by rw [a2.stop, a2.len]; exact hlen) a2.st a2.dd
            rw [a1]
            exact ⟨Q2, B2, I2, c1, (a2.trans c2).perm List.perm_append_comm⟩
    | node qs qe qb dd ql qr =>
      have hgl := hQ.2.1
      have hgr := hQ.2.2.1
      obtain ⟨_, _, _, q3, q4, q5⟩ := hQ
      have hql := hgl.not_nil
      have hqr := hgr.not_nil
      have hlel := hgl.le
      have hler := hgr.le
      simp only [QT.stop] at hlen
      have hQ' : QGood qpos (.node qs qe qb dd ql qr) := ⟨‹_›, hgl, hgr, q3, q4, q5⟩
      cases R with
      | nil => exact absurd hR (by simp [Good])
      | leaf ri rs re rc rb =>
        simp only [QT.height, BT.height] at hf
        unfold dualHelper
        simp only [hql, hqr, Bool.not_false, Bool.and_false, Bool.false_and, Bool.and_true,
          Bool.false_eq_true, if_false]
        split
        · rename_i hp
          exact ⟨_, _, _, rfl, DPost.pruned hbd (Q := .node qs qe qb dd ql qr) (QGood.box hQ'.1) hR.2.2.2 hb
            hd hp⟩
        · split
          · obtain ⟨Q1, B1, I1, a1, a2⟩ := ih ql (.leaf ri rs re rc rb)
              (by simp only [BT.height]; omega) hgl hR bufs I (by omega) hb hd.2.1
            obtain ⟨Q2, B2, I2, c1, c2⟩ := ih qr (.leaf ri rs re rc rb)
              (by simp only [BT.height]; omega) hgr hR B1 I1 (by rw [a2.len]; omega) a2.st
              (hd.2.2.congr hgr fun i h1 h2 => a2.out i (by omega))
            rw [a1]
            simp only [Except.bind]
            rw [c1]
            exact ⟨_, _, I2, rfl, DPost.kids hQ' a2 c2⟩
          · obtain ⟨Q1, B1, I1, a1, a2⟩ := ih qr (.leaf ri rs re rc rb)
              (by simp only [BT.height]; omega) hgr hR bufs I (by omega) hb hd.2.2
            obtain ⟨Q2, B2, I2, c1, c2⟩ := ih ql (.leaf ri rs re rc rb)
              (by simp only [BT.height]; omega) hgl hR B1 I1 (by rw [a2.len]; omega) a2.st
              (hd.2.1.congr hgl fun i h1 h2 => a2.out i (by omega))
            rw [a1]
            simp only [Except.bind]
            rw [c1]
            exact ⟨_, _, I2, rfl, DPost.kids' hQ' a2 c2⟩
      | node ri rs re rdim rval rb rl rr =>
        have hnl := hR.2.1.not_nil
        have hnr := hR.2.2.1.not_nil
        simp only [QT.height, BT.height] at hf
        unfold dualHelper
        simp only [hql, hqr, hnl, hnr, Bool.not_false, Bool.and_false, Bool.false_and, Bool.and_true,
          Bool.false_eq_true, if_false]
        split
        · rename_i hp
          exact ⟨_, _, _, rfl, DPost.pruned hbd (Q := .node qs qe qb dd ql qr) (QGood.box hQ'.1) hR.1 hb
            hd hp⟩
        · obtain ⟨A, A', hA, hAg, hAg', hAh, hAh', hAp⟩ : ∃ A A' : BT K d,
              (if nodeDist boxDist ql rl < nodeDist boxDist ql rr then (rl, rr) else (rr, rl)) = (A, A') ∧
              Good pos items present A ∧ Good pos items present A' ∧
              A.height ≤ max rl.height rr.height ∧ A'.height ≤ max rl.height rr.height ∧
              (live items present A.start A.stop ++ live items present A'.start A'.stop).Perm
                (live items present rs re) := by
            rw [hR.node_live]
            split
            · exact ⟨rl, rr, rfl, hR.2.1, hR.2.2.1, by omega, by omega, List.Perm.refl _⟩
            · exact ⟨rr, rl, rfl, hR.2.2.1, hR.2.1, by omega, by omega, List.perm_append_comm⟩
          obtain ⟨C, C', hC, hCg, hCg', hCh, hCh', hCp⟩ : ∃ A A' : BT K d,
              (if nodeDist boxDist qr rl < nodeDist boxDist qr rr then (rl, rr) else (rr, rl)) = (A, A') ∧
              Good pos items present A ∧ Good pos items present A' ∧
              A.height ≤ max rl.height rr.height ∧ A'.height ≤ max rl.height rr.height ∧
              (live items present A.start A.stop ++ live items present A'.start A'.stop).Perm
                (live items present rs re) := by
            rw [hR.node_live]
            split
            · exact ⟨rl, rr, rfl, hR.2.1, hR.2.2.1, by omega, by omega, List.Perm.refl _⟩
            · exact ⟨rr, rl, rfl, hR.2.2.1, hR.2.1, by omega, by omega, List.perm_append_comm⟩
          rw [hA, hC]
          simp only
          obtain ⟨x1, B1, I1, a1, a2⟩ := ih ql A (by omega) hgl hAg bufs I (by omega) hb hd.2.1
          obtain ⟨y1, B2, I2, b1, b2⟩ := ih qr C (by omega) hgr hCg B1 I1 (by rw [a2.len]; omega) a2.st
            (hd.2.2.congr hgr fun i h1 h2 => a2.out i (by omega))
          have e1 := a2.start
          have e2 := a2.stop
          have e3 := a2.len
          have e4 := b2.start
          have e5 := b2.stop
          have e6 := b2.len
          obtain ⟨x2, B3, I3, c1, c2⟩ := ih x1 A' (by rw [a2.height]; omega) (a2.good hgl) hAg' B2 I2
            (by omega) b2.st (a2.dd.congr (a2.good hgl) fun i h1 h2 => b2.out i (by omega))
          have e7 := c2.len
          obtain ⟨y2, B4, I4, d1, d2⟩ := ih y1 C' (by rw [b2.height]; omega) (b2.good hgr) hCg' B3 I3
            (by omega) c2.st (b2.dd.congr (b2.good hgr) fun i h1 h2 => c2.out i (by omega))
          rw [a1]
          simp only [Except.bind]
          rw [b1]
          simp only [Except.bind]
          rw [c1]
          simp only [Except.bind]
          rw [d1]
          exact ⟨_, _, I4, rfl, DPost.four hQ' a2 b2 c2 d2 hAp hCp⟩

end

end Verif.BatchKd
