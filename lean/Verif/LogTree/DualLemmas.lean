import Verif.LogTree.DualModel
import Verif.LogTree.Props

set_option linter.unusedSectionVars false
set_option linter.unusedVariables false

/-!
Lemmas on the dual-tree search over the log-structured tree.
-/

namespace Verif.LogTree

open Verif BatchKd
open Verif.KnnBuf (KSmallest)
open Verif.KdTree (kSmallest_adequate Adequate kSmallest_map)

variable {α K : Type} {d : ℕ} [Field K] [LinearOrder K] [IsStrictOrderedRing K] {pos : α → Point K d}
  {nth : ℕ → List (K × α) → List (K × α)} {dist : Point K d → Point K d → K} {k : ℕ}
  {qpos : ℕ → Option (Point K d)}

/-! ### Buffers that are in order -/

/-- A buffer with `k` elements has been cut down to the `k` best. -/
def Tidy (b : BBuf α K) : Prop := b.hasK = true → b.cached = true

theorem keepK_cached {b b' : BBuf α K} {r : K × α} (h : b.keepK nth = .ok (b', r)) : b'.cached = true := by
  unfold BBuf.keepK at h
  split at h
  · simp at h
  · simp only at h
    split at h
    · simp at h
    · split at h
      · simp only [Except.ok.injEq, Prod.mk.injEq] at h
        rw [← h.1]
        split
        · assumption
        · rfl
      · simp at h

theorem qRadius_tidy {b b' : BBuf α K} {r : Option K} (h : qRadius nth b = .ok (b', r)) : Tidy b' := by
  unfold qRadius at h
  split at h
  · cases hk : b.keepK nth with
    | error e => rw [hk] at h; simp [Except.map] at h
    | ok x =>
      rw [hk] at h
      simp only [Except.map, Except.ok.injEq, Prod.mk.injEq] at h
      intro _
      rw [← h.1]
      exact keepK_cached (nth := nth) (r := x.2) hk
  · rename_i hk
    simp only [Except.ok.injEq, Prod.mk.injEq] at h
    rw [← h.1]
    intro h'
    exact absurd h' hk

theorem dualOne_tidy {items : List α} {present : List Bool} {s e : ℕ} {q : Point K d} {b b' : BBuf α K} {r : Option K}
    (h : dualOne nth dist pos items present s e q b = .ok (b', r)) : Tidy b' := by
  unfold dualOne at h
  cases h1 : qRadius nth b with
  | error e => rw [h1] at h; cases h
  | ok x =>
    rw [h1] at h
    simp only [Except.bind] at h
    split at h
    · cases h
    · exact qRadius_tidy h

theorem dualLeaf_tidy {items : List α} {present : List Bool} {s e : ℕ} : ∀ {n i : ℕ} {rad rad' : Option K}
    {bufs bufs' : List (BBuf α K)}, dualLeaf nth dist pos qpos items present s e n i rad bufs = .ok (rad', bufs') →
    (∀ b ∈ bufs, Tidy b) → ∀ b ∈ bufs', Tidy b := by
  intro n
  induction n with
  | zero =>
    intro i rad rad' bufs bufs' h ht
    simp only [dualLeaf, Except.ok.injEq, Prod.mk.injEq] at h
    rw [← h.2]
    exact ht
  | succ n ih =>
    intro i rad rad' bufs bufs' h ht
    unfold dualLeaf at h
    split at h
    · rename_i q b hq hb
      cases h1 : dualOne nth dist pos items present s e q b with
      | error e => rw [h1] at h; cases h
      | ok x =>
        rw [h1] at h
        refine ih h fun c hc => ?_
        rcases List.mem_or_eq_of_mem_set hc with hc | rfl
        · exact ht c hc
        · exact dualOne_tidy (r := x.2) h1
    · cases h

theorem bind_ok {ε A B : Type} {x : Except ε A} {f : A → Except ε B} {y : B} (h : x.bind f = .ok y) :
    ∃ a, x = .ok a ∧ f a = .ok y := by
  cases x with
  | error e => cases h
  | ok a => exact ⟨a, rfl, h⟩

theorem map_ok {ε A B : Type} {x : Except ε A} {f : A → B} {y : B} (h : x.map f = .ok y) :
    ∃ a, x = .ok a ∧ f a = y := by
  cases x with
  | error e => cases h
  | ok a =>
    simp only [Except.map, Except.ok.injEq] at h
    exact ⟨a, rfl, h⟩

theorem dualHelper_tidy {items : List α} {present : List Bool} {boxDist : Box K d → Box K d → K} :
    ∀ {fuel : ℕ} {Q : QT K d} {R : BT K d} {bufs : List (BBuf α K)} {r : QT K d × List (BBuf α K)},
      dualHelper nth dist pos boxDist qpos items present fuel Q R bufs = .ok r →
      (∀ b ∈ bufs, Tidy b) → ∀ b ∈ r.2, Tidy b := by
  intro fuel
  induction fuel with
  | zero => intro Q R bufs r h; cases h
  | succ fuel ih =>
    intro Q R bufs r h ht
    cases Q with
    | nil => cases h
    | leaf qs qe qb dd =>
      cases R with
      | nil => cases h
      | leaf ri rs re rc rb =>
        simp only [dualHelper] at h
        split at h
        · simp only [Except.ok.injEq] at h; subst h; exact ht
        · obtain ⟨a, h1, rfl⟩ := map_ok h
          exact dualLeaf_tidy (rad' := a.1) h1 ht
      | node ri rs re rd rv rb rl rr =>
        simp only [dualHelper] at h
        split at h
        · exact ih h ht
        · split at h
          · exact ih h ht
          · split at h
            · simp only [Except.ok.injEq] at h; subst h; exact ht
            · split at h
              · obtain ⟨a, h1, rfl⟩ := map_ok h
                exact dualLeaf_tidy (rad' := a.1) h1 ht
              · split at h
                · obtain ⟨a, h1, h2⟩ := bind_ok h
                  exact ih h2 (ih h1 ht)
                · obtain ⟨a, h1, h2⟩ := bind_ok h
                  exact ih h2 (ih h1 ht)
    | node qs qe qb dd ql qr =>
      cases R with
      | nil =>
        simp only [dualHelper] at h
        cases h
      | leaf ri rs re rc rb =>
        simp only [dualHelper] at h
        split at h
        · obtain ⟨a, h1, rfl⟩ := map_ok h
          have := ih h1 ht; exact this
        · split at h
          · obtain ⟨a, h1, rfl⟩ := map_ok h
            have := ih h1 ht; exact this
          · split at h
            · cases h
            · split at h
              · simp only [Except.ok.injEq] at h; subst h; exact ht
              · split at h
                · obtain ⟨a, h1, h2⟩ := bind_ok h
                  obtain ⟨b, h3, rfl⟩ := map_ok h2
                  have := ih h3 (ih h1 ht); exact this
                · obtain ⟨a, h1, h2⟩ := bind_ok h
                  obtain ⟨b, h3, rfl⟩ := map_ok h2
                  have := ih h3 (ih h1 ht); exact this
      | node ri rs re rd rv rb rl rr =>
        simp only [dualHelper] at h
        split at h
        · obtain ⟨a, h1, rfl⟩ := map_ok h
          have := ih h1 ht; exact this
        · split at h
          · obtain ⟨a, h1, rfl⟩ := map_ok h
            have := ih h1 ht; exact this
          · split at h
            · cases h
            · split at h
              · exact ih h ht
              · split at h
                · exact ih h ht
                · split at h
                  · simp only [Except.ok.injEq] at h; subst h; exact ht
                  · split at h
                    · cases h
                    · obtain ⟨a, h1, h2⟩ := bind_ok h
                      obtain ⟨b, h3, h4⟩ := bind_ok h2
                      obtain ⟨c, h5, h6⟩ := bind_ok h4
                      obtain ⟨e, h7, rfl⟩ := map_ok h6
                      have := ih h7 (ih h5 (ih h3 (ih h1 ht))); exact this

/-! ### Radii from the buffers -/

/-- Every leaf of the query tree has a query. -/
def QFull : QT K d → Prop
  | .nil => True
  | .leaf s e _ _ => s < e
  | .node _ _ _ _ l r => QFull l ∧ QFull r

theorem radLoop_ok (hn : NthPairs nth) (I : ℕ → List α) : ∀ (n i : ℕ) (rad : Option K) (bufs : List (BBuf α K)),
    (∀ j, i ≤ j → j < i + n → (∃ p, qpos j = some p) ∧ k ≤ (I j).length) → i + n ≤ bufs.length →
    BufsOk qpos dist pos k I bufs → (∀ b ∈ bufs, Tidy b) →
    ∃ rad' bufs', radLoop nth n i rad bufs = .ok (rad', bufs') ∧ bufs'.length = bufs.length ∧
      BufsOk qpos dist pos k I bufs' ∧ (∀ b ∈ bufs', Tidy b) ∧
      (∀ (cost : α → K) (J : List α), Within k cost J rad → Within k cost J rad') ∧
      ∀ j p, i ≤ j → j < i + n → qpos j = some p → Within k (fun x => dist p (pos x)) (I j) rad'
  | 0, i, rad, bufs, _, _, hb, ht => ⟨rad, bufs, rfl, rfl, hb, ht, fun _ _ h => h, fun j p h1 h2 => by omega⟩
  | n + 1, i, rad, bufs, hq, hl, hb, ht => by
    obtain ⟨⟨q, hq0⟩, hk⟩ := hq i (le_refl _) (by omega)
    obtain ⟨b, hb1, hb2⟩ := hb i q hq0 (by omega)
    obtain ⟨b', r, h1, h2, h3, h4, h5⟩ := NBInv.keepK hn hb2 (by rw [List.length_map]; exact hk)
    have hw : Within k (fun x => dist q (pos x)) (I i) (some r.1) := by
      obtain ⟨b2, r2, g1, g2⟩ := qRadius_ok hn hb2
      have hK : b.hasK = true := (NBInv.hasK_iff hb2).2 (by rw [List.length_map]; exact hk)
      unfold qRadius at g1
      rw [if_pos hK, h1] at g1
      simp only [Except.map, Except.ok.injEq, Prod.mk.injEq] at g1
      rw [g1.2]
      exact g2.2
    have hb' : BufsOk qpos dist pos k I (bufs.set i b') := by
      intro j p hp hj
      rw [List.length_set] at hj
      by_cases hji : j = i
      · subst hji
        rw [hq0, Option.some.injEq] at hp
        subst hp
        exact ⟨b', by rw [List.getElem?_set_self hj], h2⟩
      · rw [List.getElem?_set_ne (Ne.symm hji)]
        exact hb j p hp hj
    obtain ⟨rad', bufs', g1, g2, g3, g4, g5, g6⟩ := radLoop_ok hn I n (i + 1) (omax rad (some r.1)) (bufs.set i b')
      (fun j a c => hq j (by omega) (by omega)) (by rw [List.length_set]; omega) hb' (by
        intro c hc
        rcases List.mem_or_eq_of_mem_set hc with hc | rfl
        · exact ht c hc
        · exact fun _ => keepK_cached h1)
    refine ⟨rad', bufs', ?_, by rw [g2, List.length_set], g3, g4, fun cost J hJ => g5 cost J hJ.omax_left, ?_⟩
    · simp only [radLoop, hb1, h1, Except.bind]
      exact g1
    · intro j p a1 a2 hp
      by_cases hji : j = i
      · subst hji
        rw [hq0, Option.some.injEq] at hp
        subst hp
        exact g5 _ _ hw.omax_right
      · exact g6 j p (by omega) (by omega) hp

theorem updateDual_ok (hn : NthPairs nth) (I : ℕ → List α) : ∀ (Q : QT K d) (bufs : List (BBuf α K)),
    QGood qpos Q → QFull Q → Q.stop ≤ bufs.length → (∀ j, Q.start ≤ j → j < Q.stop → k ≤ (I j).length) →
    BufsOk qpos dist pos k I bufs → (∀ b ∈ bufs, Tidy b) →
    ∃ Q' bufs', updateDual nth Q bufs = .ok (Q', bufs') ∧ Q'.erase = Q.erase ∧ bufs'.length = bufs.length ∧
      BufsOk qpos dist pos k I bufs' ∧ (∀ b ∈ bufs', Tidy b) ∧ DDok qpos dist pos k I Q' := by
  intro Q
  induction Q with
  | nil => intro bufs hg; exact absurd hg (by simp [QGood])
  | leaf s e b x =>
    intro bufs hg hf hl hk hb ht
    simp only [QT.start, QT.stop] at hl hk
    obtain ⟨p0, hp0, -⟩ := hg.2 s (le_refl _) hf
    obtain ⟨c, hc1, hc2⟩ := hb s p0 hp0 (by have : s < e := hf; omega)
    have hK : c.hasK = true := (NBInv.hasK_iff hc2).2 (by rw [List.length_map]; exact hk s (le_refl _) hf)
    obtain ⟨rad', bufs', g1, g2, g3, g4, g5, g6⟩ := radLoop_ok (k := k) (qpos := qpos) (dist := dist) (pos := pos) hn I
      (e - s) s (some 0) bufs (fun j a1 a2 => by
        have : s < e := hf
        obtain ⟨p, hp, -⟩ := hg.2 j a1 (by omega)
        exact ⟨⟨p, hp⟩, hk j a1 (by omega)⟩) (by have : s < e := hf; omega) hb ht
    refine ⟨.leaf s e b rad', bufs', ?_, rfl, g2, g3, g4, ?_⟩
    · simp only [updateDual, updateLeaf, hc1, hK, if_true, g1, Except.map]
    · intro i p h1 h2 hp
      exact g6 i p h1 (by have : s < e := hf; omega) hp
  | node s e b x l r ihl ihr =>
    intro bufs hg hf hl hk hb ht
    obtain ⟨g0, g1, g2, g3, g4, g5⟩ := hg
    have hll := g1.le
    have hrl := g2.le
    simp only [QT.start, QT.stop] at hl hk
    obtain ⟨l', b1, e1, e2, e3, e4, e5, e6⟩ := ihl bufs g1 hf.1 (by omega) (fun j a1 a2 => hk j (by omega) (by omega)) hb ht
    obtain ⟨r', b2, f1, f2, f3, f4, f5, f6⟩ := ihr b1 g2 hf.2 (by omega) (fun j a1 a2 => hk j (by omega) (by omega)) e4 e5
    have hnl := g1.not_nil
    have hnr := g2.not_nil
    refine ⟨.node s e b (omax (omax (some 0) l'.dd) r'.dd) l' r', b2, ?_, ?_, f3.trans e3, f4, f5, ?_, e6, f6⟩
    · cases l with
      | nil => simp [QT.isNil] at hnl
      | leaf =>
        cases r with
        | nil => simp [QT.isNil] at hnr
        | leaf => simp only [updateDual] at e1 f1 ⊢; rw [e1]; simp only [Except.bind]; rw [f1]; rfl
        | node => rw [updateDual, e1]; simp only [Except.bind]; rw [f1]; rfl; all_goals simp
      | node =>
        cases r with
        | nil => simp [QT.isNil] at hnr
        | leaf => rw [updateDual, e1]; simp only [Except.bind]; rw [f1]; rfl; all_goals simp
        | node => rw [updateDual, e1]; simp only [Except.bind]; rw [f1]; rfl; all_goals simp
    · simp [QT.erase, e2, f2]
    · intro i p h1 h2 hp
      have hsl : l'.start = l.start := by rw [← QT.start_erase, e2, QT.start_erase]
      have hpl : l'.stop = l.stop := by rw [← QT.stop_erase, e2, QT.stop_erase]
      have hsr : r'.start = r.start := by rw [← QT.start_erase, f2, QT.start_erase]
      have hpr : r'.stop = r.stop := by rw [← QT.stop_erase, f2, QT.stop_erase]
      by_cases hi : i < l.stop
      · exact (e6.root i p (by omega) (by omega) hp).omax_right.omax_left
      · exact (f6.root i p (by omega) (by omega) hp).omax_right

end Verif.LogTree
