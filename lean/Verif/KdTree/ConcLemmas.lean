import Verif.KdTree.ConcModel
import Verif.KdTree.BuildProps

set_option linter.unusedSectionVars false
set_option linter.unusedVariables false

/-!
Lemmas about the construction on the memory: the locations a call works on, absence of races, and the sequential run.
-/

namespace Verif.KdTree

open Verif.ForkJoin

variable {α K : Type} {d : ℕ}

/-- The locations of a call: its items and flags, and the entries of the node array below its node. -/
def Ft (off n base : ℕ) : Set Loc := fun l => match l with
  | .item i => off ≤ i ∧ i < off + n
  | .flag i => off ≤ i ∧ i < off + n
  | .node i => base ≤ i ∧ i + 2 < base + 2 * n

theorem ft_item {off n base i : ℕ} : (Loc.item i ∈ Ft off n base) ↔ off ≤ i ∧ i < off + n := Iff.rfl
theorem ft_flag {off n base i : ℕ} : (Loc.flag i ∈ Ft off n base) ↔ off ≤ i ∧ i < off + n := Iff.rfl
theorem ft_node {off n base i : ℕ} : (Loc.node i ∈ Ft off n base) ↔ base ≤ i ∧ i + 2 < base + 2 * n := Iff.rfl

/-! ### Slices -/

theorem mapM_range_congr {β : Type} {f g : ℕ → Option β} {n : ℕ} (h : ∀ i < n, f i = g i) :
    (List.range n).mapM f = (List.range n).mapM g := by
  have : ∀ l : List ℕ, (∀ i ∈ l, f i = g i) → l.mapM f = l.mapM g := by
    intro l
    induction l with
    | nil => intro _; rfl
    | cons a l ih =>
      intro hl
      rw [List.mapM_cons, List.mapM_cons, hl a (by simp), ih fun i hi => hl i (by simp [hi])]
  exact this _ fun i hi => h i (List.mem_range.mp hi)

theorem mapM_range_iff {β : Type} {f : ℕ → Option β} {n : ℕ} {l : List β} :
    (List.range n).mapM f = some l ↔ l.length = n ∧ ∀ i < n, f i = l[i]? := by
  induction n generalizing l with
  | zero =>
    simp only [List.range_zero, List.mapM_nil]
    constructor
    · intro h
      cases h
      exact ⟨rfl, fun i hi => absurd hi (Nat.not_lt_zero _)⟩
    · rintro ⟨h, _⟩
      rw [List.length_eq_zero_iff] at h
      rw [h]
      rfl
  | succ n ih =>
    rw [List.range_succ, List.mapM_append]
    simp only [List.mapM_cons, List.mapM_nil, bind_pure_comp, map_pure]
    constructor
    · intro h
      cases h1 : (List.range n).mapM f with
      | none => rw [h1] at h; cases h
      | some l1 =>
        cases h2 : f n with
        | none => rw [h1, h2] at h; cases h
        | some x =>
          rw [h1, h2] at h
          cases h
          obtain ⟨i1, i2⟩ := ih.mp h1
          refine ⟨by simp [i1], fun i hi => ?_⟩
          by_cases hin : i < n
          · rw [i2 i hin, List.getElem?_append_left (by omega)]
          · obtain rfl : i = n := by omega
            rw [h2, List.getElem?_append_right (by omega), i1, Nat.sub_self]
            rfl
    · rintro ⟨h1, h2⟩
      have hn : n < l.length := by omega
      have e1 : (List.range n).mapM f = some (l.take n) := ih.mpr ⟨by rw [List.length_take]; omega, fun i hi => by
        rw [h2 i (by omega), List.getElem?_take_of_lt hi]⟩
      rw [e1, h2 n (by omega), List.getElem?_eq_getElem hn]
      have : l.take n ++ [l[n]] = l := by
        rw [List.take_append_getElem hn, List.take_of_length_le (by omega)]
      show some (l.take n ++ [l[n]]) = some l
      rw [this]

theorem readItems_congr {s s' : KMem α K d} {off n : ℕ} (h : ∀ i, off ≤ i → i < off + n → s (.item i) = s' (.item i)) :
    readItems s off n = readItems s' off n :=
  mapM_range_congr fun i hi => h _ (by omega) (by omega)

theorem readFlags_congr {s s' : KMem α K d} {off n : ℕ} (h : ∀ i, off ≤ i → i < off + n → s (.flag i) = s' (.flag i)) :
    readFlags s off n = readFlags s' off n :=
  mapM_range_congr fun i hi => h _ (by omega) (by omega)

theorem readItems_iff {s : KMem α K d} {off n : ℕ} {l : List α} :
    readItems s off n = some l ↔ l.length = n ∧ ∀ i < n, s (.item (off + i)) = l[i]? := mapM_range_iff

theorem readFlags_iff {s : KMem α K d} {off n : ℕ} {l : List Bool} :
    readFlags s off n = some l ↔ l.length = n ∧ ∀ i < n, s (.flag (off + i)) = l[i]? := mapM_range_iff

theorem readItems_len {s : KMem α K d} {off n : ℕ} {l : List α} (h : readItems s off n = some l) : l.length = n :=
  (readItems_iff.mp h).1

theorem readFlags_len {s : KMem α K d} {off n : ℕ} {l : List Bool} (h : readFlags s off n = some l) : l.length = n :=
  (readFlags_iff.mp h).1

theorem readItems_take {s : KMem α K d} {off n m : ℕ} {l : List α} (h : readItems s off n = some l) (hm : m ≤ n) :
    readItems s off m = some (l.take m) := by
  obtain ⟨h1, h2⟩ := readItems_iff.mp h
  exact readItems_iff.mpr ⟨by rw [List.length_take]; omega, fun i hi => by
    rw [h2 i (by omega), List.getElem?_take_of_lt hi]⟩

theorem readItems_drop {s : KMem α K d} {off n m : ℕ} {l : List α} (h : readItems s off n = some l) (hm : m ≤ n) :
    readItems s (off + m) (n - m) = some (l.drop m) := by
  obtain ⟨h1, h2⟩ := readItems_iff.mp h
  exact readItems_iff.mpr ⟨by rw [List.length_drop]; omega, fun i hi => by
    rw [Nat.add_assoc, h2 (m + i) (by omega), List.getElem?_drop]⟩

theorem readItems_append {s : KMem α K d} {off n m : ℕ} {l l' : List α} (h : readItems s off n = some l)
    (h' : readItems s (off + n) m = some l') : readItems s off (n + m) = some (l ++ l') := by
  obtain ⟨h1, h2⟩ := readItems_iff.mp h
  obtain ⟨h3, h4⟩ := readItems_iff.mp h'
  refine readItems_iff.mpr ⟨by rw [List.length_append]; omega, fun i hi => ?_⟩
  by_cases hin : i < n
  · rw [h2 i hin, List.getElem?_append_left (by omega)]
  · have := h4 (i - n) (by omega)
    rw [show off + n + (i - n) = off + i by omega] at this
    rw [this, List.getElem?_append_right (by omega), h1]

theorem readItems_write {s : KMem α K d} {off : ℕ} {l : List α} : readItems (writeItems s off l) off l.length = some l := by
  refine readItems_iff.mpr ⟨rfl, fun i hi => ?_⟩
  show (if off ≤ off + i ∧ off + i < off + l.length then l[off + i - off]? else s (.item (off + i))) = l[i]?
  rw [if_pos (by omega), Nat.add_sub_cancel_left]

/-! ### Locality of the accesses -/

theorem local_aItem {N i : ℕ} {x : Option α} {S : Set Loc} (h : Loc.item i ∈ S) :
    FJ.LocalTo S (aItem N i x : KMem α K d → KVal α K d × KMem α K d) := by
  refine ⟨fun s l hl => ?_, fun s s' he => ?_⟩ <;> unfold aItem <;> split
  · exact Function.update_of_ne (by rintro rfl; exact hl h) _ _
  · rfl
  · refine ⟨rfl, fun l hl => ?_⟩
    by_cases hi : l = .item i
    · subst hi; simp only [Function.update_self]
    · simp only [Function.update_of_ne hi, he l hl]
  · exact ⟨rfl, fun l hl => he l hl⟩

theorem local_aNode {N i : ℕ} {r : NRec K d} {S : Set Loc} (h : Loc.node i ∈ S) :
    FJ.LocalTo S (aNode N i r : KMem α K d → KVal α K d × KMem α K d) := by
  refine ⟨fun s l hl => ?_, fun s s' he => ?_⟩ <;> unfold aNode <;> split
  · exact Function.update_of_ne (by rintro rfl; exact hl h) _ _
  · rfl
  · refine ⟨rfl, fun l hl => ?_⟩
    by_cases hi : l = .node i
    · subst hi; simp only [Function.update_self]
    · simp only [Function.update_of_ne hi, he l hl]
  · exact ⟨rfl, fun l hl => he l hl⟩

theorem local_aSib {i v : ℕ} {S : Set Loc} (h : Loc.node i ∈ S) :
    FJ.LocalTo S (aSib i v : KMem α K d → KVal α K d × KMem α K d) := by
  refine ⟨fun s l hl => ?_, fun s s' he => ?_⟩
  · unfold aSib
    split
    · exact Function.update_of_ne (by rintro rfl; exact hl h) _ _
    · rfl
  · have e := he _ h
    unfold aSib
    rw [e]
    split
    · refine ⟨rfl, fun l hl => ?_⟩
      by_cases hi : l = .node i
      · subst hi; simp only [Function.update_self]
      · simp only [Function.update_of_ne hi, he l hl]
    · exact ⟨rfl, fun l hl => he l hl⟩

section
variable [Field K] [LinearOrder K]

theorem local_aFlag {N i : ℕ} {key : α → K} {xM : K} {S : Set Loc} (h : Loc.flag i ∈ S) (h' : Loc.item i ∈ S) :
    FJ.LocalTo S (aFlag N i key xM : KMem α K d → KVal α K d × KMem α K d) := by
  refine ⟨fun s l hl => ?_, fun s s' he => ?_⟩
  · unfold aFlag
    split
    · rfl
    · split
      · exact Function.update_of_ne (by rintro rfl; exact hl h) _ _
      · rfl
  · have e := he _ h'
    unfold aFlag
    rw [e]
    split
    · exact ⟨rfl, fun l hl => he l hl⟩
    · split
      · refine ⟨rfl, fun l hl => ?_⟩
        by_cases hi : l = .flag i
        · subst hi; simp only [Function.update_self]
        · simp only [Function.update_of_ne hi, he l hl]
      · exact ⟨rfl, fun l hl => he l hl⟩

theorem aBox_snd {w : ℕ} {pos : α → Point K d} {up : Bool} {off n : ℕ} (s : KMem α K d) : (aBox w pos up off n s).2 = s := by
  unfold aBox
  split
  · rfl
  · split <;> rfl

theorem aSplit_snd {bs off n : ℕ} (s : KMem α K d) : (aSplit bs off n s).2 = s := by
  unfold aSplit
  split
  · split <;> rfl
  · rfl

theorem local_aBox {w : ℕ} {pos : α → Point K d} {up : Bool} {off n base : ℕ} :
    FJ.LocalTo (Ft off n base) (aBox w pos up off n : KMem α K d → KVal α K d × KMem α K d) := by
  refine ⟨fun s l hl => by rw [aBox_snd], fun s s' he => ⟨?_, fun l hl => by rw [aBox_snd, aBox_snd, he l hl]⟩⟩
  have e : readItems s off n = readItems s' off n := readItems_congr fun i h1 h2 => he (.item i) ⟨h1, h2⟩
  unfold aBox
  rw [e]
  split
  · rfl
  · split <;> rfl

theorem local_aSplit {bs off n base : ℕ} :
    FJ.LocalTo (Ft off n base) (aSplit bs off n : KMem α K d → KVal α K d × KMem α K d) := by
  refine ⟨fun s l hl => by rw [aSplit_snd], fun s s' he => ⟨?_, fun l hl => by rw [aSplit_snd, aSplit_snd, he l hl]⟩⟩
  have e : readItems s off n = readItems s' off n := readItems_congr fun i h1 h2 => he (.item i) ⟨h1, h2⟩
  have e' : readFlags s off n = readFlags s' off n := readFlags_congr fun i h1 h2 => he (.flag i) ⟨h1, h2⟩
  unfold aSplit
  rw [e, e']
  split
  · split <;> rfl
  · rfl

theorem cut_len {n : ℕ} {key : α → K} {xM : K} {l : List α} {res : List α × ℕ} (hn : 2 ≤ l.length)
    (h : splitItemSerial key xM l = .ok res) : res.1.length = l.length ∧ res.2 ≤ l.length := by
  obtain ⟨res', h1, h2⟩ := splitItemSerial_ok key xM l hn
  rw [h] at h1
  cases h1
  exact ⟨h2.1.length_eq, h2.2.1⟩

theorem local_aCut {off n base : ℕ} {key : α → K} {xM : K} (hn : 2 ≤ n) :
    FJ.LocalTo (Ft off n base) (aCut off n key xM : KMem α K d → KVal α K d × KMem α K d) := by
  refine ⟨fun s l hl => ?_, fun s s' he => ?_⟩
  · unfold aCut
    split
    · rfl
    · rename_i l0 hl0
      split
      · rfl
      · rename_i res hres
        have := cut_len (n := n) (by rw [readItems_len hl0]; exact hn) hres
        rw [readItems_len hl0] at this
        cases l with
        | item i =>
          show (if off ≤ i ∧ i < off + res.1.length then res.1[i - off]? else s (.item i)) = s (.item i)
          rw [if_neg]
          rw [this.1]
          exact hl
        | flag i => rfl
        | node i => rfl
  · have e : readItems s off n = readItems s' off n := readItems_congr fun i h1 h2 => he (.item i) ⟨h1, h2⟩
    unfold aCut
    rw [e]
    split
    · exact ⟨rfl, fun l hl => he l hl⟩
    · split
      · exact ⟨rfl, fun l hl => he l hl⟩
      · refine ⟨rfl, fun l hl => ?_⟩
        cases l with
        | item i =>
          simp only [writeItems]
          split
          · rfl
          · exact he _ hl
        | flag i => exact he _ hl
        | node i => exact he _ hl

/-! ### Absence of races -/

theorem rf_thenP {f : KMem α K d → KVal α K d × KMem α K d} {p : KProg α K d} {S : Set Loc} {P : Option (NRec K d) → Prop}
    (hf : FJ.LocalTo S f) (hp : FJ.rf p (FJ.LocalTo S) P) : FJ.rf (thenP f p) (FJ.LocalTo S) P := by
  refine ⟨hf, fun s => ?_⟩
  cases (f s).1 with
  | unit => exact hp
  | bad e => trivial
  | box b => trivial
  | cut m => trivial
  | split l m => trivial

theorem splitFlags_ok {bs : ℕ} (hb : 0 < bs) {l : List α} {fl : List Bool} (h : l.length = fl.length) {res : List α × ℕ}
    (hr : splitFlags bs l fl = .ok res) : res.2 ≤ l.length ∧ res.1.length = l.length := by
  have hc := Par.c11_split_two bs hb l fl h _ (List.Perm.refl _)
  unfold splitFlags at hr
  simp only [hc.1, mapM_id_map_some, hc.2] at hr
  cases hr
  have hz : (l.zip fl).length = l.length := by rw [List.length_zip]; omega
  constructor
  · show (((l.zip fl).filter fun a => !a.2).map Prod.fst).length ≤ l.length
    rw [List.length_map, ← hz]
    exact List.length_filter_le _ _
  · show (_ ++ _ : List α).length = _
    rw [List.length_append, List.length_map, List.length_map, ← hz, Nat.add_comm]
    have := (List.filter_append_perm (fun a : α × Bool => a.2) (l.zip fl)).length_eq
    rw [List.length_append] at this
    exact this

theorem rf_splitP {bs N : ℕ} (hb : 0 < bs) {up : Bool} {off n base : ℕ} (hn : 2 ≤ n) {key : α → K} {xM : K}
    {k : ℕ → KProg α K d} {P : Option (NRec K d) → Prop} (hk : ∀ m, m ≤ n → FJ.rf (k m) (FJ.LocalTo (Ft off n base)) P) :
    FJ.rf (splitP bs N up off n key xM k) (FJ.LocalTo (Ft off n base)) P := by
  unfold splitP
  split
  · refine FJ.rf_bind (P := fun _ => True) ?_ fun r _ => ?_
    · refine FJ.rf_parFor (S := fun i => {.flag i, .item i}) (fun i h1 h2 => ?_) ?_ ?_
      · exact rf_thenP (local_aFlag (by simp) (by simp)) trivial
      · intro i j hij l hl hl'
        simp only [Set.mem_insert_iff, Set.mem_singleton_iff] at hl hl'
        rcases hl with rfl | rfl <;> rcases hl' with h | h <;> cases h <;> exact hij rfl
      · intro i h1 h2 l hl
        simp only [Set.mem_insert_iff, Set.mem_singleton_iff] at hl
        rcases hl with rfl | rfl
        · exact ⟨h1, h2⟩
        · exact ⟨h1, h2⟩
    · refine ⟨local_aSplit, fun s => ?_⟩
      unfold aSplit
      split
      · rename_i l fl hl hfl
        split
        · trivial
        · rename_i res hres
          · have := splitFlags_ok hb (by rw [readItems_len hl, readFlags_len hfl]) hres
            rw [readItems_len hl] at this
            refine FJ.rf_bind (P := fun _ => True) ?_ fun r _ => hk _ this.1
            refine FJ.rf_parFor (S := fun i => {.item i}) (fun i h1 h2 => ?_) ?_ ?_
            · exact rf_thenP (local_aItem (by simp)) trivial
            · intro i j hij l hl hl'
              simp only [Set.mem_singleton_iff] at hl hl'
              subst hl
              injection hl' with h
              exact hij h
            · intro i h1 h2 l hl
              simp only [Set.mem_singleton_iff] at hl
              subst hl
              exact ⟨h1, h2⟩
      · trivial
  · refine ⟨local_aCut hn, fun s => ?_⟩
    unfold aCut
    split
    · trivial
    · rename_i l hl
      split
      · trivial
      · rename_i res hres
        · have := cut_len (n := n) (by rw [readItems_len hl]; exact hn) hres
          rw [readItems_len hl] at this
          exact hk _ this.2

theorem nodeMedian_lt {up : Bool} {n m : ℕ} (hn : 2 ≤ n) (hm : m ≤ n) : 0 < nodeMedian up n m ∧ nodeMedian up n m < n := by
  unfold nodeMedian
  split
  · split <;> omega
  · omega

theorem rf_childP {cap slot : ℕ} {p : KProg α K d} {S : Set Loc} {P : Option (NRec K d) → Prop} (hs : Loc.node slot ∈ S)
    (hp : FJ.rf p (FJ.LocalTo S) P) : FJ.rf (childP cap slot p) (FJ.LocalTo S) fun _ => True := by
  refine FJ.rf_bind hp fun r _ => ?_
  cases r with
  | none => trivial
  | some r => exact rf_thenP (local_aNode hs) trivial

theorem rf_bothP {up : Bool} {p q k : KProg α K d} {S T U : Set Loc} {P : Option (NRec K d) → Prop} (hS : S ⊆ U) (hT : T ⊆ U)
    (hd : ∀ l, l ∈ S → l ∉ T) (hp : FJ.rf p (FJ.LocalTo S) fun _ => True) (hq : FJ.rf q (FJ.LocalTo T) fun _ => True)
    (hk : FJ.rf k (FJ.LocalTo U) P) : FJ.rf (bothP up p q k) (FJ.LocalTo U) P := by
  unfold bothP
  split
  · exact ⟨FJ.LocalTo S, FJ.LocalTo T, fun _ => True, fun _ => True, fun f hf => hf.mono hS, fun f hf => hf.mono hT,
      fun f g hf hg => hf.comm hg hd, hp, hq, fun _ _ _ _ => hk⟩
  · exact FJ.rf_bind (FJ.rf_mono hp fun f hf => hf.mono hS) fun _ _ =>
      FJ.rf_bind (FJ.rf_mono hq fun f hf => hf.mono hT) fun _ _ => hk

/-- The locations of the left and the right branch below a node. -/
def FtL (off m base : ℕ) : Set Loc := {l | l = .node base ∨ l ∈ Ft off m (base + 1)}
/-- See `FtL`. -/
def FtR (off n m base : ℕ) : Set Loc := {l | l = .node (base + (2 * m - 1)) ∨ l ∈ Ft (off + m) (n - m) (base + 2 * m)}

theorem ftL_sub {off n m base : ℕ} (h0 : 0 < m) (h : m < n) : FtL off m base ⊆ Ft off n base := by
  rintro l (rfl | hl)
  · exact ⟨le_refl _, by omega⟩
  · cases l with
    | item i => obtain ⟨h1, h2⟩ := hl; exact ⟨by omega, by omega⟩
    | flag i => obtain ⟨h1, h2⟩ := hl; exact ⟨by omega, by omega⟩
    | node i => obtain ⟨h1, h2⟩ := hl; exact ⟨by omega, by omega⟩

theorem ftR_sub {off n m base : ℕ} (h0 : 0 < m) (h : m < n) : FtR off n m base ⊆ Ft off n base := by
  rintro l (rfl | hl)
  · exact ⟨by omega, by omega⟩
  · cases l with
    | item i => obtain ⟨h1, h2⟩ := hl; exact ⟨by omega, by omega⟩
    | flag i => obtain ⟨h1, h2⟩ := hl; exact ⟨by omega, by omega⟩
    | node i => obtain ⟨h1, h2⟩ := hl; exact ⟨by omega, by omega⟩

theorem ft_disj {off n m base : ℕ} (h0 : 0 < m) (h : m < n) : ∀ l, l ∈ FtL off m base → l ∉ FtR off n m base := by
  rintro l (rfl | hl) (h' | hr)
  · injection h' with h'; omega
  · obtain ⟨h1, h2⟩ := hr; omega
  · subst h'; obtain ⟨h1, h2⟩ := hl; omega
  · cases l with
    | item i => obtain ⟨h1, h2⟩ := hl; obtain ⟨h3, h4⟩ := hr; omega
    | flag i => obtain ⟨h1, h2⟩ := hl; obtain ⟨h3, h4⟩ := hr; omega
    | node i => obtain ⟨h1, h2⟩ := hl; obtain ⟨h3, h4⟩ := hr; omega

theorem rf_constructP {w bs N : ℕ} (hb : 0 < bs) {pos : α → Point K d} {leafSize : ℕ} (hls : 1 ≤ leafSize) {fuel : ℕ} {par : Bool}
    {off n base : ℕ} : FJ.rf (constructP w bs N pos leafSize fuel par off n base) (FJ.LocalTo (Ft off n base)) fun _ => True := by
  induction fuel generalizing par off n base with
  | zero => trivial
  | succ fuel ih =>
    unfold constructP
    refine ⟨local_aBox, fun s => ?_⟩
    cases (aBox w pos (par && decide (n > 2000)) off n s).1 with
    | unit => trivial
    | bad e => trivial
    | cut m => trivial
    | split l m => trivial
    | box b =>
      by_cases hle : n ≤ leafSize
      · simp only [if_pos hle]; trivial
      · simp only [if_neg hle]
        cases findWidest b with
        | error e => trivial
        | ok k =>
          refine rf_splitP hb (by omega) fun m hm => ?_
          obtain ⟨h0, h1⟩ := nodeMedian_lt (up := par && decide (n > 2000)) (by omega : 2 ≤ n) hm
          generalize nodeMedian (par && decide (n > 2000)) n m = median at h0 h1
          refine rf_bothP (ftL_sub h0 h1) (ftR_sub h0 h1) (ft_disj h0 h1) ?_ ?_ ?_
          · exact rf_childP (.inl rfl) (FJ.rf_mono ih fun f hf => hf.mono fun l hl => .inr hl)
          · exact rf_childP (.inl rfl) (FJ.rf_mono ih fun f hf => hf.mono fun l hl => .inr hl)
          · exact rf_thenP (local_aSib ⟨le_refl _, by omega⟩) (rf_thenP (local_aSib ⟨by omega, by omega⟩) trivial)

end

/-! ### The tree in memory -/

/-- Specification: the node `r` with its descendants in the node array from `base` on is the tree `t`: same boxes, the leaves hold
the items, children and siblings are linked, the slice of a node is the slices of its children one after the other. -/
def Rep (s : KMem α K d) : ℕ → NRec K d → Tree α K d → Prop
  | _, r, .leaf b l => r.box = b ∧ r.left = none ∧ r.right = none ∧ readItems s r.off r.len = some l
  | base, r, .node b tl tr => r.box = b ∧ r.left = some base ∧ r.right = some (base + (2 * tl.size - 1)) ∧
      ∃ nl nr : NRec K d, s (.node base) = some nl ∧ s (.node (base + (2 * tl.size - 1))) = some nr ∧
        nl.sib = some (base + (2 * tl.size - 1)) ∧ nr.sib = some base ∧ nl.off = r.off ∧ nr.off = r.off + nl.len ∧
        r.len = nl.len + nr.len ∧ Rep s (base + 1) nl tl ∧ Rep s (base + 2 * tl.size) nr tr

theorem rep_read {s : KMem α K d} {t : Tree α K d} {base : ℕ} {r : NRec K d} (h : Rep s base r t) :
    readItems s r.off r.len = some t.items := by
  induction t generalizing base r with
  | leaf b l => exact h.2.2.2
  | node b tl tr ihl ihr =>
    obtain ⟨_, _, _, nl, nr, _, _, _, _, h1, h2, h3, h4, h5⟩ := h
    have e1 := ihl h4
    have e2 := ihr h5
    rw [h3]
    rw [h1] at e1
    rw [h2] at e2
    exact readItems_append e1 e2

theorem rep_size {s : KMem α K d} {t : Tree α K d} {base : ℕ} {r : NRec K d} (h : Rep s base r t) : t.size = r.len :=
  readItems_len (rep_read h)

theorem rep_sib {s : KMem α K d} {t : Tree α K d} {base : ℕ} {r : NRec K d} (h : Rep s base r t) (v : Option ℕ) :
    Rep s base { r with sib := v } t := by
  cases t with
  | leaf b l => exact h
  | node b tl tr => exact h

/-- No leaf is empty. -/
def NE : Tree α K d → Prop
  | .leaf _ l => l ≠ []
  | .node _ l r => NE l ∧ NE r

theorem ne_of_sound [LinearOrder K] {pos : α → Point K d} {ls : ℕ} {t : Tree α K d} (h : Sound pos ls t) : NE t := by
  induction t with
  | leaf b l => exact h.1
  | node b l r ihl ihr => exact ⟨ihl h.2.2.1, ihr h.2.2.2⟩

theorem ne_size {t : Tree α K d} (h : NE t) : 0 < t.size := by
  induction t with
  | leaf b l => exact List.length_pos_of_ne_nil h
  | node b l r ihl ihr =>
    have := ihl h.1
    simp only [Tree.size, Tree.items, List.length_append] at this ⊢
    omega

theorem rep_frame {s s' : KMem α K d} {t : Tree α K d} {base : ℕ} {r : NRec K d} (h : Rep s base r t) (hne : NE t)
    (he : ∀ l, l ∈ Ft r.off r.len base → s' l = s l) : Rep s' base r t := by
  induction t generalizing base r with
  | leaf b l =>
    obtain ⟨h1, h2, h3, h4⟩ := h
    refine ⟨h1, h2, h3, ?_⟩
    rw [← h4]
    exact readItems_congr fun i hi hi' => he (.item i) ⟨hi, hi'⟩
  | node b tl tr ihl ihr =>
    obtain ⟨h1, h2, h3, nl, nr, g1, g2, g3, g4, g5, g6, g7, g8, g9⟩ := h
    have sl := ne_size hne.1
    have sr := ne_size hne.2
    have el := rep_size g8
    have er := rep_size g9
    refine ⟨h1, h2, h3, nl, nr, ?_, ?_, g3, g4, g5, g6, g7, ihl g8 hne.1 fun l hl => he l ?_, ihr g9 hne.2 fun l hl => he l ?_⟩
    · rw [he (.node base) ⟨le_refl _, by omega⟩, g1]
    · rw [he (.node (base + (2 * tl.size - 1))) ⟨by omega, by omega⟩, g2]
    · cases l with
      | item i => obtain ⟨k1, k2⟩ := hl; exact ⟨by omega, by omega⟩
      | flag i => obtain ⟨k1, k2⟩ := hl; exact ⟨by omega, by omega⟩
      | node i => obtain ⟨k1, k2⟩ := hl; exact ⟨by omega, by omega⟩
    · cases l with
      | item i => obtain ⟨k1, k2⟩ := hl; exact ⟨by omega, by omega⟩
      | flag i => obtain ⟨k1, k2⟩ := hl; exact ⟨by omega, by omega⟩
      | node i => obtain ⟨k1, k2⟩ := hl; exact ⟨by omega, by omega⟩

section
variable [Field K] [LinearOrder K]

theorem seq_aItem {N i : ℕ} {x : Option α} (h : i < N) (s : KMem α K d) (p : KProg α K d) :
    FJ.seq (thenP (aItem N i x) p) s = FJ.seq p (Function.update s (.item i) x) := by
  simp only [thenP, FJ.seq, aItem, if_pos h]

theorem seq_aNode {N i : ℕ} {r : NRec K d} (h : i < N) (s : KMem α K d) (p : KProg α K d) :
    FJ.seq (thenP (aNode N i r) p) s = FJ.seq p (Function.update s (.node i) (some r)) := by
  simp only [thenP, FJ.seq, aNode, if_pos h]

theorem seq_aSib {i v : ℕ} {s : KMem α K d} {r : NRec K d} (h : s (.node i) = some r) (p : KProg α K d) :
    FJ.seq (thenP (aSib i v) p) s = FJ.seq p (Function.update s (.node i) (some { r with sib := some v })) := by
  simp only [thenP, FJ.seq, aSib, h]

theorem seq_aFlag {N i : ℕ} {key : α → K} {xM : K} {s : KMem α K d} {x : α} (hx : s (.item i) = some x) (h : i < N)
    (p : KProg α K d) :
    FJ.seq (thenP (aFlag N i key xM) p) s = FJ.seq p (Function.update s (.flag i) (some (decide (key x < xM)))) := by
  simp only [thenP, FJ.seq, aFlag, hx, if_pos h]

/-- The loop that sets the flags. -/
theorem seq_flags {N off : ℕ} {key : α → K} {xM : K} {L : List α} {s : KMem α K d} (hr : readItems s off L.length = some L)
    (hN : off + L.length ≤ N) :
    ∃ s', FJ.seq (FJ.parFor none (fun i => thenP (aFlag N i key xM) (.ret none)) off L.length : KProg α K d) s = .ok (none, s') ∧
      readItems s' off L.length = some L ∧ readFlags s' off L.length = some (L.map fun x => decide (key x < xM)) := by
  obtain ⟨h1, h2⟩ := readItems_iff.mp hr
  obtain ⟨s', e, hi, hf⟩ := FJ.seq_parFor (r0 := none) (body := fun i => (thenP (aFlag N i key xM) (.ret none) : KProg α K d))
    (fun i s' => (∀ j, s' (.item j) = s (.item j)) ∧
      ∀ j, off + j < i → s' (.flag (off + j)) = (L.map fun x => decide (key x < xM))[j]?)
    (n := L.length) (lo := off) (s := s) (by
      rintro i hi1 hi2 s1 ⟨k1, k2⟩
      have hx := h2 (i - off) (by omega)
      rw [show off + (i - off) = i by omega, List.getElem?_eq_getElem (by omega)] at hx
      refine ⟨none, _, seq_aFlag (x := L[i - off]'(by omega)) (by rw [k1, hx]) (by omega) _, ?_, ?_⟩
      · intro j
        rw [Function.update_of_ne (by simp)]
        exact k1 j
      · intro j hj
        by_cases hji : off + j = i
        · subst hji
          rw [Function.update_self, List.getElem?_map, List.getElem?_eq_getElem (by omega)]
          simp only [Nat.add_sub_cancel_left, Option.map_some]
        · rw [Function.update_of_ne (by simpa using hji)]
          exact k2 j (by omega))
    ⟨fun _ => rfl, fun j hj => absurd hj (by omega)⟩
  refine ⟨s', e, ?_, ?_⟩
  · rw [← hr]
    exact readItems_congr fun i _ _ => hi i
  · exact readFlags_iff.mpr ⟨by simp, fun i hi => hf i (by omega)⟩

/-- The loop that fills a slice of the item array. -/
theorem seq_items {N off : ℕ} {L : List α} {s : KMem α K d} (hN : off + L.length ≤ N) :
    ∃ s', FJ.seq (FJ.parFor none (fun i => thenP (aItem N i L[i - off]?) (.ret none)) off L.length : KProg α K d) s = .ok (none, s') ∧
      readItems s' off L.length = some L := by
  obtain ⟨s', e, hi⟩ := FJ.seq_parFor (r0 := none) (body := fun i => (thenP (aItem N i L[i - off]?) (.ret none) : KProg α K d))
    (fun i s' => ∀ j, off + j < i → s' (.item (off + j)) = L[j]?)
    (n := L.length) (lo := off) (s := s) (by
      rintro i hi1 hi2 s1 k2
      refine ⟨none, _, seq_aItem (by omega) _ _, ?_⟩
      · intro j hj
        by_cases hji : off + j = i
        · subst hji
          rw [Function.update_self, Nat.add_sub_cancel_left]
        · rw [Function.update_of_ne (by simpa using hji)]
          exact k2 j (by omega))
    (fun j hj => absurd hj (by omega))
  exact ⟨s', e, readItems_iff.mpr ⟨rfl, fun i hi' => hi i (by omega)⟩⟩

/-- The split of a node is `nodeSplit`. -/
theorem seq_splitP {bs N : ℕ} (hb : 0 < bs) {up : Bool} {off : ℕ} {key : α → K} {xM : K} {L : List α} {s : KMem α K d}
    (hr : readItems s off L.length = some L) (hN : off + L.length ≤ N) (hn : 2 ≤ L.length) {sp : List α × ℕ}
    (hs : nodeSplit bs key xM up L = .ok sp) (k : ℕ → KProg α K d) :
    ∃ s', FJ.seq (splitP bs N up off L.length key xM k) s = FJ.seq (k sp.2) s' ∧ readItems s' off L.length = some sp.1 ∧
      sp.1.length = L.length ∧ sp.2 ≤ L.length := by
  unfold nodeSplit at hs
  unfold splitP
  cases up with
  | true =>
    simp only [if_true] at hs ⊢
    obtain ⟨s1, e1, r1, f1⟩ := seq_flags (key := key) (xM := xM) hr hN
    have hs' : splitFlags bs L (L.map fun x => decide (key x < xM)) = .ok sp := hs
    obtain ⟨g1, g2⟩ := splitFlags_ok hb (by simp) hs'
    obtain ⟨s2, e2, r2⟩ := seq_items (L := sp.1) (N := N) (off := off) (s := s1) (by omega)
    rw [g2] at e2 r2
    refine ⟨s2, ?_, r2, g2, g1⟩
    rw [FJ.seq_bind, e1]
    simp only [Except.bind, FJ.seq, aSplit, r1, f1, hs']
    rw [FJ.seq_bind, e2]
    rfl
  | false =>
    simp only [Bool.false_eq_true, if_false] at hs ⊢
    obtain ⟨g1, g2⟩ := cut_len (n := L.length) hn hs
    refine ⟨writeItems s off sp.1, ?_, ?_, g1, g2⟩
    · simp only [FJ.seq, aCut, hr, hs]
    · rw [← g1]
      exact readItems_write

theorem seq_bothP {up : Bool} {p q k : KProg α K d} {s s1 s2 : KMem α K d} {a b : Option (NRec K d)} (h1 : FJ.seq p s = .ok (a, s1))
    (h2 : FJ.seq q s1 = .ok (b, s2)) : FJ.seq (bothP up p q k) s = FJ.seq k s2 := by
  unfold bothP
  split
  · simp only [FJ.seq, h1, h2, Except.bind]
  · rw [FJ.seq_bind, h1]
    simp only [Except.bind]
    rw [FJ.seq_bind, h2]
    rfl

theorem seq_childP {cap slot : ℕ} {p : KProg α K d} {s s1 : KMem α K d} {r : NRec K d} (h : FJ.seq p s = .ok (some r, s1))
    (hs : slot < cap) : FJ.seq (childP cap slot p) s = .ok (none, Function.update s1 (.node slot) (some r)) := by
  unfold childP
  rw [FJ.seq_bind, h]
  simp only [Except.bind]
  rw [seq_aNode hs]
  rfl

end

section
variable [Field K] [LinearOrder K] [IsStrictOrderedRing K]

/-- The sequential run of the construction leaves the tree of `construct` in memory. -/
theorem seq_constructP {w bs N : ℕ} (hw : 0 < w) (hb : 0 < bs) (hd : 0 < d) {pos : α → Point K d} {leafSize : ℕ}
    (hls : 1 ≤ leafSize) {fuel : ℕ} {par : Bool} {off base : ℕ} {L : List α} {t : Tree α K d} {s : KMem α K d} (hL : L ≠ [])
    (hf : L.length < fuel)
    (hr : readItems s off L.length = some L) (hN : off + L.length ≤ N) (hB : base + 2 * L.length ≤ 2 * N)
    (ht : construct w bs pos leafSize fuel par L = .ok t) :
    ∃ r s', FJ.seq (constructP w bs N pos leafSize fuel par off L.length base) s = .ok (some r, s') ∧ r.sib = none ∧ r.off = off ∧
      r.len = L.length ∧ Rep s' base r t := by
  induction fuel generalizing par off base L t s with
  | zero => omega
  | succ fuel ih =>
    unfold construct at ht
    unfold constructP
    simp only [bind, Except.bind, pure, Except.pure] at ht
    generalize hup : (par && decide (L.length > 2000)) = up at ht
    simp only [hup, FJ.seq, aBox, hr]
    cases hbx : nodeBox w pos up L with
    | error e => rw [hbx] at ht; cases ht
    | ok b =>
      rw [hbx] at ht
      simp only at ht ⊢
      by_cases hle : L.length ≤ leafSize
      · simp only [if_pos hle] at ht ⊢
        cases ht
        exact ⟨_, _, rfl, rfl, rfl, rfl, rfl, rfl, rfl, hr⟩
      · simp only [if_neg hle] at ht ⊢
        cases hk : findWidest b with
        | error e => rw [hk] at ht; cases ht
        | ok k =>
          rw [hk] at ht
          simp only at ht ⊢
          cases hsp : nodeSplit bs (fun x => pos x k) ((b.hi k + b.lo k) / 2) up L with
          | error e => rw [hsp] at ht; cases ht
          | ok sp =>
            rw [hsp] at ht
            simp only at ht
            obtain ⟨s1, e1, r1, l1, m1⟩ := seq_splitP (N := N) hb hr hN (by omega) hsp fun m =>
              bothP up
                (childP (2 * N - 1) base (constructP w bs N pos leafSize fuel up off (nodeMedian up L.length m) (base + 1)))
                (childP (2 * N - 1) (base + (2 * nodeMedian up L.length m - 1))
                  (constructP w bs N pos leafSize fuel up (off + nodeMedian up L.length m) (L.length - nodeMedian up L.length m)
                    (base + 2 * nodeMedian up L.length m)))
                (thenP (aSib base (base + (2 * nodeMedian up L.length m - 1)))
                  (thenP (aSib (base + (2 * nodeMedian up L.length m - 1)) base)
                    (.ret (some ⟨b, off, L.length, some base, some (base + (2 * nodeMedian up L.length m - 1)), none⟩))))
            rw [e1]
            clear e1
            obtain ⟨h0, h1⟩ := nodeMedian_lt (up := up) (by omega : 2 ≤ L.length) m1
            generalize nodeMedian up L.length sp.2 = m at h0 h1 ht ⊢
            have hlt : (sp.1.take m).length = m := by rw [List.length_take]; omega
            have hld : (sp.1.drop m).length = L.length - m := by rw [List.length_drop]; omega
            have hn1 : sp.1.take m ≠ [] := by intro h; rw [h] at hlt; simp at hlt; omega
            have hn2 : sp.1.drop m ≠ [] := by intro h; rw [h] at hld; simp at hld; omega
            obtain ⟨tl, ctl, _, sol, _⟩ := construct_ok w bs hw hb hd pos leafSize hls fuel up (sp.1.take m) hn1 (by omega)
            obtain ⟨tr, ctr, _, sor, _⟩ := construct_ok w bs hw hb hd pos leafSize hls fuel up (sp.1.drop m) hn2 (by omega)
            rw [ctl] at ht
            simp only at ht
            rw [ctr] at ht
            simp only at ht
            cases ht
            have r1l := readItems_take r1 (m := m) (by omega)
            have r1r := readItems_drop r1 (m := m) (by omega)
            obtain ⟨nl, s2, e2, a1, a2, a3, a4⟩ := ih (s := s1) (off := off) (base := base + 1) hn1 (by omega)
              (by rw [hlt]; exact r1l) (by omega) (by omega) ctl
            rw [hlt] at e2 a3
            have f2 := FJ.seq_frame (rf_constructP hb hls) e2
            have c2 := seq_childP (slot := base) (cap := 2 * N - 1) e2 (by omega)
            obtain ⟨nr, s4, e4, b1, b2, b3, b4⟩ := ih (s := Function.update s2 (.node base) (some nl)) (off := off + m)
              (base := base + 2 * m) hn2 (by omega) (by
                rw [hld, ← r1r]
                refine readItems_congr fun i hi hi' => ?_
                rw [Function.update_of_ne (by simp)]
                refine f2 _ ?_
                rw [ft_item]
                omega) (by omega) (by omega) ctr
            rw [hld] at e4 b3
            have f4 := FJ.seq_frame (rf_constructP hb hls) e4
            have c4 := seq_childP (slot := base + (2 * m - 1)) (cap := 2 * N - 1) e4 (by omega)
            rw [seq_bothP c2 c4]
            have hne : Loc.node base ≠ Loc.node (base + (2 * m - 1)) := by
              intro h; injection h with h; omega
            have g1 : Function.update s4 (.node (base + (2 * m - 1))) (some nr) (.node base) = some nl := by
              rw [Function.update_of_ne hne, f4 _ (by rw [ft_node]; omega), Function.update_self]
            rw [seq_aSib g1, seq_aSib (r := nr) (by rw [Function.update_of_ne hne.symm, Function.update_self])]
            refine ⟨_, _, rfl, rfl, rfl, rfl, rfl, rfl, ?_, { nl with sib := some (base + (2 * m - 1)) },
              { nr with sib := some base }, ?_, ?_, ?_, rfl, a2, ?_, ?_, ?_, ?_⟩
            all_goals have hts : tl.size = m := by rw [rep_size a4, a3]
            · rw [hts]
            · rw [Function.update_of_ne hne, Function.update_self]
            · rw [hts, Function.update_self]
            · rw [hts]
            · show nr.off = off + nl.len
              rw [b2, a3]
            · show L.length = nl.len + nr.len
              rw [a3, b3]; omega
            · refine rep_frame (rep_sib a4 _) (ne_of_sound sol) fun l hl => ?_
              have hl' : l ∈ Ft off m (base + 1) := by
                have : l ∈ Ft nl.off nl.len (base + 1) := hl
                rwa [a2, a3] at this
              have q1 : l ≠ .node base := by
                rintro rfl
                rw [ft_node] at hl'
                omega
              have q2 : l ≠ .node (base + (2 * m - 1)) := by
                rintro rfl
                rw [ft_node] at hl'
                omega
              rw [Function.update_of_ne q2, Function.update_of_ne q1, Function.update_of_ne q2, f4 l ?_, Function.update_of_ne q1]
              intro hr
              exact ft_disj h0 h1 l (.inr hl') (.inr hr)
            · rw [hts]
              refine rep_frame (rep_sib b4 _) (ne_of_sound sor) fun l hl => ?_
              have hl' : l ∈ Ft (off + m) (L.length - m) (base + 2 * m) := by
                have : l ∈ Ft nr.off nr.len (base + 2 * m) := hl
                rwa [b2, b3] at this
              have q1 : l ≠ .node base := by
                rintro rfl
                rw [ft_node] at hl'
                omega
              have q2 : l ≠ .node (base + (2 * m - 1)) := by
                rintro rfl
                rw [ft_node] at hl'
                omega
              rw [Function.update_of_ne q2, Function.update_of_ne q1, Function.update_of_ne q2]

end

end Verif.KdTree
