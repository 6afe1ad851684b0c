import Mathlib.Data.List.GetD
import Verif.BatchKd.CoTrees

set_option linter.unusedSectionVars false
set_option linter.unusedVariables false

/-!
Repeated splitting on trees with holes: a complete top tree over its buckets, trees built down to the leaves, how they
compose, and the binary-heap build they agree with.
-/

namespace Verif.BatchKd

variable {α K : Type} {d : ℕ}

/-- What the composition needs of a split: the slice is rearranged and halved. -/
def Half (sp : Fin d → List α → List α × K × ℕ) : Prop :=
  ∀ dim L, 2 ≤ L.length → (sp dim L).1.Perm L ∧ (sp dim L).2.2 = L.length / 2

/-- `t` is the tree of `T` rounds of splitting of `L`, with the buckets `bs` at its holes. -/
def IsTop (sp : Fin d → List α → List α × K × ℕ) : ℕ → Fin d → ℕ → List α → PT K d → List (List α) → Prop
  | 0, _, _, L, t, bs => t = .hole ∧ bs = [L]
  | T + 1, dim, off, L, t, bs => ∃ a l r b1 b2, t = .node a off (off + L.length) dim (sp dim L).2.1 l r ∧ bs = b1 ++ b2 ∧
      IsTop sp T (nextDim dim) off ((sp dim L).1.take (sp dim L).2.2) l b1 ∧
      IsTop sp T (nextDim dim) (off + (sp dim L).2.2) ((sp dim L).1.drop (sp dim L).2.2) r b2

/-- All slices above depth `T` have more than `k` items. -/
def Deep (k T n : ℕ) : Prop := ∀ j < T, k < n / 2 ^ j

theorem Deep.left {k T n : ℕ} (h : Deep k (T + 1) n) : Deep k T (n / 2) := by
  intro j hj
  have := h (j + 1) (by omega)
  rwa [pow_succ, mul_comm, ← Nat.div_div_eq_div_mul] at this

theorem Deep.right {k T n : ℕ} (h : Deep k (T + 1) n) : Deep k T (n - n / 2) := by
  intro j hj
  exact lt_of_lt_of_le (h.left j hj) (Nat.div_le_div_right (by omega))

theorem Deep.mono {k k' T n : ℕ} (h : Deep k T n) (hk : k' ≤ k) : Deep k' T n := fun j hj => lt_of_le_of_lt hk (h j hj)

theorem Deep.head {k T n : ℕ} (h : Deep k (T + 1) n) : k < n := by
  have := h 0 (by omega)
  simpa using this

theorem Deep.of_pow {T n : ℕ} (h : 2 ^ T ≤ n) : Deep 1 T n := by
  intro j hj
  have h1 : 2 * 2 ^ j ≤ n := by
    refine le_trans ?_ h
    rw [← pow_succ']
    exact Nat.pow_le_pow_right (by omega) hj
  exact (Nat.le_div_iff_mul_le (by positivity)).mpr h1

theorem IsTop.complete {sp : Fin d → List α → List α × K × ℕ} {T : ℕ} {dim : Fin d} {off : ℕ} {L : List α} {t : PT K d}
    {bs : List (List α)} (h : IsTop sp T dim off L t bs) : Complete T t := by
  induction T generalizing dim off L t bs with
  | zero => exact h.1
  | succ T ih =>
    obtain ⟨a, l, r, b1, b2, rfl, rfl, hl, hr⟩ := h
    exact ⟨_, _, _, _, _, _, _, rfl, ih hl, ih hr⟩

theorem IsTop.facts {sp : Fin d → List α → List α × K × ℕ} (hsp : Half sp) {T : ℕ} {dim : Fin d} {off : ℕ} {L : List α}
    {t : PT K d} {bs : List (List α)} (h : IsTop sp T dim off L t bs) (hd : Deep 1 T L.length) :
    bs.flatten.Perm L ∧ bs.map List.length = halves T L.length := by
  induction T generalizing dim off L t bs with
  | zero =>
    obtain ⟨_, rfl⟩ := h
    simp [halves]
  | succ T ih =>
    obtain ⟨a, l, r, b1, b2, rfl, rfl, hl, hr⟩ := h
    obtain ⟨hp, hm⟩ := hsp dim L hd.head
    have hlen := hp.length_eq
    have e1 : ((sp dim L).1.take (sp dim L).2.2).length = L.length / 2 := by
      rw [List.length_take, hm, hlen]
      omega
    have e2 : ((sp dim L).1.drop (sp dim L).2.2).length = L.length - L.length / 2 := by
      rw [List.length_drop, hm, hlen]
    obtain ⟨p1, q1⟩ := ih hl (by rw [e1]; exact hd.left)
    obtain ⟨p2, q2⟩ := ih hr (by rw [e2]; exact hd.right)
    refine ⟨?_, ?_⟩
    · rw [List.flatten_append]
      refine (p1.append p2).trans ?_
      rw [List.take_append_drop]
      exact hp
    · rw [List.map_append, q1, q2, e1, e2, halves]

theorem IsTop.bs_length {sp : Fin d → List α → List α × K × ℕ} {T : ℕ} {dim : Fin d} {off : ℕ} {L : List α} {t : PT K d}
    {bs : List (List α)} (h : IsTop sp T dim off L t bs) : bs.length = 2 ^ T := by
  induction T generalizing dim off L t bs with
  | zero => rw [h.2]; rfl
  | succ T ih =>
    obtain ⟨a, l, r, b1, b2, rfl, rfl, hl, hr⟩ := h
    rw [List.length_append, ih hl, ih hr, pow_succ]
    ring

theorem dimPlus_succ (dim : Fin d) (T : ℕ) : dimPlus dim (T + 1) = dimPlus (nextDim dim) T := by
  apply Fin.ext
  simp only [dimPlus, nextDim, Nat.mod_add_mod]
  congr 1
  omega

theorem dimPlus_zero (dim : Fin d) : dimPlus dim 0 = dim := by
  apply Fin.ext
  simp [dimPlus, Nat.mod_eq_of_lt dim.2]

/-- The place of bucket `i`. -/
def startOf (bs : List (List α)) (i : ℕ) : ℕ := (bs.take i).flatten.length

theorem IsTop.comp {sp : Fin d → List α → List α × K × ℕ} (hsp : Half sp) {T B : ℕ} {dim : Fin d} {off : ℕ} {L : List α}
    {t : PT K d} {bs : List (List α)} (h : IsTop sp T dim off L t bs) (hd : Deep 1 T L.length) (f : ℕ → PT K d)
    (g : ℕ → List (List α))
    (hf : ∀ i < 2 ^ T, IsTop sp B (dimPlus dim T) (off + startOf bs i) (bs.getD i []) (f i) (g i)) :
    IsTop sp (T + B) dim off L (t.fill f) ((List.range (2 ^ T)).flatMap g) := by
  induction T generalizing dim off L t bs f g with
  | zero =>
    obtain ⟨rfl, rfl⟩ := h
    have := hf 0 (by simp)
    rw [dimPlus_zero] at this
    simpa [PT.fill, startOf] using this
  | succ T ih =>
    obtain ⟨a, l, r, b1, b2, rfl, rfl, hl, hr⟩ := h
    obtain ⟨hp, hm⟩ := hsp dim L hd.head
    have hlen := hp.length_eq
    have e1 : ((sp dim L).1.take (sp dim L).2.2).length = L.length / 2 := by
      rw [List.length_take, hm, hlen]
      omega
    have e2 : ((sp dim L).1.drop (sp dim L).2.2).length = L.length - L.length / 2 := by
      rw [List.length_drop, hm, hlen]
    have hd1 : Deep 1 T ((sp dim L).1.take (sp dim L).2.2).length := by rw [e1]; exact hd.left
    have hd2 : Deep 1 T ((sp dim L).1.drop (sp dim L).2.2).length := by rw [e2]; exact hd.right
    have hb1 := hl.bs_length
    have hf1 := (hl.facts hsp hd1).1.length_eq
    have H1 := ih hl hd1 f g fun i hi => by
      have := hf i (by rw [pow_succ]; omega)
      rw [dimPlus_succ, startOf, List.take_append_of_le_length (by omega), List.getD_append _ _ _ _ (by omega)] at this
      exact this
    have H2 := ih hr hd2 (fun k => f (k + 2 ^ T)) (fun k => g (k + 2 ^ T)) fun i hi => by
      have := hf (i + 2 ^ T) (by rw [pow_succ]; omega)
      rw [dimPlus_succ, startOf, ← hb1, Nat.add_comm i, List.take_length_add_append, List.flatten_append, List.length_append, hf1,
        List.getD_append_right _ _ _ _ (by omega), Nat.add_sub_cancel_left, e1, ← hm, ← Nat.add_assoc] at this
      simpa only [← hb1, Nat.add_comm i, startOf] using this
    rw [Nat.add_right_comm]
    refine ⟨a, _, _, _, _, by rw [PT.fill, hl.complete.holes], ?_, H1, H2⟩
    rw [pow_succ, mul_two, List.range_add, List.flatMap_append, List.flatMap_map]
    congr 1
    apply List.flatMap_congr
    intro i _
    rw [add_comm]

theorem cuts_flatten (bs : List (List α)) : cuts (bs.map List.length) bs.flatten = bs := by
  induction bs with
  | nil => rfl
  | cons b bs ih =>
    rw [List.map_cons, List.flatten_cons, cuts, List.take_left, List.drop_left, ih]

theorem slice_flatten (bs : List (List α)) (i : ℕ) (hi : i < bs.length) :
    (bs.flatten.drop (startOf bs i)).take (bs.getD i []).length = bs.getD i [] := by
  induction bs generalizing i with
  | nil => simp at hi
  | cons b bs ih =>
    cases i with
    | zero => simp [startOf]
    | succ i =>
      have := ih i (by simpa using hi)
      rw [startOf, List.take_succ_cons, List.flatten_cons, List.flatten_cons, List.length_append, List.drop_append,
        List.getD_cons_succ]
      have e : b.length + (bs.take i).flatten.length - b.length = startOf bs i := by
        rw [startOf]
        omega
      rw [e, List.drop_eq_nil_of_le (by omega), List.nil_append]
      exact this

theorem startOf_eq (bs : List (List α)) (i : ℕ) : startOf bs i = ((bs.map List.length).take i).sum := by
  rw [startOf, List.length_flatten, List.map_take]

section Build
variable [Field K] [LinearOrder K]

/-- `t` is the tree of splitting `L` down to at most `ls` items, `out` the rearranged items. -/
def IsBuild (sp : Fin d → List α → List α × K × ℕ) (ls : ℕ) (pos : α → Point K d) :
    PT K d → Fin d → ℕ → List α → List α → Prop
  | .hole, _, _, _, _ => False
  | .leaf _ s e n b, _, off, L, out => L.length ≤ ls ∧ L ≠ [] ∧ s = off ∧ e = off + L.length ∧ n = L.length ∧
      b = leafBox pos (firstPos pos (fun _ => 0) L) L ∧ out = L
  | .node _ s e dm v l r, dim, off, L, out => ls < L.length ∧ s = off ∧ e = off + L.length ∧ dm = dim ∧
      v = (sp dim L).2.1 ∧ ∃ o1 o2, out = o1 ++ o2 ∧
        IsBuild sp ls pos l (nextDim dim) off ((sp dim L).1.take (sp dim L).2.2) o1 ∧
        IsBuild sp ls pos r (nextDim dim) (off + (sp dim L).2.2) ((sp dim L).1.drop (sp dim L).2.2) o2

theorem IsTop.build {sp : Fin d → List α → List α × K × ℕ} (hsp : Half sp) {ls : ℕ} {pos : α → Point K d} (hls : 1 ≤ ls)
    {T : ℕ} {dim : Fin d} {off : ℕ} {L : List α} {t : PT K d} {bs : List (List α)} (h : IsTop sp T dim off L t bs)
    (hd : Deep ls T L.length) (f : ℕ → PT K d) (g : ℕ → List α)
    (hf : ∀ i < 2 ^ T, IsBuild sp ls pos (f i) (dimPlus dim T) (off + startOf bs i) (bs.getD i []) (g i)) :
    IsBuild sp ls pos (t.fill f) dim off L ((List.range (2 ^ T)).flatMap g) := by
  induction T generalizing dim off L t bs f g with
  | zero =>
    obtain ⟨rfl, rfl⟩ := h
    have := hf 0 (by simp)
    rw [dimPlus_zero] at this
    simpa [PT.fill, startOf] using this
  | succ T ih =>
    obtain ⟨a, l, r, b1, b2, rfl, rfl, hl, hr⟩ := h
    obtain ⟨hp, hm⟩ := hsp dim L (lt_of_le_of_lt hls hd.head)
    have hlen := hp.length_eq
    have e1 : ((sp dim L).1.take (sp dim L).2.2).length = L.length / 2 := by
      rw [List.length_take, hm, hlen]
      omega
    have e2 : ((sp dim L).1.drop (sp dim L).2.2).length = L.length - L.length / 2 := by
      rw [List.length_drop, hm, hlen]
    have hd1 : Deep ls T ((sp dim L).1.take (sp dim L).2.2).length := by rw [e1]; exact hd.left
    have hd2 : Deep ls T ((sp dim L).1.drop (sp dim L).2.2).length := by rw [e2]; exact hd.right
    have hb1 := hl.bs_length
    have hf1 := (hl.facts hsp (hd1.mono hls)).1.length_eq
    have H1 := ih hl hd1 f g fun i hi => by
      have := hf i (by rw [pow_succ]; omega)
      rw [dimPlus_succ, startOf, List.take_append_of_le_length (by omega), List.getD_append _ _ _ _ (by omega)] at this
      exact this
    have H2 := ih hr hd2 (fun k => f (k + 2 ^ T)) (fun k => g (k + 2 ^ T)) fun i hi => by
      have := hf (i + 2 ^ T) (by rw [pow_succ]; omega)
      rw [dimPlus_succ, startOf, ← hb1, Nat.add_comm i, List.take_length_add_append, List.flatten_append, List.length_append, hf1,
        List.getD_append_right _ _ _ _ (by omega), Nat.add_sub_cancel_left, e1, ← hm, ← Nat.add_assoc] at this
      simpa only [← hb1, Nat.add_comm i, startOf] using this
    rw [PT.fill, hl.complete.holes]
    refine ⟨hd.head, rfl, rfl, rfl, rfl, _, _, ?_, H1, H2⟩
    rw [pow_succ, mul_two, List.range_add, List.flatMap_append, List.flatMap_map]
    congr 1
    apply List.flatMap_congr
    intro i _
    rw [add_comm]

/-- The tree seen by the queries, with the boxes joined bottom-up. -/
def PT.toBT : PT K d → BT K d
  | .hole => .nil
  | .leaf a s e n b => .leaf a s e n b
  | .node a s e dim v l r => .node a s e dim v (recomputeBox (pointBox fun _ => 0) l.toBT r.toBT) l.toBT r.toBT

/-- A tree without the places of its nodes. -/
def BT.strip : BT K d → BT K d
  | .nil => .nil
  | .leaf _ s e n b => .leaf 0 s e n b
  | .node _ s e dim v b l r => .node 0 s e dim v b l.strip r.strip

theorem BT.strip_box (t : BT K d) : t.strip.box? = t.box? := by
  cases t <;> rfl

theorem IsBuild.box {sp : Fin d → List α → List α × K × ℕ} {ls : ℕ} {pos : α → Point K d} {t : PT K d} {dim : Fin d}
    {off : ℕ} {L out : List α} (h : IsBuild sp ls pos t dim off L out) : ∃ b, t.toBT.box? = some b := by
  cases t with
  | hole => exact h.elim
  | leaf => exact ⟨_, rfl⟩
  | node => exact ⟨_, rfl⟩

/-- The binary-heap build gives the same tree, up to the places of the nodes, and the same order of the items. -/
theorem IsBuild.buildRec {c : Cfg α K d} {pos : α → Point K d} {stale : Point K d} (hsp : Half c.split)
    (hls : 1 ≤ c.leafSize) {t : PT K d} {dim : Fin d} {off : ℕ} {L out : List α}
    (h : IsBuild c.split c.leafSize pos t dim off L out) (fuel idx : ℕ) (hf : L.length < fuel) :
    ∃ r, BatchKd.buildRec c pos stale fuel idx off dim L = .ok (r, out) ∧ r.strip = t.toBT.strip := by
  induction t generalizing dim off L out fuel idx with
  | hole => exact h.elim
  | leaf a s e n b =>
    obtain ⟨h1, h2, rfl, rfl, rfl, rfl, rfl⟩ := h
    obtain ⟨fuel, rfl⟩ : ∃ k, fuel = k + 1 := ⟨fuel - 1, by omega⟩
    rw [BatchKd.buildRec, if_pos h1]
    refine ⟨_, rfl, ?_⟩
    cases out with
    | nil => exact absurd rfl h2
    | cons x L => rfl
  | node a s e dm v l r ihl ihr =>
    obtain ⟨h1, rfl, rfl, rfl, rfl, o1, o2, rfl, hl, hr⟩ := h
    obtain ⟨fuel, rfl⟩ : ∃ k, fuel = k + 1 := ⟨fuel - 1, by omega⟩
    obtain ⟨hp, hm⟩ := hsp dm L (by omega)
    have hlen := hp.length_eq
    obtain ⟨x, hx, sx⟩ := ihl hl fuel (c.kids idx (c.split dm L).2.2).1 (by rw [List.length_take, hm, hlen]; omega)
    obtain ⟨y, hy, sy⟩ := ihr hr fuel (c.kids idx (c.split dm L).2.2).2 (by rw [List.length_drop, hm, hlen]; omega)
    rw [BatchKd.buildRec, if_neg (by omega)]
    simp only
    rw [if_neg (by omega), hx, hy]
    refine ⟨_, rfl, ?_⟩
    obtain ⟨bl, hbl⟩ := hl.box
    obtain ⟨br, hbr⟩ := hr.box
    have hx' : x.box? = some bl := by rw [← x.strip_box, sx, BT.strip_box, hbl]
    have hy' : y.box? = some br := by rw [← y.strip_box, sy, BT.strip_box, hbr]
    simp only [BT.strip, PT.toBT, sx, sy, recomputeBox, hx', hy', hbl, hbr]

end Build

end Verif.BatchKd
