import Mathlib.Data.Finset.Range
import Mathlib.Data.Nat.Log
import Verif.BatchKd.CoSplit

set_option linter.unusedSectionVars false
set_option linter.unusedVariables false

/-!
The runs of the cache-oblivious build: the level arithmetic, the table of child positions, the serial loop and recursion, and
the parallel loop and recursion.
-/

namespace Verif.BatchKd

variable {α K : Type} {d : ℕ}

theorem bottomNumLevels_lt {L : ℕ} (h : 2 ≤ L) : bottomNumLevels L < L := by
  unfold bottomNumLevels
  rcases Nat.eq_zero_or_pos (Nat.clog 2 ((L + 1) / 2)) with h0 | h0
  · rw [h0]
    omega
  · have h1 : 2 ^ (Nat.clog 2 ((L + 1) / 2) - 1) < (L + 1) / 2 := by
      apply Nat.pow_pred_clog_lt_self (by omega)
      by_contra hc
      have : Nat.clog 2 ((L + 1) / 2) = 0 := Nat.clog_of_right_le_one (by omega) 2
      omega
    have h2 : 2 ^ Nat.clog 2 ((L + 1) / 2) = 2 * 2 ^ (Nat.clog 2 ((L + 1) / 2) - 1) := by
      rw [← pow_succ']
      congr 1
      omega
    omega

theorem bottomNumLevels_pos (L : ℕ) : 1 ≤ bottomNumLevels L := Nat.one_le_two_pow

theorem le_two_bottomNumLevels (L : ℕ) : L ≤ 2 * bottomNumLevels L := by
  have := Nat.le_pow_clog (b := 2) (by omega) ((L + 1) / 2)
  unfold bottomNumLevels
  omega

theorem two_le_bottomNumLevels {L : ℕ} (h : 3 ≤ L) : 2 ≤ bottomNumLevels L := by
  have := le_two_bottomNumLevels L
  omega

/-- The places of the bottom row of a complete tree of `t` levels. -/
def vRow : ℕ → List ℕ
  | 0 => []
  | 1 => [0]
  | t + 2 =>
    (List.range (2 ^ (t + 2 - bottomNumLevels (t + 2)))).flatMap fun sub =>
      (vRow (bottomNumLevels (t + 2))).map fun x =>
        (2 ^ (t + 2 - bottomNumLevels (t + 2)) - 1) + sub * (2 ^ bottomNumLevels (t + 2) - 1) + x
termination_by t => t
decreasing_by exact bottomNumLevels_lt (by omega)

theorem vRow_step {t : ℕ} (h : 2 ≤ t) : vRow t =
    (List.range (2 ^ (t - bottomNumLevels t))).flatMap fun sub =>
      (vRow (bottomNumLevels t)).map fun x => (2 ^ (t - bottomNumLevels t) - 1) + sub * (2 ^ bottomNumLevels t - 1) + x := by
  obtain ⟨k, rfl⟩ : ∃ k, t = k + 2 := ⟨t - 2, by omega⟩
  rw [vRow]

theorem childTable_eq (n : ℕ) : childTable n = .ok ((List.range (n + 2)).map vRow) := by
  induction n with
  | zero => simp [childTable, List.range_succ, vRow]
  | succ n ih =>
    rw [childTable, ih]
    simp only [Except.bind]
    have hb := bottomNumLevels_lt (L := n + 2) (by omega)
    rw [List.getElem?_map, List.getElem?_range hb]
    simp only [Option.map_some]
    rw [← vRow_step (t := n + 2) (by omega), List.range_succ (n := n + 2), List.map_append]
    rfl

theorem childRow_eq {t : ℕ} (h : t ≤ 24) : childRow t = .ok (vRow t) := by
  rw [childRow, if_neg (by unfold tableLevels; omega), childTable_eq]
  simp only [Except.bind]
  rw [List.getElem?_map, List.getElem?_range (by unfold tableLevels; omega)]
  rfl

theorem ceil_le_iff {n ls X : ℕ} (hls : 1 ≤ ls) : (n + (ls - 1)) / ls ≤ X ↔ n ≤ ls * X := by
  rw [Nat.div_le_iff_le_mul_add_pred (by omega)]
  omega

theorem numLevels_one {ls n : ℕ} (hls : 1 ≤ ls) (h : numLevels ls n = 1) : n ≤ ls := by
  have h0 : Nat.clog 2 ((n + (ls - 1)) / ls) = 0 := by unfold numLevels at h; omega
  have := Nat.le_pow_clog (b := 2) (by omega) ((n + (ls - 1)) / ls)
  rw [h0, pow_zero, ceil_le_iff hls] at this
  omega

theorem numLevels_big {ls n : ℕ} (hls : 1 ≤ ls) (h : ls < n) : 2 ≤ numLevels ls n := by
  by_contra hc
  have : numLevels ls n = 1 := by unfold numLevels at hc ⊢; omega
  have := numLevels_one hls this
  omega

theorem numLevels_gt {ls n : ℕ} (hls : 1 ≤ ls) (h : 2 ≤ numLevels ls n) : ls * 2 ^ (numLevels ls n - 2) < n := by
  by_contra hc
  have h1 : (n + (ls - 1)) / ls ≤ 2 ^ (numLevels ls n - 2) := (ceil_le_iff hls).mpr (by omega)
  have h2 := Nat.clog_le_of_le_pow h1
  unfold numLevels at h h2
  omega

theorem numLevels_le {ls n : ℕ} (hls : 1 ≤ ls) : n ≤ ls * 2 ^ (numLevels ls n - 1) := by
  have := Nat.le_pow_clog (b := 2) (by omega) ((n + (ls - 1)) / ls)
  rw [ceil_le_iff hls] at this
  unfold numLevels
  rwa [Nat.add_sub_cancel_left]

theorem numLevels_half {ls n s : ℕ} (hls : 1 ≤ ls) (h : 2 ≤ numLevels ls n) (hs : s ≤ (n + 1) / 2) :
    numLevels ls s ≤ numLevels ls n - 1 := by
  have h1 := numLevels_le (n := n) hls
  have h2 : s ≤ ls * 2 ^ (numLevels ls n - 2) := by
    have : ls * 2 ^ (numLevels ls n - 1) = 2 * (ls * 2 ^ (numLevels ls n - 2)) := by
      have : numLevels ls n - 1 = (numLevels ls n - 2) + 1 := by omega
      rw [this, pow_succ]
      ring
    omega
  have h3 := Nat.clog_le_of_le_pow ((ceil_le_iff hls).mpr h2)
  unfold numLevels at h h3 ⊢
  omega

theorem deep_of_levels {ls n T : ℕ} (hls : 1 ≤ ls) (h : 2 ≤ numLevels ls n)
    (hT : T = numLevels ls n - bottomNumLevels (numLevels ls n)) : Deep ls T n := by
  have hgt := numLevels_gt hls h
  have hb := bottomNumLevels_pos (numLevels ls n)
  intro j hj
  show ls + 1 ≤ _
  rw [Nat.le_div_iff_mul_le (by positivity)]
  rcases Nat.lt_or_ge (numLevels ls n) 3 with h3 | h3
  · have : j = 0 := by omega
    subst this
    have : numLevels ls n - 2 = 0 := by omega
    rw [this] at hgt
    omega
  · have hb2 := two_le_bottomNumLevels h3
    have h1 : 2 * 2 ^ j ≤ 2 ^ (numLevels ls n - 2) := by
      rw [← pow_succ']
      exact Nat.pow_le_pow_right (by omega) (by omega)
    have h2 : ls * (2 * 2 ^ j) ≤ ls * 2 ^ (numLevels ls n - 2) := Nat.mul_le_mul_left _ h1
    have h3 : (ls + 1) * 2 ^ j ≤ ls * (2 * 2 ^ j) := by
      rw [← Nat.mul_assoc]
      exact Nat.mul_le_mul_right _ (by omega)
    omega

theorem Deep.pow {T n : ℕ} (h : Deep 1 (T + 1) n) : 2 ^ (T + 1) ≤ n := by
  have := h T (by omega)
  have h2 : 2 ≤ n / 2 ^ T := this
  rw [Nat.le_div_iff_mul_le (by positivity)] at h2
  rw [pow_succ']
  exact h2

theorem halves_le (l n : ℕ) : ∀ s ∈ halves l n, s ≤ n := by
  intro s hs
  have := halves_sum l n
  rw [← this]
  exact List.le_sum_of_mem hs

theorem halves_half (l n : ℕ) : ∀ s ∈ halves (l + 1) n, s ≤ (n + 1) / 2 := by
  intro s hs
  rw [halves, List.mem_append] at hs
  rcases hs with hs | hs
  · have := halves_le _ _ s hs
    omega
  · have := halves_le _ _ s hs
    omega

/-- Places of a bucketwise allocation. -/
def placeOf (W : List α → ℕ) (bs : List (List α)) (i : ℕ) : ℕ := ((bs.map W).take i).sum

theorem placeOf_lt {W : List α → ℕ} {bs : List (List α)} {i j : ℕ} (hij : i < j) (hi : i < bs.length) :
    placeOf W bs i + W (bs.getD i []) ≤ placeOf W bs j := by
  induction bs generalizing i j with
  | nil => simp at hi
  | cons b bs ih =>
    obtain ⟨j, rfl⟩ : ∃ k, j = k + 1 := ⟨j - 1, by omega⟩
    cases i with
    | zero => simp [placeOf]
    | succ i =>
      have := ih (i := i) (j := j) (by omega) (by simpa using hi)
      simp only [placeOf, List.map_cons, List.take_succ_cons, List.sum_cons, List.getD_cons_succ] at this ⊢
      omega

section Runs
variable [Field K] [LinearOrder K]

/-- All builds of a loop use the same number of places. -/
def Uniform (Sp : ℕ → ℕ → ℕ → List α → PT K d → List α → Prop) (C : ℕ) : Prop :=
  ∀ o c u M t ou, Sp o c u M t ou → u = C

theorem coLoop_ok {T : ℕ} {A : PT K d} {orig s0 lim : ℕ} {mem0 : Mem K d} (hA : Complete (T + 1) A) {ci : List ℕ}
    (hrow : A.bottomRow = ci.map (orig + ·)) (hnod : A.addrs.Nodup) (hAr : ∀ a ∈ A.addrs, orig ≤ a ∧ a < s0)
    {build : Mem K d → ℕ → ℕ → List α → Except Err (Mem K d × List α × ℕ)} {W : List α → ℕ}
    {Sp : ℕ → ℕ → ℕ → List α → PT K d → List α → Prop} {all : List (List α)}
    (hbuild : ∀ m cur o M, M ∈ all → cur + W M ≤ lim → ∃ m' out used t, build m cur o M = .ok (m', out, used) ∧
      used ≤ W M ∧ Built m m' cur used t ∧ Sp o cur used M t out) :
    ∀ (Ls : List (List α)) (i : ℕ) (mem : Mem K d) (cur off : ℕ) (f : ℕ → PT K d) (bas w : ℕ → ℕ),
      (∀ M ∈ Ls, M ∈ all) → i + Ls.length = 2 ^ (T + 1) → LInv A orig s0 mem0 mem (Finset.range i) f bas w → s0 ≤ cur →
      (∀ j < i, bas j + w j ≤ cur) → cur + (Ls.map W).sum ≤ lim →
      ∃ (mem' : Mem K d) (outs : List (List α)) (cur' : ℕ) (f' : ℕ → PT K d) (bas' w' : ℕ → ℕ), coLoop build orig ci i Ls mem cur off = .ok (mem', outs.flatten, cur') ∧
        LInv A orig s0 mem0 mem' (Finset.range (2 ^ (T + 1))) f' bas' w' ∧ (∀ j < i, f' j = f j ∧ bas' j = bas j) ∧
        (∀ j < 2 ^ (T + 1), bas' j + w' j ≤ cur') ∧ cur ≤ cur' ∧ cur' ≤ cur + (Ls.map W).sum ∧ outs.length = Ls.length ∧
        (∀ k < Ls.length, ∃ u, Sp (off + startOf Ls k) (bas' (i + k)) u (Ls.getD k []) (f' (i + k)) (outs.getD k []) ∧
          ∀ C, Uniform Sp C → bas' (i + k) = cur + k * C) ∧ ∀ C, Uniform Sp C → cur' = cur + Ls.length * C := by
  intro Ls
  induction Ls with
  | nil =>
    intro i mem cur off f bas w _ hi hinv hs hb hlim
    rw [List.length_nil, Nat.add_zero] at hi
    subst hi
    exact ⟨mem, [], cur, f, bas, w, rfl, hinv, fun _ _ => ⟨rfl, rfl⟩, hb, le_rfl, by simp, rfl, by simp, by simp⟩
  | cons L Ls ih =>
    intro i mem cur off f bas w hall hi hinv hs hb hlim
    rw [List.length_cons] at hi
    rw [List.map_cons, List.sum_cons] at hlim
    have hci : ci.length = 2 ^ T := by
      have := hA.bottomRow_length
      rwa [hrow, List.length_map] at this
    have hlt : i / 2 < ci.length := by
      rw [hci]
      rw [pow_succ] at hi
      omega
    have hp : ci[i / 2]? = some ci[i / 2] := List.getElem?_eq_getElem hlt
    obtain ⟨mem1, hset, hmem⟩ := hinv.step hA hrow hnod hAr (i := i) (b := cur) (by omega) (by simp) hp hs (wi := 0)
      (fun j hj => Or.inl (hb j (by simpa using hj)))
    obtain ⟨m2, out, used, t, hbd, hle, hbt, hsp⟩ := hbuild mem1 cur off L (hall L (by simp)) (by omega)
    obtain ⟨mem1', hset', hmem'⟩ := hinv.step hA hrow hnod hAr (i := i) (b := cur) (by omega) (by simp) hp hs (wi := used)
      (fun j hj => Or.inl (hb j (by simpa using hj)))
    rw [hset] at hset'
    cases hset'
    have hinv2 := hmem' m2 t hbt
    rw [← Finset.range_add_one] at hinv2
    obtain ⟨mem', outs, cur', f', bas', w', hrun, hinv3, hf, hend, hc1, hc2, hol, hspec, huni⟩ :=
      ih (i + 1) m2 (cur + used) (off + L.length) _ _ _ (fun M hM => hall M (by simp [hM])) (by omega) hinv2 (by omega)
        (fun j hj => by
          by_cases hji : j = i
          · subst hji
            rw [Function.update_self, Function.update_self]
          · rw [Function.update_of_ne hji, Function.update_of_ne hji]
            have := hb j (by omega)
            omega) (by omega)
    refine ⟨mem', out :: outs, cur', f', bas', w', ?_, hinv3, ?_, hend, by omega, by simp only [List.map_cons, List.sum_cons]; omega, by simp [hol], ?_, ?_⟩
    · rw [coLoop, hp]
      simp only
      rw [hset]
      simp only [Except.bind]
      rw [hbd]
      simp only
      rw [hrun]
      rfl
    · intro j hj
      rw [(hf j (by omega)).1, (hf j (by omega)).2, Function.update_of_ne (by omega), Function.update_of_ne (by omega)]
      exact ⟨rfl, rfl⟩
    · intro k hk
      cases k with
      | zero =>
        rw [Nat.add_zero, (hf i (by omega)).1, (hf i (by omega)).2, Function.update_self, Function.update_self]
        refine ⟨used, ?_, fun C _ => by simp⟩
        simpa [startOf] using hsp
      | succ k =>
        obtain ⟨u, h1, h2⟩ := hspec k (by simpa using hk)
        have e : i + (k + 1) = i + 1 + k := by omega
        rw [e]
        refine ⟨u, ?_, fun C hC => ?_⟩
        · rw [List.getD_cons_succ, List.getD_cons_succ, startOf, List.take_succ_cons, List.flatten_cons, List.length_append,
            ← Nat.add_assoc]
          exact h1
        · rw [h2 C hC, hC _ _ _ _ _ _ hsp]
          ring
    · intro C hC
      rw [huni C hC, hC _ _ _ _ _ _ hsp, List.length_cons]
      ring

theorem Built.mono {mem mem' : Mem K d} {base w w' : ℕ} {t : PT K d} (h : Built mem mem' base w t) (hw : w ≤ w') :
    Built mem mem' base w' t where
  frame a ha := h.frame a (by omega)
  enc := h.enc
  inR a ha := by
    have := h.inR a ha
    omega
  nodup := h.nodup
  root := h.root

theorem writeCell_ok {cap : ℕ} {mem : Mem K d} {a : ℕ} {c : Cell K d} (h : a < cap) :
    writeCell cap mem a c = .ok (Function.update mem a (some c)) := by
  rw [writeCell, if_pos h]

theorem built_node {mem : Mem K d} {base off len : ℕ} {dim : Fin d} {v : K} :
    Built mem (Function.update mem base (some (splitCell off len dim v))) base 1
      (.node base off (off + len) dim v .hole .hole) where
  frame a ha := by rw [Function.update_of_ne (by omega)]
  enc := ⟨by rw [Function.update_self]; rfl, trivial, trivial⟩
  inR a ha := by
    simp only [PT.addrs, List.append_nil, List.mem_singleton] at ha
    omega
  nodup := by simp [PT.addrs]
  root hp := rfl

theorem built_leaf {mem : Mem K d} {base off : ℕ} {pos : α → Point K d} {L : List α} :
    Built mem (Function.update mem base (some (leafCell pos off L))) base 1
      (.leaf base off (off + L.length) L.length (leafBox pos (firstPos pos (fun _ => 0) L) L)) where
  frame a ha := by rw [Function.update_of_ne (by omega)]
  enc := by
    show Function.update mem base _ base = _
    rw [Function.update_self]; rfl
  inR a ha := by
    simp only [PT.addrs, List.mem_singleton] at ha
    omega
  nodup := by simp [PT.addrs]
  root hp := rfl

theorem isTop_one {sp : Fin d → List α → List α × K × ℕ} (hsp : Half sp) {dim : Fin d} {off base : ℕ} {L : List α}
    (hL : 2 ≤ L.length) : ∃ bs, IsTop sp 1 dim off L (.node base off (off + L.length) dim (sp dim L).2.1 .hole .hole) bs ∧
      (sp dim L).1 = bs.flatten :=
  ⟨_, ⟨base, .hole, .hole, _, _, rfl, rfl, ⟨rfl, rfl⟩, ⟨rfl, rfl⟩⟩, by simp⟩

theorem sum_const_map (bs : List (List α)) (c : ℕ) : (bs.map fun _ => c).sum = bs.length * c := by
  simp

theorem sum_bottom (bs : List (List α)) (h : ∀ M ∈ bs, M ≠ []) :
    (bs.map fun M => 2 * M.length - 1).sum + bs.length = 2 * bs.flatten.length := by
  induction bs with
  | nil => rfl
  | cons b bs ih =>
    have h1 := ih fun M hM => h M (by simp [hM])
    have h2 := List.length_pos_iff.mpr (h b (by simp))
    simp only [List.map_cons, List.sum_cons, List.length_cons, List.flatten_cons, List.length_append]
    omega

theorem pow_add_split (T b : ℕ) : 2 ^ T - 1 + 2 ^ T * (2 ^ b - 1) = 2 ^ (T + b) - 1 := by
  have h1 : 1 ≤ 2 ^ T := Nat.one_le_two_pow
  have h2 : 1 ≤ 2 ^ b := Nat.one_le_two_pow
  have h3 : 2 ^ T ≤ 2 ^ T * 2 ^ b := Nat.le_mul_of_pos_right _ (by omega)
  rw [Nat.mul_sub, Nat.mul_one, pow_add]
  omega

/-- What a finished top build means. -/
def TopDone (sp : Fin d → List α → List α × K × ℕ) (levels : ℕ) (mem mem' : Mem K d) (base : ℕ) (dim : Fin d) (off : ℕ)
    (L out : List α) (t : PT K d) (bs : List (List α)) : Prop :=
  Built mem mem' base (2 ^ levels - 1) t ∧ IsTop sp levels dim off L t bs ∧ out = bs.flatten ∧
    t.bottomRow = (vRow levels).map (base + ·)

theorem flatten_getD_flatMap (outs : List (List α)) (g : ℕ → List α) (h : ∀ k < outs.length, outs.getD k [] = g k) :
    outs.flatten = (List.range outs.length).flatMap g := by
  have : outs = (List.range outs.length).map g := by
    apply List.ext_getElem?
    intro k
    rw [List.getElem?_map]
    by_cases hk : k < outs.length
    · rw [List.getElem?_range hk, Option.map_some, ← h k hk, List.getElem?_eq_getElem hk, List.getD_eq_getElem _ _ hk]
    · rw [List.getElem?_eq_none (by omega), List.getElem?_eq_none (by simp; omega)]
      rfl
  rw [List.flatMap_def, ← this]

/-- The last step of a top build, serial or parallel. -/
theorem top_finish {sp : Fin d → List α → List α × K × ℕ} (hsp : Half sp) {T b off base : ℕ} {dim : Fin d} {L : List α}
    {A : PT K d} {bs : List (List α)} {mem m1 mem' : Mem K d} (hb : 1 ≤ b) {levels : ℕ} (hlev : levels = T + 1 + b)
    (hbl : bottomNumLevels levels = b)
    (hA : Built mem m1 base (2 ^ (T + 1) - 1) A) (hT : IsTop sp (T + 1) dim off L A bs) (hd : Deep 1 (T + 1) L.length)
    {f : ℕ → PT K d} {bas w : ℕ → ℕ} (done : Finset ℕ) (hdone : ∀ i, i ∈ done ↔ i < 2 ^ (T + 1))
    (hinv : LInv A base (base + (2 ^ (T + 1) - 1)) mem mem' done f bas w) {outs : List (List α)}
    (hol : outs.length = 2 ^ (T + 1))
    (hbas : ∀ i < 2 ^ (T + 1), bas i = base + (2 ^ (T + 1) - 1) + i * (2 ^ b - 1))
    (hend : ∀ i < 2 ^ (T + 1), bas i + w i ≤ base + (2 ^ levels - 1))
    (hf : ∀ i < 2 ^ (T + 1), ∃ g, IsTop sp b (dimPlus dim (T + 1)) (off + startOf bs i) (bs.getD i []) (f i) g ∧
      outs.getD i [] = g.flatten ∧ (f i).bottomRow = (vRow b).map (bas i + ·)) :
    ∃ t bs', TopDone sp levels mem mem' base dim off L outs.flatten t bs' := by
  have hc := hT.complete
  have hpw : 1 ≤ 2 ^ (T + 1) := Nat.one_le_two_pow
  choose g hg using hf
  let g' : ℕ → List (List α) := fun i => if h : i < 2 ^ (T + 1) then g i h else []
  have hg' : ∀ i (h : i < 2 ^ (T + 1)), g' i = g i h := fun i h => dif_pos h
  refine ⟨A.fill f, (List.range (2 ^ (T + 1))).flatMap g', ?_, ?_, ?_, ?_⟩
  · have := hinv.finish (E := base + (2 ^ levels - 1)) hc hA.nodup
      (fun a ha => by have := hA.inR a ha; omega) hA.root
      (by have := Nat.pow_le_pow_right (n := 2) (by omega) (show T + 1 ≤ levels by omega); omega)
      (fun i hi => (hdone i).mpr hi) (fun i hi => (hdone i).mp hi) hend
    rwa [Nat.add_sub_cancel_left] at this
  · rw [hlev]
    refine hT.comp hsp hd f g' fun i hi => ?_
    rw [hg' i hi]
    exact (hg i hi).1
  · rw [flatten_getD_flatMap outs (fun i => (g' i).flatten) fun k hk => by
      rw [hg' k (by omega)]; exact (hg k (by omega)).2.1, hol]
    induction List.range (2 ^ (T + 1)) with
    | nil => rfl
    | cons x l ih => rw [List.flatMap_cons, List.flatMap_cons, List.flatten_append, ih]
  · obtain ⟨B, rfl⟩ : ∃ B, b = B + 1 := ⟨b - 1, by omega⟩
    rw [hc.bottomRow_fill f (B := B) fun i hi => (hg i hi).1.complete, vRow_step (t := levels) (by omega), hbl]
    have : levels - (B + 1) = T + 1 := by omega
    rw [this, List.map_flatMap]
    apply List.flatMap_congr
    intro i hi
    rw [List.mem_range] at hi
    rw [(hg i hi).2.2, hbas i hi, List.map_map]
    apply List.map_congr_left
    intro x _
    simp only [Function.comp]
    omega

theorem bottom_finish {sp : Fin d → List α → List α × K × ℕ} (hsp : Half sp) {ls : ℕ} {pos : α → Point K d} (hls : 1 ≤ ls)
    {T off base E : ℕ} {dim : Fin d} {L : List α}
    {A : PT K d} {bs : List (List α)} {mem m1 mem' : Mem K d}
    (hA : Built mem m1 base (2 ^ (T + 1) - 1) A) (hT : IsTop sp (T + 1) dim off L A bs) (hd : Deep ls (T + 1) L.length)
    {f : ℕ → PT K d} {bas w : ℕ → ℕ} (done : Finset ℕ) (hdone : ∀ i, i ∈ done ↔ i < 2 ^ (T + 1))
    (hinv : LInv A base (base + (2 ^ (T + 1) - 1)) mem mem' done f bas w) {outs : List (List α)}
    (hol : outs.length = 2 ^ (T + 1)) (hE : base + (2 ^ (T + 1) - 1) ≤ E)
    (hend : ∀ i < 2 ^ (T + 1), bas i + w i ≤ E)
    (hf : ∀ i < 2 ^ (T + 1), IsBuild sp ls pos (f i) (dimPlus dim (T + 1)) (off + startOf bs i) (bs.getD i [])
      (outs.getD i [])) :
    ∃ t, Built mem mem' base (E - base) t ∧ IsBuild sp ls pos t dim off L outs.flatten := by
  refine ⟨A.fill f, hinv.finish hT.complete hA.nodup (fun a ha => by have := hA.inR a ha; omega) hA.root hE
      (fun i hi => (hdone i).mpr hi) (fun i hi => (hdone i).mp hi) hend, ?_⟩
  rw [flatten_getD_flatMap outs (fun i => outs.getD i []) fun k hk => rfl, hol]
  exact hT.build hsp hls hd f _ hf

/-- The serial build. -/
theorem coRec_ok {cap ls : ℕ} {nth : Fin d → ℕ → List α → List α} {pos : α → Point K d}
    {sp : Fin d → List α → List α × K × ℕ} (hsp : Half sp) (hls : 1 ≤ ls) {N : ℕ}
    (hser : ∀ dim M, M.length ≤ N → sp dim M = serialMedian nth pos dim M) :
    ∀ (fuel : ℕ) (mem : Mem K d) (off base : ℕ) (dim : Fin d) (levels : ℕ) (L : List α), levels ≤ fuel → levels ≤ 48 →
      L.length ≤ N →
      ((1 ≤ levels → 2 ^ levels ≤ L.length → base + (2 ^ levels - 1) ≤ cap →
        ∃ mem' out t bs, coRec cap ls nth pos fuel true mem off base dim levels L = .ok (mem', out, 2 ^ levels - 1) ∧
          TopDone sp levels mem mem' base dim off L out t bs) ∧
      (levels = numLevels ls L.length → L ≠ [] → base + (2 * L.length - 1) ≤ cap →
        ∃ mem' out used t, coRec cap ls nth pos fuel false mem off base dim levels L = .ok (mem', out, used) ∧
          used ≤ 2 * L.length - 1 ∧ Built mem mem' base used t ∧ IsBuild sp ls pos t dim off L out)) := by
  intro fuel
  induction fuel with
  | zero =>
    intro mem off base dim levels L hf _ _
    refine ⟨fun h => by omega, fun h => ?_⟩
    unfold numLevels at h
    omega
  | succ fuel ih =>
    intro mem off base dim levels L hf h48 hN
    by_cases h1 : levels = 1
    · subst h1
      refine ⟨fun _ h2 hcap => ?_, fun hlev hne hcap => ?_⟩
      · rw [pow_one] at h2 hcap
        obtain ⟨bs, hb1, hb2⟩ := isTop_one hsp (dim := dim) (off := off) (base := base) h2
        refine ⟨_, _, _, bs, ?_, built_node, hb1, hb2, ?_⟩
        · rw [coRec, if_pos rfl, if_neg (by omega), if_pos rfl]
          simp only
          rw [writeCell_ok (by omega), hser dim L hN]
          rfl
        · simp [PT.bottomRow, vRow]
      · have hle := numLevels_one hls hlev.symm
        have hpos := List.length_pos_iff.mpr hne
        refine ⟨Function.update mem base (some (leafCell pos off L)), L, 1,
          .leaf base off (off + L.length) L.length (leafBox pos (firstPos pos (fun _ => 0) L) L), ?_, by omega, built_leaf, ?_⟩
        · rw [coRec, if_pos rfl, if_neg (by omega)]
          simp only [Bool.false_eq_true, if_false]
          rw [writeCell_ok (by omega)]
          rfl
        · exact ⟨hle, hne, rfl, rfl, rfl, rfl, rfl⟩
    · by_cases h0 : levels = 0
      · refine ⟨fun h => by omega, fun h => ?_⟩
        unfold numLevels at h
        omega
      have h2 : 2 ≤ levels := by omega
      have hblt := bottomNumLevels_lt h2
      have hbpos := bottomNumLevels_pos levels
      have hb2 := le_two_bottomNumLevels levels
      obtain ⟨T, hT⟩ : ∃ T, levels - bottomNumLevels levels = T + 1 := ⟨levels - bottomNumLevels levels - 1, by omega⟩
      generalize hbe : bottomNumLevels levels = b at *
      have hpw : 1 ≤ 2 ^ (T + 1) := Nat.one_le_two_pow
      -- the top tree, common to both
      have htop : 2 ^ (T + 1) ≤ L.length → base + (2 ^ (T + 1) - 1) ≤ cap → ∃ m1 out A bs,
          coRec cap ls nth pos fuel true mem off base dim (T + 1) L = .ok (m1, out, 2 ^ (T + 1) - 1) ∧
          TopDone sp (T + 1) mem m1 base dim off L out A bs := fun hh hc =>
        (ih mem off base dim (T + 1) L (by omega) (by omega) hN).1 (by omega) hh hc
      refine ⟨fun _ hpow hcap => ?_, fun hlev hne hcap => ?_⟩
      · have hlv : levels = T + 1 + b := by omega
        have hple : 2 ^ (T + 1) ≤ 2 ^ levels := Nat.pow_le_pow_right (by omega) (by omega)
        obtain ⟨m1, out, A, bs, hrun, hA, hTop, rfl, hrow⟩ := htop (by omega) (by omega)
        have hd : Deep 1 (T + 1) L.length := Deep.of_pow (by omega)
        obtain ⟨hperm, hlens⟩ := hTop.facts hsp hd
        have hbl := hTop.bs_length
        have hMlen : ∀ M ∈ bs, 2 ^ b ≤ M.length ∧ M.length ≤ L.length := by
          intro M hM
          have hm : M.length ∈ halves (T + 1) L.length := by rw [← hlens]; exact List.mem_map_of_mem hM
          refine ⟨le_trans ?_ (halves_mem _ _ _ hm).1, halves_le _ _ _ hm⟩
          rw [Nat.le_div_iff_mul_le (by positivity), ← pow_add, Nat.add_comm, ← hlv]
          exact hpow
        obtain ⟨mem', outs, cur', f', bas', w', hloop, hinv, _, hend, _, hcur, hol, hspec, huni⟩ :=
          coLoop_ok (lim := cap) (mem0 := mem) hTop.complete hrow hA.nodup (fun a ha => hA.inR a ha)
            (build := fun m cur o M =>
              if true then coRec cap ls nth pos fuel true m o cur (dimPlus dim (T + 1)) b M
              else if M.length = 0 then .error .ub
              else coRec cap ls nth pos fuel false m o cur (dimPlus dim (T + 1)) (numLevels ls M.length) M)
            (W := fun _ => 2 ^ b - 1)
            (Sp := fun o c u M t out => u = 2 ^ b - 1 ∧ ∃ g, IsTop sp b (dimPlus dim (T + 1)) o M t g ∧
              out = g.flatten ∧ t.bottomRow = (vRow b).map (c + ·)) (all := bs)
            (fun m cur o M hM hlim => by
              obtain ⟨m', out, t, g, hr, hB, hI, ho, hro⟩ :=
                (ih m o cur (dimPlus dim (T + 1)) b M (by omega) (by omega) (by have := hMlen M hM; omega)).1 hbpos
                  (hMlen M hM).1 hlim
              exact ⟨m', out, 2 ^ b - 1, t, by simpa using hr, le_rfl, hB, rfl, g, hI, ho, hro⟩)
            bs 0 m1 (base + (2 ^ (T + 1) - 1)) off (fun _ => .hole) (fun _ => 0) (fun _ => 0) (fun M hM => hM)
            (by omega) (by simpa using LInv.init hA _ _ _) le_rfl (by simp)
            (by rw [sum_const_map, hbl, Nat.add_assoc, pow_add_split, ← hlv]; exact hcap)
        have hU : Uniform (fun (o c u : ℕ) (M : List α) (t : PT K d) (out : List α) => u = 2 ^ b - 1 ∧
            ∃ g, IsTop sp b (dimPlus dim (T + 1)) o M t g ∧ out = g.flatten ∧ t.bottomRow = (vRow b).map (c + ·))
            (2 ^ b - 1) := fun o c u M t ou h => h.1
        have hcur' : cur' = base + (2 ^ levels - 1) := by
          rw [huni _ hU, hbl, Nat.add_assoc, pow_add_split, ← hlv]
        have hbas : ∀ i < 2 ^ (T + 1), bas' i = base + (2 ^ (T + 1) - 1) + i * (2 ^ b - 1) ∧
            ∃ g, IsTop sp b (dimPlus dim (T + 1)) (off + startOf bs i) (bs.getD i []) (f' i) g ∧
              outs.getD i [] = g.flatten ∧ (f' i).bottomRow = (vRow b).map (bas' i + ·) := by
          intro i hi
          obtain ⟨u, ⟨_, g, hg1, hg2, hg3⟩, hc⟩ := hspec i (by omega)
          rw [Nat.zero_add] at hg1 hg3 hc
          exact ⟨hc _ hU, g, hg1, hg2, hg3⟩
        obtain ⟨t, bs', hdone⟩ := top_finish hsp hbpos hlv hbe hA hTop hd (Finset.range (2 ^ (T + 1)))
          (fun i => Finset.mem_range) hinv (by omega) (fun i hi => (hbas i hi).1) (fun i hi => by rw [← hcur']; exact hend i hi) (fun i hi => (hbas i hi).2)
        refine ⟨mem', _, t, bs', ?_, hdone⟩
        rw [coRec, if_neg h1]
        simp only
        rw [hbe, hT, hrun]
        simp only [Except.bind]
        rw [childRow_eq (by omega), bucketSizes_eq]
        simp only
        rw [← hlens, cuts_flatten]
        erw [hloop]
        simp only [Except.map]
        rw [hcur', Nat.add_sub_cancel_left]
      · have hd := deep_of_levels (n := L.length) (T := T + 1) hls (by omega) (by rw [← hlev, hbe, hT])
        have hd1 := hd.mono hls
        have hpow := hd1.pow
        obtain ⟨m1, out, A, bs, hrun, hA, hTop, rfl, hrow⟩ := htop hpow (by omega)
        obtain ⟨hperm, hlens⟩ := hTop.facts hsp hd1
        have hbl := hTop.bs_length
        have hMlen : ∀ M ∈ bs, M ≠ [] ∧ M.length ≤ (L.length + 1) / 2 := by
          intro M hM
          have hm : M.length ∈ halves (T + 1) L.length := by rw [← hlens]; exact List.mem_map_of_mem hM
          refine ⟨?_, halves_half _ _ _ hm⟩
          have h1 : 1 ≤ L.length / 2 ^ (T + 1) := by
            rw [Nat.le_div_iff_mul_le (by positivity)]
            omega
          have := (halves_mem _ _ _ hm).1
          rw [← List.length_pos_iff]
          omega
        have hsum := sum_bottom bs fun M hM => (hMlen M hM).1
        rw [hperm.length_eq, hbl] at hsum
        obtain ⟨mem', outs, cur', f', bas', w', hloop, hinv, _, hend, hcc, hcur, hol, hspec, huni⟩ :=
          coLoop_ok (lim := cap) (mem0 := mem) hTop.complete hrow hA.nodup (fun a ha => hA.inR a ha)
            (build := fun m cur o M =>
              if false then coRec cap ls nth pos fuel true m o cur (dimPlus dim (T + 1)) b M
              else if M.length = 0 then .error .ub
              else coRec cap ls nth pos fuel false m o cur (dimPlus dim (T + 1)) (numLevels ls M.length) M)
            (W := fun M => 2 * M.length - 1)
            (Sp := fun o c u M t out => IsBuild sp ls pos t (dimPlus dim (T + 1)) o M out) (all := bs)
            (fun m cur o M hM hlim => by
              have hh := hMlen M hM
              have hnl := numLevels_half hls (n := L.length) (by omega) hh.2
              obtain ⟨m', out, u, t, hr, hu, hB, hI⟩ :=
                (ih m o cur (dimPlus dim (T + 1)) (numLevels ls M.length) M (by omega) (by omega) (by omega)).2 rfl
                  hh.1 hlim
              refine ⟨m', out, u, t, ?_, hu, hB, hI⟩
              have := List.length_pos_iff.mpr hh.1
              simp only [Bool.false_eq_true, if_false]
              rw [if_neg (by omega)]
              exact hr)
            bs 0 m1 (base + (2 ^ (T + 1) - 1)) off (fun _ => .hole) (fun _ => 0) (fun _ => 0) (fun M hM => hM)
            (by omega) (by simpa using LInv.init hA _ _ _) le_rfl (by simp) (by omega)
        obtain ⟨t, ht, hI⟩ := bottom_finish (pos := pos) (outs := outs) hsp hls hA hTop hd (Finset.range (2 ^ (T + 1)))
          (fun i => Finset.mem_range) hinv (by omega) hcc hend (fun i hi => by
            obtain ⟨u, h, _⟩ := hspec i (by omega)
            simp only [Nat.zero_add] at h
            exact h)
        refine ⟨mem', _, cur' - base, t, ?_, by omega, ht, hI⟩
        rw [coRec, if_neg h1]
        simp only
        rw [hbe, hT, hrun]
        simp only [Except.bind]
        rw [childRow_eq (by omega), bucketSizes_eq]
        simp only
        rw [← hlens, cuts_flatten]
        erw [hloop]
        rfl

end Runs

end Verif.BatchKd
