import Verif.Par.SplitModel
import Mathlib.Data.List.Perm.Basic
import Mathlib.Data.List.Nodup
import Mathlib.Tactic.Linarith

namespace Verif.Par

variable {T : Type*}

theorem flatMap_blocks (bs : ℕ) (l : List T) (k : ℕ) :
    (List.range k).flatMap (block bs l) = l.take (k * bs) := by
  induction k with
  | zero => simp
  | succ k ih =>
    rw [List.range_succ, List.flatMap_append, ih]
    simp only [List.flatMap_cons, List.flatMap_nil, List.append_nil, block]
    rw [Nat.succ_mul, List.take_add]

theorem numBlocks_mul (n bs : ℕ) (h : 0 < bs) : n ≤ numBlocks n bs * bs := by
  unfold numBlocks
  have h1 := Nat.div_add_mod (n + bs - 1) bs
  have h2 := Nat.mod_lt (n + bs - 1) h
  have h3 : bs * ((n + bs - 1) / bs) = (n + bs - 1) / bs * bs := Nat.mul_comm _ _
  omega

theorem scanOf_eq (bs : ℕ) (fl : List Bool) (k : ℕ) :
    scanOf bs fl k = (fl.take (k * bs)).count false := by
  rw [← flatMap_blocks, List.count_flatMap]
  rfl

theorem scanOfK_eq (bs : ℕ) (fl : List ℕ) (x k : ℕ) :
    scanOfK bs fl x k = (fl.take (k * bs)).count x := by
  rw [← flatMap_blocks, List.count_flatMap]
  rfl

theorem blockWrites_append (c0 c1 : ℕ) (l r : List (T × Bool)) :
    blockWrites c0 c1 (l ++ r) = blockWrites c0 c1 l ++
      blockWrites (c0 + (l.map Prod.snd).count false) (c1 + (l.map Prod.snd).count true) r := by
  induction l generalizing c0 c1 with
  | nil => simp [blockWrites]
  | cons a l ih =>
    obtain ⟨x, f⟩ := a
    cases f
    · simp [blockWrites, ih]; congr 1; omega
    · simp [blockWrites, ih]; congr 1; omega

theorem chunkWrites_append (base x c : ℕ) (l r : List (T × ℕ)) :
    chunkWrites base x c (l ++ r) = chunkWrites base x c l ++
      chunkWrites base x (c + (l.map Prod.snd).count x) r := by
  induction l generalizing c with
  | nil => simp [chunkWrites]
  | cons a l ih =>
    obtain ⟨v, f⟩ := a
    by_cases h : f = x
    · simp [chunkWrites, ih, h]; congr 1; omega
    · simp [chunkWrites, ih, h]

theorem chunkWrites_shift (base x c : ℕ) (l : List (T × ℕ)) :
    chunkWrites base x c l = chunkWrites 0 x (base + c) l := by
  induction l generalizing c with
  | nil => simp [chunkWrites]
  | cons a l ih =>
    obtain ⟨v, f⟩ := a
    by_cases h : f = x
    · simp [chunkWrites, h, ih]; rfl
    · simp [chunkWrites, h, ih]

theorem map_snd_zip' {A B : Type*} (l : List A) (r : List B) (h : l.length = r.length) :
    (l.zip r).map Prod.snd = r := List.map_snd_zip (by omega)

theorem count_true_add_false (l : List Bool) : l.count false + l.count true = l.length := by
  induction l with
  | nil => rfl
  | cons a l ih => cases a <;> simp <;> omega

theorem take_zip' {A B : Type*} (n : ℕ) (l : List A) (r : List B) :
    (l.zip r).take n = (l.take n).zip (r.take n) := List.take_zipWith

/-- The blocked writes are the writes of one sequential pass. -/
theorem splitTwo_fst (bs : ℕ) (hb : 0 < bs) (inp : List T) (fl : List Bool)
    (h : inp.length = fl.length) :
    (splitTwo bs inp fl).1 = blockWrites 0 (fl.count false) (inp.zip fl) := by
  have hm : scanOf bs fl (numBlocks inp.length bs) = fl.count false := by
    rw [scanOf_eq, List.take_of_length_le]
    rw [← h]; exact numBlocks_mul _ _ hb
  have key : ∀ k, (List.range k).flatMap (fun i =>
      blockWrites (scanOf bs fl i) (i * bs + (fl.count false - scanOf bs fl i))
        (block bs (inp.zip fl) i)) =
      blockWrites 0 (fl.count false) ((inp.zip fl).take (k * bs)) := by
    intro k
    induction k with
    | zero => simp [blockWrites]
    | succ k ih =>
      rw [List.range_succ, List.flatMap_append, ih, Nat.succ_mul, List.take_add,
        blockWrites_append]
      simp only [List.flatMap_cons, List.flatMap_nil, List.append_nil]
      congr 1
      by_cases hk : k * bs ≤ fl.length
      · have hs : ((inp.zip fl).take (k * bs)).map Prod.snd = fl.take (k * bs) := by
          rw [take_zip', map_snd_zip']
          simp [h]
        rw [hs, ← scanOf_eq]
        have h1 := count_true_add_false (fl.take (k * bs))
        rw [← scanOf_eq, List.length_take, Nat.min_eq_left hk] at h1
        have h2 : scanOf bs fl k ≤ fl.count false := by
          rw [scanOf_eq]; exact (List.take_sublist _ _).count_le _
        have e1 : 0 + scanOf bs fl k = scanOf bs fl k := by omega
        have e2 : k * bs + (fl.count false - scanOf bs fl k) =
          fl.count false + (fl.take (k * bs)).count true := by omega
        rw [e1, e2]; rfl
      · have : block bs (inp.zip fl) k = [] := by
          unfold block
          rw [List.drop_of_length_le]
          · simp
          · rw [List.length_zip]; omega
        rw [this]
        have : List.take bs (List.drop (k * bs) (inp.zip fl)) = [] := this
        rw [this]; simp [blockWrites]
  have hl : (inp.zip fl).length ≤ numBlocks inp.length bs * bs := by
    rw [List.length_zip, ← h, Nat.min_self]; exact numBlocks_mul _ _ hb
  have := key (numBlocks inp.length bs)
  rw [List.take_of_length_le hl] at this
  simp only [splitTwo, hm]
  exact this

theorem splitTwo_snd (bs : ℕ) (hb : 0 < bs) (inp : List T) (fl : List Bool)
    (h : inp.length = fl.length) : (splitTwo bs inp fl).2 = fl.count false := by
  simp only [splitTwo]
  rw [scanOf_eq, List.take_of_length_le]
  rw [← h]; exact numBlocks_mul _ _ hb

theorem splitK_fst (bs : ℕ) (hb : 0 < bs) (inp : List T) (fl : List ℕ) (x : ℕ)
    (h : inp.length = fl.length) :
    (splitK bs inp fl x).1 = chunkWrites 0 x 0 (inp.zip fl) := by
  have key : ∀ k, (List.range k).flatMap (fun i =>
      chunkWrites (scanOfK bs fl x i) x 0 (block bs (inp.zip fl) i)) =
      chunkWrites 0 x 0 ((inp.zip fl).take (k * bs)) := by
    intro k
    induction k with
    | zero => simp [chunkWrites]
    | succ k ih =>
      rw [List.range_succ, List.flatMap_append, ih, Nat.succ_mul, List.take_add,
        chunkWrites_append]
      simp only [List.flatMap_cons, List.flatMap_nil, List.append_nil]
      congr 1
      have hs : ((inp.zip fl).take (k * bs)).map Prod.snd = fl.take (k * bs) := by
        rw [take_zip', map_snd_zip']
        simp [h]
      rw [hs, ← scanOfK_eq, chunkWrites_shift]
      have e1 : 0 + scanOfK bs fl x k = scanOfK bs fl x k + 0 := by omega
      rw [e1]; rfl
  have hl : (inp.zip fl).length ≤ numBlocks inp.length bs * bs := by
    rw [List.length_zip, ← h, Nat.min_self]; exact numBlocks_mul _ _ hb
  have := key (numBlocks inp.length bs)
  rw [List.take_of_length_le hl] at this
  simpa only [splitK] using this

theorem splitK_snd (bs : ℕ) (hb : 0 < bs) (inp : List T) (fl : List ℕ) (x : ℕ)
    (h : inp.length = fl.length) : (splitK bs inp fl x).2 = fl.count x := by
  simp only [splitK]
  rw [scanOfK_eq, List.take_of_length_le]
  rw [← h]; exact numBlocks_mul _ _ hb

/-! ### Running writes in any order -/

/-- `ws` writes the list `out` exactly: every position of `out` is written exactly once, with
its value. -/
def Writes (ws : List (ℕ × T)) (out : List T) : Prop :=
  (ws.map Prod.fst).Nodup ∧ (∀ p v, (p, v) ∈ ws ↔ out[p]? = some v)

theorem Writes.perm {ws ws' : List (ℕ × T)} {out : List T} (h : Writes ws out)
    (hp : ws'.Perm ws) : Writes ws' out :=
  ⟨(hp.map Prod.fst).nodup_iff.mpr h.1, fun p v => by rw [hp.mem_iff]; exact h.2 p v⟩

theorem runWrites_aux (ws : List (ℕ × T)) (acc : List (Option T))
    (hlt : ∀ w ∈ ws, w.1 < acc.length) (hnd : (ws.map Prod.fst).Nodup) :
    ∃ out, ws.foldl (fun acc w => acc.bind fun out =>
      if w.1 < out.length then some (out.set w.1 (some w.2)) else none) (some acc) = some out ∧
      out.length = acc.length ∧
      (∀ w ∈ ws, out[w.1]? = some (some w.2)) ∧
      (∀ p, (∀ w ∈ ws, w.1 ≠ p) → out[p]? = acc[p]?) := by
  induction ws generalizing acc with
  | nil => exact ⟨acc, rfl, rfl, by simp, by simp⟩
  | cons w ws ih =>
    have hw : w.1 < acc.length := hlt w (by simp)
    simp only [List.map_cons, List.nodup_cons] at hnd
    obtain ⟨out, h1, h2, h3, h4⟩ := ih (acc.set w.1 (some w.2))
      (fun v hv => by simpa using hlt v (by simp [hv])) hnd.2
    refine ⟨out, ?_, by simpa using h2, ?_, ?_⟩
    · simp only [List.foldl_cons, Option.bind_some, hw, if_true]; exact h1
    · intro v hv
      rcases List.mem_cons.mp hv with rfl | hv
      · rw [h4 v.1]
        · rw [List.getElem?_set]; simp [hw]
        · intro u hu he
          exact hnd.1 (he ▸ List.mem_map_of_mem hu)
      · exact h3 v hv
    · intro p hp
      rw [h4 p (fun v hv => hp v (by simp [hv]))]
      rw [List.getElem?_set_ne]
      exact hp w (by simp)

theorem Writes.run {ws : List (ℕ × T)} {out : List T} (h : Writes ws out) :
    runWrites out.length ws = some (out.map some) := by
  have hlt : ∀ w ∈ ws, w.1 < (List.replicate out.length (none : Option T)).length := by
    intro w hw
    have := (h.2 w.1 w.2).mp hw
    rw [List.length_replicate]
    exact (List.getElem?_eq_some_iff.mp this).1
  obtain ⟨o, h1, h2, h3, h4⟩ := runWrites_aux ws _ hlt h.1
  unfold runWrites
  rw [h1]
  congr 1
  apply List.ext_getElem?
  intro p
  rw [List.getElem?_map]
  rcases lt_or_ge p out.length with hp | hp
  · have hm : (p, out[p]) ∈ ws := (h.2 p out[p]).mpr (by simp [hp])
    rw [h3 _ hm]; simp [hp]
  · rw [List.getElem?_eq_none (by rw [h2]; simpa using hp), List.getElem?_eq_none hp]
    rfl

/-- The sequential pass with counters `c0`, `c1` writes the false elements from `c0` on and the
true elements from `c1` on. -/
theorem mem_blockWrites (c0 c1 : ℕ) (l : List (T × Bool)) (p : ℕ) (v : T) :
    (p, v) ∈ blockWrites c0 c1 l ↔
      (c0 ≤ p ∧ ((l.filter (fun a => !a.2)).map Prod.fst)[p - c0]? = some v) ∨
      (c1 ≤ p ∧ ((l.filter (fun a => a.2)).map Prod.fst)[p - c1]? = some v) := by
  induction l generalizing c0 c1 with
  | nil => simp [blockWrites]
  | cons a l ih =>
    obtain ⟨x, f⟩ := a
    cases f
    · simp only [blockWrites, List.mem_cons, Prod.mk.injEq, ih, Bool.not_false, List.filter_cons_of_pos,
        List.map_cons, Bool.false_eq_true, not_false_eq_true, List.filter_cons_of_neg]
      rw [← or_assoc]
      apply or_congr_left
      rcases Nat.lt_trichotomy p c0 with hp | rfl | hp
      · constructor
        · rintro (⟨rfl, _⟩ | ⟨h, _⟩) <;> omega
        · rintro ⟨h, _⟩; omega
      · simp only [Nat.sub_self, List.getElem?_cons_zero, true_and, le_refl, Option.some.injEq]
        constructor
        · rintro (h | ⟨h, _⟩)
          · exact h.symm
          · omega
        · intro h; exact Or.inl h.symm
      · have e : p - c0 = (p - (c0 + 1)) + 1 := by omega
        rw [e, List.getElem?_cons_succ]
        constructor
        · rintro (⟨rfl, _⟩ | ⟨_, h⟩)
          · omega
          · exact ⟨by omega, h⟩
        · rintro ⟨_, h⟩
          exact Or.inr ⟨by omega, h⟩
    · simp only [blockWrites, List.mem_cons, Prod.mk.injEq, ih, Bool.not_true, List.filter_cons_of_pos,
        List.map_cons, Bool.false_eq_true, not_false_eq_true, List.filter_cons_of_neg]
      rw [or_left_comm]
      apply or_congr_right
      rcases Nat.lt_trichotomy p c1 with hp | rfl | hp
      · constructor
        · rintro (⟨rfl, _⟩ | ⟨h, _⟩) <;> omega
        · rintro ⟨h, _⟩; omega
      · simp only [Nat.sub_self, List.getElem?_cons_zero, true_and, le_refl, Option.some.injEq]
        constructor
        · rintro (h | ⟨h, _⟩)
          · exact h.symm
          · omega
        · intro h; exact Or.inl h.symm
      · have e : p - c1 = (p - (c1 + 1)) + 1 := by omega
        rw [e, List.getElem?_cons_succ]
        constructor
        · rintro (⟨rfl, _⟩ | ⟨_, h⟩)
          · omega
          · exact ⟨by omega, h⟩
        · rintro ⟨_, h⟩
          exact Or.inr ⟨by omega, h⟩

theorem blockWrites_nodup (c0 c1 : ℕ) (l : List (T × Bool))
    (h : c0 + (l.filter (fun a => !a.2)).length ≤ c1) :
    ((blockWrites c0 c1 l).map Prod.fst).Nodup := by
  induction l generalizing c0 c1 with
  | nil => simp [blockWrites]
  | cons a l ih =>
    obtain ⟨x, f⟩ := a
    cases f
    · simp only [Bool.not_false, List.filter_cons_of_pos, List.length_cons] at h
      simp only [blockWrites, List.map_cons, List.nodup_cons]
      refine ⟨?_, ih _ _ (by omega)⟩
      intro hm
      obtain ⟨w, hw, he⟩ := List.mem_map.mp hm
      rcases (mem_blockWrites _ _ _ w.1 w.2).mp hw with h1 | h1
      · have := h1.1; omega
      · have := h1.1; omega
    · simp only [Bool.not_true, Bool.false_eq_true, not_false_eq_true, List.filter_cons_of_neg] at h
      simp only [blockWrites, List.map_cons, List.nodup_cons]
      refine ⟨?_, ih _ _ (by omega)⟩
      intro hm
      obtain ⟨w, hw, he⟩ := List.mem_map.mp hm
      rcases (mem_blockWrites _ _ _ w.1 w.2).mp hw with h1 | h1
      · have := (List.getElem?_eq_some_iff.mp h1.2).1
        rw [List.length_map] at this
        omega
      · have := h1.1; omega

theorem filter_snd_length (l : List (T × Bool)) :
    (l.filter (fun a => !a.2)).length = (l.map Prod.snd).count false := by
  induction l with
  | nil => rfl
  | cons a l ih =>
    obtain ⟨x, f⟩ := a
    cases f <;> simp [ih]

theorem blockWrites_writes (l : List (T × Bool)) :
    Writes (blockWrites 0 ((l.map Prod.snd).count false) l)
      ((l.filter (fun a => !a.2)).map Prod.fst ++ (l.filter (fun a => a.2)).map Prod.fst) := by
  refine ⟨blockWrites_nodup _ _ _ (by rw [filter_snd_length]; omega), fun p v => ?_⟩
  rw [mem_blockWrites]
  have hlen : ((l.filter (fun a => !a.2)).map Prod.fst).length = (l.map Prod.snd).count false := by
    rw [List.length_map, filter_snd_length]
  rcases lt_or_ge p ((l.map Prod.snd).count false) with hp | hp
  · rw [List.getElem?_append_left (by omega)]
    constructor
    · rintro (⟨_, h⟩ | ⟨h, _⟩)
      · simpa using h
      · omega
    · intro h; exact Or.inl ⟨Nat.zero_le _, by simpa using h⟩
  · rw [List.getElem?_append_right (by omega), hlen]
    constructor
    · rintro (⟨_, h⟩ | ⟨_, h⟩)
      · have := (List.getElem?_eq_some_iff.mp h).1
        omega
      · exact h
    · intro h; exact Or.inr ⟨hp, h⟩

theorem mem_chunkWrites (x c : ℕ) (l : List (T × ℕ)) (p : ℕ) (v : T) :
    (p, v) ∈ chunkWrites 0 x c l ↔
      (c ≤ p ∧ ((l.filter (fun a => a.2 = x)).map Prod.fst)[p - c]? = some v) := by
  induction l generalizing c with
  | nil => simp [chunkWrites]
  | cons a l ih =>
    obtain ⟨y, f⟩ := a
    by_cases hf : f = x
    · subst hf
      simp only [chunkWrites, if_true, List.mem_cons, Prod.mk.injEq, ih, decide_true,
        List.filter_cons_of_pos, List.map_cons, Nat.zero_add]
      rcases Nat.lt_trichotomy p c with hp | rfl | hp
      · constructor
        · rintro (⟨rfl, _⟩ | ⟨h, _⟩) <;> omega
        · rintro ⟨h, _⟩; omega
      · simp only [Nat.sub_self, List.getElem?_cons_zero, true_and, le_refl, Option.some.injEq]
        constructor
        · rintro (h | ⟨h, _⟩)
          · exact h.symm
          · omega
        · intro h; exact Or.inl h.symm
      · have e : p - c = (p - (c + 1)) + 1 := by omega
        rw [e, List.getElem?_cons_succ]
        constructor
        · rintro (⟨rfl, _⟩ | ⟨_, h⟩)
          · omega
          · exact ⟨by omega, h⟩
        · rintro ⟨_, h⟩
          exact Or.inr ⟨by omega, h⟩
    · simp [chunkWrites, hf, ih]

theorem chunkWrites_nodup (x c : ℕ) (l : List (T × ℕ)) :
    ((chunkWrites 0 x c l).map Prod.fst).Nodup := by
  induction l generalizing c with
  | nil => simp [chunkWrites]
  | cons a l ih =>
    obtain ⟨y, f⟩ := a
    by_cases hf : f = x
    · simp only [chunkWrites, hf, if_true, List.map_cons, List.nodup_cons]
      refine ⟨?_, ih _⟩
      intro hm
      obtain ⟨w, hw, he⟩ := List.mem_map.mp hm
      have := ((mem_chunkWrites _ _ _ w.1 w.2).mp hw).1
      omega
    · simp only [chunkWrites, hf, if_false]; exact ih _

theorem chunkWrites_writes (x : ℕ) (l : List (T × ℕ)) :
    Writes (chunkWrites 0 x 0 l) ((l.filter (fun a => a.2 = x)).map Prod.fst) :=
  ⟨chunkWrites_nodup _ _ _, fun p v => by rw [mem_chunkWrites]; simp⟩

end Verif.Par
