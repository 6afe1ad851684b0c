import Verif.BatchKd.CoRun

set_option linter.unusedSectionVars false
set_option linter.unusedVariables false

/-!
The parallel cache-oblivious build, the boxes, and the tree that the queries see.
-/

namespace Verif.BatchKd

variable {α K : Type} {d : ℕ} [Field K] [LinearOrder K]

theorem coPLoop_ok {T : ℕ} {A : PT K d} {orig s0 : ℕ} {mem0 : Mem K d} (hA : Complete (T + 1) A) {ci : List ℕ}
    (hrow : A.bottomRow = ci.map (orig + ·)) (hnod : A.addrs.Nodup) (hAr : ∀ a ∈ A.addrs, orig ≤ a ∧ a < s0)
    {build : Mem K d → ℕ → ℕ → List α → Except Err (Mem K d × List α)}
    {Sp : ℕ → ℕ → List α → PT K d → List α → Prop} {bs : List (List α)} {off : ℕ} (hbs : bs.length = 2 ^ (T + 1))
    {bas w : ℕ → ℕ} {ends bases : List ℕ} (hb : ∀ i < 2 ^ (T + 1), s0 ≤ bas i)
    (hdis : ∀ i j, i < 2 ^ (T + 1) → j < 2 ^ (T + 1) → i < j → bas i + w i ≤ bas j)
    (hbases : ∀ i < 2 ^ (T + 1), bases[i]? = some (bas i)) (hends : ∀ i ≤ 2 ^ (T + 1), ends[i]? = some (startOf bs i))
    (hbuild : ∀ i < 2 ^ (T + 1), ∀ m, ∃ m' out t, build m (bas i) (off + startOf bs i) (bs.getD i []) = .ok (m', out) ∧
      Built m m' (bas i) (w i) t ∧ Sp (off + startOf bs i) (bas i) (bs.getD i []) t out) :
    ∀ (order : List ℕ) (mem : Mem K d) (outs : List (List α)) (done : Finset ℕ) (f : ℕ → PT K d), order.Nodup →
      (∀ i ∈ order, i < 2 ^ (T + 1) ∧ i ∉ done) → (∀ i ∈ done, i < 2 ^ (T + 1)) →
      LInv A orig s0 mem0 mem done f bas w → outs.length = 2 ^ (T + 1) →
      (∀ i ∈ done, Sp (off + startOf bs i) (bas i) (bs.getD i []) (f i) (outs.getD i [])) →
      ∃ (mem' : Mem K d) (outs' : List (List α)) (done' : Finset ℕ) (f' : ℕ → PT K d),
        coPLoop build orig ci ends bases off bs.flatten order mem outs = .ok (mem', outs') ∧
        (∀ i, i ∈ done' ↔ i ∈ done ∨ i ∈ order) ∧ LInv A orig s0 mem0 mem' done' f' bas w ∧ outs'.length = 2 ^ (T + 1) ∧
        ∀ i ∈ done', Sp (off + startOf bs i) (bas i) (bs.getD i []) (f' i) (outs'.getD i []) := by
  intro order
  induction order with
  | nil =>
    intro mem outs done f _ _ _ hinv hol hS
    exact ⟨mem, outs, done, f, rfl, by simp, hinv, hol, hS⟩
  | cons i rest ih =>
    intro mem outs done f hnd hin hdn hinv hol hS
    obtain ⟨hi, hid⟩ := hin i (by simp)
    rw [List.nodup_cons] at hnd
    have hci : ci.length = 2 ^ T := by
      have := hA.bottomRow_length
      rwa [hrow, List.length_map] at this
    have hlt : i / 2 < ci.length := by
      rw [hci]
      rw [pow_succ] at hi
      omega
    have hp : ci[i / 2]? = some ci[i / 2] := List.getElem?_eq_getElem hlt
    obtain ⟨mem1, hset, hmem⟩ := hinv.step hA hrow hnod hAr (i := i) (b := bas i) hi hid hp (hb i hi) (wi := w i)
      (fun j hj => by
        rcases Nat.lt_trichotomy j i with h | h | h
        · exact Or.inl (hdis j i (hdn j hj) hi h)
        · exact absurd (h ▸ hj) hid
        · exact Or.inr (hdis i j hi (hdn j hj) h))
    obtain ⟨m2, out, t, hbd, hbt, hsp⟩ := hbuild i hi mem1
    have hinv2 := hmem m2 t hbt
    rw [Function.update_eq_self, Function.update_eq_self] at hinv2
    obtain ⟨mem', outs', done', f', hrun, hd', hinv3, hol', hS'⟩ := ih m2 (outs.set i out) (Insert.insert i done) _ hnd.2
      (fun j hj => ⟨(hin j (by simp [hj])).1, by
        rw [Finset.mem_insert]
        rintro (rfl | h)
        · exact hnd.1 hj
        · exact (hin j (by simp [hj])).2 h⟩)
      (fun j hj => by
        rcases Finset.mem_insert.mp hj with rfl | h
        · exact hi
        · exact hdn j h) hinv2 (by rw [List.length_set]; exact hol)
      (fun j hj => by
        by_cases hji : j = i
        · subst hji
          have e : (outs.set j out).getD j [] = out := by
            rw [List.getD_eq_getElem _ _ (by rw [List.length_set]; omega), List.getElem_set_self]
          rw [Function.update_self, e]
          exact hsp
        · have hjd : j ∈ done := (Finset.mem_insert.mp hj).resolve_left hji
          have hjl := hdn j hjd
          have e : (outs.set i out).getD j [] = outs.getD j [] := by
            rw [List.getD_eq_getElem _ _ (by rw [List.length_set]; omega),
              List.getElem_set_ne (Ne.symm hji), ← List.getD_eq_getElem outs [] (by omega)]
          rw [Function.update_of_ne hji, e]
          exact hS j hjd)
    refine ⟨mem', outs', done', f', ?_, fun j => ?_, hinv3, hol', hS'⟩
    · rw [coPLoop, hp, hends i (by omega), hends (i + 1) (by omega), hbases i hi]
      simp only
      rw [hset]
      simp only [Except.bind]
      have hs : startOf bs (i + 1) - startOf bs i = (bs.getD i []).length := by
        rw [startOf, startOf, List.take_add_one, List.getElem?_eq_getElem (by omega), List.getD_eq_getElem _ _ (by omega),
          List.flatten_append, List.length_append]
        simp only [Option.toList_some, List.flatten_cons, List.flatten_nil, List.append_nil]
        omega
      rw [hs, slice_flatten bs i (by omega), hbd]
      exact hrun
    · rw [hd', Finset.mem_insert, List.mem_cons]
      tauto

theorem leftEndpoints_startOf {T n : ℕ} {bs : List (List α)} (h : bs.map List.length = halves T n) :
    ∃ ends, leftEndpoints T n = .ok ends ∧ ∀ i ≤ 2 ^ T, ends[i]? = some (startOf bs i) := by
  refine ⟨inclusiveScan 0 (0 :: halves T n), ?_, fun i hi => ?_⟩
  · rw [leftEndpoints, bucketSizes_eq]
    rfl
  · have hlen := halves_length T n
    rw [inclusiveScan_getElem? _ _ _ (by simp [hlen]; omega), startOf_eq, h]
    simp

/-- The parallel build, in any order of the iterations. -/
theorem coPar_ok {cap ls thr : ℕ} {nth : Fin d → ℕ → List α → List α} {med : Fin d → List α → List α × K × ℕ}
    {pos : α → Point K d} {ord : ℕ → ℕ → Bool → List ℕ}
    (hord : ∀ base levels top, (ord base levels top).Perm (List.range (2 ^ (levels - bottomNumLevels levels))))
    {sp : Fin d → List α → List α × K × ℕ} (hsp : Half sp) (hls : 1 ≤ ls) (hthr : ls < thr)
    (hser : ∀ dim M, M.length < thr → sp dim M = serialMedian nth pos dim M)
    (hpar : ∀ dim M, thr ≤ M.length → sp dim M = med dim M) :
    ∀ (fuel : ℕ) (mem : Mem K d) (off base : ℕ) (dim : Fin d) (levels : ℕ) (L : List α), levels ≤ fuel → levels ≤ 48 →
      ((1 ≤ levels → 2 ^ levels ≤ L.length → base + (2 ^ levels - 1) ≤ cap →
        ∃ mem' out t bs, coParWith cap ls thr nth med pos ord fuel true mem off base dim levels L = .ok (mem', out) ∧
          TopDone sp levels mem mem' base dim off L out t bs) ∧
      (levels = numLevels ls L.length → L ≠ [] → base + (2 * L.length - 1) ≤ cap →
        ∃ mem' out t, coParWith cap ls thr nth med pos ord fuel false mem off base dim levels L = .ok (mem', out) ∧
          Built mem mem' base (2 * L.length - 1) t ∧ IsBuild sp ls pos t dim off L out)) := by
  intro fuel
  induction fuel with
  | zero =>
    intro mem off base dim levels L hf _
    refine ⟨fun h => by omega, fun h => ?_⟩
    unfold numLevels at h
    omega
  | succ fuel ih =>
    intro mem off base dim levels L hf h48
    by_cases hlt : L.length < thr
    · have hrec := coRec_ok (cap := cap) (ls := ls) (nth := nth) (pos := pos) hsp hls (N := L.length)
        (fun dim M hM => hser dim M (by omega)) (fuel + 1) mem off base dim levels L hf h48 le_rfl
      refine ⟨fun h1 h2 h3 => ?_, fun h1 h2 h3 => ?_⟩
      · obtain ⟨mem', out, t, bs, hr, hd⟩ := hrec.1 h1 h2 h3
        refine ⟨mem', out, t, bs, ?_, hd⟩
        rw [coParWith, if_pos hlt, hr]
        rfl
      · obtain ⟨mem', out, used, t, hr, hu, hB, hI⟩ := hrec.2 h1 h2 h3
        refine ⟨mem', out, t, ?_, hB.mono hu, hI⟩
        rw [coParWith, if_pos hlt, hr]
        rfl
    by_cases h1 : levels = 1
    · subst h1
      refine ⟨fun _ h2 hcap => ?_, fun hlev hne hcap => ?_⟩
      · rw [pow_one] at h2 hcap
        obtain ⟨bs, hb1, hb2⟩ := isTop_one hsp (dim := dim) (off := off) (base := base) h2
        refine ⟨_, _, _, bs, ?_, built_node, hb1, hb2, ?_⟩
        · rw [coParWith, if_neg hlt, if_pos ⟨rfl, rfl⟩, if_neg (by omega)]
          simp only
          rw [writeCell_ok (by omega), hpar dim L (by omega)]
          rfl
        · simp [PT.bottomRow, vRow]
      · have hle := numLevels_one hls hlev.symm
        omega
    · by_cases h0 : levels = 0
      · refine ⟨fun h => by omega, fun h => ?_⟩
        unfold numLevels at h
        omega
      have h2 : 2 ≤ levels := by omega
      have hblt := bottomNumLevels_lt h2
      have hbpos := bottomNumLevels_pos levels
      have hb2 := le_two_bottomNumLevels levels
      obtain ⟨T, hT⟩ : ∃ T, levels - bottomNumLevels levels = T + 1 := ⟨levels - bottomNumLevels levels - 1, by omega⟩
      have hordT : ∀ top, (ord base levels top).Perm (List.range (2 ^ (T + 1))) := fun top => by
        have := hord base levels top
        rwa [hT] at this
      generalize hbe : bottomNumLevels levels = b at *
      have hpw : 1 ≤ 2 ^ (T + 1) := Nat.one_le_two_pow
      have hon : ∀ top, (ord base levels top).Nodup := fun top => (hordT top).nodup_iff.mpr List.nodup_range
      have hom : ∀ top i, i ∈ ord base levels top ↔ i < 2 ^ (T + 1) := fun top i => by
        rw [(hordT top).mem_iff, List.mem_range]
      refine ⟨fun _ hpow hcap => ?_, fun hlev hne hcap => ?_⟩
      · have hlv : levels = T + 1 + b := by omega
        have hple : 2 ^ (T + 1) ≤ 2 ^ levels := Nat.pow_le_pow_right (by omega) (by omega)
        obtain ⟨m1, out, A, bs, hrun, hA, hTop, rfl, hrow⟩ :=
          (ih mem off base dim (T + 1) L (by omega) (by omega)).1 (by omega) (by omega) (by omega)
        have hd : Deep 1 (T + 1) L.length := Deep.of_pow (by omega)
        obtain ⟨hperm, hlens⟩ := hTop.facts hsp hd
        have hbl := hTop.bs_length
        have hMlen : ∀ i < 2 ^ (T + 1), 2 ^ b ≤ (bs.getD i []).length := by
          intro i hi
          have hM : bs.getD i [] ∈ bs := by
            rw [List.getD_eq_getElem _ _ (by omega)]
            exact List.getElem_mem _
          have hm : (bs.getD i []).length ∈ halves (T + 1) L.length := by rw [← hlens]; exact List.mem_map_of_mem hM
          refine le_trans ?_ (halves_mem _ _ _ hm).1
          rw [Nat.le_div_iff_mul_le (by positivity), ← pow_add, Nat.add_comm, ← hlv]
          exact hpow
        have hplace : ∀ i < 2 ^ (T + 1), base + (2 ^ (T + 1) - 1) + i * (2 ^ b - 1) + (2 ^ b - 1) ≤ base + (2 ^ levels - 1) := by
          intro i hi
          have h1 : (i + 1) * (2 ^ b - 1) ≤ 2 ^ (T + 1) * (2 ^ b - 1) := Nat.mul_le_mul_right _ hi
          have h2 := pow_add_split (T + 1) b
          rw [← hlv] at h2
          rw [Nat.add_mul, Nat.one_mul] at h1
          omega
        obtain ⟨ends, hends, hends'⟩ := leftEndpoints_startOf hlens
        obtain ⟨mem', outs, done', f', hloop, hdone, hinv, hol, hS⟩ :=
          coPLoop_ok (mem0 := mem) hTop.complete hrow hA.nodup (fun a ha => hA.inR a ha)
            (build := fun m cur o M =>
              if true then coParWith cap ls thr nth med pos ord fuel true m o cur (dimPlus dim (T + 1)) b M
              else if M.length = 0 then .error .ub
              else coParWith cap ls thr nth med pos ord fuel false m o cur (dimPlus dim (T + 1)) (numLevels ls M.length) M)
            (Sp := fun o c M t out => ∃ g, IsTop sp b (dimPlus dim (T + 1)) o M t g ∧
              out = g.flatten ∧ t.bottomRow = (vRow b).map (c + ·)) (bs := bs) (off := off) hbl
            (bas := fun i => base + (2 ^ (T + 1) - 1) + i * (2 ^ b - 1)) (w := fun _ => 2 ^ b - 1) (ends := ends)
            (bases := coBases true (base + (2 ^ (T + 1) - 1)) (T + 1) b (halves (T + 1) L.length))
            (fun i _ => by omega)
            (fun i j _ _ hij => by
              have h1 : (i + 1) * (2 ^ b - 1) ≤ j * (2 ^ b - 1) := Nat.mul_le_mul_right _ hij
              rw [Nat.add_mul, Nat.one_mul] at h1
              omega)
            (fun i hi => by
              rw [coBases, if_pos rfl, List.getElem?_map, List.getElem?_range hi]
              rfl) hends'
            (fun i hi m => by
              obtain ⟨m', out, t, g, hr, hB, hI, ho, hro⟩ :=
                (ih m (off + startOf bs i) (base + (2 ^ (T + 1) - 1) + i * (2 ^ b - 1)) (dimPlus dim (T + 1)) b (bs.getD i [])
                  (by omega) (by omega)).1 hbpos (hMlen i hi) (by have := hplace i hi; omega)
              exact ⟨m', out, t, by simpa only [if_true] using hr, hB, g, hI, ho, hro⟩)
            (ord base levels true) m1 (List.replicate (2 ^ (T + 1)) []) ∅ (fun _ => .hole) (hon true)
            (fun i hi => ⟨(hom true i).mp hi, by simp⟩) (by simp) (LInv.init hA _ _ _) (by simp) (by simp)
        have hdone' : ∀ i, i ∈ done' ↔ i < 2 ^ (T + 1) := fun i => by rw [hdone, hom]; simp
        obtain ⟨t, bs', hfin⟩ := top_finish hsp hbpos hlv hbe hA hTop hd done' hdone' hinv hol (fun i hi => rfl) hplace
          (fun i hi => hS i ((hdone' i).mpr hi))
        refine ⟨mem', _, t, bs', ?_, hfin⟩
        rw [coParWith, if_neg hlt, if_neg (by omega)]
        simp only
        rw [hbe, hT, hrun]
        simp only [Except.bind]
        rw [childRow_eq (by omega), bucketSizes_eq, hends]
        simp only
        erw [hloop]
        rfl
      · have hd := deep_of_levels (n := L.length) (T := T + 1) hls (by omega) (by rw [← hlev, hbe, hT])
        have hd1 := hd.mono hls
        have hpow := hd1.pow
        obtain ⟨m1, out, A, bs, hrun, hA, hTop, rfl, hrow⟩ :=
          (ih mem off base dim (T + 1) L (by omega) (by omega)).1 (by omega) hpow (by omega)
        obtain ⟨hperm, hlens⟩ := hTop.facts hsp hd1
        have hbl := hTop.bs_length
        have hMlen : ∀ M ∈ bs, M ≠ [] ∧ M.length ≤ (L.length + 1) / 2 := by
          intro M hM
          have hm : M.length ∈ halves (T + 1) L.length := by rw [← hlens]; exact List.mem_map_of_mem hM
          refine ⟨?_, halves_half _ _ _ hm⟩
          have h1 : 1 ≤ L.length / 2 ^ (T + 1) := by
            rw [Nat.le_div_iff_mul_le (by positivity)]
            omega
          have := (halves_mem _ _ _ hm).1
          rw [← List.length_pos_iff]
          omega
        have hgm : ∀ i < 2 ^ (T + 1), bs.getD i [] ∈ bs := fun i hi => by
          rw [List.getD_eq_getElem _ _ (by omega)]
          exact List.getElem_mem _
        have hsum := sum_bottom bs fun M hM => (hMlen M hM).1
        rw [hperm.length_eq, hbl] at hsum
        have hplace : ∀ i < 2 ^ (T + 1), base + (2 ^ (T + 1) - 1) + placeOf (fun M => 2 * M.length - 1) bs i +
            (2 * (bs.getD i []).length - 1) ≤ base + (2 * L.length - 1) := by
          intro i hi
          have h1 := placeOf_lt (W := fun M => 2 * M.length - 1) (bs := bs) (i := i) (j := 2 ^ (T + 1)) hi (by omega)
          have h2 : placeOf (fun M => 2 * M.length - 1) bs (2 ^ (T + 1)) = (bs.map fun M => 2 * M.length - 1).sum := by
            rw [placeOf, List.take_of_length_le (by rw [List.length_map]; omega)]
          omega
        obtain ⟨ends, hends, hends'⟩ := leftEndpoints_startOf hlens
        obtain ⟨mem', outs, done', f', hloop, hdone, hinv, hol, hS⟩ :=
          coPLoop_ok (mem0 := mem) hTop.complete hrow hA.nodup (fun a ha => hA.inR a ha)
            (build := fun m cur o M =>
              if false then coParWith cap ls thr nth med pos ord fuel true m o cur (dimPlus dim (T + 1)) b M
              else if M.length = 0 then .error .ub
              else coParWith cap ls thr nth med pos ord fuel false m o cur (dimPlus dim (T + 1)) (numLevels ls M.length) M)
            (Sp := fun o c M t out => IsBuild sp ls pos t (dimPlus dim (T + 1)) o M out) (bs := bs) (off := off) hbl
            (bas := fun i => base + (2 ^ (T + 1) - 1) + placeOf (fun M => 2 * M.length - 1) bs i)
            (w := fun i => 2 * (bs.getD i []).length - 1) (ends := ends)
            (bases := coBases false (base + (2 ^ (T + 1) - 1)) (T + 1) b (halves (T + 1) L.length))
            (fun i _ => by omega)
            (fun i j hi _ hij => by
              have h1 := placeOf_lt (W := fun M => 2 * M.length - 1) (bs := bs) hij (by omega)
              beta_reduce at h1 ⊢
              omega)
            (fun i hi => by
              have hlen := halves_length (T + 1) L.length
              rw [coBases]
              simp only [Bool.false_eq_true, if_false]
              rw [inclusiveScan_getElem? _ _ _ (by simp [hlen]; omega), ← hlens, placeOf, List.map_map]
              simp [Function.comp_def]) hends'
            (fun i hi m => by
              have hh := hMlen _ (hgm i hi)
              have hnl := numLevels_half hls (n := L.length) (by omega) hh.2
              obtain ⟨m', out, t, hr, hB, hI⟩ :=
                (ih m (off + startOf bs i) (base + (2 ^ (T + 1) - 1) + placeOf (fun M => 2 * M.length - 1) bs i)
                  (dimPlus dim (T + 1)) (numLevels ls (bs.getD i []).length) (bs.getD i [])
                  (by omega) (by omega)).2 rfl hh.1 (by have := hplace i hi; omega)
              refine ⟨m', out, t, ?_, hB, hI⟩
              have := List.length_pos_iff.mpr hh.1
              simp only [Bool.false_eq_true, if_false]
              rw [if_neg (by omega)]
              exact hr)
            (ord base levels false) m1 (List.replicate (2 ^ (T + 1)) []) ∅ (fun _ => .hole) (hon false)
            (fun i hi => ⟨(hom false i).mp hi, by simp⟩) (by simp) (LInv.init hA _ _ _) (by simp) (by simp)
        have hdone' : ∀ i, i ∈ done' ↔ i < 2 ^ (T + 1) := fun i => by rw [hdone, hom]; simp
        obtain ⟨t, ht, hI⟩ := bottom_finish (pos := pos) (outs := outs) (E := base + (2 * L.length - 1)) hsp hls hA hTop hd
          done' hdone' hinv hol (by omega) hplace (fun i hi => hS i ((hdone' i).mpr hi))
        rw [Nat.add_sub_cancel_left] at ht
        refine ⟨mem', _, t, ?_, ht, hI⟩
        rw [coParWith, if_neg hlt, if_neg (by simp)]
        simp only
        rw [hbe, hT, hrun]
        simp only [Except.bind]
        rw [childRow_eq (by omega), bucketSizes_eq, hends]
        simp only
        erw [hloop]
        rfl

/-! Boxes and the view. -/

/-- Number of nodes on the longest path. -/
def PT.depth : PT K d → ℕ
  | .hole => 0
  | .leaf _ _ _ _ _ => 1
  | .node _ _ _ _ _ l r => 1 + max l.depth r.depth

/-- The memory holds the tree, with the boxes of inner nodes set. -/
def EncB (mem : Mem K d) : PT K d → Prop
  | .hole => True
  | .leaf a s e n b => mem a = some ⟨s, e, some n, none, 0, some b, none, none⟩
  | .node a s e dim v l r =>
    mem a = some ⟨s, e, none, some dim, v, some (recomputeBox (pointBox fun _ => 0) l.toBT r.toBT), l.ptr fun _ => none,
      r.ptr fun _ => none⟩ ∧ EncB mem l ∧ EncB mem r

theorem EncB.congr {mem mem' : Mem K d} {t : PT K d} (h : EncB mem t) (heq : ∀ a ∈ t.addrs, mem' a = mem a) :
    EncB mem' t := by
  induction t with
  | hole => trivial
  | leaf a s e n b =>
    rw [EncB, heq a (by simp [PT.addrs])]
    exact h
  | node a s e dim v l r ihl ihr =>
    refine ⟨?_, ihl h.2.1 fun x hx => heq x (by simp [PT.addrs, hx]), ihr h.2.2 fun x hx => heq x (by simp [PT.addrs, hx])⟩
    rw [heq a (by simp [PT.addrs])]
    exact h.1

theorem EncB.cell {mem : Mem K d} {t : PT K d} (h : EncB mem t) (h0 : t.holes = 0) :
    ∃ a c b, (∀ hp, t.ptr hp = some a) ∧ a ∈ t.addrs ∧ mem a = some c ∧ c.box = some b ∧ t.toBT.box? = some b := by
  cases t with
  | hole => simp [PT.holes] at h0
  | leaf a s e n b => exact ⟨a, _, b, fun _ => rfl, by simp [PT.addrs], h, rfl, rfl⟩
  | node a s e dim v l r => exact ⟨a, _, _, fun _ => rfl, by simp [PT.addrs], h.1, rfl, rfl⟩

theorem fixBoxes_ok {t : PT K d} : ∀ {fuel : ℕ} {mem : Mem K d} {a : ℕ}, t.holes = 0 → Enc mem t (fun _ => none) →
    t.addrs.Nodup → t.depth ≤ fuel → t.ptr (fun _ => none) = some a →
    ∃ mem', fixBoxes fuel mem a = .ok mem' ∧ EncB mem' t ∧ ∀ x, x ∉ t.addrs → mem' x = mem x := by
  induction t with
  | hole => intro fuel mem a h0; simp [PT.holes] at h0
  | leaf a' s e n b =>
    intro fuel mem a h0 henc hnd hf hp
    have : a' = a := by simpa [PT.ptr] using hp
    subst this
    obtain ⟨fuel, rfl⟩ : ∃ k, fuel = k + 1 := ⟨fuel - 1, by simp [PT.depth] at hf; omega⟩
    have hc : mem a' = some ⟨s, e, some n, none, 0, some b, none, none⟩ := henc
    refine ⟨mem, ?_, henc, fun _ _ => rfl⟩
    rw [fixBoxes, hc]
    rfl
  | node a' s e dim v l r ihl ihr =>
    intro fuel mem a h0 henc hnd hf hp
    have : a' = a := by simpa [PT.ptr] using hp
    subst this
    obtain ⟨fuel, rfl⟩ : ∃ k, fuel = k + 1 := ⟨fuel - 1, by simp [PT.depth] at hf; omega⟩
    simp only [PT.depth] at hf
    simp only [PT.holes] at h0
    simp only [PT.addrs, List.nodup_cons, List.nodup_append, List.mem_append, not_or] at hnd
    obtain ⟨⟨hn1, hn2⟩, hn3, hn4, hn5⟩ := hnd
    obtain ⟨hc, hel, her⟩ := henc
    have hlp : ∃ al, l.ptr (fun _ => none) = some al := by
      cases l with
      | hole => simp [PT.holes] at h0
      | leaf => exact ⟨_, rfl⟩
      | node => exact ⟨_, rfl⟩
    have hrp : ∃ ar, r.ptr (fun _ => none) = some ar := by
      cases r with
      | hole => simp [PT.holes] at h0
      | leaf => exact ⟨_, rfl⟩
      | node => exact ⟨_, rfl⟩
    obtain ⟨al, hal⟩ := hlp
    obtain ⟨ar, har⟩ := hrp
    obtain ⟨m1, hm1, hb1, hf1⟩ := ihl (fuel := fuel) (mem := mem) (by omega) hel hn3 (by omega) hal
    obtain ⟨m2, hm2, hb2, hf2⟩ := ihr (fuel := fuel) (mem := m1) (by omega)
      (her.congr fun x hx => hf1 x fun h => hn5 x h x hx rfl) hn4 (by omega) har
    have hb1' : EncB m2 l := hb1.congr fun x hx => hf2 x fun h => hn5 x hx x h rfl
    obtain ⟨al', cl, bl, hpl, hml, hcl, hbl, htl⟩ := hb1'.cell (by omega)
    obtain ⟨ar', cr, br, hpr, hmr, hcr, hbr, htr⟩ := hb2.cell (by omega)
    rw [hpl] at hal
    rw [hpr] at har
    cases hal
    cases har
    refine ⟨Function.update m2 a' (some ⟨s, e, none, some dim, v, some (joinBox bl br), some al, some ar⟩), ?_, ?_, ?_⟩
    · rw [fixBoxes, hc, hpl, hpr]
      simp only [optRun]
      rw [hm1]
      simp only [Except.bind]
      rw [hm2]
      simp only [Option.map_some, hcl, hcr, hbl, hbr]
    · refine ⟨?_, hb1'.congr fun x hx => ?_, hb2.congr fun x hx => ?_⟩
      · rw [Function.update_self, hpl, hpr]
        simp only [recomputeBox, htl, htr]
      · rw [Function.update_of_ne]
        rintro rfl
        exact hn1 hx
      · rw [Function.update_of_ne]
        rintro rfl
        exact hn2 hx
    · intro x hx
      simp only [PT.addrs, List.mem_cons, List.mem_append, not_or] at hx
      rw [Function.update_of_ne hx.1, hf2 x hx.2.2, hf1 x hx.2.1]

theorem view_ok {t : PT K d} : ∀ {fuel : ℕ} {mem : Mem K d} {a : ℕ}, t.holes = 0 → EncB mem t → t.depth ≤ fuel →
    t.ptr (fun _ => none) = some a → view fuel mem a = .ok t.toBT := by
  induction t with
  | hole => intro fuel mem a h0; simp [PT.holes] at h0
  | leaf a' s e n b =>
    intro fuel mem a h0 henc hf hp
    have : a' = a := by simpa [PT.ptr] using hp
    subst this
    obtain ⟨fuel, rfl⟩ : ∃ k, fuel = k + 1 := ⟨fuel - 1, by simp [PT.depth] at hf; omega⟩
    have hc : mem a' = some ⟨s, e, some n, none, 0, some b, none, none⟩ := henc
    rw [view, hc]
    rfl
  | node a' s e dim v l r ihl ihr =>
    intro fuel mem a h0 henc hf hp
    have : a' = a := by simpa [PT.ptr] using hp
    subst this
    obtain ⟨fuel, rfl⟩ : ∃ k, fuel = k + 1 := ⟨fuel - 1, by simp [PT.depth] at hf; omega⟩
    simp only [PT.depth] at hf
    simp only [PT.holes] at h0
    obtain ⟨hc, hel, her⟩ := henc
    obtain ⟨al, cl, bl, hpl, hml, hcl, hbl, htl⟩ := hel.cell (by omega)
    obtain ⟨ar, cr, br, hpr, hmr, hcr, hbr, htr⟩ := her.cell (by omega)
    rw [view, hc, hpl, hpr]
    simp only [optRun]
    rw [ihl (by omega) hel (by omega) (hpl _)]
    simp only [Except.bind]
    rw [ihr (by omega) her (by omega) (hpr _)]
    rfl

theorem IsBuild.depth {sp : Fin d → List α → List α × K × ℕ} (hsp : Half sp) {ls : ℕ} (hls : 1 ≤ ls) {pos : α → Point K d}
    {t : PT K d} {dim : Fin d} {off : ℕ} {L out : List α} (h : IsBuild sp ls pos t dim off L out) :
    t.depth ≤ L.length ∧ t.holes = 0 := by
  induction t generalizing dim off L out with
  | hole => exact h.elim
  | leaf a s e n b =>
    have := List.length_pos_iff.mpr h.2.1
    exact ⟨by simp only [PT.depth]; omega, rfl⟩
  | node a s e dm v l r ihl ihr =>
    obtain ⟨h1, _, _, _, _, o1, o2, _, hl, hr⟩ := h
    obtain ⟨hp, hm⟩ := hsp dim L (by omega)
    have hlen := hp.length_eq
    have h1 := ihl hl
    have h2 := ihr hr
    rw [List.length_take, hm, hlen] at h1
    rw [List.length_drop, hm, hlen] at h2
    exact ⟨by simp only [PT.depth]; omega, by simp only [PT.holes]; omega⟩

theorem IsBuild.indices {sp : Fin d → List α → List α × K × ℕ} {ls : ℕ} {pos : α → Point K d}
    {t : PT K d} {dim : Fin d} {off : ℕ} {L out : List α} (h : IsBuild sp ls pos t dim off L out) :
    t.toBT.indices = t.addrs := by
  induction t generalizing dim off L out with
  | hole => exact h.elim
  | leaf a s e n b => rfl
  | node a s e dm v l r ihl ihr =>
    obtain ⟨h1, _, _, _, _, o1, o2, _, hl, hr⟩ := h
    simp only [PT.toBT, BT.indices, PT.addrs, ihl hl, ihr hr]

end Verif.BatchKd
