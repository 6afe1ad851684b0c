import Verif.IO.CmdModel
import Mathlib.Tactic.Positivity

set_option linter.unusedSectionVars false
set_option linter.unusedVariables false

/-!
C83: the command line.

A user writes the name of the program, then options, each a switch or a name with a value, then the input file. Full
property: the parser gives back the switches, the values and the file, and rejects what is missing or not a number.
False of the code: without an input file the value of the last option is taken for it (`c83_file_false`), a value that
is not a number counts as zero for integers (`c83_int_false`) and gives an unwritten variable for floating-point
options (`c83_double_false`).
-/

namespace Verif.Cmd

/-! ### Specification -/

/-- An option as the user writes it. -/
inductive Item where
  | switch (name : Word)
  | opt (name value : Word)

/-- The words of an option. -/
def Item.words : Item → List Word
  | .switch n => [n]
  | .opt n v => [n, v]

/-- The name of an option. -/
def Item.name : Item → Word
  | .switch n => n
  | .opt n _ => n

/-- The word is not used as a value. -/
def Item.NotValue (o : Word) : Item → Prop
  | .switch _ => True
  | .opt _ v => v ≠ o

/-- The words written on the command line. -/
def render (prog : Word) (items : List Item) (file : Word) : List Word :=
  prog :: (items.flatMap Item.words ++ [file])

/-- The first option with the name has the value. -/
def FirstValue (o : Word) : List Item → Option Word → Prop
  | [], r => r = none
  | .switch n :: l, r => n ≠ o ∧ FirstValue o l r
  | .opt n v :: l, r => (n = o ∧ r = some v) ∨ (n ≠ o ∧ FirstValue o l r)

/-! ### Lemmas -/

theorem getOptionLoop_ok (c : CmdLine) (o : Word) : ∀ (n i : ℕ), i + n = c.argc →
    getOptionLoop c o n i = .ok (decide (o ∈ c.argv.drop i)) := by
  intro n
  induction n with
  | zero =>
    intro i hi
    have : c.argv.drop i = [] := List.drop_eq_nil_of_le (by unfold CmdLine.argc at hi; omega)
    rw [getOptionLoop, this]
    simp
  | succ n ih =>
    intro i hi
    have hlt : i < c.argv.length := by unfold CmdLine.argc at hi; omega
    rw [getOptionLoop, List.getElem?_eq_getElem hlt]
    dsimp only
    have hd := List.drop_eq_getElem_cons hlt
    by_cases h : c.argv[i] = o
    · rw [if_pos h, hd]
      simp [h]
    · rw [if_neg h, ih (i + 1) (by omega), hd]
      congr 1
      rw [decide_eq_decide, List.mem_cons]
      constructor
      · exact Or.inr
      · rintro (h' | h')
        · exact absurd h'.symm h
        · exact h'

/-- The word behind the first occurrence in a list. -/
def after (o : Word) : List Word → Option Word
  | a :: b :: l => if a = o then some b else after o (b :: l)
  | _ => none

theorem valueLoop_ok (c : CmdLine) (o : Word) : ∀ (n i : ℕ), i + n + 1 = c.argc →
    valueLoop c o n i = .ok (after o (c.argv.drop i)) := by
  intro n
  induction n with
  | zero =>
    intro i hi
    have hlt : i < c.argv.length := by unfold CmdLine.argc at hi; omega
    have h2 : c.argv.drop (i + 1) = [] := List.drop_eq_nil_of_le (by unfold CmdLine.argc at hi; omega)
    rw [valueLoop, List.drop_eq_getElem_cons hlt, h2]
    rfl
  | succ n ih =>
    intro i hi
    have hlt : i < c.argv.length := by unfold CmdLine.argc at hi; omega
    have hlt2 : i + 1 < c.argv.length := by unfold CmdLine.argc at hi; omega
    rw [valueLoop, List.getElem?_eq_getElem hlt, List.getElem?_eq_getElem hlt2]
    dsimp only
    rw [List.drop_eq_getElem_cons hlt, List.drop_eq_getElem_cons hlt2]
    by_cases h : c.argv[i] = o
    · rw [if_pos h]
      simp [after, h]
    · rw [if_neg h, ih (i + 1) (by omega), List.drop_eq_getElem_cons hlt2]
      simp [after, h]

theorem getOptionValue_ok (c : CmdLine) (o : Word) : getOptionValue c o = .ok (after o (c.argv.drop 1)) := by
  unfold getOptionValue
  by_cases h : 2 ≤ c.argc
  · exact valueLoop_ok c o _ 1 (by omega)
  · have : c.argc - 2 = 0 := by omega
    rw [this, valueLoop]
    have hlen : (c.argv.drop 1).length = 0 := by
      rw [List.length_drop]
      unfold CmdLine.argc at h
      omega
    rw [List.length_eq_zero_iff.mp hlen]
    rfl

theorem after_render {o : Word} {items : List Item} {file : Word} {r : Option Word}
    (hv : ∀ x ∈ items, x.NotValue o) (hr : FirstValue o items r) :
    after o (items.flatMap Item.words ++ [file]) = r := by
  induction items with
  | nil =>
    have : r = none := hr
    subst this
    rfl
  | cons x l ih =>
    have ih' := fun h => ih (fun y hy => hv y (by simp [hy])) h
    have hne : ∃ b t, l.flatMap Item.words ++ [file] = b :: t := by
      cases h : l.flatMap Item.words ++ [file] with
      | nil => simp at h
      | cons b t => exact ⟨b, t, rfl⟩
    obtain ⟨b, t, hbt⟩ := hne
    rw [List.flatMap_cons, List.append_assoc, hbt]
    rw [hbt] at ih'
    cases x with
    | switch n =>
      obtain ⟨h1, h2⟩ := hr
      show after o (n :: b :: t) = r
      rw [after, if_neg h1]
      exact ih' h2
    | opt n v =>
      show after o (n :: v :: b :: t) = r
      have hv1 : v ≠ o := hv (.opt n v) (by simp)
      rcases hr with ⟨h1, h2⟩ | ⟨h1, h2⟩
      · rw [after, if_pos h1, h2]
      · rw [after, if_neg h1, after, if_neg hv1]
        exact ih' h2

/-! ### C83 -/

/-- C83: a switch is found iff a word of the command line behind the program's name equals it. -/
theorem c83_option (c : CmdLine) (o : Word) (h : 0 < c.argc) :
    ∃ r, getOption c o = .ok r ∧ (r = true ↔ o ∈ c.argv.tail) := by
  refine ⟨_, getOptionLoop_ok c o _ 1 (by omega), ?_⟩
  rw [decide_eq_true_iff, List.drop_one]

/-- C83: for every well-formed command line the switches are exactly those written, if the name is not also used
as a value or as the file. -/
theorem c83_switch (prog : Word) (items : List Item) (file o : Word) (hv : ∀ x ∈ items, x.NotValue o) (hf : file ≠ o) :
    ∃ r, getOption ⟨render prog items file⟩ o = .ok r ∧ (r = true ↔ ∃ x ∈ items, x.name = o) := by
  obtain ⟨r, h1, h2⟩ := c83_option ⟨render prog items file⟩ o (by simp [CmdLine.argc, render])
  refine ⟨r, h1, h2.trans ?_⟩
  show o ∈ items.flatMap Item.words ++ [file] ↔ _
  rw [List.mem_append, List.mem_flatMap]
  constructor
  · rintro (⟨x, hx, hm⟩ | hm)
    · refine ⟨x, hx, ?_⟩
      cases x with
      | switch n => simpa [Item.words, Item.name, eq_comm] using hm
      | opt n v =>
        have hne : v ≠ o := hv _ hx
        have : o = n ∨ o = v := by simpa [Item.words] using hm
        rcases this with h | h
        · exact h.symm
        · exact absurd h.symm hne
    · exact absurd (by simpa using hm : o = file).symm hf
  · rintro ⟨x, hx, hn⟩
    left
    refine ⟨x, hx, ?_⟩
    cases x with
    | switch n =>
      have : n = o := hn
      simp [Item.words, this]
    | opt n v =>
      have : n = o := hn
      simp [Item.words, this]

/-- C83: the value of an option is the one written behind the first option of that name, whatever the order of the
options. -/
theorem c83_value (prog : Word) (items : List Item) (file o : Word) (r : Option Word)
    (hv : ∀ x ∈ items, x.NotValue o) (hr : FirstValue o items r) :
    getOptionValue ⟨render prog items file⟩ o = .ok r := by
  rw [getOptionValue_ok]
  show Except.ok (after o (items.flatMap Item.words ++ [file])) = _
  rw [after_render hv hr]

/-- C83: `getArgument(i)` is the `i`-th word from the end, and the usage is printed iff there are not that many words
behind the program's name. -/
theorem c83_argument (prog : Word) (args : List Word) (i : ℕ) :
    getArgument ⟨prog :: args⟩ i = match args.reverse[i]? with
      | some w => .ok w
      | none => .error .throws := by
  unfold getArgument CmdLine.argc
  dsimp only
  rw [List.length_cons]
  by_cases h : i < args.length
  · rw [if_neg (by omega), List.getElem?_reverse h,
      show args.length + 1 - 1 - i = (args.length - 1 - i) + 1 by omega, List.getElem?_cons_succ,
      List.getElem?_eq_getElem (show args.length - 1 - i < args.length by omega)]
  · rw [if_pos (by omega), List.getElem?_eq_none (by rw [List.length_reverse]; omega)]

/-- C83: the file is found behind the options. -/
theorem c83_file_partial (prog : Word) (items : List Item) (file : Word) :
    getArgument ⟨render prog items file⟩ 0 = .ok file := by
  unfold render
  rw [c83_argument, List.reverse_append]
  rfl

theorem takeWhile_all {p : Char → Bool} (l : List Char) (h : ∀ x ∈ l, p x = true) : l.takeWhile p = l := by
  induction l with
  | nil => rfl
  | cons a l ih =>
    rw [List.takeWhile_cons_of_pos (h a (by simp)), ih fun x hx => h x (by simp [hx])]

/-- C83: a decimal numeral that fits is read back exactly. -/
theorem ato_repr (bits n : ℕ) (h : n < 2 ^ (bits - 1)) : ato bits (Nat.toDigits 10 n) = .ok n := by
  have hd : ∀ x ∈ Nat.toDigits 10 n, x.isDigit = true := fun x hx =>
    Nat.isDigit_of_mem_toDigits (by omega) (by omega) hx
  have hval : textVal (Nat.toDigits 10 n) = n := by
    have hns : ∀ x : Char, x.isDigit = true → isSpace x = false ∧ x ≠ '-' ∧ x ≠ '+' := by
      intro x hx
      have h1 : 48 ≤ x.toNat ∧ x.toNat ≤ 57 := by
        simp only [Char.isDigit, Bool.and_eq_true, decide_eq_true_eq] at hx
        exact hx
      have key : ∀ y : Char, (y.toNat < 48 ∨ 57 < y.toNat) → x ≠ y := by
        rintro y hy rfl
        omega
      refine ⟨?_, key '-' (by decide), key '+' (by decide)⟩
      unfold isSpace
      simp only [Bool.or_eq_false_iff, decide_eq_false_iff_not]
      refine ⟨⟨⟨⟨⟨key _ (by decide), key _ (by decide)⟩, key _ (by decide)⟩, by omega⟩, by omega⟩, key _ (by decide)⟩
    unfold textVal
    cases hl : Nat.toDigits 10 n with
    | nil => exact absurd hl Nat.toDigits_ne_nil
    | cons x l =>
      have hx := hns x (hd x (by rw [hl]; simp))
      have htw : (x :: l).takeWhile Char.isDigit = x :: l := by
        apply takeWhile_all
        intro y hy
        exact hd y (by rw [hl]; exact hy)
      rw [List.dropWhile_cons_of_neg (by rw [hx.1]; simp)]
      split
      · rename_i r heq
        exact absurd (List.cons.inj heq).1 hx.2.1
      · rename_i r heq
        exact absurd (List.cons.inj heq).1 hx.2.2
      · rw [htw, ← hl, Nat.ofDigitChars_ten_toDigits]
  unfold ato
  rw [hval, if_pos]
  constructor
  · have : (0 : ℤ) ≤ 2 ^ (bits - 1) := by positivity
    omega
  · exact_mod_cast h

/-- C83: the last two words are the file names, whatever is written before them. -/
theorem c83_ioFiles (prog : Word) (args : List Word) (a b : Word) :
    ioFileNames ⟨prog :: (args ++ [a, b])⟩ = .ok (a, b) := by
  unfold ioFileNames CmdLine.argc
  dsimp only
  have hl : (prog :: (args ++ [a, b])).length = args.length + 3 := by simp
  have h1 : (prog :: (args ++ [a, b]))[args.length + 3 - 2]? = some a := by
    rw [show args.length + 3 - 2 = args.length + 1 by omega, List.getElem?_cons_succ,
      List.getElem?_append_right (le_refl _)]
    simp
  have h2 : (prog :: (args ++ [a, b]))[args.length + 3 - 1]? = some b := by
    rw [show args.length + 3 - 1 = args.length + 1 + 1 by omega, List.getElem?_cons_succ,
      List.getElem?_append_right (by omega)]
    simp
  rw [hl, if_neg (by omega), h1, h2]

/-- C83: the size in front of the output file, for every number that fits into an `int`. -/
theorem c83_sizeAndFile (prog : Word) (args : List Word) (n : ℕ) (b : Word) (hn : n < 2 ^ 31) :
    sizeAndFileName ⟨prog :: (args ++ [Nat.toDigits 10 n, b])⟩ = .ok (n, b) := by
  unfold sizeAndFileName CmdLine.argc
  dsimp only
  have hl : (prog :: (args ++ [Nat.toDigits 10 n, b])).length = args.length + 3 := by simp
  have h1 : (prog :: (args ++ [Nat.toDigits 10 n, b]))[args.length + 3 - 2]? = some (Nat.toDigits 10 n) := by
    rw [show args.length + 3 - 2 = args.length + 1 by omega, List.getElem?_cons_succ,
      List.getElem?_append_right (le_refl _)]
    simp
  have h2 : (prog :: (args ++ [Nat.toDigits 10 n, b]))[args.length + 3 - 1]? = some b := by
    rw [show args.length + 3 - 1 = args.length + 1 + 1 by omega, List.getElem?_cons_succ,
      List.getElem?_append_right (by omega)]
    simp
  rw [hl, if_neg (by omega), h1, h2]
  dsimp only
  rw [ato_repr 32 n hn]
  have h3 : ((n : ℤ) % 2 ^ 64).toNat = n := by
    rw [Int.emod_eq_of_lt (by omega) (by omega)]
    rfl
  show Except.ok (((n : ℤ) % 2 ^ 64).toNat, b) = _
  rw [h3]

/-- C83: a negative size becomes a huge one. -/
theorem c83_size_false :
    sizeAndFileName ⟨["gen".toList, "-1".toList, "out".toList]⟩ = .ok (2 ^ 64 - 1, "out".toList) := by
  decide +kernel

/-- C83: an integer option written as a decimal numeral that fits into the type gets that value. -/
theorem c83_int_partial (bits : ℕ) (prog : Word) (items : List Item) (file o : Word) (n : ℕ) (dflt : ℤ)
    (hv : ∀ x ∈ items, x.NotValue o) (hr : FirstValue o items (some (Nat.toDigits 10 n))) (hn : n < 2 ^ (bits - 1)) :
    getOptionInt bits ⟨render prog items file⟩ o dflt = .ok n := by
  unfold getOptionInt
  rw [c83_value prog items file o _ hv hr]
  show (ato bits (Nat.toDigits 10 n)).bind _ = _
  rw [ato_repr bits n hn]
  show (if (n : ℤ) < 0 then Except.error .throws else .ok (n : ℤ)) = (Except.ok (n : ℤ) : Except Err ℤ)
  rw [if_neg (by omega)]

/-- C83: without the option the default is used. -/
theorem c83_default (bits : ℕ) (prog : Word) (items : List Item) (file o : Word) (dflt : ℤ)
    (hv : ∀ x ∈ items, x.NotValue o) (hr : FirstValue o items none) :
    getOptionInt bits ⟨render prog items file⟩ o dflt = .ok dflt := by
  unfold getOptionInt
  rw [c83_value prog items file o _ hv hr]
  rfl

/-- C83: an integer option never has a negative value, unless that is the default. -/
theorem c83_int_nonneg (bits : ℕ) (c : CmdLine) (o : Word) (dflt x : ℤ)
    (h : getOptionInt bits c o dflt = .ok x) : x = dflt ∨ 0 ≤ x := by
  unfold getOptionInt at h
  rw [getOptionValue_ok] at h
  cases hv : after o (c.argv.drop 1) with
  | none =>
    rw [hv] at h
    left
    have : (Except.ok dflt : Except Err ℤ) = .ok x := h
    exact (Except.ok.inj this).symm
  | some v =>
    right
    rw [hv] at h
    have h' : ((ato bits v).bind fun x => if x < 0 then .error .throws else .ok x) = (Except.ok x : Except Err ℤ) := h
    unfold ato at h'
    split at h'
    · have h'' : (if textVal v < 0 then Except.error .throws else .ok (textVal v)) = (Except.ok x : Except Err ℤ) := h'
      split at h''
      · exact absurd h'' (by simp)
      · have := Except.ok.inj h''
        omega
    · exact absurd h' (by simp [Except.bind])

/-- C83: a floating-point option: the value scanned, for every behaviour of the scanner; an empty value prints the
usage. -/
theorem c83_double_partial {F : Type} (scan : Word → Scan F) (prog : Word) (items : List Item) (file o v : Word)
    (dflt x : F) (hv : ∀ y ∈ items, y.NotValue o) (hr : FirstValue o items (some v)) (hs : scan v = .value x) :
    getOptionDouble scan ⟨render prog items file⟩ o dflt = .ok x := by
  unfold getOptionDouble
  rw [c83_value prog items file o _ hv hr]
  show (match scan v with | .eof => _ | .noMatch => _ | .value x => _) = _
  rw [hs]

/-- C83: for every scanner, every word at which it makes no conversion gives a variable that was never written. -/
theorem c83_double_false {F : Type} (scan : Word → Scan F) (prog : Word) (items : List Item) (file o v : Word)
    (dflt : F) (hv : ∀ y ∈ items, y.NotValue o) (hr : FirstValue o items (some v)) (hs : scan v = .noMatch) :
    getOptionDouble scan ⟨render prog items file⟩ o dflt = .error .ub := by
  unfold getOptionDouble
  rw [c83_value prog items file o _ hv hr]
  show (match scan v with | .eof => _ | .noMatch => _ | .value x => _) = _
  rw [hs]

/-- C83: an integer option whose value is no number is zero, not rejected. -/
theorem c83_int_false :
    getOptionInt 32 ⟨render "knn".toList [.opt "-k".toList "abc".toList] "in".toList⟩ "-k".toList 1 = .ok 0 := by
  decide +kernel

/-- C83: without an input file the value of the last option is taken for it. -/
theorem c83_file_false (prog : Word) (items : List Item) (n v : Word) :
    getArgument ⟨prog :: (items ++ [Item.opt n v]).flatMap Item.words⟩ 0 = .ok v := by
  rw [c83_argument, List.flatMap_append, List.reverse_append]
  rfl

/-- C83: the constructor prints the usage iff `-h` or `-help` is one of the words behind the program's name. -/
theorem c83_help (argv : List Word) (h : argv ≠ []) :
    construct argv = if "-h".toList ∈ argv.tail ∨ "-help".toList ∈ argv.tail then .error .throws else .ok ⟨argv⟩ := by
  have h0 : 0 < argv.length := List.length_pos_iff.mpr h
  have h1 : getOption ⟨argv⟩ "-h".toList = _ := getOptionLoop_ok ⟨argv⟩ "-h".toList _ 1 (by
    show 1 + (argv.length - 1) = argv.length
    omega)
  have h2 : getOption ⟨argv⟩ "-help".toList = _ := getOptionLoop_ok ⟨argv⟩ "-help".toList _ 1 (by
    show 1 + (argv.length - 1) = argv.length
    omega)
  unfold construct
  rw [h1]
  show Except.bind (getOption ⟨argv⟩ "-help".toList) _ = _
  rw [h2]
  show (if _ then _ else _) = _
  simp only [List.drop_one, Bool.or_eq_true, decide_eq_true_eq]

/-! ### The hypotheses are satisfiable -/

/-- `knn -s -k 17 -o out in`. -/
example : (∀ x ∈ [Item.switch "-s".toList, .opt "-k".toList (Nat.toDigits 10 17), .opt "-o".toList "out".toList],
      x.NotValue "-k".toList) ∧
    FirstValue "-k".toList
      [Item.switch "-s".toList, .opt "-k".toList (Nat.toDigits 10 17), .opt "-o".toList "out".toList]
      (some (Nat.toDigits 10 17)) ∧ 17 < 2 ^ (32 - 1) := by
  refine ⟨?_, ⟨by decide, Or.inl ⟨rfl, rfl⟩⟩, by decide⟩
  intro x hx
  simp only [List.mem_cons, List.not_mem_nil, or_false] at hx
  rcases hx with rfl | rfl | rfl
  · exact trivial
  · show Nat.toDigits 10 17 ≠ "-k".toList
    decide
  · show "out".toList ≠ "-k".toList
    decide

/-- The same command line, run. -/
example : getOptionInt 32 ⟨render "knn".toList [.switch "-s".toList, .opt "-k".toList "17".toList,
    .opt "-o".toList "out".toList] "in".toList⟩ "-k".toList 1 = .ok 17 := by
  decide +kernel

end Verif.Cmd
