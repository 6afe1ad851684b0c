import Verif.Outcome
import Mathlib.Data.List.Basic
import Mathlib.Data.Int.Notation
import Mathlib.Algebra.Order.Ring.Int

set_option linter.unusedSectionVars false
set_option linter.unusedVariables false

/-!
Model of the command-line parser `include/pargeo/parseCommandLine.h`. A word is a list of characters; `argv` is
the list of words, the name of the program first. Printing the usage and leaving the program (`badArgument`, lines
45-48) is the outcome `Err.throws`. Reading outside `argv`, a number that does not fit (`atoi`, `atol`) and reading
a variable that was never written are `Err.ub`.
-/

namespace Verif.Cmd

/-- A C string without its end mark. Serves
`include/pargeo/parseCommandLine.h` lines 32-34. -/
abbrev Word : Type := List Char

/-- `isspace` in the C locale. Serves
`include/pargeo/parseCommandLine.h` lines 65,89,99. -/
def isSpace (c : Char) : Bool :=
  c = ' ' || c = '\t' || c = '\n' || c.toNat = 11 || c.toNat = 12 || c = '\r'

/-- The library routines `atoi` and `atol`, by contract: white space, an optional sign, and the longest sequence of
digits; zero if there is none. Serves
`include/pargeo/parseCommandLine.h` lines 65,89,99. -/
def textVal (w : Word) : ℤ :=
  match w.dropWhile isSpace with
  | '-' :: r => -(Nat.ofDigitChars 10 (r.takeWhile Char.isDigit) 0 : ℤ)
  | '+' :: r => Nat.ofDigitChars 10 (r.takeWhile Char.isDigit) 0
  | r => Nat.ofDigitChars 10 (r.takeWhile Char.isDigit) 0

/-- `atoi` (`bits = 32`), `atol` (`bits = 64`): undefined if the value does not fit. Serves
`include/pargeo/parseCommandLine.h` lines 65,89,99. -/
def ato (bits : ℕ) (w : Word) : Except Err ℤ :=
  if -(2 ^ (bits - 1)) ≤ textVal w ∧ textVal w < 2 ^ (bits - 1) then .ok (textVal w) else .error .ub

/-- `include/pargeo/parseCommandLine.h:32-34`: `argv`, which has `argc` entries. -/
structure CmdLine where
  argv : List Word

/-- `argc`. Serves
`include/pargeo/parseCommandLine.h` lines 52-55. -/
def CmdLine.argc (c : CmdLine) : ℕ := c.argv.length

/-- `include/pargeo/parseCommandLine.h:52-55` (`getArgument`): the `i`-th word from the end. -/
def getArgument (c : CmdLine) (i : ℕ) : Except Err Word :=
  if c.argc < 2 + i then .error .throws
  else match c.argv[c.argc - 1 - i]? with
    | some w => .ok w
    | none => .error .ub

/-- `include/pargeo/parseCommandLine.h:58-61` (`IOFileNames`). -/
def ioFileNames (c : CmdLine) : Except Err (Word × Word) :=
  if c.argc < 3 then .error .throws
  else match c.argv[c.argc - 2]?, c.argv[c.argc - 1]? with
    | some a, some b => .ok (a, b)
    | _, _ => .error .ub

/-- `include/pargeo/parseCommandLine.h:63-66` (`sizeAndFileName`): the `int` becomes a `size_t`, modulo `2 ^ 64`. -/
def sizeAndFileName (c : CmdLine) : Except Err (ℕ × Word) :=
  if c.argc < 3 then .error .throws
  else match c.argv[c.argc - 2]?, c.argv[c.argc - 1]? with
    | some a, some b => (ato 32 a).map fun r => ((r % 2 ^ 64).toNat, b)
    | _, _ => .error .ub

/-- `include/pargeo/parseCommandLine.h:68-72` (`getOption`): the loop from index `i`; `n` iterations are left. -/
def getOptionLoop (c : CmdLine) (option : Word) : ℕ → ℕ → Except Err Bool
  | 0, _ => .ok false
  | n + 1, i => match c.argv[i]? with
    | none => .error .ub
    | some w => if w = option then .ok true else getOptionLoop c option n (i + 1)

/-- `include/pargeo/parseCommandLine.h:68-72` (`getOption`): `i = 1, ..., argc - 1`. -/
def getOption (c : CmdLine) (option : Word) : Except Err Bool := getOptionLoop c option (c.argc - 1) 1

/-- The loops of `include/pargeo/parseCommandLine.h:74-116`: the word behind the first occurrence. -/
def valueLoop (c : CmdLine) (option : Word) : ℕ → ℕ → Except Err (Option Word)
  | 0, _ => .ok none
  | n + 1, i => match c.argv[i]? with
    | none => .error .ub
    | some w =>
      if w = option then match c.argv[i + 1]? with
        | none => .error .ub
        | some v => .ok (some v)
      else valueLoop c option n (i + 1)

/-- `include/pargeo/parseCommandLine.h:74-78` (`getOptionValue`): `i = 1, ..., argc - 2`; `NULL` is `none`. -/
def getOptionValue (c : CmdLine) (option : Word) : Except Err (Option Word) :=
  valueLoop c option (c.argc - 2) 1

/-- `include/pargeo/parseCommandLine.h:80-84` (`getOptionValue` with a default). -/
def getOptionValueD (c : CmdLine) (option dflt : Word) : Except Err Word :=
  (getOptionValue c option).map fun r => r.getD dflt

/-- `include/pargeo/parseCommandLine.h:86-104` (`getOptionLongValue` for 64 bits, `getOptionIntValue` for 32). -/
def getOptionInt (bits : ℕ) (c : CmdLine) (option : Word) (dflt : ℤ) : Except Err ℤ :=
  (getOptionValue c option).bind fun r => match r with
    | none => .ok dflt
    | some v => (ato bits v).bind fun x => if x < 0 then .error .throws else .ok x

/-- What `sscanf(w, "%lf", &val)` does: end of input before anything was read, no conversion, or a value. Serves
`include/pargeo/parseCommandLine.h` lines 106-116. -/
inductive Scan (F : Type) where
  | eof
  | noMatch
  | value (x : F)

/-- `include/pargeo/parseCommandLine.h:106-116` (`getOptionDoubleValue`): only the end of input is rejected; without
a conversion `val` is returned unwritten. `scan` is the library routine. -/
def getOptionDouble {F : Type} (scan : Word → Scan F) (c : CmdLine) (option : Word) (dflt : F) : Except Err F :=
  (getOptionValue c option).bind fun r => match r with
    | none => .ok dflt
    | some v => match scan v with
      | .eof => .error .throws
      | .noMatch => .error .ub
      | .value x => .ok x

/-- `include/pargeo/parseCommandLine.h:36-40` (constructor): `-h` and `-help` print the usage. -/
def construct (argv : List Word) : Except Err CmdLine :=
  (getOption ⟨argv⟩ "-h".toList).bind fun a => (getOption ⟨argv⟩ "-help".toList).bind fun b =>
    if a || b then .error .throws else .ok ⟨argv⟩

end Verif.Cmd
