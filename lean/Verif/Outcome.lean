/-!
Outcomes of modelled routines: besides a value, a run can throw a C++ exception or have undefined
behaviour (out-of-bounds access, null dereference, read of an uninitialised value).
-/

namespace Verif

/-- The ways a modelled call can fail. `throws`: a C++ exception (or `abort`). `ub`: undefined
behaviour. `fuel`: the recursion bound of the model was exhausted; theorems show that this does not
happen for the bounds used. -/
inductive Err where
  | throws
  | ub
  | fuel
deriving DecidableEq, Repr

end Verif
