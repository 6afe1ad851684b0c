import Mathlib.Algebra.BigOperators.Group.List.Basic
import Mathlib.Data.List.Nodup
import Verif.QHull.Model

set_option linter.unusedSectionVars false
set_option linter.unusedVariables false

/-!
Distribution of points over facets.
-/

namespace Verif.QHull

open Verif Verif.Hull3d

variable {K : Type} [Field K] [LinearOrder K]

theorem foldl_place (eps : K) (heap : Heap (P3 K)) (new : List ℕ) (L : List (Vtx K)) (pts : ℕ → List (Vtx K)) (k : ℕ) :
    (L.foldl (place eps heap new) pts) k =
      pts k ++ (L.filter fun v => decide ((new.find? fun j => keep eps (heap j) v.1) = some k)).map fun v => (v.1, k) := by
  induction L generalizing pts with
  | nil => simp
  | cons v L ih =>
    rw [List.foldl_cons, ih, List.filter_cons]
    unfold place
    cases hf : new.find? fun j => keep eps (heap j) v.1 with
    | none => simp
    | some j =>
      simp only
      by_cases hjk : j = k
      · subst hjk
        simp
      · rw [Function.update_of_ne (Ne.symm hjk)]
        simp [hjk]

theorem sum_update_le (new : List ℕ) (hn : new.Nodup) (pts : ℕ → List (Vtx K)) (k : ℕ) (x : List (Vtx K))
    (hx : x.length ≤ (pts k).length + 1) :
    (new.map fun j => (Function.update pts k x j).length).sum ≤ (new.map fun j => (pts j).length).sum + 1 := by
  induction new with
  | nil => simp
  | cons j new ih =>
    rw [List.nodup_cons] at hn
    rw [List.map_cons, List.map_cons, List.sum_cons, List.sum_cons]
    by_cases hjk : j = k
    · subst hjk
      rw [Function.update_self]
      have : (new.map fun i => (Function.update pts j x i).length) = new.map fun i => (pts i).length := by
        apply List.map_congr_left
        intro i hi
        rw [Function.update_of_ne]
        rintro rfl
        exact hn.1 hi
      rw [this]
      omega
    · rw [Function.update_of_ne hjk]
      have := ih hn.2
      omega

theorem sum_place_le (eps : K) (heap : Heap (P3 K)) (new : List ℕ) (hn : new.Nodup) (L : List (Vtx K))
    (pts : ℕ → List (Vtx K)) :
    (new.map fun k => ((L.foldl (place eps heap new) pts) k).length).sum ≤
      (new.map fun k => (pts k).length).sum + (L.filter fun v => (new.find? fun j => keep eps (heap j) v.1).isSome).length := by
  induction L generalizing pts with
  | nil => simp
  | cons v L ih =>
    rw [List.foldl_cons, List.filter_cons]
    refine (ih _).trans ?_
    unfold place
    cases hf : new.find? fun j => keep eps (heap j) v.1 with
    | none => simp
    | some j =>
      simp only [Option.isSome_some, if_true, List.length_cons]
      have := sum_update_le new hn pts j (pts j ++ [(v.1, j)]) (by simp)
      omega

theorem foldl_flat (eps : K) (heap : Heap (P3 K)) (new B : List ℕ) (src : ℕ → List (Vtx K)) (pts : ℕ → List (Vtx K)) :
    B.foldl (fun pts i => (src i).foldl (place eps heap new) pts) pts = (B.flatMap src).foldl (place eps heap new) pts := by
  induction B generalizing pts with
  | nil => rfl
  | cons i B ih => rw [List.foldl_cons, ih, List.flatMap_cons, List.foldl_append]

end Verif.QHull
