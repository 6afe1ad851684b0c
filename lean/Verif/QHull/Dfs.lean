import Mathlib.Data.List.Chain
import Mathlib.Data.Set.Finite.Basic
import Mathlib.Data.Fintype.EquivFin
import Mathlib.Data.Fintype.Pigeonhole
import Mathlib.Logic.Function.Iterate
import Mathlib.Data.List.Nodup
import Mathlib.Tactic.Linarith
import Mathlib.Tactic.Tauto

set_option linter.unusedSectionVars false
set_option linter.unusedVariables false

/-!
The traversal of oriented edges on a closed surface of triangles: what it emits is the boundary of the visited region, in order.
An oriented edge (dart) is a pair of vertices; `th x y` is the third vertex of the triangle with the dart `(x, y)`.
-/

namespace Verif.QHull.Dfs

variable {α : Type} [DecidableEq α]

/-- The dart the other way round. -/
def tw (d : α × α) : α × α := (d.2, d.1)
/-- The next dart of the same triangle. -/
def nx (th : α → α → α) (d : α × α) : α × α := (d.2, th d.1 d.2)
/-- The previous dart of the same triangle. -/
def pv (th : α → α → α) (d : α × α) : α × α := (th d.1 d.2, d.1)

/-- The traversal: stack, visited darts, emitted darts. -/
def go (th : α → α → α) (vis : α × α → Bool) :
    ℕ → List (α × α) → List (α × α) → List (α × α) → Option (List (α × α) × List (α × α))
  | 0, _, _, _ => none
  | _ + 1, [], V, E => some (V, E)
  | n + 1, e :: S, V, E =>
    if e ∈ V then go th vis n S V E
    else if vis e then
      go th vis n (nx th (tw e) :: pv th (tw e) :: tw e :: S) (e :: V) (if vis (tw e) then E else E ++ [e])
    else go th vis n S V E

/-- A closed surface of triangles with a set of visible triangles. -/
structure Surf (D : List (α × α)) (th : α → α → α) (vis : α × α → Bool) : Prop where
  ne : ∀ d ∈ D, d.1 ≠ d.2
  twin : ∀ d ∈ D, tw d ∈ D
  next : ∀ d ∈ D, nx th d ∈ D
  cyc : ∀ d ∈ D, th d.2 (th d.1 d.2) = d.1
  visn : ∀ d ∈ D, vis (nx th d) = vis d

/-- A dart of the frontier: its triangle is visible, the one on the other side is not. -/
def Front (D : List (α × α)) (vis : α × α → Bool) (d : α × α) : Prop := d ∈ D ∧ vis d = true ∧ vis (tw d) = false

section Rel

variable (th : α → α → α) (vis : α × α → Bool)

/-- The stack `S`, processed from position `z`, follows the boundary: `Ab` are the darts above it. -/
inductive Rel (V : List (α × α)) : α → List (α × α) → List (α × α) → Prop
  | nil (z Ab) : Rel V z Ab []
  | skip (z Ab s S) : (s ∈ V ∨ s ∈ Ab ∨ vis s = false) → Rel V z Ab S → Rel V z Ab (s :: S)
  | real (z Ab s S) : s.1 = z → vis s = true → Rel V s.2 (s :: Ab) S → Rel V s.2 (s :: Ab) (nx th s :: pv th s :: S) →
      Rel V z Ab (s :: S)
  | back (z Ab r S) : r.1 = z → vis r = true → vis (tw r) = true → (tw r ∈ V ∨ tw r ∈ Ab) → Rel V z (r :: Ab) S →
      Rel V z (r :: Ab) (nx th (tw r) :: pv th (tw r) :: S) → Rel V z Ab (r :: S)

variable {th vis}

theorem Rel.mono {V V' : List (α × α)} {z : α} {Ab S : List (α × α)} (h : Rel th vis V z Ab S) :
    ∀ Ab', (∀ e ∈ V, e ∈ V') → (∀ e ∈ Ab, e ∈ V' ∨ e ∈ Ab') → Rel th vis V' z Ab' S := by
  induction h with
  | nil z Ab => intro Ab' _ _; exact .nil _ _
  | skip z Ab s S hs _ ih =>
    intro Ab' hV hA
    refine .skip _ _ _ _ ?_ (ih Ab' hV hA)
    rcases hs with h | h | h
    · exact Or.inl (hV s h)
    · rcases hA s h with h | h
      · exact Or.inl h
      · exact Or.inr (Or.inl h)
    · exact Or.inr (Or.inr h)
  | real z Ab s S hz hv _ _ ih1 ih2 =>
    intro Ab' hV hA
    have hA' : ∀ e ∈ s :: Ab, e ∈ V' ∨ e ∈ s :: Ab' := by
      intro e he
      rcases List.mem_cons.mp he with rfl | he
      · exact Or.inr (by simp)
      · rcases hA e he with h | h
        · exact Or.inl h
        · exact Or.inr (by simp [h])
    exact .real _ _ _ _ hz hv (ih1 _ hV hA') (ih2 _ hV hA')
  | back z Ab r S hz hv hv' ht _ _ ih1 ih2 =>
    intro Ab' hV hA
    have hA' : ∀ e ∈ r :: Ab, e ∈ V' ∨ e ∈ r :: Ab' := by
      intro e he
      rcases List.mem_cons.mp he with rfl | he
      · exact Or.inr (by simp)
      · rcases hA e he with h | h
        · exact Or.inl h
        · exact Or.inr (by simp [h])
    refine .back _ _ _ _ hz hv hv' ?_ (ih1 _ hV hA') (ih2 _ hV hA')
    rcases ht with h | h
    · exact Or.inl (hV _ h)
    · exact hA _ h

theorem Rel.insert {V : List (α × α)} {z : α} {Ab S : List (α × α)} (h : Rel th vis V z Ab S) :
    ∀ S1 S2 e, S = S1 ++ S2 → (e ∈ V ∨ e ∈ Ab ∨ e ∈ S1) → Rel th vis V z Ab (S1 ++ e :: S2) := by
  induction h with
  | nil z Ab =>
    intro S1 S2 e hS he
    obtain ⟨rfl, rfl⟩ := List.append_eq_nil_iff.mp hS.symm
    refine .skip _ _ _ _ ?_ (.nil _ _)
    rcases he with h | h | h
    · exact Or.inl h
    · exact Or.inr (Or.inl h)
    · simp at h
  | skip z Ab s S hs h ih =>
    intro S1 S2 e hS he
    cases S1 with
    | nil =>
      rw [List.nil_append] at hS
      subst hS
      refine .skip _ _ _ _ ?_ (.skip _ _ _ _ hs h)
      rcases he with h | h | h
      · exact Or.inl h
      · exact Or.inr (Or.inl h)
      · simp at h
    | cons s' S1 =>
      rw [List.cons_append, List.cons.injEq] at hS
      obtain ⟨rfl, rfl⟩ := hS
      rw [List.cons_append]
      by_cases hes : e = s ∧ vis s = false
      · obtain ⟨rfl, hv⟩ := hes
        -- an invisible dart is skipped wherever it is
        refine .skip _ _ _ _ (Or.inr (Or.inr hv)) ?_
        have : ∀ {z Ab S}, Rel th vis V z Ab S → ∀ S1 S2, S = S1 ++ S2 → Rel th vis V z Ab (S1 ++ e :: S2) := by
          intro z Ab S h
          induction h with
          | nil z Ab =>
            intro S1 S2 hS
            obtain ⟨rfl, rfl⟩ := List.append_eq_nil_iff.mp hS.symm
            exact .skip _ _ _ _ (Or.inr (Or.inr hv)) (.nil _ _)
          | skip z Ab s S hs h ih =>
            intro S1 S2 hS
            cases S1 with
            | nil =>
              rw [List.nil_append] at hS; subst hS
              exact .skip _ _ _ _ (Or.inr (Or.inr hv)) (.skip _ _ _ _ hs h)
            | cons s' S1 =>
              rw [List.cons_append, List.cons.injEq] at hS
              obtain ⟨rfl, rfl⟩ := hS
              exact .skip _ _ _ _ hs (ih _ _ rfl)
          | real z Ab s S hz hv' h1 h2 ih1 ih2 =>
            intro S1 S2 hS
            cases S1 with
            | nil =>
              rw [List.nil_append] at hS; subst hS
              exact .skip _ _ _ _ (Or.inr (Or.inr hv)) (.real _ _ _ _ hz hv' h1 h2)
            | cons s' S1 =>
              rw [List.cons_append, List.cons.injEq] at hS
              obtain ⟨rfl, rfl⟩ := hS
              exact .real _ _ _ _ hz hv' (ih1 _ _ rfl) (ih2 (_ :: _ :: S1) _ rfl)
          | back z Ab r S hz hv1 hv2 ht h1 h2 ih1 ih2 =>
            intro S1 S2 hS
            cases S1 with
            | nil =>
              rw [List.nil_append] at hS; subst hS
              exact .skip _ _ _ _ (Or.inr (Or.inr hv)) (.back _ _ _ _ hz hv1 hv2 ht h1 h2)
            | cons s' S1 =>
              rw [List.cons_append, List.cons.injEq] at hS
              obtain ⟨rfl, rfl⟩ := hS
              exact .back _ _ _ _ hz hv1 hv2 ht (ih1 _ _ rfl) (ih2 (_ :: _ :: S1) _ rfl)
        exact this h _ _ rfl
      · refine .skip _ _ _ _ hs (ih S1 S2 e rfl ?_)
        rcases he with h' | h' | h'
        · exact Or.inl h'
        · exact Or.inr (Or.inl h')
        · rcases List.mem_cons.mp h' with rfl | h'
          · rcases hs with h | h | h
            · exact Or.inl h
            · exact Or.inr (Or.inl h)
            · exact absurd ⟨rfl, h⟩ hes
          · exact Or.inr (Or.inr h')
  | real z Ab s S hz hv h1 h2 ih1 ih2 =>
    intro S1 S2 e hS he
    cases S1 with
    | nil =>
      rw [List.nil_append] at hS; subst hS
      refine .skip _ _ _ _ ?_ (.real _ _ _ _ hz hv h1 h2)
      rcases he with h | h | h
      · exact Or.inl h
      · exact Or.inr (Or.inl h)
      · simp at h
    | cons s' S1 =>
      rw [List.cons_append, List.cons.injEq] at hS
      obtain ⟨rfl, rfl⟩ := hS
      have he' : e ∈ V ∨ e ∈ s :: Ab ∨ e ∈ S1 := by
        simp only [List.mem_cons] at he ⊢; tauto
      refine .real _ _ _ _ hz hv (ih1 _ _ e rfl he') (ih2 (_ :: _ :: S1) _ e rfl ?_)
      simp only [List.mem_cons] at he ⊢; tauto
  | back z Ab r S hz hv1 hv2 ht h1 h2 ih1 ih2 =>
    intro S1 S2 e hS he
    cases S1 with
    | nil =>
      rw [List.nil_append] at hS; subst hS
      refine .skip _ _ _ _ ?_ (.back _ _ _ _ hz hv1 hv2 ht h1 h2)
      rcases he with h | h | h
      · exact Or.inl h
      · exact Or.inr (Or.inl h)
      · simp at h
    | cons s' S1 =>
      rw [List.cons_append, List.cons.injEq] at hS
      obtain ⟨rfl, rfl⟩ := hS
      have he' : e ∈ V ∨ e ∈ r :: Ab ∨ e ∈ S1 := by
        simp only [List.mem_cons] at he ⊢; tauto
      refine .back _ _ _ _ hz hv1 hv2 ht (ih1 _ _ e rfl he') (ih2 (_ :: _ :: S1) _ e rfl ?_)
      simp only [List.mem_cons] at he ⊢; tauto

theorem Rel.insertList {V : List (α × α)} {z : α} {Ab : List (α × α)} (L S1 S2 : List (α × α))
    (h : Rel th vis V z Ab (S1 ++ S2)) (hL : ∀ e ∈ L, e ∈ V ∨ e ∈ Ab) : Rel th vis V z Ab (S1 ++ (L ++ S2)) := by
  induction L with
  | nil => exact h
  | cons e L ih =>
    refine Rel.insert (ih fun e he => hL e (by simp [he])) S1 (L ++ S2) e rfl ?_
    rcases hL e (by simp) with h | h
    · exact Or.inl h
    · exact Or.inr (Or.inl h)

/-- Entering a visible triangle. -/
theorem Rel.push {V : List (α × α)} {s : α × α} {Ab S : List (α × α)}
    (cyc1 : th (tw s).2 (th (tw s).1 (tw s).2) = (tw s).1) (cyc2 : th (th (tw s).1 (tw s).2) (tw s).1 = (tw s).2)
    (hvu : vis (nx th (tw s)) = true) (hvv : vis (pv th (tw s)) = true) (hvt : vis (tw s) = true) (hvs : vis s = true)
    (hsV : s ∈ V) (h1 : Rel th vis V s.2 Ab S) (h2 : Rel th vis V s.2 Ab (nx th s :: pv th s :: S)) :
    Rel th vis V s.1 Ab (nx th (tw s) :: pv th (tw s) :: tw s :: S) := by
  set t := tw s with ht
  set u := nx th t with hu
  set v := pv th t with hv
  have u1 : u.1 = s.1 := rfl
  have v2 : v.2 = s.2 := rfl
  have uv : u.2 = v.1 := rfl
  have hnu : nx th u = v := by
    show (th t.1 t.2, th t.2 (th t.1 t.2)) = (th t.1 t.2, t.1)
    rw [cyc1]
  have hpu : pv th u = t := by
    show (th t.2 (th t.1 t.2), t.2) = t
    rw [cyc1]
  have hnv : nx th v = t := by
    show (t.1, th (th t.1 t.2) t.1) = t
    rw [cyc2]
  have hpv : pv th v = u := by
    show (th (th t.1 t.2) t.1, th t.1 t.2) = (t.2, th t.1 t.2)
    rw [cyc2]
  have twt : tw t = s := rfl
  -- the dart back
  have Rt : ∀ Ab' L, (∀ e ∈ Ab, e ∈ Ab') → (∀ e ∈ L, e = t ∨ e ∈ Ab') → Rel th vis V s.2 Ab' (t :: (L ++ S)) := by
    intro Ab' L hA hL
    have hL' : ∀ e ∈ L, e ∈ V ∨ e ∈ t :: Ab' := by
      intro e he
      rcases hL e he with rfl | h
      · exact Or.inr (by simp)
      · exact Or.inr (by simp [h])
    have hA' : ∀ e ∈ Ab, e ∈ V ∨ e ∈ t :: Ab' := fun e he => Or.inr (by simp [hA e he])
    refine .back _ _ _ _ rfl hvt (by rw [twt]; exact hvs) (Or.inl (by rw [twt]; exact hsV)) ?_ ?_
    · exact Rel.insertList L [] S (h1.mono _ (fun _ h => h) hA') hL'
    · rw [twt]
      exact Rel.insertList L [nx th s, pv th s] S (h2.mono _ (fun _ h => h) hA') hL'
  have Rv : ∀ Ab' L, (∀ e ∈ Ab, e ∈ Ab') → u ∈ Ab' → (∀ e ∈ L, e = t ∨ e = v ∨ e ∈ Ab') →
      Rel th vis V v.1 Ab' (v :: t :: (L ++ S)) := by
    intro Ab' L hA huA hL
    refine .real _ _ _ _ rfl hvv ?_ ?_
    · refine Rt _ L (fun e he => by simp [hA e he]) fun e he => ?_
      rcases hL e he with h | h | h
      · exact Or.inl h
      · exact Or.inr (by simp [h])
      · exact Or.inr (by simp [h])
    · rw [hnv, hpv]
      refine Rt _ (u :: t :: L) (fun e he => by simp [hA e he]) fun e he => ?_
      simp only [List.mem_cons] at he ⊢
      rcases he with rfl | rfl | he
      · exact Or.inr (Or.inr huA)
      · exact Or.inl rfl
      · rcases hL e he with h | h | h
        · exact Or.inl h
        · exact Or.inr (Or.inl h)
        · exact Or.inr (Or.inr h)
  refine .real _ _ _ _ rfl hvu ?_ ?_
  · exact Rv (u :: Ab) [] (fun e he => by simp [he]) (by simp) (by simp)
  · rw [hnu, hpu]
    refine Rv (u :: Ab) [v, t] (fun e he => by simp [he]) (by simp) ?_
    simp

end Rel

end Verif.QHull.Dfs
