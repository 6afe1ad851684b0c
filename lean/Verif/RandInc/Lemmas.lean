import Mathlib.Data.List.Chain
import Mathlib.Tactic.Linarith
import Verif.RandInc.Model

set_option linter.unusedSectionVars false
set_option linter.unusedVariables false

/-!
Following the pointers of the ring of facets.
-/

namespace Verif.RandInc

open Verif Verif.Hull2d

variable {K : Type} [Field K] [LinearOrder K]

theorem deref_some {h : ℕ → Option Fct} {i : ℕ} {f : Fct} (e : h i = some f) : deref h i = .ok f := by
  unfold deref; rw [e]

/-- Facet `b` follows facet `a`. -/
def Link (h : ℕ → Option Fct) (a b : ℕ) : Prop :=
  (∃ f, h a = some f ∧ f.next = b) ∧ ∃ g, h b = some g ∧ g.prev = a

/-- Whether the facet at `i` is seen from `p`. -/
def Sees (eps : K) (pos : ℕ → Point K 2) (h : ℕ → Option Fct) (p i : ℕ) : Prop :=
  ∃ f, h i = some f ∧ visible eps pos f p = true

/-- Whether the facet at `i` exists and is not seen from `p`. -/
def Hides (eps : K) (pos : ℕ → Point K 2) (h : ℕ → Option Fct) (p i : ℕ) : Prop :=
  ∃ f, h i = some f ∧ visible eps pos f p = false

/-- The facets `M` between `a` and `e` are a maximal run of facets seen from `p`. -/
structure Vis (eps : K) (pos : ℕ → Point K 2) (h : ℕ → Option Fct) (p a : ℕ) (M : List ℕ) (e : ℕ) : Prop where
  ne : M ≠ []
  chain : List.IsChain (Link h) (a :: (M ++ [e]))
  vis : ∀ i ∈ M, Sees eps pos h p i
  nva : Hides eps pos h p a
  nve : Hides eps pos h p e
  nodup : (a :: (M ++ [e])).Nodup
  out : ∃ g, h e = some g ∧ g.next ∉ M ++ [e]

section
variable {eps : K} {pos : ℕ → Point K 2} {h : ℕ → Option Fct} {p : ℕ}

theorem back_ok (a f : ℕ) (L : List ℕ) (hc : List.IsChain (Link h) (a :: (L ++ [f]))) (hv : ∀ i ∈ L, Sees eps pos h p i)
    (ha : Hides eps pos h p a) (fuel : ℕ) (hf : L.length < fuel) : back eps pos h p fuel f = .ok ((L ++ [f]).head (by simp)) := by
  induction L using List.reverseRecOn generalizing f fuel with
  | nil =>
    cases fuel with
    | zero => simp at hf
    | succ fuel =>
      simp only [List.nil_append, List.isChain_cons_cons, List.isChain_singleton, and_true] at hc
      obtain ⟨⟨x, hx1, hx2⟩, y, hy1, hy2⟩ := hc
      obtain ⟨z, hz1, hz2⟩ := ha
      unfold back
      simp only [deref_some hy1, Except.bind, hy2, deref_some hz1, hz2]
      rfl
  | append_singleton L x ih =>
    cases fuel with
    | zero => simp at hf
    | succ fuel =>
      have hc' : List.IsChain (Link h) ((a :: L) ++ [x] ++ [f]) := by simpa using hc
      obtain ⟨h1, h2⟩ := List.isChain_split.mp (show List.IsChain (Link h) ((a :: L) ++ x :: [f]) by simpa using hc')
      simp only [List.isChain_cons_cons, List.isChain_singleton, and_true] at h2
      obtain ⟨⟨u, hu1, hu2⟩, y, hy1, hy2⟩ := h2
      obtain ⟨z, hz1, hz2⟩ := hv x (by simp)
      unfold back
      simp only [deref_some hy1, Except.bind, hy2, deref_some hz1, hz2, if_true]
      rw [ih x (by simpa using h1) (fun i hi => hv i (by simp [hi])) fuel (by simp at hf; omega)]
      congr 1
      cases L <;> simp

theorem scan_ok (head s e : ℕ) (N : List ℕ) (hne : N ++ [e] ≠ []) (hc : List.IsChain (Link h) (N ++ [e]))
    (hv : ∀ i ∈ N, Sees eps pos h p i) (he : Hides eps pos h p e) (hd : head ∉ N ++ [e]) (fuel : ℕ) (hf : N.length < fuel) :
    scan eps pos h p head fuel (some s) ((N ++ [e]).head hne) = .ok (some (s, e)) := by
  induction N generalizing fuel with
  | nil =>
    cases fuel with
    | zero => simp at hf
    | succ fuel =>
      obtain ⟨z, hz1, hz2⟩ := he
      unfold scan
      simp [deref_some hz1, Except.bind, hz2]
  | cons x N ih =>
    cases fuel with
    | zero => simp at hf
    | succ fuel =>
      obtain ⟨z, hz1, hz2⟩ := hv x (by simp)
      have hne' : N ++ [e] ≠ [] := by simp
      have hl : Link h x ((N ++ [e]).head hne') := by
        cases N with
        | nil => simpa using hc
        | cons y N =>
          simp only [List.cons_append, List.isChain_cons_cons] at hc
          simpa using hc.1
      obtain ⟨⟨u, hu1, hu2⟩, -⟩ := hl
      rw [hz1] at hu1
      cases hu1
      unfold scan
      simp only [List.cons_append, List.head_cons, deref_some hz1, Except.bind, hz2, if_true]
      have hd' : head ∉ N ++ [e] := fun hh => hd (by simp only [List.cons_append]; exact List.mem_cons_of_mem _ hh)
      rw [if_neg (by rw [hu2]; rintro rfl; exact hd' (List.head_mem hne')), hu2]
      refine ih hne' ?_ (fun i hi => hv i (by simp [hi])) hd' fuel (by simp at hf; omega)
      simp only [List.cons_append] at hc
      exact hc.tail

theorem findVisible_ok {a e f : ℕ} {M : List ℕ} (hV : Vis eps pos h p a M e) (hf : f ∈ M) (fuel : ℕ) (hl : M.length < fuel) :
    findVisible eps pos fuel h f p = .ok (some (M.head hV.ne, e)) := by
  obtain ⟨L, R, hM⟩ := List.append_of_mem hf
  have hc := hV.chain
  have hbk : back eps pos h p fuel f = .ok (M.head hV.ne) := by
    rw [back_ok a f L ?_ (fun i hi => hV.vis i (by rw [hM]; simp [hi])) hV.nva fuel (by rw [hM] at hl; simp at hl; omega)]
    · congr 1
      subst hM
      cases L <;> simp
    · rw [hM] at hc
      have : a :: (L ++ f :: R ++ [e]) = (a :: L) ++ f :: (R ++ [e]) := by simp
      rw [this] at hc
      simpa using (List.isChain_split.mp hc).1
  unfold findVisible
  rw [hbk]
  simp only [Except.bind]
  obtain ⟨m, N, rfl⟩ := List.exists_cons_of_ne_nil hV.ne
  cases fuel with
  | zero => simp at hl
  | succ fuel =>
    obtain ⟨z, hz1, hz2⟩ := hV.vis m (by simp)
    have hc' : List.IsChain (Link h) (m :: (N ++ [e])) := by simpa using hc.tail
    have hnd : (m :: (N ++ [e])).Nodup := by simpa using (List.nodup_cons.mp hV.nodup).2
    have hne' : N ++ [e] ≠ [] := by simp
    have hl2 : Link h m ((N ++ [e]).head hne') := by
      cases N with
      | nil => simpa using hc'
      | cons y N =>
        simp only [List.cons_append, List.isChain_cons_cons] at hc'
        simpa using hc'.1
    obtain ⟨⟨u, hu1, hu2⟩, -⟩ := hl2
    rw [hz1] at hu1
    cases hu1
    have hmn := (List.nodup_cons.mp hnd).1
    unfold scan
    simp only [List.head_cons, deref_some hz1, Except.bind, hz2, if_true]
    rw [if_neg (by rw [hu2]; intro hh; exact hmn (hh ▸ List.head_mem hne')), hu2]
    refine scan_ok m m e N hne' ?_ (fun i hi => hV.vis i (by simp [hi])) hV.nve hmn fuel (by simp at hl; omega)
    exact hc'.tail

theorem walk_ok (stop x : ℕ) (l : List ℕ) (hc : List.IsChain (Link h) (x :: l)) (hs : ∃ g, h ((x :: l).getLast (by simp)) = some g ∧ g.next = stop)
    (hd : stop ∉ l) (fuel : ℕ) (hf : l.length < fuel) : walk h stop fuel x = .ok (x :: l) := by
  induction l generalizing x fuel with
  | nil =>
    cases fuel with
    | zero => simp at hf
    | succ fuel =>
      obtain ⟨g, hg1, hg2⟩ := hs
      simp only [List.getLast_singleton] at hg1
      unfold walk
      simp [deref_some hg1, Except.bind, hg2]
  | cons y l ih =>
    cases fuel with
    | zero => simp at hf
    | succ fuel =>
      rw [List.isChain_cons_cons] at hc
      obtain ⟨⟨⟨u, hu1, hu2⟩, -⟩, hc2⟩ := hc
      unfold walk
      simp only [deref_some hu1, Except.bind, hu2]
      rw [if_neg (by rintro rfl; exact hd (by simp)), ih y hc2 (by simpa using hs) (fun hh => hd (by simp [hh])) fuel (by simp at hf; omega)]
      rfl

/-! Tokens do not matter for the pointers. -/

/-- A facet without its token. -/
def stripF (f : Fct) : Fct := { f with token := none }

/-- The heap without the tokens. -/
def strip (h : ℕ → Option Fct) : ℕ → Option Fct := fun i => (h i).map stripF

theorem deref_strip (i : ℕ) : deref (strip h) i = (deref h i).map stripF := by
  unfold deref strip
  cases h i <;> rfl

theorem back_strip (fuel f : ℕ) : back eps pos (strip h) p fuel f = back eps pos h p fuel f := by
  induction fuel generalizing f with
  | zero => rfl
  | succ fuel ih =>
    unfold back
    rw [deref_strip]
    cases hx : deref h f with
    | error e => rfl
    | ok x =>
      simp only [Except.map, Except.bind]
      rw [deref_strip, show (stripF x).prev = x.prev from rfl]
      cases hy : deref h x.prev with
      | error e => rfl
      | ok y =>
        simp only [Except.map]
        rw [show visible eps pos (stripF y) p = visible eps pos y p from rfl, ih]

theorem scan_strip (head fuel : ℕ) (s : Option ℕ) (f : ℕ) :
    scan eps pos (strip h) p head fuel s f = scan eps pos h p head fuel s f := by
  induction fuel generalizing f s with
  | zero => rfl
  | succ fuel ih =>
    unfold scan
    rw [deref_strip]
    cases hx : deref h f with
    | error e => rfl
    | ok x =>
      simp only [Except.map, Except.bind]
      rw [show visible eps pos (stripF x) p = visible eps pos x p from rfl, show (stripF x).next = x.next from rfl]
      cases s <;> simp only [ih]

theorem walk_strip (stop fuel f : ℕ) : walk (strip h) stop fuel f = walk h stop fuel f := by
  induction fuel generalizing f with
  | zero => rfl
  | succ fuel ih =>
    unfold walk
    rw [deref_strip]
    cases hx : deref h f with
    | error e => rfl
    | ok x =>
      simp only [Except.map, Except.bind]
      rw [show (stripF x).next = x.next from rfl, ih]

theorem strip_some {i : ℕ} {g : Fct} (e : strip h i = some g) : ∃ f, h i = some f ∧ g = stripF f := by
  unfold strip at e
  cases hi : h i with
  | none => rw [hi] at e; cases e
  | some f => rw [hi] at e; exact ⟨f, rfl, (Option.some.inj e).symm⟩

/-- What `findVisible` and the range loop return for a vertex with a run of visible facets. -/
theorem find_range {s : St} {v f a e : ℕ} {M : List ℕ} (hs : s.see v = some f) (hV : Vis eps pos (strip s.heap) v a M e)
    (hf : f ∈ M) (hl : M.length + 1 < s.top + 1) :
    findFor eps pos s v = .ok (some (M.head hV.ne, e)) ∧ range s (M.head hV.ne) e = .ok (a :: (M ++ [e])) := by
  constructor
  · unfold findFor
    rw [hs]
    simp only
    have := findVisible_ok hV hf (s.top + 1) (by omega)
    unfold findVisible at this ⊢
    rw [back_strip] at this
    rw [← this]
    congr 1
    funext x
    rw [scan_strip]
  · obtain ⟨m, N, rfl⟩ := List.exists_cons_of_ne_nil hV.ne
    have hc := hV.chain
    simp only [List.cons_append, List.isChain_cons_cons] at hc
    obtain ⟨⟨-, y, hy1, hy2⟩, -⟩ := hc
    obtain ⟨g, hg1, hg2⟩ := hV.out
    obtain ⟨y', hy3, rfl⟩ := strip_some hy1
    obtain ⟨g', hg3, rfl⟩ := strip_some hg1
    unfold range
    simp only [List.head_cons, deref_some hy3, deref_some hg3, Except.bind]
    have := walk_ok (h := strip s.heap) g'.next a (m :: N ++ [e]) hV.chain
      ⟨stripF g', by simpa using hg1, rfl⟩ hg2 (s.top + 1) (by simp at hl ⊢; omega)
    rw [walk_strip] at this
    rw [show y'.prev = a from hy2]
    exact this

end

/-! Loops -/

theorem foldlM_inv {σ : Type} {step : σ → ℕ → Except Err σ} (I : List ℕ → σ → Prop) (l : List ℕ) (s : σ) (h0 : I [] s)
    (hstep : ∀ done v rest s, l = done ++ v :: rest → I done s → ∃ s', step s v = .ok s' ∧ I (done ++ [v]) s') :
    ∃ s', l.foldlM step s = .ok s' ∧ I l s' := by
  suffices H : ∀ (rest done : List ℕ) (s : σ), l = done ++ rest → I done s → ∃ s', rest.foldlM step s = .ok s' ∧ I l s' by
    exact H l [] s rfl h0
  intro rest
  induction rest with
  | nil => intro done s hl hs; exact ⟨s, rfl, by simpa [hl] using hs⟩
  | cons v rest ih =>
    intro done s hl hs
    obtain ⟨s1, h1, h2⟩ := hstep done v rest s hl hs
    obtain ⟨s2, h3, h4⟩ := ih (done ++ [v]) s1 (by simp [hl]) h2
    refine ⟨s2, ?_, h4⟩
    rw [List.foldlM_cons, h1]
    exact h3

end Verif.RandInc
