import Verif.RandInc.Lemmas

set_option linter.unusedSectionVars false
set_option linter.unusedVariables false

/-!
The reservation loop and the checking loop of a round: who wins.
-/

namespace Verif.RandInc

open Verif Verif.Hull2d

variable {K : Type} [Field K] [LinearOrder K]

/-- The vertices of a batch, each with a run of visible facets. -/
structure Batch (eps : K) (pos : ℕ → Point K 2) (g : ℕ → Option Fct) (see : ℕ → Option ℕ) (top : ℕ) (cur : List ℕ)
    (A : ℕ → ℕ) (M : ℕ → List ℕ) (E : ℕ → ℕ) : Prop where
  nodup : cur.Nodup
  vis : ∀ v ∈ cur, ∃ f, see v = some f ∧ f ∈ M v ∧ Vis eps pos g v (A v) (M v) (E v) ∧ (M v).length + 1 < top + 1

/-- The facets a vertex reserves. -/
def rng (A : ℕ → ℕ) (M : ℕ → List ℕ) (E : ℕ → ℕ) (v : ℕ) : List ℕ := A v :: (M v ++ [E v])

theorem modify_ok {h : ℕ → Option Fct} {i : ℕ} {f : Fct} (e : h i = some f) (k : Fct → Fct) :
    modify h i k = .ok (Function.update h i (some (k f))) := by
  unfold modify; rw [deref_some e]; rfl

theorem vis_live {eps : K} {pos : ℕ → Point K 2} {h : ℕ → Option Fct} {p a e : ℕ} {M : List ℕ} (hV : Vis eps pos h p a M e) :
    ∀ i ∈ a :: (M ++ [e]), ∃ f, h i = some f := by
  intro i hi
  simp only [List.mem_cons, List.mem_append, List.not_mem_nil, or_false] at hi
  rcases hi with rfl | hi | rfl
  · obtain ⟨f, h1, -⟩ := hV.nva; exact ⟨f, h1⟩
  · obtain ⟨f, h1, -⟩ := hV.vis i hi; exact ⟨f, h1⟩
  · obtain ⟨f, h1, -⟩ := hV.nve; exact ⟨f, h1⟩

/-- Reserving a list of facets. -/
theorem reserve_fold (v : ℕ) (ids : List ℕ) (hn : ids.Nodup) (h : ℕ → Option Fct) (hl : ∀ i ∈ ids, ∃ f, h i = some f) :
    ids.foldlM (fun h i => modify h i (reserveTok v)) h =
      .ok (fun i => if i ∈ ids then (h i).map (reserveTok v) else h i) := by
  induction ids generalizing h with
  | nil => simp only [List.foldlM_nil]; rfl
  | cons x ids ih =>
    obtain ⟨f, hf⟩ := hl x (by simp)
    rw [List.foldlM_cons, modify_ok hf]
    have hx := (List.nodup_cons.mp hn).1
    change ids.foldlM (fun h i => modify h i (reserveTok v)) (Function.update h x (some (reserveTok v f))) = _
    rw [ih (List.nodup_cons.mp hn).2]
    · congr 1
      funext i
      by_cases hi : i = x
      · subst hi
        simp [hx, hf]
      · simp [hi]
    · intro i hi
      have : i ≠ x := fun h => hx (h ▸ hi)
      obtain ⟨g, hg⟩ := hl i (by simp [hi])
      exact ⟨g, by simp [this, hg]⟩

/-- Checking a list of facets. -/
theorem check_fold (v : ℕ) (ids : List ℕ) (hn : ids.Nodup) (b : Bool) (h : ℕ → Option Fct) (hl : ∀ i ∈ ids, ∃ f, h i = some f) :
    ids.foldlM (checkTok v) (b, h) =
      .ok (b && ids.all fun i => decide ((h i).bind (·.token) = some v),
        fun i => if i ∈ ids then (h i).map (fun f => if f.token = some v then { f with token := none } else f) else h i) := by
  induction ids generalizing h b with
  | nil => simp only [List.foldlM_nil, List.all_nil, Bool.and_true]; rfl
  | cons x ids ih =>
    obtain ⟨f, hf⟩ := hl x (by simp)
    have hx := (List.nodup_cons.mp hn).1
    rw [List.foldlM_cons]
    have hl' : ∀ (h' : Option Fct) (i : ℕ), i ∈ ids → ∃ f, Function.update h x h' i = some f := by
      intro h' i hi
      have : i ≠ x := fun h => hx (h ▸ hi)
      obtain ⟨g, hg⟩ := hl i (by simp [hi])
      exact ⟨g, by simp [this, hg]⟩
    unfold checkTok
    rw [deref_some hf]
    simp only [Except.map]
    by_cases ht : f.token = some v
    · rw [if_pos ht]
      change ids.foldlM (checkTok v) (b, Function.update h x (some { f with token := none })) = _
      rw [ih (List.nodup_cons.mp hn).2 _ _ (hl' _)]
      congr 2
      · rw [List.all_cons]
        simp only [hf, Option.bind_some, ht, decide_true, Bool.true_and]
        congr 1
        apply Bool.eq_iff_iff.mpr
        simp only [List.all_eq_true]
        refine forall_congr' fun i => forall_congr' fun hi => ?_
        have : i ≠ x := fun h => hx (h ▸ hi)
        simp [this]
      · funext i
        by_cases hi : i = x
        · subst hi
          simp [hx, hf, ht]
        · simp [hi]
    · rw [if_neg ht]
      change ids.foldlM (checkTok v) (false, h) = _
      rw [ih (List.nodup_cons.mp hn).2 _ _ (fun i hi => hl i (by simp [hi]))]
      congr 2
      · simp [hf, ht]
      · funext i
        by_cases hi : i = x
        · subst hi
          simp [hx, hf, ht]
        · simp [hi]

section
variable {eps : K} {pos : ℕ → Point K 2} {g : ℕ → Option Fct} {see : ℕ → Option ℕ} {top : ℕ} {cur : List ℕ}
  {A : ℕ → ℕ} {M : ℕ → List ℕ} {E : ℕ → ℕ}

/-- The token of a facet. -/
def tok (h : ℕ → Option Fct) (i : ℕ) : Option ℕ := (h i).bind (·.token)

/-- After the reservations of `done` a facet holds its least claimant. -/
def Claimed (R : ℕ → List ℕ) (done : List ℕ) (h : ℕ → Option Fct) : Prop :=
  ∀ i, (tok h i = none ∧ ∀ v ∈ done, i ∉ R v) ∨ ∃ w ∈ done, tok h i = some w ∧ i ∈ R w ∧ ∀ v ∈ done, i ∈ R v → w ≤ v

theorem strip_map (h : ℕ → Option Fct) (k : Fct → Fct) (hk : ∀ f, stripF (k f) = stripF f) (ids : List ℕ) :
    strip (fun i => if i ∈ ids then (h i).map k else h i) = strip h := by
  funext i
  unfold strip
  by_cases hi : i ∈ ids
  · simp only [hi, if_true]
    cases h i with
    | none => rfl
    | some f => simp [hk]
  · simp [hi]

theorem reserve_all (hB : Batch eps pos g see top cur A M E) (s : St) (hg : strip s.heap = g) (hsee : s.see = see)
    (htop : s.top = top) (ht : ∀ i, tok s.heap i = none) (l : List ℕ) (hl : l.Perm cur) :
    ∃ h', l.foldlM (reserveOne eps pos) s = .ok { s with heap := h' } ∧ strip h' = g ∧ Claimed (rng A M E) l h' := by
  have key := foldlM_inv (step := reserveOne eps pos) (fun done s' => ∃ h', s' = { s with heap := h' } ∧ strip h' = g ∧
    Claimed (rng A M E) done h') l s ⟨s.heap, rfl, hg, fun i => .inl ⟨ht i, by simp⟩⟩ ?_
  · obtain ⟨s', h1, h', rfl, h2, h3⟩ := key
    exact ⟨h', h1, h2, h3⟩
  · rintro done v rest s' hlv ⟨h', rfl, h2, h3⟩
    have hv : v ∈ cur := hl.mem_iff.mp (by rw [hlv]; simp)
    obtain ⟨f, f1, f2, f3, f4⟩ := hB.vis v hv
    obtain ⟨k1, k2⟩ := find_range (s := { s with heap := h' }) (by rw [← hsee] at f1; exact f1) (by rw [h2]; exact f3) f2
      (by simp only [htop]; exact f4)
    unfold reserveOne
    rw [k1]
    simp only [Except.bind]
    rw [k2]
    simp only
    have hlive : ∀ i ∈ A v :: (M v ++ [E v]), ∃ f, h' i = some f := by
      intro i hi
      obtain ⟨f, hf⟩ := vis_live f3 i hi
      rw [← h2] at hf
      obtain ⟨f', hf', -⟩ := strip_some hf
      exact ⟨f', hf'⟩
    rw [reserve_fold v _ f3.nodup _ hlive]
    refine ⟨_, rfl, _, rfl, ?_, ?_⟩
    · rw [strip_map h' (reserveTok v) (fun f => rfl), h2]
    · intro i
      by_cases hi : i ∈ rng A M E v
      · right
        obtain ⟨fi, hfi⟩ := hlive i hi
        have hi' : i ∈ A v :: (M v ++ [E v]) := hi
        have htk : tok h' i = fi.token := by unfold tok; rw [hfi]; rfl
        rcases h3 i with ⟨c1, c2⟩ | ⟨w, c1, c2, c3, c4⟩
        · refine ⟨v, by simp, ?_, hi, ?_⟩
          · rw [htk] at c1
            unfold tok
            simp only [if_pos hi', hfi, Option.map_some, Option.bind_some, reserveTok, c1]
          · intro u hu hiu
            rcases List.mem_append.mp hu with hu | hu
            · exact absurd hiu (c2 u hu)
            · rw [List.mem_singleton.mp hu]
        · rw [htk] at c2
          have htk' : tok (fun i => if i ∈ A v :: (M v ++ [E v]) then (h' i).map (reserveTok v) else h' i) i = some (min v w) := by
            unfold tok
            simp only [if_pos hi', hfi, Option.map_some, Option.bind_some, reserveTok, c2]
          rw [htk']
          rcases le_total v w with hvw | hvw
          · refine ⟨v, by simp, by rw [min_eq_left hvw], hi, ?_⟩
            intro u hu hiu
            rcases List.mem_append.mp hu with hu | hu
            · exact hvw.trans (c4 u hu hiu)
            · rw [List.mem_singleton.mp hu]
          · refine ⟨w, by simp [c1], by rw [min_eq_right hvw], c3, ?_⟩
            intro u hu hiu
            rcases List.mem_append.mp hu with hu | hu
            · exact c4 u hu hiu
            · rw [List.mem_singleton.mp hu]; exact hvw
      · have htk : tok (fun i => if i ∈ A v :: (M v ++ [E v]) then (h' i).map (reserveTok v) else h' i) i = tok h' i := by
          unfold tok
          simp only
          rw [if_neg (show i ∉ A v :: (M v ++ [E v]) from hi)]
        rw [htk]
        rcases h3 i with ⟨c1, c2⟩ | ⟨w, c1, c2, c3, c4⟩
        · left
          refine ⟨c1, fun u hu => ?_⟩
          rcases List.mem_append.mp hu with hu | hu
          · exact c2 u hu
          · rw [List.mem_singleton.mp hu]; exact hi
        · right
          refine ⟨w, by simp [c1], c2, c3, fun u hu hiu => ?_⟩
          rcases List.mem_append.mp hu with hu | hu
          · exact c4 u hu hiu
          · rw [List.mem_singleton.mp hu] at hiu; exact absurd hiu hi

/-- The tokens after the checks of `done`. -/
def after (t0 : ℕ → Option ℕ) (done : List ℕ) (i : ℕ) : Option ℕ :=
  match t0 i with
  | none => none
  | some w => if w ∈ done then none else some w

theorem check_all (hB : Batch eps pos g see top cur A M E) (s : St) (hg : strip s.heap = g) (hsee : s.see = see)
    (htop : s.top = top) (l' : List ℕ) (hl' : l'.Perm cur) (hc : Claimed (rng A M E) l' s.heap) (l : List ℕ) (hl : l.Perm cur) :
    ∃ h' W, l.foldlM (checkOne eps pos) (s, []) = .ok ({ s with heap := h' }, W) ∧ h' = g ∧
      ∀ v, v ∈ W ↔ v ∈ cur ∧ ∀ i ∈ rng A M E v, tok s.heap i = some v := by
  have hnd : l.Nodup := hl.nodup_iff.mpr hB.nodup
  have key := foldlM_inv (step := checkOne eps pos) (fun done s' => ∃ h' W, s' = ({ s with heap := h' }, W) ∧ strip h' = g ∧
    (∀ i, tok h' i = after (tok s.heap) done i) ∧ ∀ v, v ∈ W ↔ v ∈ done ∧ ∀ i ∈ rng A M E v, tok s.heap i = some v) l (s, [])
    ⟨s.heap, [], rfl, hg, ?_, by simp⟩ ?_
  · obtain ⟨s', h1, h', W, rfl, h2, h3, h4⟩ := key
    refine ⟨h', W, h1, ?_, fun v => by rw [h4, hl.mem_iff]⟩
    have h5 : ∀ i, tok h' i = none := by
      intro i
      rw [h3]
      unfold after
      rcases hc i with ⟨c1, -⟩ | ⟨w, c1, c2, -⟩
      · rw [c1]
      · rw [c2]
        simp only
        rw [if_pos (hl.mem_iff.mpr (hl'.mem_iff.mp c1))]
    rw [← h2]
    funext i
    unfold strip
    cases hi : h' i with
    | none => rfl
    | some f =>
      have := h5 i
      unfold tok at this
      rw [hi] at this
      simp only [Option.bind_some] at this
      simp only [Option.map_some, stripF]
      rw [← this]
  · intro i
    unfold after
    cases tok s.heap i <;> simp
  · rintro done v rest s' hlv ⟨h', W, rfl, h2, h3, h4⟩
    have hv : v ∈ cur := hl.mem_iff.mp (by rw [hlv]; simp)
    have hvd : v ∉ done := by
      rw [hlv] at hnd
      exact fun h => (List.nodup_append.mp hnd).2.2 v h v (by simp) rfl
    obtain ⟨f, f1, f2, f3, f4⟩ := hB.vis v hv
    obtain ⟨k1, k2⟩ := find_range (s := { s with heap := h' }) (by rw [← hsee] at f1; exact f1) (by rw [h2]; exact f3) f2
      (by simp only [htop]; exact f4)
    unfold checkOne
    simp only
    rw [k1]
    simp only [Except.bind]
    rw [k2]
    simp only
    have hlive : ∀ i ∈ A v :: (M v ++ [E v]), ∃ f, h' i = some f := by
      intro i hi
      obtain ⟨f, hf⟩ := vis_live f3 i hi
      rw [← h2] at hf
      obtain ⟨f', hf', -⟩ := strip_some hf
      exact ⟨f', hf'⟩
    rw [check_fold v _ f3.nodup _ _ hlive]
    have htv : ∀ i, tok h' i = some v ↔ tok s.heap i = some v := by
      intro i
      rw [h3]
      unfold after
      cases ht : tok s.heap i with
      | none => simp
      | some w =>
        simp only [Option.some.injEq]
        constructor
        · intro h
          split_ifs at h
          exact Option.some.inj h
        · rintro rfl
          rw [if_neg hvd]
    refine ⟨_, rfl, _, _, rfl, ?_, ?_, ?_⟩
    · simp only
      rw [strip_map h' (fun f => if f.token = some v then { f with token := none } else f) (fun f => by split_ifs <;> rfl), h2]
    · intro i
      simp only
      have hri : tok s.heap i = some v → i ∈ rng A M E v := by
        intro h
        rcases hc i with ⟨c1, -⟩ | ⟨w, c1, c2, c3, -⟩
        · rw [c1] at h; cases h
        · rw [c2] at h; rw [← Option.some.inj h]; exact c3
      have haf : after (tok s.heap) (done ++ [v]) i = if tok s.heap i = some v then none else tok h' i := by
        rw [h3]
        unfold after
        cases ht : tok s.heap i with
        | none => simp
        | some w =>
          simp only [List.mem_append, List.mem_singleton, Option.some.injEq]
          by_cases hwv : w = v
          · simp [hwv]
          · simp [hwv]
      rw [haf]
      by_cases hi : i ∈ A v :: (M v ++ [E v])
      · obtain ⟨fi, hfi⟩ := hlive i hi
        have htk : tok h' i = fi.token := by unfold tok; rw [hfi]; rfl
        have hvi := htv i
        rw [htk] at hvi ⊢
        unfold tok at hvi ⊢
        simp only [if_pos hi, hfi, Option.map_some, Option.bind_some]
        by_cases hfv : fi.token = some v
        · rw [if_pos hfv, if_pos (hvi.mp hfv)]
        · rw [if_neg hfv, if_neg (fun h => hfv (hvi.mpr h))]
      · rw [if_neg (fun h => hi (hri h))]
        unfold tok
        simp only
        rw [if_neg hi]
    · intro u
      simp only [Bool.true_and]
      have hall : ((A v :: (M v ++ [E v])).all fun i => decide ((h' i).bind (·.token) = some v)) = true ↔
          ∀ i ∈ rng A M E v, tok s.heap i = some v := by
        rw [List.all_eq_true]
        refine forall_congr' fun i => forall_congr' fun hi => ?_
        rw [decide_eq_true_iff, ← htv i]
        rfl
      by_cases hw : ((A v :: (M v ++ [E v])).all fun i => decide ((h' i).bind (·.token) = some v)) = true
      · rw [if_pos hw]
        simp only [List.mem_cons, List.mem_append, List.not_mem_nil, or_false]
        rw [h4]
        constructor
        · rintro (rfl | h)
          · exact ⟨.inr rfl, hall.mp hw⟩
          · exact ⟨.inl h.1, h.2⟩
        · rintro ⟨h | h, h'⟩
          · exact .inr ⟨h, h'⟩
          · exact .inl h
      · rw [if_neg hw, h4]
        simp only [List.mem_append, List.mem_cons, List.not_mem_nil, or_false]
        constructor
        · exact fun h => ⟨.inl h.1, h.2⟩
        · rintro ⟨h | rfl, h'⟩
          · exact ⟨h, h'⟩
          · exact absurd (hall.mpr h') hw

/-- The least vertex of the batch wins, and the ranges of two winners are disjoint. -/
theorem winners (hB : Batch eps pos g see top cur A M E) {h : ℕ → Option Fct} {l : List ℕ} (hl : l.Perm cur)
    (hc : Claimed (rng A M E) l h) :
    (cur ≠ [] → ∃ v ∈ cur, ∀ i ∈ rng A M E v, tok h i = some v) ∧
    ∀ v w, (∀ i ∈ rng A M E v, tok h i = some v) → (∀ i ∈ rng A M E w, tok h i = some w) → v ≠ w →
      ∀ i ∈ rng A M E v, i ∉ rng A M E w := by
  constructor
  · intro hne
    obtain ⟨v, hv, hmin⟩ : ∃ v ∈ cur, ∀ w ∈ cur, v ≤ w := by
      obtain ⟨v, h1, h2⟩ := Finset.exists_min_image cur.toFinset id (by
        obtain ⟨x, hx⟩ := List.exists_mem_of_ne_nil _ hne
        exact ⟨x, List.mem_toFinset.mpr hx⟩)
      exact ⟨v, List.mem_toFinset.mp h1, fun w hw => h2 w (List.mem_toFinset.mpr hw)⟩
    refine ⟨v, hv, fun i hi => ?_⟩
    rcases hc i with ⟨-, c2⟩ | ⟨w, c1, c2, c3, c4⟩
    · exact absurd hi (c2 v (hl.mem_iff.mpr hv))
    · rw [c2, le_antisymm (hmin w (hl.mem_iff.mp c1)) (c4 v (hl.mem_iff.mpr hv) hi)]
  · intro v w h1 h2 hvw i hi hi'
    have := h1 i hi
    rw [h2 i hi'] at this
    exact hvw (Option.some.inj this).symm

end

end Verif.RandInc
