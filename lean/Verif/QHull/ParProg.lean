import Verif.QHull.ParModel
import Verif.QHull.Place

set_option linter.unusedSectionVars false
set_option linter.unusedVariables false

/-!
The program of one successful apex, alone on the surface, does what a round of the sequential quickhull does, and touches only the
new facets, the facets to delete and the facets across the frontier.
-/

namespace Verif.QHull

open Verif Verif.Hull3d Verif.Par

variable {K : Type} [Field K] [LinearOrder K]

section

variable {own : ℕ → Prop}

theorem mem_update (h : Heap (P3 K)) (pts : ℕ → List (Vtx K)) (i : ℕ) (g : Facet (P3 K)) :
    Function.update (fun c => ((h c, pts c) : Obj K)) i (g, pts i) = fun c => (Function.update h i g c, pts c) := by
  funext c
  by_cases e : c = i
  · subst e; simp
  · simp [e]

theorem findP_safe (h : Heap (P3 K)) (pts : ℕ → List (Vtx K)) (v1 v2 : P3 K) : ∀ (F : List ℕ) (x : ℕ), (∀ i ∈ F, own i) →
    findFacet h F v1 v2 = .ok x → ∃ c ≤ F.length, x ∈ F ∧ ∀ (k : ℕ → OProg K) n m',
      Safe own n (fun c => (h c, pts c)) (k x) m' → Safe own (n + c) (fun c => (h c, pts c)) (findP v1 v2 F k) m'
  | [], x, _, hx => by simp [findFacet] at hx
  | i :: F, x, ho, hx => by
    unfold findFacet at hx
    rw [List.find?_cons] at hx
    by_cases he : hasEdge (h i) v1 v2 = true
    · rw [he] at hx
      simp only [Except.ok.injEq] at hx
      subst hx
      refine ⟨1, by simp, by simp, fun k n m' hs => ?_⟩
      refine Safe.read (ho i (by simp)) ?_
      rw [if_pos he]
      exact hs
    · rw [Bool.not_eq_true] at he
      rw [he] at hx
      obtain ⟨c, hc, hxF, hk⟩ := findP_safe h pts v1 v2 F x (fun j hj => ho j (by simp [hj])) hx
      refine ⟨c + 1, by simp only [List.length_cons]; omega, by simp [hxF], fun k n m' hs => ?_⟩
      refine Safe.read (ho i (by simp)) ?_
      rw [if_neg (by simp [he])]
      exact hk k n m' hs

theorem linkEdgeP_safe (h h' : Heap (P3 K)) (pts : ℕ → List (Vtx K)) (f1 f2 : ℕ) (v1 v2 : P3 K) (ho : own f2)
    (hl : linkEdge h f1 f2 v1 v2 = .ok h') (k : OProg K) (n : ℕ) (m' : ℕ → Obj K)
    (hs : Safe own n (fun c => (h' c, pts c)) k m') :
    Safe own (n + 2) (fun c => (h c, pts c)) (linkEdgeP f1 f2 v1 v2 k) m' := by
  refine Safe.read ho ?_
  unfold linkEdge at hl
  simp only at hl ⊢
  split_ifs at hl ⊢ with h1 h2 h3
  all_goals
    simp only [Except.ok.injEq] at hl
    subst hl
    refine Safe.write ho ?_
    rw [mem_update]
    exact hs

theorem linkP_safe (h h' : Heap (P3 K)) (pts : ℕ → List (Vtx K)) (f ab bc ca : ℕ) (ho : own f) (ho1 : own ab) (ho2 : own bc)
    (ho3 : own ca) (hl : linkFacet h f ab bc ca = .ok h') : ∃ c ≤ 21, ∀ (k : OProg K) n m',
      Safe own n (fun c => (h' c, pts c)) k m' → Safe own (n + c) (fun c => (h c, pts c)) (linkP f ab bc ca k) m' := by
  have hF : ∀ i ∈ [ab, bc, ca], own i := by
    intro i hi
    simp only [List.mem_cons, List.not_mem_nil, or_false] at hi
    rcases hi with rfl | rfl | rfl <;> assumption
  unfold linkFacet at hl
  simp only at hl
  cases hx : findFacet h [ab, bc, ca] (h f).a (h f).b with
  | error e => rw [hx] at hl; simp [Except.bind] at hl
  | ok x =>
  rw [hx] at hl
  simp only [Except.bind] at hl
  obtain ⟨c1, hc1, hxF, hk1⟩ := findP_safe (own := own) h pts _ _ _ x hF hx
  cases e1 : linkEdge (Function.update h f { h f with ab := some x }) f x (h f).a (h f).b with
  | error e => rw [e1] at hl; simp at hl
  | ok h1 =>
  rw [e1] at hl
  simp only at hl
  have l1 := linkEdgeP_safe (own := own) _ h1 pts f x _ _ (hF x hxF) e1
  cases hy : findFacet h1 [ab, bc, ca] (h1 f).b (h1 f).c with
  | error e => rw [hy] at hl; simp at hl
  | ok y =>
  rw [hy] at hl
  simp only at hl
  obtain ⟨c2, hc2, hyF, hk2⟩ := findP_safe (own := own) h1 pts _ _ _ y hF hy
  cases e2 : linkEdge (Function.update h1 f { h1 f with bc := some y }) f y (h1 f).b (h1 f).c with
  | error e => rw [e2] at hl; simp at hl
  | ok h2 =>
  rw [e2] at hl
  simp only at hl
  have l2 := linkEdgeP_safe (own := own) _ h2 pts f y _ _ (hF y hyF) e2
  cases hz : findFacet h2 [ab, bc, ca] (h2 f).c (h2 f).a with
  | error e => rw [hz] at hl; simp at hl
  | ok z =>
  rw [hz] at hl
  simp only at hl
  obtain ⟨c3, hc3, hzF, hk3⟩ := findP_safe (own := own) h2 pts _ _ _ z hF hz
  have l3 := linkEdgeP_safe (own := own) _ h' pts f z _ _ (hF z hzF) hl
  simp only [List.length_cons, List.length_nil] at hc1 hc2 hc3
  refine ⟨((((2 + 1 + c3 + 1) + 2) + 1 + c2 + 1) + 2) + 1 + c1 + 1, by omega, fun k n m' hs => ?_⟩
  have s3 : Safe own (n + (2 + 1 + c3 + 1)) (fun c => (h2 c, pts c)) (.read f fun o => findP o.1.c o.1.a [ab, bc, ca] fun z =>
      .write f ({ o.1 with ca := some z }, o.2) <| linkEdgeP f z o.1.c o.1.a k) m' := by
    refine Safe.read (n := n + (2 + 1 + c3)) ho ?_
    rw [← Nat.add_assoc]
    refine hk3 _ (n + (2 + 1)) m' ?_
    refine Safe.write (n := n + 2) ho ?_
    rw [mem_update]
    exact l3 k n m' hs
  have s2 : Safe own (n + ((2 + 1 + c3 + 1) + 2 + 1 + c2 + 1)) (fun c => (h1 c, pts c)) (.read f fun o =>
      findP o.1.b o.1.c [ab, bc, ca] fun y => .write f ({ o.1 with bc := some y }, o.2) <| linkEdgeP f y o.1.b o.1.c <|
      .read f fun o => findP o.1.c o.1.a [ab, bc, ca] fun z => .write f ({ o.1 with ca := some z }, o.2) <|
      linkEdgeP f z o.1.c o.1.a k) m' := by
    refine Safe.read (n := n + ((2 + 1 + c3 + 1) + 2 + 1 + c2)) ho ?_
    rw [← Nat.add_assoc]
    refine hk2 _ (n + ((2 + 1 + c3 + 1) + 2 + 1)) m' ?_
    refine Safe.write (n := n + ((2 + 1 + c3 + 1) + 2)) ho ?_
    rw [mem_update]
    exact l2 _ _ m' s3
  refine Safe.read (n := n + (((((2 + 1 + c3 + 1) + 2) + 1 + c2 + 1) + 2) + 1 + c1)) ho ?_
  rw [← Nat.add_assoc]
  refine hk1 _ (n + (((((2 + 1 + c3 + 1) + 2) + 1 + c2 + 1) + 2) + 1)) m' ?_
  refine Safe.write (n := n + ((((2 + 1 + c3 + 1) + 2) + 1 + c2 + 1) + 2)) ho ?_
  rw [mem_update]
  exact l1 _ _ m' s2

/-- Linking all new facets. -/
theorem linkAllP_safe (live0 : List ℕ) (base : ℕ) (fr : List (Edge K)) (hnew : ∀ i, i < fr.length → own (base + i))
    (hff : ∀ e ∈ fr, ∀ j, e.ff = some j → j ∈ live0 ∧ own j) :
    ∀ (idxs : List ℕ) (st st' : Hull K), (∀ i ∈ idxs, i < fr.length) → linkNew base fr idxs st = .ok st' →
      st'.pts = st.pts ∧ ∃ c ≤ 21 * idxs.length, ∀ (k : OProg K) n m', Safe own n (memOf st') k m' →
        Safe own (n + c) (memOf st) (linkAllP live0 base fr idxs k) m'
  | [], st, st', _, h => by
    simp only [linkNew, Except.ok.injEq] at h
    subst h
    exact ⟨rfl, 0, by simp, fun k n m' hs => hs⟩
  | i :: l, st, st', hi, h => by
    have hlt := hi i (by simp)
    have hpos : 0 < fr.length := by omega
    simp only [linkNew] at h
    rw [List.getElem?_eq_getElem hlt] at h
    simp only at h
    unfold linkAt at h
    cases hj : (fr[i]).ff with
    | none =>
      rw [hj] at h
      exfalso
      have hd : deref st (none : Option ℕ) = .error .ub := rfl
      rw [hd] at h
      cases d1 : deref st (some (base + i)) with
      | error e => rw [d1] at h; simp [Except.bind] at h
      | ok p1 =>
      cases d2 : deref st (some (base + (i + 1) % fr.length)) with
      | error e => rw [d1, d2] at h; simp [Except.bind] at h
      | ok p2 => rw [d1, d2] at h; simp [Except.bind] at h
    | some j =>
      obtain ⟨hjl, hjo⟩ := hff _ (List.getElem_mem hlt) j hj
      rw [hj] at h
      cases d1 : deref st (some (base + i)) with
      | error e => rw [d1] at h; simp [Except.bind] at h
      | ok p1 =>
      cases d2 : deref st (some (base + (i + 1) % fr.length)) with
      | error e => rw [d1, d2] at h; simp [Except.bind] at h
      | ok p2 =>
      cases d3 : deref st (some j) with
      | error e => rw [d1, d2, d3] at h; simp [Except.bind] at h
      | ok p3 =>
      have hp3 : p3.1 = j := by
        unfold deref at d3
        simp only at d3
        split at d3
        · simp only [Except.ok.injEq] at d3; rw [← d3]
        · simp at d3
      cases d4 : deref st (some (base + (i + fr.length - 1) % fr.length)) with
      | error e => rw [d1, d2, d3, d4] at h; simp [Except.bind] at h
      | ok p4 =>
      rw [d1, d2, d3, d4] at h
      simp only [Except.bind] at h
      rw [hp3] at h
      cases hlk : linkFacet st.heap (base + i) (base + (i + 1) % fr.length) j (base + (i + fr.length - 1) % fr.length) with
      | error e => rw [hlk] at h; simp [Except.map] at h
      | ok h1 =>
      rw [hlk] at h
      simp only [Except.map] at h
      obtain ⟨hp, c, hc, hk⟩ := linkAllP_safe live0 base fr hnew hff l _ st' (fun x hx => hi x (by simp [hx])) h
      obtain ⟨c', hc', hk'⟩ := linkP_safe (own := own) st.heap h1 st.pts (base + i) (base + (i + 1) % fr.length) j
        (base + (i + fr.length - 1) % fr.length) (hnew i hlt) (hnew _ (Nat.mod_lt _ hpos)) hjo (hnew _ (Nat.mod_lt _ hpos)) hlk
      refine ⟨hp, c + c', by simp only [List.length_cons]; omega, fun k n m' hs => ?_⟩
      unfold linkAllP
      rw [List.getElem?_eq_getElem hlt]
      simp only [Option.bind_some, hj]
      rw [if_pos hjl, ← Nat.add_assoc]
      exact hk' _ _ m' (hk k n m' hs)

/-- Memory with new facets from `i` on. -/
def allocMem (eps : K) (apex : P3 K) (l : List (Edge K)) (i : ℕ) (m : ℕ → Obj K) : ℕ → Obj K := fun c =>
  if i ≤ c ∧ c < i + l.length then
    match l[c - i]? with
    | some e => (mkLinked eps e.a e.b apex, [])
    | none => m c
  else m c

theorem allocP_safe (eps : K) (apex : P3 K) : ∀ (l : List (Edge K)) (i : ℕ) (m : ℕ → Obj K),
    (∀ c, i ≤ c → c < i + l.length → own c) → ∀ (k : OProg K) n m', Safe own n (allocMem eps apex l i m) k m' →
      Safe own (n + l.length) m (allocP eps apex l i k) m'
  | [], i, m, _, k, n, m', hs => by
    have : allocMem eps apex [] i m = m := by
      funext c
      unfold allocMem
      rw [if_neg (by simp)]
    rw [this] at hs
    exact hs
  | e :: l, i, m, ho, k, n, m', hs => by
    rw [List.length_cons, ← Nat.add_assoc]
    refine Safe.write (ho i (le_refl _) (by simp)) ?_
    refine allocP_safe eps apex l (i + 1) _ (fun c h1 h2 => ho c (by omega) (by simp only [List.length_cons]; omega)) k n m' ?_
    have : allocMem eps apex l (i + 1) (Function.update m i (mkLinked eps e.a e.b apex, [])) = allocMem eps apex (e :: l) i m := by
      funext c
      unfold allocMem
      simp only [List.length_cons]
      by_cases hc : c = i
      · subst hc
        rw [if_neg (by omega), if_pos (by omega)]
        simp
      · by_cases hr : i + 1 ≤ c ∧ c < i + 1 + l.length
        · rw [if_pos hr, if_pos (by omega)]
          have e1 : c - i = (c - (i + 1)) + 1 := by omega
          rw [e1, List.getElem?_cons_succ]
          rw [List.getElem?_eq_getElem (show c - (i + 1) < l.length by omega)]
        · rw [if_neg hr, if_neg (by omega), Function.update_of_ne hc]
    rw [this]
    exact hs

theorem gatherP_safe (live0 : List ℕ) (m : ℕ → Obj K) : ∀ (l : List ℕ) (acc : List (Vtx K)), (∀ i ∈ l, i ∈ live0 ∧ own i) →
    ∀ (k : List (Vtx K) → OProg K) n m', Safe own n m (k (acc ++ l.flatMap fun i => (m i).2)) m' →
      Safe own (n + l.length) m (gatherP live0 l acc k) m'
  | [], acc, _, k, n, m', hs => by simpa [gatherP] using hs
  | i :: l, acc, ho, k, n, m', hs => by
    unfold gatherP
    rw [if_pos (ho i (by simp)).1, List.length_cons, ← Nat.add_assoc]
    refine Safe.read (ho i (by simp)).2 ?_
    refine gatherP_safe live0 m l _ (fun j hj => ho j (by simp [hj])) k n m' ?_
    rw [List.append_assoc]
    simpa using hs

theorem readP_safe (m : ℕ → Obj K) : ∀ (l : List ℕ) (acc : List (ℕ × Facet (P3 K))), (∀ i ∈ l, own i) →
    ∀ (k : List (ℕ × Facet (P3 K)) → OProg K) n m', Safe own n m (k (acc ++ l.map fun i => (i, (m i).1))) m' →
      Safe own (n + l.length) m (readP l acc k) m'
  | [], acc, _, k, n, m', hs => by simpa [readP] using hs
  | i :: l, acc, ho, k, n, m', hs => by
    unfold readP
    rw [List.length_cons, ← Nat.add_assoc]
    refine Safe.read (ho i (by simp)) ?_
    refine readP_safe m l _ (fun j hj => ho j (by simp [hj])) k n m' ?_
    rw [List.append_assoc]
    simpa using hs

theorem reassignP_safe (eps : K) (fs : List (ℕ × Facet (P3 K))) (L : List (Vtx K)) : ∀ (l : List ℕ) (m : ℕ → Obj K),
    (∀ i ∈ l, own i) → ∀ (k : OProg K) n m',
      Safe own n (fun c => if c ∈ l then ((m c).1, chunk eps fs L c) else m c) k m' →
      Safe own (n + 2 * l.length) m (reassignP eps fs L l k) m'
  | [], m, _, k, n, m', hs => by simpa [reassignP] using hs
  | j :: l, m, ho, k, n, m', hs => by
    have e : n + 2 * (j :: l).length = n + 2 * l.length + 1 + 1 := by rw [List.length_cons]; omega
    rw [e]
    refine Safe.read (ho j (by simp)) ?_
    refine Safe.write (ho j (by simp)) ?_
    refine reassignP_safe eps fs L l _ (fun i hi => ho i (by simp [hi])) k n m' ?_
    have e : (fun c => if c ∈ l then ((Function.update m j ((m j).1, chunk eps fs L j) c).1, chunk eps fs L c) else
        Function.update m j ((m j).1, chunk eps fs L j) c) = fun c => if c ∈ j :: l then ((m c).1, chunk eps fs L c) else m c := by
      funext c
      by_cases hc : c = j
      · subst hc
        simp
      · simp [hc]
    rw [e]
    exact hs

end

/-- The cells the program of an apex may touch. -/
def ownW (b : ℕ) (fr : Fr K) (c : ℕ) : Prop := (b ≤ c ∧ c < b + fr.1.length) ∨ c ∈ fr.2 ∨ ∃ e ∈ fr.1, e.ff = some c

theorem find_pair (eps : K) (h : Heap (P3 K)) (p : P3 K) (l : List ℕ) :
    ((l.map fun i => (i, h i)).find? fun g => keep eps g.2 p).map Prod.fst = l.find? fun j => keep eps (h j) p := by
  induction l with
  | nil => rfl
  | cons a l ih =>
    simp only [List.map_cons, List.find?_cons]
    cases keep eps (h a) p
    · exact ih
    · rfl

/-- Alone, the program of a successful apex does what a sequential round does. -/
theorem procP_safe (eps : K) (live0 : List ℕ) (st st' : Hull K) (apex : P3 K) (fr : Fr K)
    (hfb : ∀ i ∈ fr.2, i ∈ live0 ∧ i < st.next) (hff : ∀ e ∈ fr.1, ∀ j, e.ff = some j → j ∈ live0)
    (hr : round eps st apex fr = .ok st') :
    ∃ n ≤ 25 * fr.1.length + fr.2.length,
      Safe (ownW st.next fr) n (memOf st) (procP eps live0 st.next apex fr) (memOf st') := by
  have hne : fr.1 ≠ [] := by
    intro hc
    simp [round, hc] at hr
  unfold round at hr
  rw [if_neg hne] at hr
  cases hl : linkNew st.next fr.1 (List.range fr.1.length) (allocNew eps st fr.1 apex) with
  | error e => rw [hl] at hr; simp [Except.bind] at hr
  | ok st1 =>
  rw [hl] at hr
  simp only [Except.bind, Except.ok.injEq] at hr
  have hown : ∀ i, i < fr.1.length → ownW st.next fr (st.next + i) := fun i hi => Or.inl ⟨by omega, by omega⟩
  obtain ⟨hp1, c, hc, hk⟩ := linkAllP_safe (own := ownW st.next fr) live0 st.next fr.1 hown
    (fun e he j hj => ⟨hff e he j hj, Or.inr (Or.inr ⟨e, he, hj⟩)⟩) (List.range fr.1.length) _ st1
    (fun i hi => List.mem_range.mp hi) hl
  rw [List.length_range] at hc
  have hmem : allocMem eps apex fr.1 st.next (memOf st) = memOf (allocNew eps st fr.1 apex) := by
    funext c
    unfold allocMem memOf allocNew
    simp only
    by_cases hr : st.next ≤ c ∧ c < st.next + fr.1.length
    · rw [if_pos hr, if_pos hr, if_pos hr, List.getElem?_eq_getElem (show c - st.next < fr.1.length by omega)]
    · rw [if_neg hr, if_neg hr, if_neg hr]
  unfold procP
  rw [if_neg hne]
  refine ⟨0 + 2 * (List.range' st.next fr.1.length).length + (List.range' st.next fr.1.length).length + fr.2.length + c +
    fr.1.length, by rw [List.length_range']; omega, ?_⟩
  refine allocP_safe eps apex fr.1 st.next _ (fun c h1 h2 => Or.inl ⟨h1, h2⟩) _ _ _ ?_
  rw [hmem]
  refine hk _ _ _ ?_
  refine gatherP_safe live0 _ fr.2 [] (fun i hi => ⟨(hfb i hi).1, Or.inr (Or.inl hi)⟩) _ _ _ ?_
  have hin : ∀ i ∈ List.range' st.next fr.1.length, ownW st.next fr i := fun i hi => Or.inl (List.mem_range'_1.mp hi)
  refine readP_safe _ _ [] hin _ _ _ ?_
  refine reassignP_safe eps _ _ _ _ hin _ _ _ ?_
  have hfin : (fun c => if c ∈ List.range' st.next fr.1.length then
      ((memOf st1 c).1, chunk eps ([] ++ (List.range' st.next fr.1.length).map fun i => (i, (memOf st1 i).1))
        ([] ++ fr.2.flatMap fun i => (memOf st1 i).2) c) else memOf st1 c) = memOf st' := by
    rw [← hr]
    funext c
    simp only [List.nil_append, memOf, redistribute]
    rw [foldl_flat, foldl_place]
    by_cases hc : c ∈ List.range' st.next fr.1.length
    · rw [if_pos hc]
      have hz : st1.pts c = [] := by
        rw [hp1]
        unfold allocNew
        simp only
        rw [if_pos (List.mem_range'_1.mp hc)]
      rw [hz, List.nil_append]
      unfold chunk
      refine Prod.ext rfl ?_
      simp only [find_pair]
    · rw [if_neg hc]
      refine Prod.ext rfl ?_
      simp only
      have : (fr.2.flatMap st1.pts).filter (fun u => decide ((List.range' st.next fr.1.length).find?
          (fun j => keep eps (st1.heap j) u.1) = some c)) = [] := by
        rw [List.filter_eq_nil_iff]
        intro u _ hf
        exact hc (List.mem_of_find?_eq_some (of_decide_eq_true hf))
      rw [this]
      simp
  rw [hfin]
  exact .done _

end Verif.QHull
