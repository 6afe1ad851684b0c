import Verif.Par.SplitLemmas

/-!
Property C11: `split_two` and `split_k` are stable partitions, for every block size and every
execution order of the writes.
-/

namespace Verif.Par

variable {T : Type*}

/-- C11. For every input, every flag vector of the same length, every block size and every order
`ws` in which the writes of the parallel loops are executed, `split_two` stays inside the output
array and leaves the elements with flag `false` followed by the elements with flag `true`, both in
input order; the returned count is the number of `false` flags. -/
theorem c11_split_two (bs : ℕ) (hb : 0 < bs) (inp : List T) (fl : List Bool)
    (h : inp.length = fl.length) (ws : List (ℕ × T)) (hws : ws.Perm (splitTwo bs inp fl).1) :
    runWrites inp.length ws =
      some ((((inp.zip fl).filter (fun a => !a.2)).map Prod.fst ++
        ((inp.zip fl).filter (fun a => a.2)).map Prod.fst).map some) ∧
    (splitTwo bs inp fl).2 = (((inp.zip fl).filter (fun a => !a.2)).map Prod.fst).length := by
  rw [splitTwo_fst bs hb inp fl h] at hws
  have hW := blockWrites_writes (inp.zip fl)
  rw [map_snd_zip' _ _ h] at hW
  have h2 := (hW.perm hws).run
  have hl : (((inp.zip fl).filter (fun a => !a.2)).map Prod.fst ++
        ((inp.zip fl).filter (fun a => a.2)).map Prod.fst).length = inp.length := by
    rw [List.length_append, List.length_map, List.length_map]
    have := List.length_eq_length_filter_add (l := inp.zip fl) (fun a => a.2)
    rw [List.length_zip, ← h, Nat.min_self] at this
    omega
  rw [hl] at h2
  refine ⟨h2, ?_⟩
  rw [splitTwo_snd bs hb inp fl h, List.length_map, filter_snd_length, map_snd_zip' _ _ h]

/-- Non-vacuity of `c11_split_two`: a five-element input with block size 2, written backwards. -/
example : ∃ (ws : List (ℕ × ℕ)),
    ws.Perm (splitTwo 2 [10, 11, 12, 13, 14] [true, false, true, true, false]).1 ∧
    runWrites 5 ws = some [some 11, some 14, some 10, some 12, some 13] :=
  ⟨(splitTwo 2 [10, 11, 12, 13, 14] [true, false, true, true, false]).1.reverse,
    List.reverse_perm _, by decide⟩

/-- C11. For every input, every bucket vector of the same length, every block size and every order
of the writes, `split_k` fills chunk `x` with exactly the elements of bucket `x`, in input order. -/
theorem c11_split_k (bs : ℕ) (hb : 0 < bs) (inp : List T) (fl : List ℕ) (x : ℕ)
    (h : inp.length = fl.length) (ws : List (ℕ × T)) (hws : ws.Perm (splitK bs inp fl x).1) :
    runWrites (splitK bs inp fl x).2 ws =
      some ((((inp.zip fl).filter (fun a => a.2 = x)).map Prod.fst).map some) := by
  rw [splitK_fst bs hb inp fl x h] at hws
  have h2 := ((chunkWrites_writes x (inp.zip fl)).perm hws).run
  have hl : (((inp.zip fl).filter (fun a => a.2 = x)).map Prod.fst).length =
      (splitK bs inp fl x).2 := by
    rw [splitK_snd bs hb inp fl x h, List.length_map]
    conv_rhs => rw [← map_snd_zip' inp fl h]
    rw [List.count, List.countP_map, List.countP_eq_length_filter]
    congr 1
  rw [← hl]; exact h2

/-- C11. No element is lost or duplicated by `split_k`: when every flag is below `k`, the chunks
together are a permutation of the input. -/
theorem c11_split_k_perm (inp : List T) (fl : List ℕ) (k : ℕ)
    (h : inp.length = fl.length) (hk : ∀ f ∈ fl, f < k) :
    ((List.range k).flatMap fun x =>
      ((inp.zip fl).filter (fun a => a.2 = x)).map Prod.fst).Perm inp := by
  have : ∀ l : List (T × ℕ), (∀ a ∈ l, a.2 < k) →
      ((List.range k).flatMap fun x => l.filter (fun a => a.2 = x)).Perm l := by
    intro l hl
    induction l with
    | nil => simp
    | cons a l ih =>
      have ih := ih (fun b hb => hl b (by simp [hb]))
      have ha : a.2 ∈ List.range k := List.mem_range.mpr (hl a (by simp))
      obtain ⟨s, t, hst⟩ := List.append_of_mem ha
      have hnd : (s ++ a.2 :: t).Nodup := hst ▸ List.nodup_range
      rw [hst] at ih ⊢
      have hs : ∀ x ∈ s, ¬ (a.2 = x) := by
        rintro x hx rfl
        exact (List.nodup_append.mp hnd).2.2 _ hx _ (by simp) rfl
      have ht : ∀ x ∈ t, ¬ (a.2 = x) := by
        rintro x hx rfl
        exact (List.nodup_cons.mp (List.nodup_append.mp hnd).2.1).1 hx
      have e : ∀ u : List ℕ, (∀ x ∈ u, ¬ (a.2 = x)) →
          (u.flatMap fun x => (a :: l).filter (fun b => b.2 = x)) =
          u.flatMap fun x => l.filter (fun b => b.2 = x) := by
        intro u hu
        apply List.flatMap_congr
        intro x hx
        simp [hu x hx]
      simp only [List.flatMap_append, List.flatMap_cons] at ih ⊢
      rw [e s hs, e t ht]
      simp only [decide_true, List.filter_cons_of_pos, List.cons_append]
      exact List.perm_middle.trans (ih.cons a)
  have h2 := this (inp.zip fl) (by
    intro a ha
    exact hk _ (List.of_mem_zip ha).2)
  have h3 := h2.map Prod.fst
  rw [List.map_flatMap, List.map_fst_zip (by omega)] at h3
  exact h3

/-- Non-vacuity of `c11_split_k` and `c11_split_k_perm`. -/
example : runWrites (splitK 2 ['a', 'b', 'c', 'd', 'e'] [1, 0, 2, 1, 1] 1).2
    (splitK 2 ['a', 'b', 'c', 'd', 'e'] [1, 0, 2, 1, 1] 1).1.reverse =
    some [some 'a', some 'd', some 'e'] := by decide

example : ∀ f ∈ [1, 0, 2, 1, 1], f < 3 := by decide

end Verif.Par
