import Verif.Par.ParBufLemmas
import Verif.Par.SplitProps

set_option linter.unusedSectionVars false
set_option linter.unusedVariables false

/-!
Property C10: parallel collection buffers.
-/

namespace Verif.Par

variable {β : Type}

/-- The elements inserted by worker `w`, in order. -/
def byWorker (h : List (ℕ × β)) (w : ℕ) : List β := (h.filter (·.1 = w)).map (·.2)

theorem byWorker_perm (P : ℕ) (h : List (ℕ × β)) (hw : ∀ e ∈ h, e.1 < P) :
    ((List.range P).flatMap (byWorker h)).Perm (h.map (·.2)) := by
  have := c11_split_k_perm (h.map (·.2)) (h.map (·.1)) P (by simp) (by simpa using hw)
  have hz : ((h.map (·.2)).zip (h.map (·.1))) = h.map fun e => (e.2, e.1) := by
    rw [List.zip_map']
  rw [hz] at this
  have e : (fun x => List.map Prod.fst
      (List.filter (fun a => decide (a.2 = x)) (List.map (fun e : ℕ × β => (e.2, e.1)) h))) =
      byWorker h := by
    funext w
    unfold byWorker
    rw [List.filter_map, List.map_map]
    rfl
  rw [e] at this
  exact this

/-- C10. For every number of workers `P`, every initial size at least 1, every history of insertions
and every order in which the copy loops execute their writes: no insertion writes outside its
buffer, the collection stays inside the result array, fills it completely, and the result is the
concatenation of the workers' elements in insertion order, so a permutation of everything that was
inserted. The element type must be at least as large as a pointer, because `incrementParent` sizes
the pointer array by the element type. -/
theorem c10_collect (P init szT szPtr : ℕ) (hinit : 1 ≤ init) (hp : 0 < szPtr) (hsz : szPtr ≤ szT)
    (h : List (ℕ × β)) (hw : ∀ e ∈ h, e.1 < P) :
    ∃ bs ws n, pushAll szT szPtr h (List.replicate P (ParBuf.new init)) = .ok bs ∧
      collect bs = .ok (ws, n) ∧ n = h.length ∧
      ∀ ws', ws'.Perm ws → ∃ out : List β, runWrites n ws' = some (out.map some) ∧
        out = (List.range P).flatMap (byWorker h) ∧ out.Perm (h.map (·.2)) := by
  have hinv : List.Forall₂ BufInv (List.replicate P (ParBuf.new init : ParBuf β))
      (List.replicate P []) := by
    rw [List.forall₂_iff_get]
    refine ⟨by simp, fun i h1 h2 => ?_⟩
    simpa using bufInv_new init hinit
  obtain ⟨bs, h1, h2⟩ := pushAll_ok hsz hp h _ _ hinv (by simpa using hw)
  have hv : ((List.replicate P ([] : List β)).mapIdx fun w v =>
      v ++ (h.filter (·.1 = w)).map (·.2)) = (List.range P).map (byWorker h) := by
    apply List.ext_getElem
    · simp
    · intro i h3 h4
      simp [byWorker]
  rw [hv] at h2
  obtain ⟨fs, h3, h4, h5⟩ := collect_aux bs _ h2
  have hperm := byWorker_perm P h hw
  have hn : (fs.map (·.2)).sum = ((List.range P).flatMap (byWorker h)).length := by
    rw [h4, List.flatMap_def, List.length_flatten]
  refine ⟨bs, _, (fs.map (·.2)).sum, h1, (?_ : _ = Except.ok
    (((List.range P).flatMap (byWorker h)).mapIdx fun i x => (0 + i, x), _)), ?_, ?_⟩
  · unfold collect
    rw [h3]
    simp only [Except.bind, h5 0, Except.map]
    rfl
  · rw [hn, hperm.length_eq, List.length_map]
  · intro ws' hws
    refine ⟨(List.range P).flatMap (byWorker h), ?_, rfl, hperm⟩
    rw [hn]
    exact ((mapIdx_writes _).perm hws).run

/-- Non-vacuity of `c10_collect`: three workers, one of them growing its buffer twice. -/
example : (1 ≤ 2 ∧ 0 < 8 ∧ 8 ≤ 16) ∧
    ∀ e ∈ [(0, 'a'), (2, 'b'), (0, 'c'), (0, 'd'), (2, 'e'), (0, 'f'), (0, 'g'), (0, 'h'), (0, 'i')],
      e.1 < 3 := by decide

/-- Without room in the first array (initial size 0, which the callers request when there are fewer
points than workers, `include/kdTree/wspdImpl.h:161-162`), doubling does not help and the very first
insertion is an out-of-bounds write. -/
theorem c10_init_zero_ub (szT szPtr : ℕ) (x : β) :
    (ParBuf.new 0 : ParBuf β).push szT szPtr x = .error .ub := by
  simp [ParBuf.new, ParBuf.push, ParBuf.grow, ParBuf.finalize, ParBuf.ensureParent, ParBuf.addArray,
    ParBuf.write, Except.bind]

/-- Sizes of a buffer started with initial size 1 after `k` insertions, as long as at most ten
arrays are in use. -/
structure SizeInv (b : ParBuf β) (k : ℕ) : Prop where
  total : b.parentTotal = 10
  cap : b.parentCap = 10
  sizes : b.sizes.length = 11
  used : ∃ u, b.arrs.length = u + 1 ∧ u < 10 ∧ b.currentSize = 2 ^ u ∧ k + 1 = 2 ^ u + b.count
  count_le : b.count ≤ b.currentSize
  last : ∃ a, b.arrs.getLast? = some a ∧ a.length = b.currentSize

theorem SizeInv.push {b : ParBuf β} {k : ℕ} (h : SizeInv b k) (hk : k < 1023) (szT szPtr : ℕ) (x : β) :
    ∃ b', b.push szT szPtr x = .ok b' ∧ SizeInv b' (k + 1) := by
  obtain ⟨h1, h2, h3, ⟨u, h4, h5, h6, h7⟩, h8, a, h9, h10⟩ := h
  unfold ParBuf.push ParBuf.grow
  by_cases hc : b.count + 1 > b.currentSize
  · have hu : u + 1 < 10 := by
      by_contra hu
      have hu : u = 9 := by omega
      subst hu
      simp at h6 h7
      omega
    have hpow : 2 ^ (u + 1) = 2 ^ u * 2 := pow_succ 2 u
    have hpos : 0 < 2 ^ u := Nat.pos_of_ne_zero (by simp)
    refine ⟨{ b with
      sizes := b.sizes.set u (some b.count)
      arrs := b.arrs ++ [(List.replicate (b.currentSize * 2) none).set 0 (some x)]
      count := 1
      currentSize := b.currentSize * 2 }, ?_, h1, h2, by simp [h3], ⟨u + 1, by simp [h4], hu, ?_, ?_⟩,
      ?_, _, List.getLast?_concat, by simp⟩
    · have e1 : b.arrs.length - 1 = u := by omega
      have e2 : u < 11 := by omega
      rw [if_pos hc]
      simp [ParBuf.finalize, ParBuf.ensureParent, ParBuf.addArray, ParBuf.write, Except.bind,
        h4, h3, h1, h2, e2, hu, show 0 < b.currentSize by omega]
    · simp only; rw [h6, hpow]
    · simp only; omega
    · simp only; omega
  · rw [if_neg hc]
    refine ⟨{ b with
      arrs := b.arrs.dropLast ++ [a.set b.count (some x)]
      count := b.count + 1 }, ?_, h1, h2, h3, ⟨u, by simp [h4], h5, h6, by simp only; omega⟩,
      by simp only; omega, _, List.getLast?_concat, by simp [h10]⟩
    simp [Except.bind, ParBuf.write, h9, h10]
    omega

theorem pushAll_sizeInv (szT szPtr : ℕ) (n k : ℕ) (x : β) (hk : k + n ≤ 1023) (b : ParBuf β)
    (h : SizeInv b k) (rest : List (ℕ × β)) :
    ∃ b', SizeInv b' (k + n) ∧
      pushAll szT szPtr (List.replicate n (0, x) ++ rest) [b] = pushAll szT szPtr rest [b'] := by
  induction n generalizing k b with
  | zero => exact ⟨b, h, rfl⟩
  | succ n ih =>
    obtain ⟨b1, h1, h2⟩ := h.push (by omega) szT szPtr x
    obtain ⟨b2, h3, h4⟩ := ih (k + 1) (by omega) b1 h2
    refine ⟨b2, by rwa [Nat.add_right_comm, Nat.add_assoc] at h3, ?_⟩
    rw [← h4]
    simp [List.replicate_succ, pushAll, h1, Except.bind]

/-- With elements of 4 bytes and pointers of 8 bytes the pointer array allocated by
`incrementParent` holds 10 pointers instead of 20: starting from initial size 1 the 1024th
insertion is an out-of-bounds write, while the first 1023 succeed. So the hypothesis on the element
size in `c10_collect` cannot be dropped. -/
theorem c10_small_elements_ub (x : β) :
    (∃ bs, pushAll 4 8 (List.replicate 1023 (0, x)) [ParBuf.new 1] = .ok bs) ∧
    pushAll 4 8 (List.replicate 1023 (0, x) ++ [(0, x)]) [ParBuf.new 1] = .error .ub := by
  have h0 : SizeInv (ParBuf.new 1 : ParBuf β) 0 :=
    ⟨rfl, rfl, by simp [ParBuf.new], ⟨0, by simp [ParBuf.new]⟩, by simp [ParBuf.new],
      _, by simp [ParBuf.new]; rfl, by simp [ParBuf.new]⟩
  constructor
  · obtain ⟨b, h1, h2⟩ := pushAll_sizeInv 4 8 1023 0 x (by omega) _ h0 []
    rw [List.append_nil] at h2
    exact ⟨[b], h2⟩
  · obtain ⟨b, h1, h2⟩ := pushAll_sizeInv 4 8 1023 0 x (by omega) _ h0 [(0, x)]
    rw [h2]
    obtain ⟨h3, h4, h5, ⟨u, h6, h7, h8, h9⟩, h10, h11⟩ := h1
    have hu : u = 9 := by
      by_contra hu
      have : 2 ^ u ≤ 2 ^ 8 := Nat.pow_le_pow_right (by omega) (by omega)
      omega
    subst hu
    have hc : b.count = b.currentSize := by omega
    simp [pushAll, ParBuf.push, ParBuf.grow, ParBuf.finalize, ParBuf.ensureParent, ParBuf.growParent,
      ParBuf.addArray, Except.bind, h3, h5, h6, hc]

end Verif.Par
