import Verif.Dataset.UniformModel

set_option linter.unusedSectionVars false
set_option linter.unusedVariables false

/-!
Model of the seed spreader generators (`src/dataset/seedSpreader.cpp`, `include/dataset/seedSpreader.h`). Coordinates are exact
reals. The values `rand() / RAND_MAX` are a sequence `rnd`, read one after the other; `k` is the number of values read so far.
-/

namespace Verif.Dataset

/-- `src/dataset/seedSpreader.cpp:11-15` (`randomDouble`) with the value number `k`. -/
noncomputable def randomDouble (rnd : ℕ → ℝ) (k : ℕ) (lo hi : ℝ) : ℝ := lo + rnd k * (hi - lo)

/-- A point whose coordinates are `d` successive random numbers (`src/dataset/seedSpreader.cpp:52,61,72`). -/
noncomputable def randomVec (rnd : ℕ → ℝ) (d k : ℕ) (lo hi : ℝ) : Pt d := fun i => randomDouble rnd (k + i.val) lo hi

/-- The spreader (`include/dataset/seedSpreader.h:15-31`): its place, the points since the last move, and all points so far. `k` is the
number of random values read. -/
structure Spreader (d : ℕ) where
  x : Pt d
  counter : ℕ
  generated : ℕ
  k : ℕ

/-- The parameters of a generator: `cReset`, `rhoRestart`, and `rVincinity` and `rShift` as functions of the number of points generated
(`src/dataset/seedSpreader.cpp:116-120`; constant for `simdenSpreader`). -/
structure SprCfg where
  cReset : ℕ
  rho : ℝ
  rad : ℕ → ℝ
  shift : ℕ → ℝ

variable {d : ℕ}

/-- `src/dataset/seedSpreader.cpp:49-53` (`restart`); `lo` and `hi` are those of `include/dataset/seedSpreader.h:19-20`. -/
noncomputable def restart (rnd : ℕ → ℝ) (s : Spreader d) : Spreader d :=
  { s with x := randomVec rnd d s.k 0 100000, counter := 0, k := s.k + d }

/-- `src/dataset/seedSpreader.cpp:55-66` (`shift`). For the direction zero the code divides by zero; the model reports undefined
behaviour. -/
noncomputable def shift (c : SprCfg) (rnd : ℕ → ℝ) (s : Spreader d) : Except Err (Spreader d) :=
  if len (randomVec rnd d s.k (-1) 1 : Pt d) = 0 then .error .ub
  else .ok { s with
    x := fun i => s.x i + c.shift s.generated * randomVec rnd d s.k (-1) 1 i / len (randomVec rnd d s.k (-1) 1 : Pt d)
    counter := 0
    k := s.k + d }

/-- `src/dataset/seedSpreader.cpp:82-85`: the loop that draws a point near the spreader, for at most `fuel` iterations; with the number of
values read. -/
noncomputable def drawLoop (rnd : ℕ → ℝ) (x : Pt d) (r : ℝ) : ℕ → ℕ → Except Err (Pt d × ℕ)
  | 0, _ => .error .fuel
  | fuel + 1, k =>
    if r < len (fun i => x i - (x i + randomVec rnd d k (-r) r i)) then drawLoop rnd x r fuel (k + d)
    else .ok (fun i => x i + randomVec rnd d k (-r) r i, k + d)

/-- `src/dataset/seedSpreader.cpp:79`: the restart of `_next`. -/
noncomputable def mayRestart (c : SprCfg) (rnd : ℕ → ℝ) (s : Spreader d) : Spreader d :=
  if randomDouble rnd s.k 0 1 ≤ c.rho then restart rnd { s with k := s.k + 1 } else { s with k := s.k + 1 }

/-- `src/dataset/seedSpreader.cpp:80`: the shift of `_next`. -/
noncomputable def mayShift (c : SprCfg) (rnd : ℕ → ℝ) (s : Spreader d) : Except Err (Spreader d) :=
  if c.cReset ≤ s.counter then shift c rnd s else .ok s

/-- `src/dataset/seedSpreader.cpp:76-89` (`_next`), after `step` (`src/dataset/seedSpreader.cpp:122-127`). -/
noncomputable def next (c : SprCfg) (rnd : ℕ → ℝ) (fuel : ℕ) (s : Spreader d) : Except Err (Pt d × Spreader d) :=
  (mayShift c rnd (mayRestart c rnd s)).bind fun s =>
    (drawLoop rnd s.x (c.rad s.generated) fuel s.k).map fun p =>
      (p.1, { s with counter := s.counter + 1, generated := s.generated + 1, k := p.2 })

/-- `src/dataset/seedSpreader.cpp:148,170`: the loop over the clustered points; `left` places of the sequence are left, `p` is the next
place, `bound` is `(1 - rhoNoise) * n`. A point for a place after the last is written outside the sequence. -/
noncomputable def clusterLoop (c : SprCfg) (rnd : ℕ → ℝ) (fuel : ℕ) (bound : ℝ) :
    ℕ → ℕ → Spreader d → Except Err (List (Pt d) × Spreader d)
  | 0, p, s => if (p : ℝ) < bound then .error .ub else .ok ([], s)
  | left + 1, p, s =>
    if (p : ℝ) < bound then
      (next c rnd fuel s).bind fun q =>
        (clusterLoop c rnd fuel bound left (p + 1) q.2).map fun r => (q.1 :: r.1, r.2)
    else .ok ([], s)

/-- `src/dataset/seedSpreader.cpp:68-74,152,174`: the loop over the noise. -/
noncomputable def noiseLoop (rnd : ℕ → ℝ) : ℕ → ℕ → List (Pt d)
  | 0, _ => []
  | m + 1, k => randomVec rnd d k 0 100000 :: noiseLoop rnd m (k + d)

/-- The constructor (`src/dataset/seedSpreader.cpp:19-47`): restart from nowhere. -/
noncomputable def newSpreader (rnd : ℕ → ℝ) (d : ℕ) : Spreader d := restart rnd ⟨noPt d, 0, 0, 0⟩

/-- `src/dataset/seedSpreader.cpp:131-177`: the body of both generators. -/
noncomputable def generate (c : SprCfg) (rnd : ℕ → ℝ) (fuel d n : ℕ) (rhoNoise : ℝ) : Except Err (List (Pt d)) :=
  (clusterLoop c rnd fuel ((1 - rhoNoise) * n) n 0 (newSpreader rnd d)).map fun r =>
    r.1 ++ noiseLoop rnd (n - r.1.length) r.2.k

/-- `src/dataset/seedSpreader.cpp:131-155` (`simdenGenerator`). -/
noncomputable def simden (rnd : ℕ → ℝ) (fuel d n : ℕ) (rhoNoise : ℝ) : Except Err (List (Pt d)) :=
  generate ⟨100, 10 / (n * (1 - rhoNoise)), fun _ => 100, fun _ => 50 * d⟩ rnd fuel d n rhoNoise

/-- `src/dataset/seedSpreader.cpp:157-177` (`vardenGenerator`) with the radius and the shift of `step` (116-120). -/
noncomputable def varden (rnd : ℕ → ℝ) (fuel d n : ℕ) (rhoNoise : ℝ) : Except Err (List (Pt d)) :=
  generate ⟨100, 10 / (n * (1 - rhoNoise)), fun g => 100 * ((g % 10 : ℕ) + 1), fun g => 100 * ((g % 10 : ℕ) + 1) * d / 2⟩
    rnd fuel d n rhoNoise

end Verif.Dataset
