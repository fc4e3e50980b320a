import Verif.Tensor

/-! # `make_periodic` (utils.py) -/

namespace HOL
open TorchScalar
variable {K : Type} [TorchScalar K]

/-- `make_periodic(x, periodicity)` on one entry, utils.py:74-79. -/
def makePeriodic (x p : K) : K :=
  let xp := x + 1 / ((2 : ℕ) : K) * p
  let xp := remainder xp (((2 : ℕ) : K) * p)
  let xp := if ltB p xp then ((2 : ℕ) : K) * p - xp else xp
  xp - 1 / ((2 : ℕ) : K) * p

/-- `if periodicity is not None: x = make_periodic(x, periodicity)`. -/
def periodize (p : Option K) (x : K) : K :=
  match p with
  | none => x
  | some p => makePeriodic x p

end HOL
