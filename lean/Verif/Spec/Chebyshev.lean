import Mathlib.RingTheory.Polynomial.Chebyshev
import Mathlib.Data.Real.Basic

/-! # Spec: worst growth of polynomials outside the interval of their nodes -/

namespace HOL.Spec
open Polynomial

/-- The Chebyshev polynomial of degree `n - 1` at `1 + S (|x| - 1)`: at `|x| = 1` it is 1. -/
noncomputable def chebGrowth (n S : ℕ) (x : ℝ) : ℝ := (Chebyshev.T ℝ ((n - 1 : ℕ) : ℤ)).eval (1 + S * (|x| - 1))

/-- What the squares of `n` basis functions add up to at most. -/
noncomputable def sqBound (n : ℕ) : ℝ := if n ≤ 3 then 1 else 2

end HOL.Spec
