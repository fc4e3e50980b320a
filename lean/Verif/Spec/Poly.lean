import Mathlib.LinearAlgebra.Lagrange
import Mathlib.Analysis.SpecialFunctions.Trigonometric.Basic

/-!
# Specification vocabulary: nodes, link polynomials, segments

Nothing here refers to the model of the code.
-/

namespace HOL.Spec
open Polynomial

/-- The `j`-th of `n` Chebyshev-Lobatto points on `[-1, 1]`, in increasing order; one point is
placed at the origin. -/
noncomputable def node (n j : ℕ) : ℝ :=
  if n = 1 then 0 else -Real.cos (Real.pi * j / (n - 1))

/-- The polynomial of degree `< n` taking the value `v j` at node `j`. -/
noncomputable def linkPoly (n : ℕ) (v : ℕ → ℝ) : ℝ[X] :=
  Lagrange.interpolate (Finset.range n) (node n) v

/-- Left end of segment `s` when `[-1, 1]` is divided in `S` equal segments. -/
noncomputable def segLeft (S s : ℕ) : ℝ := -1 + 2 * s / S

/-- The affine map taking segment `s` to `[-1, 1]`. -/
noncomputable def localCoord (S s : ℕ) (x : ℝ) : ℝ := S * (x + 1) - 2 * s - 1

/-- Segment `s` is responsible for `x`: `x` lies in the half open segment, the first segment
takes everything to the left and the last one everything to the right. -/
def IsActive (S s : ℕ) (x : ℝ) : Prop :=
  s < S ∧ (s = 0 ∨ segLeft S s ≤ x) ∧ (s + 1 = S ∨ x < segLeft S (s + 1))

/-- `f` is the piecewise polynomial with `S` segments and `n` nodes per segment whose segment `s`
uses the values `v (s * stride), ..., v (s * stride + n - 1)`. With `stride = n - 1` neighbouring
segments share their common node, with `stride = n` they share nothing. -/
def IsPiecewisePoly (n S stride : ℕ) (v : ℕ → ℝ) (f : ℝ → ℝ) : Prop :=
  ∀ s x, IsActive S s x →
    f x = (linkPoly n fun k => v (s * stride + k)).eval (localCoord S s x)

end HOL.Spec
