import Mathlib.Analysis.SpecialFunctions.Trigonometric.Basic
import Mathlib.Algebra.BigOperators.Group.Finset.Basic

/-! # Specification vocabulary: truncated Fourier series -/

namespace HOL.Spec

/-- `1/2, sin(2πx/L), cos(2πx/L), sin(4πx/L), cos(4πx/L), ...` -/
noncomputable def fourierTerm (L : ℝ) : ℕ → ℝ → ℝ
  | 0, _ => 1 / 2
  | j + 1, x =>
    if j % 2 = 0 then Real.sin (2 * Real.pi * (j / 2 + 1 : ℕ) * (x / L))
    else Real.cos (2 * Real.pi * (j / 2 + 1 : ℕ) * (x / L))

/-- The Fourier series with coefficients `c 0, ..., c (n - 1)`. -/
noncomputable def fourierSum (n : ℕ) (L : ℝ) (c : ℕ → ℝ) (x : ℝ) : ℝ :=
  ∑ j ∈ Finset.range n, c j * fourierTerm L j x

end HOL.Spec
