import Mathlib.Analysis.SpecialFunctions.Trigonometric.Basic

/-! # Specification vocabulary: the function of the function example -/

namespace HOL.Spec

/-- `0.5 cos(1.5 · 3.14159 / (|x| + 0.25))` -/
noncomputable def wave (x : ℝ) : ℝ := 0.5 * Real.cos (1.5 * 3.14159 / (|x| + 0.25))

/-- The networks of one input that cannot follow the ten changes of sign of the function: too few pieces, too low degree. -/
def TooSimple (function : String) (n S : ℕ) : Prop :=
  0 < n ∧ 0 < S ∧
    ((function = "continuous" ∧ S * (n - 1) < 10) ∨ (function = "discontinuous" ∧ S * n ≤ 10) ∨ (function = "polynomial" ∧ n ≤ 10) ∨
      (function = "fourier" ∧ n ≤ 10) ∨ (function = "product" ∧ n < 10) ∨ (function = "standard" ∧ n ≤ 2))

instance (function : String) (n S : ℕ) : Decidable (TooSimple function n S) := by
  unfold TooSimple; infer_instance

end HOL.Spec
