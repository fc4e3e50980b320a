import Verif.Model.Lagrange
import Verif.Spec.Fourier

/-! # The Fourier basis of the code -/

namespace HOL
open TorchScalar Spec

/-- The code's basis functions are those of the specification. -/
theorem fourierCall_eq (L x : ℝ) (j : ℕ) : fourierCall L x j = fourierTerm L j x := by
  unfold fourierCall
  cases j with
  | zero => simp [fourierTerm]
  | succ j =>
    rw [if_neg (by omega)]
    simp only [fourierTerm, cos_real, sin_real, pi_real]
    have h1 : (j + 1 + 1) / 2 = j / 2 + 1 := by omega
    have h2 : (j + 1) % 2 = 0 ↔ ¬ j % 2 = 0 := by omega
    rw [h1]
    have e : ((2 : ℕ) : ℝ) * Real.pi * ((j / 2 + 1 : ℕ) : ℝ) * x / L
        = 2 * Real.pi * ((j / 2 + 1 : ℕ) : ℝ) * (x / L) := by push_cast; ring
    by_cases h : j % 2 = 0
    · rw [if_neg (by rw [h2]; exact not_not.2 h), if_pos h, e]
    · rw [if_pos (h2.2 h), if_neg h, e]

/-- Every basis function has period `L`. -/
theorem fourierTerm_add (L : ℝ) (hL : L ≠ 0) (j : ℕ) (x : ℝ) (k : ℤ) :
    fourierTerm L j (x + k * L) = fourierTerm L j x := by
  cases j with
  | zero => rfl
  | succ j =>
    simp only [fourierTerm]
    have e : 2 * Real.pi * ((j / 2 + 1 : ℕ) : ℝ) * ((x + k * L) / L)
        = 2 * Real.pi * ((j / 2 + 1 : ℕ) : ℝ) * (x / L) + ((((j / 2 + 1 : ℕ) : ℤ) * k : ℤ) : ℝ) * (2 * Real.pi) := by
      generalize j / 2 + 1 = m
      push_cast; field_simp
    rw [e, Real.sin_add_int_mul_two_pi, Real.cos_add_int_mul_two_pi]

end HOL
