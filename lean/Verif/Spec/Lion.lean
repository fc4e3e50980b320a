import Mathlib.Data.Real.Sign

/-! # Specification vocabulary: the Lion algorithm on one entry -/

namespace HOL.Spec

/-- One step of Lion (Chen et al. 2023, Algorithm 2) on a parameter entry `θ` with momentum `m` and gradient `g`:
decoupled weight decay, sign update, then momentum. -/
noncomputable def lion (lr wd beta1 beta2 : ℝ) (s : ℝ × ℝ) (g : ℝ) : ℝ × ℝ :=
  ((1 - lr * wd) * s.1 - lr * Real.sign (beta1 * s.2 + (1 - beta1) * g), beta2 * s.2 + (1 - beta2) * g)

end HOL.Spec
