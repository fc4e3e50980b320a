import Mathlib.Analysis.SpecialFunctions.Exp
import Mathlib.Algebra.BigOperators.Group.Finset.Basic

/-! # Specification: attention weights -/

namespace HOL.Spec
open Classical in
/-- The softmax of the scores of the positions `k < T` that are not masked; masked positions have weight zero. -/
noncomputable def attnWeight (T : ℕ) (score : ℕ → ℝ) (masked : ℕ → Prop) (j : ℕ) : ℝ :=
  if masked j then 0 else Real.exp (score j) / ∑ k ∈ (Finset.range T).filter (fun k => ¬ masked k), Real.exp (score k)

/-- Nonnegative weights of sum one. -/
def IsDistribution (T : ℕ) (w : ℕ → ℝ) : Prop := (∀ j < T, 0 ≤ w j) ∧ ∑ j ∈ Finset.range T, w j = 1

/-- The weighted sum of the values `v j`. -/
noncomputable def mix (T : ℕ) (w v : ℕ → ℝ) : ℝ := ∑ j ∈ Finset.range T, w j * v j

end HOL.Spec
