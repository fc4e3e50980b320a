import Mathlib.Algebra.BigOperators.Group.Finset.Basic
import Mathlib.Data.Real.Basic
import Mathlib.Data.Finset.Powerset

/-! # Specification vocabulary: products of link values, monomial by monomial -/

namespace HOL.Spec

/-- Sum over all non-empty sets of inputs of the product of their values, the single values (the linear
part) being weighted by `lin`. -/
noncomputable def productUnit (lin : ℝ) (I : ℕ) (f : ℕ → ℝ) : ℝ :=
  ∑ s ∈ (Finset.range I).powerset, if s = ∅ then 0 else (if s.card = 1 then lin else 1) * ∏ i ∈ s, f i

end HOL.Spec
