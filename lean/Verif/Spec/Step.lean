import Verif.Lemmas.Lines

/-! # The squared length of the gradient -/

namespace HOL

/-- Entry `e` of the gradients `acc k`, zero for parameters without gradient. -/
noncomputable def gradOf (acc : ℕ → Option (Tensor ℝ)) (e : GLayer.Entry) : ℝ := ((acc e.1).map fun g => g.get e.2).getD 0

/-- The sum of the squares of all entries of the gradients of the parameters of `mods` that are among the modules `trained`. -/
noncomputable def gradSquares (σ : ℕ → GLayer ℝ) (mods trained : List ℕ) (cs : List (ℕ × List (Tensor ℝ))) : ℝ :=
  ∑ m ∈ mods.toFinset, if m ∈ trained then ((σ m).entries.map fun e => gradOf (accumulated cs m) e ^ 2).sum else 0

end HOL
