import Verif.Spec.Step

/-! # The rate at which a step of `SparseLion` moves the loss -/

namespace HOL

/-- The sum over all entries of the parameters of `mods` that are among the modules `trained` of the gradient times the sign of the average `β m + (1 - β) g` of momentum and gradient; `exp m k` is the momentum of parameter `k`
of module `m`, zero if there is none yet. -/
noncomputable def lionSlope (σ : ℕ → GLayer ℝ) (mods trained : List ℕ) (β : ℝ) (exp : ℕ → ℕ → Option (Tensor ℝ)) (cs : List (ℕ × List (Tensor ℝ))) : ℝ :=
  ∑ m ∈ mods.toFinset, if m ∈ trained then ((σ m).entries.map fun e => gradOf (accumulated cs m) e * Real.sign (β * gradOf (exp m) e + (1 - β) * gradOf (accumulated cs m) e)).sum else 0

/-- The sum of the absolute values of all entries of the gradients of the parameters of `mods` that are among the modules `trained`. -/
noncomputable def gradAbs (σ : ℕ → GLayer ℝ) (mods trained : List ℕ) (cs : List (ℕ × List (Tensor ℝ))) : ℝ :=
  ∑ m ∈ mods.toFinset, if m ∈ trained then ((σ m).entries.map fun e => |gradOf (accumulated cs m) e|).sum else 0

/-- The state of the optimizer fits the parameters: `state[p]["exp_avg"]` has the shape of `p`. -/
def LionState (σ : ℕ → GLayer ℝ) (trained : List ℕ) (exp : ℕ → ℕ → Option (Tensor ℝ)) : Prop :=
  ∀ m ∈ trained, ∀ (k : ℕ) (p e : Tensor ℝ), (σ m).params[k]? = some p → exp m k = some e → e.WF ∧ e.shape = p.shape

end HOL
