import Verif.Spec.Renumber
import Verif.Model.StepNetwork

/-! # Training a network with renumbered units: what it means, apart from the code -/

namespace HOL
open TorchScalar Spec

/-- For the modules whose units are renumbered: the numbering of their inputs and of their outputs. -/
abbrev Numbering := ℕ → Option ((ℕ → ℕ) × (ℕ → ℕ))

/-- All modules, with units renumbered by `ν`. -/
def renumberAll (ν : Numbering) (σ : ℕ → GLayer ℝ) : ℕ → GLayer ℝ := fun j => match ν j with
  | some (κ, ρ) => (σ j).renumber κ ρ
  | none => σ j

/-- A tensor of the shape of parameter `k` of a layer, renumbered: parameter 0 has outputs and inputs as axes, parameter 1 (the bias) outputs. -/
def Spec.renumberParam (κ ρ : ℕ → ℕ) (k : ℕ) (g : Tensor ℝ) : Tensor ℝ := if k = 0 then renumberLinks κ ρ g else renumberOut ρ g

/-- What the uses of the modules contribute to the gradients, renumbered. -/
def Spec.renumberGrads (ν : Numbering) (cs : List (ℕ × List (Tensor ℝ))) : List (ℕ × List (Tensor ℝ)) :=
  cs.map fun c => (c.1, match ν c.1 with
    | some (κ, ρ) => c.2.mapIdx (renumberParam κ ρ)
    | none => c.2)

/-- A network of modules `σ`, also with sums, products, modules used several times and `relu`, in which the units are renumbered by `ν` such that the units of one module are numbered as the next one expects them: inputs by `κ`,
outputs by `ρ`. -/
def GExpr.Numbered (σ : ℕ → GLayer ℝ) (ν : Numbering) : GExpr ℝ → (κ ρ : ℕ → ℕ) → (I O : ℕ) → Prop
  | .leaf j, κ, ρ, I, O => (σ j).Fits I O ∧ σ j ≠ .relu ∧ ν j = some (κ, ρ) ∧ Renumbers κ I ∧ Renumbers ρ O
  | .fixed (.base (.dense .relu)), κ, ρ, I, O => I = O ∧ κ = ρ ∧ Renumbers κ I
  | .fixed _, _, _, _, _ => False
  | .comp a b, κ, ρ, I, O => ∃ μ M, a.Numbered σ ν κ μ I M ∧ b.Numbered σ ν μ ρ M O
  | .add a b, κ, ρ, I, O | .mul a b, κ, ρ, I, O => a.Numbered σ ν κ ρ I O ∧ b.Numbered σ ν κ ρ I O

end HOL
