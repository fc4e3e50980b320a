import Verif.Spec.Signs
import Verif.Model.StepNetwork

/-! # Training a network with changed signs of units: what it means, apart from the code -/

namespace HOL
open TorchScalar Spec

/-- For the modules with changed signs: the signs of their inputs and of their outputs. -/
abbrev Signing := ℕ → Option ((ℕ → Bool) × (ℕ → Bool))

/-- All modules, with signs changed by `ν`. -/
def signAll (ν : Signing) (s : ℕ → GLayer ℝ) : ℕ → GLayer ℝ := fun j => match ν j with
  | some (σ, ρ) => (s j).sign σ ρ
  | none => s j

/-- The weights of polynomial layers: coefficients of a Fourier series or values at nodes. -/
def Spec.signCoeffs : BasisFn ℝ → (σ ρ : ℕ → Bool) → Tensor ℝ → Tensor ℝ
  | .fourier _ => signSeries
  | _ => signLinks

/-- A tensor of the shape of parameter `k` of the layer, with the signs changed as those of the parameter. -/
def GLayer.signParam (σ ρ : ℕ → Bool) (l : GLayer ℝ) (k : ℕ) (g : Tensor ℝ) : Tensor ℝ := if k = 0 then (match l with
  | .pw _ => signLinks σ ρ g
  | .fn L => signCoeffs L.poly.basis σ ρ g
  | _ => signMatrix σ ρ g) else signOut ρ g

/-- What the uses of the modules contribute to the gradients, with changed signs. -/
def Spec.signGrads (ν : Signing) (s : ℕ → GLayer ℝ) (cs : List (ℕ × List (Tensor ℝ))) : List (ℕ × List (Tensor ℝ)) :=
  cs.map fun c => (c.1, match ν c.1 with
    | some (σ, ρ) => c.2.mapIdx ((s c.1).signParam σ ρ)
    | none => c.2)

/-- Layers that are differentiable everywhere: linear, polynomial, Fourier and product layers without periodicity. -/
def GLayer.Smooth : GLayer ℝ → Prop
  | .fn L => L.periodicity = none
  | .product L => L.periodicity = none
  | .linear _ _ => True
  | _ => False

/-- A network of modules `s`, also with sums, products and modules used several times, in which signs are changed by `ν` such that the outputs of one module have the signs the next one expects: inputs `σ`, outputs `ρ`. -/
def GExpr.Signed (s : ℕ → GLayer ℝ) (ν : Signing) : GExpr ℝ → (σ ρ : ℕ → Bool) → (I O : ℕ) → Prop
  | .leaf j, σ, ρ, I, O => (s j).Fits I O ∧ (s j).TakesSigns ρ ∧ (s j).Smooth ∧ ν j = some (σ, ρ)
  | .fixed _, _, _, _, _ => False
  | .comp a b, σ, ρ, I, O => ∃ μ M, a.Signed s ν σ μ I M ∧ b.Signed s ν μ ρ M O
  | .add a b, σ, ρ, I, O => a.Signed s ν σ ρ I O ∧ b.Signed s ν σ ρ I O
  | .mul a b, σ, ρ, I, O => ∃ μ τ, a.Signed s ν σ μ I O ∧ b.Signed s ν σ τ I O ∧ ∀ o, ρ o = (μ o ^^ τ o)

/-- The same, where the modules that read the inputs of the network may be any layers that take signs: also piecewise layers and layers with periodicity. -/
def GExpr.SignedFirst (s : ℕ → GLayer ℝ) (ν : Signing) : GExpr ℝ → (σ ρ : ℕ → Bool) → (I O : ℕ) → Prop
  | .leaf j, σ, ρ, I, O => (s j).Fits I O ∧ (s j).TakesSigns ρ ∧ ν j = some (σ, ρ)
  | .fixed _, _, _, _, _ => False
  | .comp a b, σ, ρ, I, O => ∃ μ M, a.SignedFirst s ν σ μ I M ∧ b.Signed s ν μ ρ M O
  | .add a b, σ, ρ, I, O => a.SignedFirst s ν σ ρ I O ∧ b.SignedFirst s ν σ ρ I O
  | .mul a b, σ, ρ, I, O => ∃ μ τ, a.SignedFirst s ν σ μ I O ∧ b.SignedFirst s ν σ τ I O ∧ ∀ o, ρ o = (μ o ^^ τ o)

/-- The state of the optimizer, changed like the parameters. -/
noncomputable def Spec.signMomenta (ν : Signing) (s : ℕ → GLayer ℝ) (exp : ℕ → ℕ → Option (Tensor ℝ)) : ℕ → ℕ → Option (Tensor ℝ) := fun j k => match ν j with
  | some (σ, ρ) => (exp j k).map ((s j).signParam σ ρ k)
  | none => exp j k

end HOL
