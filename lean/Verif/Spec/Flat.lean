import Verif.Model.Network
import Mathlib.Analysis.Calculus.FDeriv.Basic

/-! # What the gradient of a function of a tensor is -/

namespace HOL
open TorchScalar

/-- The tensor of shape `S` with these entries. -/
noncomputable def ofVec (S : List ℕ) (v : Fin (numel S) → ℝ) : Tensor ℝ :=
  Tensor.tabulate S fun idx => if h : ravel S idx < numel S then v ⟨ravel S idx, h⟩ else 0

/-- `g` holds the derivatives of a function by the entries of its argument. -/
def GradVec (S : List ℕ) (D : (Fin (numel S) → ℝ) →L[ℝ] ℝ) (g : Tensor ℝ) : Prop :=
  g.shape = S ∧ g.WF ∧ ∀ p : Fin (numel S), g.get (unravel S p) = D (Pi.single p 1)

/-- `back` turns the gradient of the output of `f` into the gradient of its input, at `X`. On inputs of shape `S` the function `f` returns outputs of shape `T`. -/
structure Backprop (f : Fwd ℝ) (S T : List ℕ) (F : (Fin (numel S) → ℝ) → Fin (numel T) → ℝ) (X : Fin (numel S) → ℝ) (back : Tensor ℝ → Py (Tensor ℝ)) : Prop where
  run : ∀ Y, f (ofVec S Y) = .ok (ofVec T (F Y))
  grad : ∀ (loss : (Fin (numel T) → ℝ) → ℝ) (D : (Fin (numel T) → ℝ) →L[ℝ] ℝ) (g : Tensor ℝ), HasFDerivAt loss D (F X) → GradVec T D g →
    ∃ D' gx, back g = .ok gx ∧ HasFDerivAt (fun Y => loss (F Y)) D' X ∧ GradVec S D' gx

end HOL
