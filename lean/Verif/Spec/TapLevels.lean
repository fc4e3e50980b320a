import Verif.Model.Conv
import Mathlib.Algebra.BigOperators.Group.Finset.Basic

/-! # Levels of the taps of convolutions: what they are, apart from the code -/

namespace HOL
open TorchScalar

/-- The expansions of the library: polynomial, piecewise (continuous or not, 1d or 2d), and Fourier. -/
def Expander.Known : Expander ℝ → Prop
  | .plain n basis => (∃ length, length ≠ 0 ∧ basis = getLagrangeBasis n length) ∨ ∃ length, basis = .fourier length
  | .piecewise _ _ _ _ length => length ≠ 0

/-- The variables of an expansion that sum to a constant: all of them, for Fourier series the first, which is constant itself. -/
def Expander.levelVariables (e : Expander ℝ) : Finset ℕ := match e with
  | .plain _ (.fourier _) => {0}
  | e => Finset.range e.variables

/-- Where the weight of output channel `o`, expanded channel `q` and position `pos` in the kernel is stored: `nn.ConvTranspose2d` has the input channels first. -/
def ConvLayer.weightIdx (L : ConvLayer ℝ) (o q : ℕ) (pos : List ℕ) : List ℕ := match L.kind with
  | .convTranspose2d => q :: o :: pos
  | _ => o :: q :: pos

/-- There is a link from input channel `c` to output channel `o` at position `pos` of the kernel. -/
def ConvLayer.IsTap (L : ConvLayer ℝ) (o c : ℕ) (pos : List ℕ) : Prop := ∀ v < L.expander.variables, InShape L.weight.shape (L.weightIdx o (c * L.expander.variables + v) pos)

/-- The level of this link for the weights `w`: their sum, for Fourier series the weight of the constant. -/
noncomputable def Spec.tapLevel (L : ConvLayer ℝ) (w : Tensor ℝ) (o c : ℕ) (pos : List ℕ) : ℝ := ∑ v ∈ L.expander.levelVariables, w.get (L.weightIdx o (c * L.expander.variables + v) pos)

end HOL
