import Verif.Spec.Network
import Verif.Model.ConvNet

/-! # Inputs that mirror periodicity identifies (for C126) -/

namespace HOL.Spec
open TorchScalar

/-- Two numbers between which the mirrors at `p/2 + k p` do not distinguish: they differ by a multiple of `2 p`, or their sum is `p` up to a multiple of `2 p`. -/
def Mirrored (p s t : ℝ) : Prop := ∃ k : ℤ, t = s + k * (2 * p) ∨ t = p - s + k * (2 * p)

/-- Two inputs of the same shape, each entry of which is mirrored. -/
structure Folded (p : ℝ) (x y : Tensor ℝ) : Prop where
  left : x.WF
  right : y.WF
  shape : y.shape = x.shape
  entries : ∀ idx, InShape x.shape idx → Mirrored p (x.get idx) (y.get idx)

/-- Kinds of layers that hand `periodicity` on to their inputs. -/
def Folds : FcKind → Prop
  | .leaf (.pw _) | .leaf .polynomial | .leaf .polynomialProd | .leaf .product | .leaf (.polynomialND _) => True
  | _ => False

/-- The same for convolutions: all but the Fourier convolutions. -/
def ConvFolds : ConvClass → Prop
  | .fourier _ => False
  | _ => True

end HOL.Spec
