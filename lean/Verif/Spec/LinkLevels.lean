import Verif.Model.Backward
import Mathlib.Algebra.BigOperators.Group.Finset.Basic

/-! # Levels of links: what they are, apart from the code -/

namespace HOL
open TorchScalar

/-- Layers whose outputs are sums over the inputs of one function per link: piecewise layers, continuous or discontinuous, `Polynomial` and `FourierSeries`. -/
def GLayer.AddsLinks : GLayer ℝ → Prop
  | .pw L => L.cls = .continuous ∨ L.cls = .discontinuous
  | .fn L => (∃ length, length ≠ 0 ∧ L.poly.basis = getLagrangeBasis L.poly.n length) ∨ ∃ length, L.poly.basis = .fourier length
  | _ => False

/-- The sum of all weights of the link from input `i` to output `o`. -/
noncomputable def Spec.linkSum (w : Tensor ℝ) (o i : ℕ) : ℝ := ∑ k ∈ Finset.range (w.shape.getD 2 0), w.get [o, i, k]

open Spec in
/-- The level of the link from input `i` to output `o`: the sum of its weights, for Fourier series the weight of the constant. -/
noncomputable def Spec.linkLevel (l : GLayer ℝ) (o i : ℕ) : ℝ := match l with
  | .pw L => linkSum L.w o i
  | .fn L => match L.poly.basis with
    | .fourier _ => L.w.get [o, i, 0]
    | _ => linkSum L.w o i
  | _ => 0

end HOL
