import Verif.Model.Piecewise
import Verif.Model.SparseLion

/-!
# Model: weight gradients of piecewise layers

What automatic differentiation of PyTorch computes for the weights of `Piecewise` and `PiecewiseDiscontinuous` layers: the backward pass of
`self.w[:, windex, wrange]` (PolynomialLayers.py:323, 666) adds, starting from zeros, the gradient of every gathered entry to the entry it was copied from.
The gradients of the gathered entries are those of the interpolation (Basis.py:492-513, 524-546, `alpha = 1`).
-/

namespace HOL
open TorchScalar
variable {K : Type} [TorchScalar K]

/-- Backward pass of `w[:, windex, wrange]` for gradients `u` of the gathered entries. -/
def gatherBackward (shape : List ℕ) (windex wrange : Tensor ℤ) (u : Tensor K) : Tensor K :=
  match shape, windex.shape with
  | [o, a, b], [q] => Tensor.tab3 o a b fun l i j =>
    ((List.range q).filter fun p => decide (PwLayer.normIndex a (windex.get [p]) = some i ∧ PwLayer.normIndex b (wrange.get [p]) = some j)).foldl
      (fun s p => s + u.get [l, p]) 0
  | _, _ => Tensor.tabulate shape fun _ => 0

namespace PwLayer

/-- Gradient of `self.w` for gradients `u` of the entries gathered in the forward pass on `x`. -/
def gradW (L : PwLayer K) (x u : Tensor K) : Tensor K :=
  match x.shape with
  | [bsz, inp] =>
    let x := x.map (periodize L.periodicity)
    let idMin : Tensor ℤ := x.map L.segIndex
    let wr3 := L.wrange3 bsz inp idMin
    let total := numel wr3.shape
    gatherBackward L.w.shape (L.windex total) (wr3.reshape [total]) u
  | _ => Tensor.tabulate L.w.shape fun _ => 0

/-- Derivative of the output `(b, o)` by the link value of input `i`, for link values `f`: 1 for sums, and for `-1 + prod (1 + f)` the product of the other factors. -/
def linkFactor (L : PwLayer K) (f : ℕ → K) (i : ℕ) : K :=
  if L.cls = .continuousProd ∨ L.cls = .discontinuousProd then prodL (((List.range L.inFeatures).filter (· ≠ i)).map fun j => 1 + f j) else 1

/-- Gradients of the gathered entries for the gradient `g` of the output: basis value times factor times `g[b, o]`; rows are output features, columns the flat
positions of `(b, i, k)`. `xIn b i` are the local coordinates and `f b o i` the link values of the forward pass. -/
def gatheredGrad (L : PwLayer K) (bsz : ℕ) (xIn : ℕ → ℕ → K) (f : ℕ → ℕ → ℕ → K) (g : Tensor K) : Tensor K :=
  (Tensor.tab4 L.outFeatures bsz L.inFeatures L.n fun o b i k => L.poly.basis.call (xIn b i) k * L.linkFactor (f b o) i * g.get [b, o]).reshape
    [L.outFeatures, bsz * (L.inFeatures * L.n)]

/-- Gradient of `self.w` after a forward pass on `x` and the gradient `g` of the output. -/
def weightGrad (L : PwLayer K) (x g : Tensor K) : Tensor K :=
  match x.shape with
  | [bsz, _] =>
    let xl : ℕ → ℕ → K := fun b i => L.xLocal (periodize L.periodicity (x.get [b, i])) (L.whichSegment (x.get [b, i]))
    let f : ℕ → ℕ → ℕ → K := fun b o i =>
      sumL ((List.range L.n).map fun k => L.poly.basis.call (xl b i) k * L.w.get [o, i, (L.whichSegment (x.get [b, i])).toNat * L.stride + k])
    L.gradW x (L.gatheredGrad bsz xl f g)
  | _ => Tensor.tabulate L.w.shape fun _ => 0

end PwLayer
end HOL
