import Verif.Spec.Poly
import Verif.Tensor

/-! # Specification vocabulary: tensor product elements -/

namespace HOL.Spec
open Polynomial

/-- The polynomial of degree `< n` that is one at node `j` and zero at the other nodes of `[-l/2, l/2]`. -/
noncomputable def cardinal (l : ℝ) (n j : ℕ) : ℝ[X] := Lagrange.basis (Finset.range n) (fun j => l / 2 * node n j) j

/-- Tensor product of the cardinal polynomials selected by the multi index `idx`, at the point `y`. -/
noncomputable def tensorCardinal (l : ℝ) (ns idx : List ℕ) (y : ℕ → ℝ) : ℝ :=
  ∏ d ∈ Finset.range ns.length, (cardinal l (ns.getD d 0) (idx.getD d 0)).eval (y d)

/-- `(-1)` to the number of node differences that are taken with the opposite sign. -/
def ndSign (ns : List ℕ) : ℝ := (-1) ^ (ns.map fun n => n - 1).sum

/-- `g` is the tensor product piecewise polynomial on the boxes `segs` of `[-1, 1]^d`, with its own `prod ns` values per box:
box `s` uses the values `v (ravel segs s * prod ns), ...`. -/
def IsPiecewiseND (ns segs : List ℕ) (v : ℕ → ℝ) (g : (ℕ → ℝ) → ℝ) : Prop :=
  ∀ s, InShape segs s → ∀ y : ℕ → ℝ,
    (∀ d < segs.length, IsActive (segs.getD d 0) (s.getD d 0) (y d)) →
    g y = ∑ q ∈ Finset.range (numel ns), v (ravel segs s * numel ns + q)
      * tensorCardinal 2 ns (unravel ns q) fun d => localCoord (segs.getD d 0) (s.getD d 0) (y d)

end HOL.Spec
