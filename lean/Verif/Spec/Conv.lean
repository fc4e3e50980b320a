import Verif.Spec.Poly
import Verif.Spec.Fourier

/-!
# Specification vocabulary: convolutions with a function on every link

Nothing here refers to the model of the code.
-/

namespace HOL.Spec
open Polynomial

/-- The families of link functions. -/
inductive LinkKind where
  | polynomial | continuous | discontinuous | fourier
  deriving DecidableEq

/-- Number of weights of a link. -/
def LinkKind.size (n S : ℕ) : LinkKind → ℕ
  | .polynomial | .fourier => n
  | .continuous => (n - 1) * S + 1
  | .discontinuous => n * S

/-- `f` is the link function with weights `v`: the polynomial of degree `< n` with values `v j` at the nodes of `[-L/2, L/2]`, a piecewise
polynomial with `S` segments on `[-1, 1]`, or a Fourier series of period `L`. -/
def IsLink (n S : ℕ) (L : ℝ) (v : ℕ → ℝ) (f : ℝ → ℝ) : LinkKind → Prop
  | .polynomial => ∃ P : ℝ[X], P.degree < n ∧ (∀ j < n, P.eval (L / 2 * node n j) = v j) ∧ ∀ x, f x = P.eval x
  | .continuous => IsPiecewisePoly n S (n - 1) v f
  | .discontinuous => IsPiecewisePoly n S n v f
  | .fourier => ∀ x, f x = fourierSum n L v x

/-- `g` at position `q` of an axis with `n` entries, nothing outside. -/
noncomputable def inside (n : ℕ) (q : ℤ) (g : ℕ → ℝ) : ℝ := if 0 ≤ q ∧ q < n then g q.toNat else 0

/-- Output pixel `(i, j)` of a convolution with link functions `f c d e` (channel, kernel row, kernel column) on an image `img c y z`. Kernel offset
`(d, e)` looks at pixel `(i * stride + d * dil - pad, j * stride + e * dil - pad)`; offsets outside of the image contribute nothing. -/
noncomputable def convSum2 (C k stride pad dil H W : ℕ) (f : ℕ → ℕ → ℕ → ℝ → ℝ) (img : ℕ → ℕ → ℕ → ℝ) (i j : ℕ) : ℝ :=
  ∑ c ∈ Finset.range C, ∑ d ∈ Finset.range k, ∑ e ∈ Finset.range k,
    inside H ((i : ℤ) * stride + d * dil - pad) fun y => inside W ((j : ℤ) * stride + e * dil - pad) fun z => f c d e (img c y z)

/-- One dimensional version. -/
noncomputable def convSum1 (C k stride pad dil H : ℕ) (f : ℕ → ℕ → ℝ → ℝ) (img : ℕ → ℕ → ℝ) (i : ℕ) : ℝ :=
  ∑ c ∈ Finset.range C, ∑ d ∈ Finset.range k, inside H ((i : ℤ) * stride + d * dil - pad) fun y => f c d (img c y)

/-- Output pixel `(y, z)` of a transposed convolution: every input pixel `(i, j)` adds `f c d e` of its value to pixel
`(i * stride + d * dil - pad, j * stride + e * dil - pad)`. -/
noncomputable def convTransposeSum2 (C k stride pad dil H W : ℕ) (f : ℕ → ℕ → ℕ → ℝ → ℝ) (img : ℕ → ℕ → ℕ → ℝ) (y z : ℕ) : ℝ :=
  ∑ c ∈ Finset.range C, ∑ d ∈ Finset.range k, ∑ e ∈ Finset.range k, ∑ i ∈ Finset.range H, ∑ j ∈ Finset.range W,
    if (i : ℤ) * stride + d * dil - pad = y ∧ (j : ℤ) * stride + e * dil - pad = z then f c d e (img c i j) else 0

end HOL.Spec
