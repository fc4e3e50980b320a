import Verif.Spec.Poly
import Mathlib.Algebra.Group.Nat.Even

/-! # Specification vocabulary: functions on the links of a layer, and the exclusive or problem -/

namespace HOL.Spec
open Polynomial

/-- The three families of layers that sum functions of one variable. -/
inductive LinkFamily where
  | polynomial | continuous | discontinuous
  deriving DecidableEq

/-- The name given to `layer_type`. -/
def LinkFamily.name : LinkFamily → String
  | .polynomial => "polynomial"
  | .continuous => "continuous"
  | .discontinuous => "discontinuous"

/-- The functions a link can have: polynomials of degree below `n`; piecewise polynomials on `S` segments of `[-1, 1]`, neighbours sharing
their common node or not. -/
def InFamily (k : LinkFamily) (n S : ℕ) (f : ℝ → ℝ) : Prop :=
  match k with
  | .polynomial => ∃ P : ℝ[X], P.degree < n ∧ ∀ x, f x = P.eval x
  | .continuous => ∃ v, IsPiecewisePoly n S (n - 1) v f
  | .discontinuous => ∃ v, IsPiecewisePoly n S n v f

/-- Two layers of links, two inputs, two hidden units, one output. -/
def twoLayers (f : ℕ → ℕ → ℝ → ℝ) (g : ℕ → ℝ → ℝ) (x y : ℝ) : ℝ :=
  g 0 (f 0 0 x + f 0 1 y) + g 1 (f 1 0 x + f 1 1 y)

/-- The sign of the value is that of the label: negative where the coordinates have the same sign, positive where they differ. -/
def RightSign (F : ℝ → ℝ → ℝ) (x y : ℝ) : Prop := (0 < x * y → F x y < 0) ∧ (x * y < 0 → 0 < F x y)

/-- The families that can solve the problem. -/
def XorCapable (k : LinkFamily) (n S : ℕ) : Prop :=
  match k with
  | .polynomial => 3 ≤ n
  | .continuous => 3 ≤ n ∨ (n = 2 ∧ 2 ≤ S)
  | .discontinuous => 3 ≤ n ∨ (n = 2 ∧ 2 ≤ S) ∨ (n = 1 ∧ Even S)

end HOL.Spec
