import Verif.Spec.Layer
import Mathlib.Algebra.Polynomial.Eval.Degree
import Mathlib.Order.Interval.Set.OrdConnected

/-! # Specification vocabulary: paths made of polynomial pieces -/

namespace HOL.Spec
open Polynomial

/-- All coordinates of the path are polynomials of degree at most `D` on each of at most `M` intervals: on every interval that avoids fewer than `M` points. -/
def PolyPath {w : ℕ} (γ : ℝ → Fin w → ℝ) (M D : ℕ) : Prop :=
  ∃ T : Finset ℝ, T.card < M ∧ ∀ U : Set ℝ, U.OrdConnected → (∀ t ∈ U, t ∉ T) → ∀ i, ∃ p : ℝ[X], p.natDegree ≤ D ∧ ∀ t ∈ U, γ t i = p.eval t

/-- Numbers of pieces and degrees after passing through layers: every layer is a pair `(c, m)`, cutting a piece of degree `D` in `1 + c D` pieces of degree `m D`. -/
def pathBound : List (ℕ × ℕ) → ℕ × ℕ → ℕ × ℕ
  | [], P => P
  | (c, m) :: l, (M, D) => pathBound l (M * (1 + c * D), m * D)

/-- The forward function computes row by row a function that takes paths of `M` pieces of degree `D` to paths with the number of pieces and the degree given by `pathBound`. -/
def ComputesPieces (fwd : Tensor ℝ → Py (Tensor ℝ)) (I O : ℕ) (bs : List (ℕ × ℕ)) : Prop :=
  ∃ F : ℕ → (Fin I → ℝ) → ℝ, Computes fwd I O (fun o r => F o fun i => r i) ∧
    ∀ (γ : ℝ → Fin I → ℝ) (M D : ℕ), PolyPath γ M D → PolyPath (fun t (o : Fin O) => F o (γ t)) (pathBound bs (M, D)).1 (pathBound bs (M, D)).2

/-- `φ` is a polynomial of degree at most `m` on every interval without points of `κ`. -/
def PolyBetween (κ : Finset ℝ) (m : ℕ) (φ : ℝ → ℝ) : Prop :=
  ∀ V : Set ℝ, V.OrdConnected → (∀ v ∈ V, v ∉ κ) → ∃ q : ℝ[X], q.natDegree ≤ m ∧ ∀ v ∈ V, φ v = q.eval v

end HOL.Spec
