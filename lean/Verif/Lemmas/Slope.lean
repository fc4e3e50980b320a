import Verif.Lemmas.Chebyshev
import Mathlib.Analysis.Calculus.MeanValue
import Mathlib.Analysis.Calculus.Deriv.Polynomial

/-!
# Slopes of the interpolation at Chebyshev-Lobatto nodes
-/

namespace HOL
open Spec Polynomial

/-- Derivative of basis function `j` at `t`. -/
noncomputable def cardinalD (n j : ℕ) (t : ℝ) : ℝ := (derivative (Lagrange.basis (Finset.range n) (node n) j)).eval t

theorem linkPoly_deriv (n : ℕ) (v : ℕ → ℝ) (t : ℝ) : (derivative (linkPoly n v)).eval t = ∑ j ∈ Finset.range n, v j * cardinalD n j t := by
  unfold linkPoly
  rw [Lagrange.interpolate_apply, derivative_sum, Polynomial.eval_finsetSum]
  exact Finset.sum_congr rfl fun j _ => by rw [derivative_C_mul, eval_mul, eval_C, cardinalD]

theorem chebD_expand {n k : ℕ} (hk : k < n) (t : ℝ) :
    (derivative (Chebyshev.T ℝ k)).eval t = ∑ j ∈ Finset.range n, (Chebyshev.T ℝ k).eval (node n j) * cardinalD n j t := by
  have hd : (Chebyshev.T ℝ (k : ℤ)).degree < n := by
    rw [Chebyshev.degree_T, Int.natAbs_natCast]
    exact_mod_cast hk
  rw [← linkPoly_deriv n (fun j => (Chebyshev.T ℝ k).eval (node n j)), linkPoly_eq_of_degree_lt hd]

theorem chebD_one (k : ℕ) : (derivative (Chebyshev.T ℝ k)).eval 1 = (k : ℝ) ^ 2 := by
  rw [Chebyshev.T_derivative_eq_U, eval_mul, Chebyshev.U_eval_one]
  simp
  ring

theorem chebD_abs (k : ℕ) {t : ℝ} (ht : |t| ≤ 1) : |(derivative (Chebyshev.T ℝ k)).eval t| ≤ (k : ℝ) ^ 2 := by
  have := Chebyshev.abs_iterate_derivative_T_real_le k 1 ht
  rw [Function.iterate_one, chebD_one] at this
  exact this

/-- Inside the interval the squares of the derivatives of `n` basis functions add up to at most `2 (n - 1)^4`. -/
theorem cardinalD_sq {n : ℕ} (hn : 0 < n) {t : ℝ} (ht : |t| ≤ 1) : ∑ j ∈ Finset.range n, cardinalD n j t ^ 2 ≤ 2 * ((n : ℝ) - 1) ^ 4 := by
  match n, hn with
  | 1, _ =>
    simp [cardinalD, Lagrange.basis]
  | N + 2, _ =>
    have := nodes_sq_le (N := N + 1) (by omega) (c := fun j => cardinalD (N + 2) j t) (M := ((N + 1 : ℕ) : ℝ) ^ 4) fun k hk => by
      rw [← chebD_expand (n := N + 2) (by omega) t, ← sq_abs]
      have h1 := chebD_abs k ht
      have h2 : (k : ℝ) ≤ ((N + 1 : ℕ) : ℝ) := by exact_mod_cast hk
      have h3 : (k : ℝ) ^ 2 ≤ ((N + 1 : ℕ) : ℝ) ^ 2 := pow_le_pow_left₀ (Nat.cast_nonneg _) h2 2
      have h4 := pow_le_pow_left₀ (abs_nonneg _) (h1.trans h3) 2
      rwa [← pow_mul] at h4
    have e : ((N + 2 : ℕ) : ℝ) - 1 = ((N + 1 : ℕ) : ℝ) := by push_cast; ring
    rw [e]
    exact this

theorem cardinalD_sum_abs {n : ℕ} (hn : 0 < n) {t : ℝ} (ht : |t| ≤ 1) : ∑ j ∈ Finset.range n, |cardinalD n j t| ≤ √(2 * n) * ((n : ℝ) - 1) ^ 2 := by
  have h := sq_sum_le_card_mul_sum_sq (s := Finset.range n) (f := fun j => |cardinalD n j t|)
  simp only [sq_abs, Finset.card_range] at h
  have h1 := cardinalD_sq hn ht
  have hn0 : (0 : ℝ) ≤ n := Nat.cast_nonneg _
  have h2 : (∑ j ∈ Finset.range n, |cardinalD n j t|) ^ 2 ≤ (√(2 * n) * ((n : ℝ) - 1) ^ 2) ^ 2 := by
    rw [mul_pow, Real.sq_sqrt (by positivity)]
    calc _ ≤ (n : ℝ) * ∑ j ∈ Finset.range n, cardinalD n j t ^ 2 := h
      _ ≤ n * (2 * ((n : ℝ) - 1) ^ 4) := mul_le_mul_of_nonneg_left h1 hn0
      _ = _ := by ring
  exact le_of_sq_le_sq h2 (by positivity)

/-- Slope of a link with weights at most `W`. -/
theorem linkPoly_deriv_abs {n : ℕ} (hn : 0 < n) {v : ℕ → ℝ} {W : ℝ} (hv : ∀ k < n, |v k| ≤ W) {t : ℝ} (ht : |t| ≤ 1) :
    |(derivative (linkPoly n v)).eval t| ≤ √(2 * n) * ((n : ℝ) - 1) ^ 2 * W := by
  have hW : 0 ≤ W := (abs_nonneg _).trans (hv 0 hn)
  rw [linkPoly_deriv]
  calc _ ≤ ∑ j ∈ Finset.range n, |v j * cardinalD n j t| := Finset.abs_sum_le_sum_abs _ _
    _ ≤ ∑ j ∈ Finset.range n, |cardinalD n j t| * W := Finset.sum_le_sum fun j hj => by
      rw [abs_mul, mul_comm]
      exact mul_le_mul_of_nonneg_left (hv j (Finset.mem_range.1 hj)) (abs_nonneg _)
    _ = (∑ j ∈ Finset.range n, |cardinalD n j t|) * W := by rw [Finset.sum_mul]
    _ ≤ _ := mul_le_mul_of_nonneg_right (cardinalD_sum_abs hn ht) hW

/-- A polynomial with derivative at most `C` on `[-1, 1]`. -/
theorem polynomial_lipschitz {P : ℝ[X]} {C : ℝ} (h : ∀ t, |t| ≤ 1 → |(derivative P).eval t| ≤ C) {s t : ℝ} (hs : |s| ≤ 1) (ht : |t| ≤ 1) :
    |P.eval t - P.eval s| ≤ C * |t - s| := by
  have := (convex_Icc (-1 : ℝ) 1).norm_image_sub_le_of_norm_deriv_le (f := fun x => P.eval x) (C := C) (x := s) (y := t)
    (fun x _ => P.differentiable.differentiableAt) (fun x hx => by
      rw [Polynomial.deriv, Real.norm_eq_abs]
      exact h x (abs_le.2 ⟨hx.1, hx.2⟩)) (abs_le.1 hs) (abs_le.1 ht)
  simpa [Real.norm_eq_abs] using this

theorem link_lipschitz {n : ℕ} (hn : 0 < n) {v : ℕ → ℝ} {W : ℝ} (hv : ∀ k < n, |v k| ≤ W) {s t : ℝ} (hs : |s| ≤ 1) (ht : |t| ≤ 1) :
    |(linkPoly n v).eval t - (linkPoly n v).eval s| ≤ √(2 * n) * ((n : ℝ) - 1) ^ 2 * W * |t - s| :=
  polynomial_lipschitz (fun _ hu => linkPoly_deriv_abs hn hv hu) hs ht

end HOL
