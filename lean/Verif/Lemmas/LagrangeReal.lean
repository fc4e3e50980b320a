import Verif.Model.Lagrange
import Verif.Spec.Poly
import Mathlib.Tactic.FieldSimp
import Mathlib.Tactic.Positivity

/-! # The basis of the code over the reals is Mathlib's Lagrange basis -/

namespace HOL
open TorchScalar Polynomial Spec

/-! ## nodes -/

theorem chebyshev_get {n j : ℕ} (hj : j < n) :
    (chebyshevLobatto n : Tensor ℝ).get [j] = node n j := by
  unfold chebyshevLobatto node
  split
  · subst_vars
    rw [Tensor.get_tab1 hj]
  · rw [Tensor.get_tab1 hj]
    have : ((n - 1 : ℕ) : ℝ) = (n : ℝ) - 1 := by
      rw [Nat.cast_sub (by omega)]; simp
    rw [this]; rfl

theorem chebyshev_shape (n : ℕ) : (chebyshevLobatto n : Tensor ℝ).shape = [n] := by
  unfold chebyshevLobatto
  split
  · subst_vars; rfl
  · rfl

theorem chebyshev_wf (n : ℕ) : (chebyshevLobatto n : Tensor ℝ).WF := by
  unfold chebyshevLobatto
  split <;> exact Tensor.wf_tabulate _ _

theorem node_strictMono {n i j : ℕ} (hij : i < j) (hj : j < n) : node n i < node n j := by
  have hn : n ≠ 1 := by omega
  unfold node
  rw [if_neg hn, if_neg hn]
  have hn1 : (0 : ℝ) < (n : ℝ) - 1 := by
    have : (1 : ℝ) < n := by exact_mod_cast (by omega : 1 < n)
    linarith
  have hjn : (j : ℝ) ≤ (n : ℝ) - 1 := by
    have : (j : ℝ) + 1 ≤ n := by exact_mod_cast hj
    linarith
  have hijr : (i : ℝ) < j := by exact_mod_cast hij
  apply neg_lt_neg
  apply Real.strictAntiOn_cos
  · constructor
    · positivity
    · rw [div_le_iff₀ hn1]
      exact mul_le_mul_of_nonneg_left (by linarith) Real.pi_pos.le
  · constructor
    · positivity
    · rw [div_le_iff₀ hn1]
      exact mul_le_mul_of_nonneg_left hjn Real.pi_pos.le
  · apply div_lt_div_of_pos_right _ hn1
    exact mul_lt_mul_of_pos_left hijr Real.pi_pos

theorem node_injOn (n : ℕ) : Set.InjOn (node n) (Finset.range n : Set ℕ) := by
  intro i hi j hj h
  simp only [Finset.coe_range, Set.mem_Iio] at hi hj
  rcases lt_trichotomy i j with h' | h' | h'
  · exact absurd h (node_strictMono h' hj).ne
  · exact h'
  · exact absurd h (node_strictMono h' hi).ne'

theorem node_zero {n : ℕ} (hn : 2 ≤ n) : node n 0 = -1 := by
  unfold node; rw [if_neg (by omega)]; simp

theorem node_last {n : ℕ} (hn : 2 ≤ n) : node n (n - 1) = 1 := by
  unfold node; rw [if_neg (by omega)]
  have : ((n - 1 : ℕ) : ℝ) = (n : ℝ) - 1 := by rw [Nat.cast_sub (by omega)]; simp
  have hn1 : (n : ℝ) - 1 ≠ 0 := by
    have : (2 : ℝ) ≤ n := by exact_mod_cast hn
    intro h; linarith
  rw [this, mul_div_assoc, div_self hn1]; simp

theorem node_mem (n j : ℕ) : -1 ≤ node n j ∧ node n j ≤ 1 := by
  unfold node
  split
  · norm_num
  · have h1 := Real.neg_one_le_cos (Real.pi * j / (n - 1))
    have h2 := Real.cos_le_one (Real.pi * j / (n - 1))
    constructor <;> linarith

theorem node_antisymm {n j : ℕ} (hj : j < n) : node n (n - 1 - j) = -node n j := by
  unfold node
  split
  · simp
  · rename_i hn
    have : ((n - 1 - j : ℕ) : ℝ) = (n : ℝ) - 1 - j := by
      rw [Nat.cast_sub (by omega), Nat.cast_sub (by omega)]; simp
    have hn1 : (n : ℝ) - 1 ≠ 0 := by
      have : (2 : ℝ) ≤ n := by exact_mod_cast (by omega : 2 ≤ n)
      intro h; linarith
    rw [this, mul_sub, sub_div, mul_div_assoc, div_self hn1, mul_one, Real.cos_pi_sub]

/-! ## basis -/

theorem init_X_get {n j : ℕ} (hj : j < n) (length : ℝ) :
    (LagrangeBasis.init n length).X.get [j] = length / 2 * node n j := by
  have hin : InShape (chebyshevLobatto n : Tensor ℝ).shape [j] := by
    rw [chebyshev_shape]; exact inShape1.2 hj
  show ((chebyshevLobatto n : Tensor ℝ).map _).get [j] = _
  rw [Tensor.get_map (chebyshev_wf n) hin, chebyshev_get hj]
  rfl

theorem init_den_get {n j m : ℕ} (hj : j < n) (hm : m < n) (length : ℝ) :
    (LagrangeBasis.init n length).denominators.get [j, m]
      = if m ≠ j then length / 2 * node n j - length / 2 * node n m else 1 := by
  show (Tensor.tab2 n n _).get [j, m] = _
  rw [Tensor.get_tab2 hj hm]
  have e1 := init_X_get hj length
  have e2 := init_X_get hm length
  simp only [LagrangeBasis.init] at e1 e2
  rw [e1, e2]

/-- `LagrangeBasis.__call__` is evaluation of Mathlib's Lagrange basis polynomial. -/
theorem lagrange_call_eq {n j : ℕ} (hj : j < n) (length x : ℝ) :
    (LagrangeBasis.init n length).call x j
      = (Lagrange.basis (Finset.range n) (fun j => length / 2 * node n j) j).eval x := by
  unfold LagrangeBasis.call
  rw [prodL_range]
  rw [Lagrange.basis, Polynomial.eval_prod]
  have hmem : j ∈ Finset.range n := Finset.mem_range.2 hj
  show ∏ m ∈ Finset.range n, _ = _
  rw [← Finset.mul_prod_erase _ _ hmem]
  rw [if_neg (by simp)]
  rw [one_mul]
  apply Finset.prod_congr rfl
  intro m hm
  have hne := (Finset.mem_erase.1 hm).1
  have hmn := Finset.mem_range.1 (Finset.mem_erase.1 hm).2
  rw [if_pos hne, init_X_get hmn, init_den_get hj hmn, if_pos hne, Lagrange.basisDivisor]
  simp only [eval_mul, eval_C, eval_sub, eval_X]
  show (x - length / 2 * node n m) / _ = _
  rw [div_eq_inv_mul]

/-- Every Lagrange basis object of the code (also the degenerate `n = 1`). -/
theorem basis_call_eq {n j : ℕ} (hj : j < n) (length x : ℝ) :
    (getLagrangeBasis n length).call x j
      = (Lagrange.basis (Finset.range n) (fun j => length / 2 * node n j) j).eval x := by
  unfold getLagrangeBasis
  split
  · subst_vars
    have : j = 0 := by omega
    subst this
    show (1 : ℝ) = _
    simp [Lagrange.basis]
  · exact lagrange_call_eq hj length x

theorem scaled_injOn (n : ℕ) {length : ℝ} (hl : length ≠ 0) :
    Set.InjOn (fun j => length / 2 * node n j) (Finset.range n : Set ℕ) := by
  intro i hi j hj h
  have : length / 2 ≠ 0 := by positivity
  exact node_injOn n hi hj (mul_left_cancel₀ this h)

/-- Interpolation with the basis of the code is evaluation of the Lagrange interpolant. -/
theorem sum_basis_call (n : ℕ) (length x : ℝ) (v : ℕ → ℝ) :
    ∑ p ∈ Finset.range n, (getLagrangeBasis n length).call x p * v p
      = (Lagrange.interpolate (Finset.range n) (fun j => length / 2 * node n j) v).eval x := by
  rw [Lagrange.interpolate_apply, Polynomial.eval_finsetSum]
  apply Finset.sum_congr rfl
  intro p hp
  rw [basis_call_eq (Finset.mem_range.1 hp), eval_mul, eval_C, mul_comm]

/-- With the default length 2 the interpolant is `linkPoly`. -/
theorem sum_basis_call_two (n : ℕ) (x : ℝ) (v : ℕ → ℝ) :
    ∑ p ∈ Finset.range n, (getLagrangeBasis n ((2 : ℕ) : ℝ)).call x p * v p
      = (linkPoly n v).eval x := by
  have e : (fun j => (((2 : ℕ) : ℝ)) / 2 * node n j) = node n := by
    funext j; norm_num
  rw [sum_basis_call, linkPoly, e]

theorem linkPoly_eval_node {n j : ℕ} (hj : j < n) (v : ℕ → ℝ) :
    (linkPoly n v).eval (node n j) = v j :=
  Lagrange.eval_interpolate_at_node v (node_injOn n) (Finset.mem_range.2 hj)

theorem linkPoly_degree_lt (n : ℕ) (v : ℕ → ℝ) : (linkPoly n v).degree < n := by
  have := Lagrange.degree_interpolate_lt (s := Finset.range n) (v := node n) v (node_injOn n)
  simpa [linkPoly] using this

/-- A polynomial of degree `< n` is the link polynomial of its node values. -/
theorem linkPoly_eq_of_degree_lt {n : ℕ} {P : ℝ[X]} (hP : P.degree < n) :
    linkPoly n (fun j => P.eval (node n j)) = P := by
  symm
  apply Lagrange.eq_interpolate (node_injOn n)
  simpa using hP

theorem linkPoly_congr {n : ℕ} {v w : ℕ → ℝ} (h : ∀ j < n, v j = w j) : linkPoly n v = linkPoly n w := by
  unfold linkPoly
  apply Lagrange.interpolate_eq_of_values_eq_on
  intro i hi
  exact h i (Finset.mem_range.1 hi)

end HOL
