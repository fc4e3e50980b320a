import Verif.Lemmas.LagrangeReal
import Mathlib.Algebra.Order.Chebyshev
import Mathlib.Analysis.SpecialFunctions.Trigonometric.Chebyshev.RootsExtrema

/-!
# Interpolation at Chebyshev-Lobatto nodes: squares of the basis inside, signs of the basis outside
-/

namespace HOL
open Spec Polynomial

/-- Value of basis function `j` at `t`. -/
noncomputable def cardinal (n j : ℕ) (t : ℝ) : ℝ := (Lagrange.basis (Finset.range n) (node n) j).eval t

theorem cardinal_call {n j : ℕ} (hj : j < n) (t : ℝ) : (getLagrangeBasis n ((2 : ℕ) : ℝ)).call t j = cardinal n j t := by
  have e : (fun j => (((2 : ℕ) : ℝ)) / 2 * node n j) = node n := by
    funext j; norm_num
  rw [basis_call_eq hj, e, cardinal]

theorem linkPoly_cardinal (n : ℕ) (v : ℕ → ℝ) (t : ℝ) : (linkPoly n v).eval t = ∑ j ∈ Finset.range n, v j * cardinal n j t := by
  unfold linkPoly
  rw [Lagrange.interpolate_apply, Polynomial.eval_finsetSum]
  exact Finset.sum_congr rfl fun j _ => by rw [eval_mul, eval_C, cardinal]

/-- Sum with both ends counted half, times two. -/
noncomputable def trapez (N : ℕ) (f : ℕ → ℝ) : ℝ := ∑ k ∈ Finset.range N, (f k + f (k + 1))

theorem trapez_cos_zero {N : ℕ} {α : ℝ} (h : Real.sin (α / 2) ≠ 0) (hN : Real.sin (N * α) = 0) : trapez N (fun k => Real.cos (k * α)) = 0 := by
  have key : Real.sin (α / 2) * trapez N (fun k => Real.cos (k * α)) = Real.cos (α / 2) * Real.sin (N * α) := by
    unfold trapez
    rw [Finset.mul_sum, show Real.sin (N * α) = ∑ k ∈ Finset.range N, (Real.sin (((k + 1 : ℕ) : ℝ) * α) - Real.sin ((k : ℝ) * α)) by
      rw [Finset.sum_range_sub (fun k : ℕ => Real.sin ((k : ℝ) * α))]; simp, Finset.mul_sum]
    refine Finset.sum_congr rfl fun k _ => ?_
    have e1 : ((k + 1 : ℕ) : ℝ) * α = ((k : ℝ) * α + α / 2) + α / 2 := by push_cast; ring
    have e2 : (k : ℝ) * α = ((k : ℝ) * α + α / 2) - α / 2 := by ring
    generalize (k : ℝ) * α + α / 2 = m at e1 e2
    beta_reduce
    rw [e1, e2, Real.cos_add, Real.cos_sub, Real.sin_add m, Real.sin_sub m]
    ring
  rw [hN, mul_zero] at key
  exact (mul_eq_zero.1 key).resolve_left h

theorem trapez_one {N : ℕ} {f : ℕ → ℝ} (h : ∀ k, f k = 1) : trapez N f = 2 * N := by
  unfold trapez
  simp only [h, Finset.sum_const, Finset.card_range, nsmul_eq_mul]
  ring

/-- The cosines of multiples of `π m / N`. -/
theorem trapez_cos {N : ℕ} (hN : 0 < N) (m : ℤ) : trapez N (fun k => Real.cos (k * (Real.pi * m / N))) = if (2 * N : ℤ) ∣ m then 2 * (N : ℝ) else 0 := by
  have hNr : (0 : ℝ) < N := by exact_mod_cast hN
  split
  · rename_i h
    obtain ⟨c, rfl⟩ := h
    apply trapez_one
    intro k
    have : (k : ℝ) * (Real.pi * ((2 * N * c : ℤ) : ℝ) / N) = ((k * c : ℤ) : ℝ) * (2 * Real.pi) := by
      push_cast
      field_simp
    rw [this, Real.cos_int_mul_two_pi]
  · rename_i h
    apply trapez_cos_zero
    · intro h0
      obtain ⟨c, hc⟩ := Real.sin_eq_zero_iff.1 h0
      refine h ⟨c, ?_⟩
      have hpi := Real.pi_pos
      have : (m : ℝ) = ((2 * N * c : ℤ) : ℝ) := by
        push_cast
        field_simp at hc
        linarith
      exact_mod_cast this
    · have : (N : ℝ) * (Real.pi * m / N) = m * Real.pi := by field_simp
      rw [this]
      exact Real.sin_int_mul_pi m

/-- Discrete orthogonality of the cosines at the Chebyshev-Lobatto angles. -/
theorem trapez_cos_cos {N : ℕ} (hN : 0 < N) {i j : ℕ} (hi : i ≤ N) (hj : j ≤ N) :
    trapez N (fun k => Real.cos (k * (Real.pi * i / N)) * Real.cos (k * (Real.pi * j / N)))
      = if i = j then (if i = 0 ∨ i = N then 2 * (N : ℝ) else N) else 0 := by
  have e : trapez N (fun k => Real.cos (k * (Real.pi * i / N)) * Real.cos (k * (Real.pi * j / N)))
      = (trapez N (fun k => Real.cos (k * (Real.pi * ((i - j : ℤ) : ℤ) / N))) + trapez N (fun k => Real.cos (k * (Real.pi * ((i + j : ℤ) : ℤ) / N)))) / 2 := by
    unfold trapez
    rw [← Finset.sum_add_distrib, eq_div_iff two_ne_zero, Finset.sum_mul]
    have one : ∀ k : ℕ, Real.cos (k * (Real.pi * i / N)) * Real.cos (k * (Real.pi * j / N))
        = (Real.cos (k * (Real.pi * ((i - j : ℤ) : ℤ) / N)) + Real.cos (k * (Real.pi * ((i + j : ℤ) : ℤ) / N))) / 2 := by
      intro k
      have a1 : (k : ℝ) * (Real.pi * ((i - j : ℤ) : ℝ) / N) = k * (Real.pi * i / N) - k * (Real.pi * j / N) := by push_cast; ring
      have a2 : (k : ℝ) * (Real.pi * ((i + j : ℤ) : ℝ) / N) = k * (Real.pi * i / N) + k * (Real.pi * j / N) := by push_cast; ring
      rw [a1, a2, Real.cos_sub, Real.cos_add]
      ring
    refine Finset.sum_congr rfl fun k _ => ?_
    beta_reduce
    rw [one k, one (k + 1)]
    ring
  rw [e, trapez_cos hN, trapez_cos hN]
  have d1 : (2 * N : ℤ) ∣ (i - j : ℤ) ↔ i = j := by
    constructor
    · intro h
      have := Int.eq_zero_of_abs_lt_dvd h (by rw [abs_lt]; constructor <;> omega)
      omega
    · rintro rfl
      simp
  have d2 : (2 * N : ℤ) ∣ (i + j : ℤ) ↔ (i = j ∧ (i = 0 ∨ i = N)) := by
    constructor
    · rintro ⟨c, hc⟩
      rcases lt_trichotomy c 1 with h | h | h
      · have : c ≤ 0 := by omega
        have : (2 * N : ℤ) * c ≤ 0 := mul_nonpos_of_nonneg_of_nonpos (by omega) this
        omega
      · subst h
        omega
      · have : (2 * N : ℤ) * 2 ≤ 2 * N * c := by
          apply mul_le_mul_of_nonneg_left <;> omega
        omega
    · rintro ⟨rfl, rfl | rfl⟩
      · simp
      · exact ⟨1, by ring⟩
  simp only [d1, d2]
  by_cases hij : i = j
  · by_cases h0 : i = 0 ∨ i = N
    · rw [if_pos hij, if_pos ⟨hij, h0⟩, if_pos hij, if_pos h0]; ring
    · rw [if_pos hij, if_neg (fun h => h0 h.2), if_pos hij, if_neg h0]; ring
  · rw [if_neg hij, if_neg (fun h => hij h.1), if_neg hij]; ring

theorem cheb_node {N : ℕ} (hN : 0 < N) (k j : ℕ) : (Chebyshev.T ℝ k).eval (node (N + 1) j) = (-1) ^ k * Real.cos (k * (Real.pi * j / N)) := by
  have e : node (N + 1) j = Real.cos (Real.pi - Real.pi * j / N) := by
    unfold node
    rw [if_neg (by omega), Real.cos_pi_sub]
    push_cast
    rw [add_sub_cancel_right]
  rw [e, Chebyshev.T_real_cos]
  have : (((k : ℤ) : ℝ)) * (Real.pi - Real.pi * j / N) = (k : ℝ) * Real.pi - k * (Real.pi * j / N) := by push_cast; ring
  rw [this, Real.cos_sub, Real.cos_nat_mul_pi, Real.sin_nat_mul_pi]
  ring

theorem cheb_expand {n k : ℕ} (hk : k < n) (t : ℝ) : (Chebyshev.T ℝ k).eval t = ∑ j ∈ Finset.range n, (Chebyshev.T ℝ k).eval (node n j) * cardinal n j t := by
  have hd : (Chebyshev.T ℝ (k : ℤ)).degree < n := by
    rw [Chebyshev.degree_T, Int.natAbs_natCast]
    exact_mod_cast hk
  rw [← linkPoly_cardinal n (fun j => (Chebyshev.T ℝ k).eval (node n j)), linkPoly_eq_of_degree_lt hd]

/-- Sums of squares of coefficients of the nodes, bounded by the Chebyshev polynomials at the nodes. -/
theorem nodes_sq {N : ℕ} (hN : 0 < N) (c : ℕ → ℝ) : (N : ℝ) * ∑ j ∈ Finset.range (N + 1), c j ^ 2 ≤
    trapez N fun k => (∑ j ∈ Finset.range (N + 1), (Chebyshev.T ℝ k).eval (node (N + 1) j) * c j) ^ 2 := by
  have hsq : ∀ k : ℕ, (∑ j ∈ Finset.range (N + 1), (Chebyshev.T ℝ k).eval (node (N + 1) j) * c j) ^ 2 = ∑ i ∈ Finset.range (N + 1), ∑ j ∈ Finset.range (N + 1),
      c i * c j * (Real.cos (k * (Real.pi * i / N)) * Real.cos (k * (Real.pi * j / N))) := by
    intro k
    rw [sq, Finset.sum_mul_sum]
    refine Finset.sum_congr rfl fun i _ => Finset.sum_congr rfl fun j _ => ?_
    rw [cheb_node hN, cheb_node hN]
    have : ((-1 : ℝ) ^ k) * (-1) ^ k = 1 := by rw [← mul_pow]; norm_num
    linear_combination (Real.cos (k * (Real.pi * i / N)) * Real.cos (k * (Real.pi * j / N)) * c i * c j) * this
  have h2 : (trapez N fun k => (∑ j ∈ Finset.range (N + 1), (Chebyshev.T ℝ k).eval (node (N + 1) j) * c j) ^ 2) = ∑ i ∈ Finset.range (N + 1), ∑ j ∈ Finset.range (N + 1),
      c i * c j * trapez N (fun k => Real.cos (k * (Real.pi * i / N)) * Real.cos (k * (Real.pi * j / N))) := by
    have : (trapez N fun k => (∑ j ∈ Finset.range (N + 1), (Chebyshev.T ℝ k).eval (node (N + 1) j) * c j) ^ 2) =
        ∑ k ∈ Finset.range N, ∑ i ∈ Finset.range (N + 1), ∑ j ∈ Finset.range (N + 1),
        c i * c j * (Real.cos (k * (Real.pi * i / N)) * Real.cos (k * (Real.pi * j / N))
          + Real.cos (((k + 1 : ℕ) : ℝ) * (Real.pi * i / N)) * Real.cos (((k + 1 : ℕ) : ℝ) * (Real.pi * j / N))) := by
      unfold trapez
      refine Finset.sum_congr rfl fun k hk => ?_
      have s1 := hsq k
      have s2 := hsq (k + 1)
      beta_reduce
      rw [s1, s2, ← Finset.sum_add_distrib]
      refine Finset.sum_congr rfl fun i _ => ?_
      rw [← Finset.sum_add_distrib]
      exact Finset.sum_congr rfl fun j _ => by ring
    rw [this, Finset.sum_comm]
    refine Finset.sum_congr rfl fun i _ => ?_
    rw [Finset.sum_comm]
    refine Finset.sum_congr rfl fun j _ => ?_
    unfold trapez
    rw [Finset.mul_sum]
  rw [h2, Finset.mul_sum]
  refine Finset.sum_le_sum fun i hi => ?_
  have hi' := Finset.mem_range.1 hi
  rw [Finset.sum_eq_single_of_mem i hi]
  · rw [trapez_cos_cos hN (by omega) (by omega), if_pos rfl]
    have hc : 0 ≤ c i * c i := mul_self_nonneg _
    split <;> nlinarith
  · intro j hj hne
    have hj' := Finset.mem_range.1 hj
    rw [trapez_cos_cos hN (by omega) (by omega), if_neg (Ne.symm hne), mul_zero]

/-- Bound of such a sum of squares from bounds of its Chebyshev combinations. -/
theorem nodes_sq_le {N : ℕ} (hN : 0 < N) {c : ℕ → ℝ} {M : ℝ} (h : ∀ k ≤ N, (∑ j ∈ Finset.range (N + 1), (Chebyshev.T ℝ k).eval (node (N + 1) j) * c j) ^ 2 ≤ M) :
    ∑ j ∈ Finset.range (N + 1), c j ^ 2 ≤ 2 * M := by
  have hNr : (0 : ℝ) < N := by exact_mod_cast hN
  have h1 : (trapez N fun k => (∑ j ∈ Finset.range (N + 1), (Chebyshev.T ℝ k).eval (node (N + 1) j) * c j) ^ 2) ≤ N * (2 * M) := by
    unfold trapez
    calc _ ≤ ∑ k ∈ Finset.range N, 2 * M := Finset.sum_le_sum fun k hk => by
          have hk' := Finset.mem_range.1 hk
          have a := h k (by omega)
          have b := h (k + 1) (by omega)
          beta_reduce
          linarith
      _ = N * (2 * M) := by rw [Finset.sum_const, Finset.card_range, nsmul_eq_mul]
  exact le_of_mul_le_mul_left ((nodes_sq hN c).trans h1) hNr

/-- Inside the interval the squares of the basis functions add up to at most 2, whatever their number. -/
theorem cardinal_sq (n : ℕ) {t : ℝ} (ht : |t| ≤ 1) : ∑ j ∈ Finset.range n, cardinal n j t ^ 2 ≤ 2 := by
  match n with
  | 0 => simp
  | 1 =>
    simp [cardinal, Lagrange.basis]
  | N + 2 =>
    have := nodes_sq_le (N := N + 1) (by omega) (c := fun j => cardinal (N + 2) j t) (M := 1) fun k hk => by
      rw [← cheb_expand (n := N + 2) (by omega) t]
      exact (sq_le_one_iff_abs_le_one _).2 (Chebyshev.abs_eval_T_real_le_one k ht)
    simpa using this

/-- So their absolute values add up to at most `√(2 n)`. -/
theorem cardinal_sum_abs (n : ℕ) {t : ℝ} (ht : |t| ≤ 1) : ∑ j ∈ Finset.range n, |cardinal n j t| ≤ √(2 * n) := by
  apply Real.le_sqrt_of_sq_le
  have h := sq_sum_le_card_mul_sum_sq (s := Finset.range n) (f := fun j => |cardinal n j t|)
  simp only [sq_abs, Finset.card_range] at h
  have := cardinal_sq n ht
  have hn : (0 : ℝ) ≤ n := Nat.cast_nonneg n
  nlinarith

theorem range_erase_split {n j : ℕ} (hj : j < n) (f : ℕ → ℝ) :
    ∏ i ∈ (Finset.range n).erase j, f i = (∏ i ∈ Finset.range j, f i) * ∏ i ∈ Finset.Ico (j + 1) n, f i := by
  have e : (Finset.range n).erase j = Finset.range j ∪ Finset.Ico (j + 1) n := by
    ext i
    simp only [Finset.mem_erase, Finset.mem_range, Finset.mem_union, Finset.mem_Ico]
    omega
  rw [e, Finset.prod_union]
  rw [Finset.disjoint_left]
  intro i h1 h2
  simp only [Finset.mem_range, Finset.mem_Ico] at h1 h2
  omega

theorem cardinal_prod {n j : ℕ} (hj : j < n) (t : ℝ) :
    cardinal n j t = (∏ i ∈ Finset.range j, (t - node n i) / (node n j - node n i)) * ∏ i ∈ Finset.Ico (j + 1) n, (t - node n i) / (node n j - node n i) := by
  rw [← range_erase_split hj]
  unfold cardinal Lagrange.basis
  rw [Polynomial.eval_prod]
  refine Finset.prod_congr rfl fun i _ => ?_
  unfold Lagrange.basisDivisor
  rw [eval_mul, eval_C, eval_sub, eval_X, eval_C]
  ring

theorem cardinal_right {n j : ℕ} (hj : j < n) {t : ℝ} (ht : 1 ≤ t) : 0 ≤ (-1) ^ (n - 1 - j) * cardinal n j t := by
  have e : (-1) ^ (n - 1 - j) * cardinal n j t = (∏ i ∈ Finset.range j, (t - node n i) / (node n j - node n i)) * ∏ i ∈ Finset.Ico (j + 1) n, (t - node n i) / (node n i - node n j) := by
    rw [cardinal_prod hj, mul_left_comm]
    congr 1
    have : ((-1 : ℝ)) ^ (n - 1 - j) = ∏ i ∈ Finset.Ico (j + 1) n, (-1 : ℝ) := by
      rw [Finset.prod_const, Nat.card_Ico]
      congr 1
      omega
    rw [this, ← Finset.prod_mul_distrib]
    refine Finset.prod_congr rfl fun i _ => ?_
    rw [← neg_sub (node n i) (node n j), div_neg]
    ring
  rw [e]
  refine mul_nonneg (Finset.prod_nonneg fun i hi => ?_) (Finset.prod_nonneg fun i hi => ?_)
  · have := Finset.mem_range.1 hi
    have h := node_strictMono (n := n) (i := i) (j := j) (by omega) hj
    exact div_nonneg (by linarith [(node_mem n i).2]) (by linarith)
  · have := Finset.mem_Ico.1 hi
    have h := node_strictMono (n := n) (i := j) (j := i) (by omega) this.2
    exact div_nonneg (by linarith [(node_mem n i).2]) (by linarith)

theorem cardinal_left {n j : ℕ} (hj : j < n) {t : ℝ} (ht : t ≤ -1) : 0 ≤ (-1) ^ j * cardinal n j t := by
  have e : (-1) ^ j * cardinal n j t = (∏ i ∈ Finset.range j, (node n i - t) / (node n j - node n i)) * ∏ i ∈ Finset.Ico (j + 1) n, (node n i - t) / (node n i - node n j) := by
    rw [cardinal_prod hj, ← mul_assoc]
    have : ((-1 : ℝ)) ^ j = ∏ i ∈ Finset.range j, (-1 : ℝ) := by
      rw [Finset.prod_const, Finset.card_range]
    rw [this, ← Finset.prod_mul_distrib]
    congr 1
    · refine Finset.prod_congr rfl fun i _ => ?_
      rw [← neg_sub (node n i) t]
      ring
    · refine Finset.prod_congr rfl fun i _ => ?_
      rw [← neg_sub (node n i) t, ← neg_sub (node n i) (node n j), neg_div_neg_eq]
  rw [e]
  refine mul_nonneg (Finset.prod_nonneg fun i hi => ?_) (Finset.prod_nonneg fun i hi => ?_)
  · have := Finset.mem_range.1 hi
    have h := node_strictMono (n := n) (i := i) (j := j) (by omega) hj
    exact div_nonneg (by linarith [(node_mem n i).1]) (by linarith)
  · have := Finset.mem_Ico.1 hi
    have h := node_strictMono (n := n) (i := j) (j := i) (by omega) this.2
    exact div_nonneg (by linarith [(node_mem n i).1]) (by linarith)

/-- The Chebyshev polynomial of the highest degree alternates between the nodes. -/
theorem cheb_top {n : ℕ} (hn : 1 ≤ n) {j : ℕ} (hj : j < n) : (Chebyshev.T ℝ ((n - 1 : ℕ) : ℤ)).eval (node n j) = (-1) ^ (n - 1 - j) := by
  obtain ⟨N, rfl⟩ : ∃ N, n = N + 1 := ⟨n - 1, by omega⟩
  rw [Nat.add_sub_cancel]
  rcases Nat.eq_zero_or_pos N with rfl | hN
  · have : j = 0 := by omega
    subst this
    simp
  · have hNr : (N : ℝ) ≠ 0 := by exact_mod_cast hN.ne'
    rw [cheb_node hN, show (N : ℝ) * (Real.pi * j / N) = j * Real.pi by field_simp, Real.cos_nat_mul_pi]
    obtain ⟨d, rfl⟩ : ∃ d, N = d + j := ⟨N - j, by omega⟩
    rw [Nat.add_sub_cancel, pow_add, mul_assoc, ← mul_pow]
    norm_num

/-- Outside the interval the absolute values of the basis functions add up to the Chebyshev polynomial. -/
theorem cardinal_abs {n : ℕ} (hn : 1 ≤ n) {t : ℝ} (ht : 1 ≤ |t|) : ∑ j ∈ Finset.range n, |cardinal n j t| = |(Chebyshev.T ℝ ((n - 1 : ℕ) : ℤ)).eval t| := by
  rw [cheb_expand (n := n) (by omega) t]
  have hs : ∀ k : ℕ, |((-1 : ℝ)) ^ k| = 1 := fun k => by simp
  rcases le_abs.1 ht with h | h
  · have e : ∀ j ∈ Finset.range n, (Chebyshev.T ℝ ((n - 1 : ℕ) : ℤ)).eval (node n j) * cardinal n j t = |cardinal n j t| := by
      intro j hj
      have hj := Finset.mem_range.1 hj
      have h0 := cardinal_right hj h
      rw [cheb_top hn hj, ← abs_of_nonneg h0, abs_mul, hs, one_mul]
    rw [Finset.sum_congr rfl e, abs_of_nonneg (Finset.sum_nonneg fun _ _ => abs_nonneg _)]
  · have e : ∀ j ∈ Finset.range n, (Chebyshev.T ℝ ((n - 1 : ℕ) : ℤ)).eval (node n j) * cardinal n j t = (-1) ^ (n - 1) * |cardinal n j t| := by
      intro j hj
      have hj := Finset.mem_range.1 hj
      have h0 := cardinal_left hj (show t ≤ -1 by linarith)
      have h1 : |cardinal n j t| = (-1) ^ j * cardinal n j t := by
        rw [← abs_of_nonneg h0, abs_mul, hs, one_mul]
      rw [cheb_top hn hj, h1, ← mul_assoc]
      congr 1
      have : n - 1 = (n - 1 - j) + j := by omega
      rw [this, pow_add, Nat.add_sub_cancel, mul_assoc, ← mul_pow]
      norm_num
    rw [Finset.sum_congr rfl e, ← Finset.mul_sum, abs_mul, hs, one_mul, abs_of_nonneg (Finset.sum_nonneg fun _ _ => abs_nonneg _)]

end HOL
