import Verif.Lemmas.PiecewiseReal
import Mathlib.Analysis.Calculus.LocalExtr.Rolle
import Mathlib.Analysis.Calculus.IteratedDeriv.Lemmas
import Mathlib.Analysis.Calculus.ContDiff.Polynomial
import Mathlib.Analysis.Calculus.Deriv.Polynomial
import Mathlib.Analysis.SpecialFunctions.Trigonometric.Chebyshev.Basic
import Mathlib.Algebra.Polynomial.Derivative
import Mathlib.Analysis.SpecialFunctions.Trigonometric.Inverse

/-! # Lemmas: the error of polynomial interpolation -/

namespace HOL
open Polynomial Spec

/-- Rolle's theorem for `n + 1` zeros. -/
theorem rolle_iterated : ∀ (n : ℕ) (f : ℝ → ℝ) (z : ℕ → ℝ), ContDiff ℝ n f → (∀ i < n, z i < z (i + 1)) → (∀ i ≤ n, f (z i) = 0) →
    ∃ c, z 0 ≤ c ∧ c ≤ z n ∧ iteratedDeriv n f c = 0
  | 0, f, z, _, _, h0 => ⟨z 0, le_rfl, le_rfl, by simpa using h0 0 le_rfl⟩
  | n + 1, f, z, hf, hz, h0 => by
    have hcont : Continuous f := hf.continuous
    have hex : ∀ i, ∃ c, i ≤ n → z i < c ∧ c < z (i + 1) ∧ deriv f c = 0 := by
      intro i
      by_cases hi : i ≤ n
      · obtain ⟨c, hc, e⟩ := exists_deriv_eq_zero (hz i (by omega)) hcont.continuousOn (by rw [h0 i (by omega), h0 (i + 1) (by omega)])
        exact ⟨c, fun _ => ⟨hc.1, hc.2, e⟩⟩
      · exact ⟨0, fun h => absurd h hi⟩
    choose y hy using hex
    have hf' : ContDiff ℝ n (deriv f) := by
      have : ContDiff ℝ ((n : WithTop ℕ∞) + 1) f := by exact_mod_cast hf
      exact (contDiff_succ_iff_deriv.1 this).2.2
    obtain ⟨c, h1, h2, h3⟩ := rolle_iterated n (deriv f) y hf'
      (fun i hi => (hy i (by omega)).2.1.trans (hy (i + 1) (by omega)).1) (fun i hi => (hy i hi).2.2)
    refine ⟨c, (hy 0 (by omega)).1.le.trans h1, h2.trans (hy n le_rfl).2.1.le, ?_⟩
    rw [iteratedDeriv_succ']
    exact h3

theorem iteratedDeriv_poly (P : ℝ[X]) : ∀ n : ℕ, iteratedDeriv n (fun x => P.eval x) = fun x => (derivative^[n] P).eval x
  | 0 => by simp
  | n + 1 => by
    rw [iteratedDeriv_succ, iteratedDeriv_poly P n]
    funext x
    rw [Polynomial.deriv, Function.iterate_succ_apply']

/-- The error of interpolation at `n` points, inside any interval containing the points and `x`. -/
theorem interpolation_error {n : ℕ} (f : ℝ → ℝ) (hf : ContDiff ℝ n f) (p : ℕ → ℝ) (hp : Set.InjOn p (Finset.range n : Set ℕ)) (P : ℝ[X]) (hP : P.degree < n)
    (hPf : ∀ k < n, P.eval (p k) = f (p k)) {a b C x : ℝ} (hpab : ∀ k < n, a ≤ p k ∧ p k ≤ b) (hx : a ≤ x ∧ x ≤ b)
    (hC : ∀ t, a ≤ t → t ≤ b → |iteratedDeriv n f t| ≤ C) :
    |f x - P.eval x| ≤ C / (n.factorial : ℝ) * |∏ k ∈ Finset.range n, (x - p k)| := by
  classical
  have hfac : (0 : ℝ) < n.factorial := by exact_mod_cast n.factorial_pos
  have hC0 : 0 ≤ C := (abs_nonneg _).trans (hC x hx.1 hx.2)
  by_cases hxp : ∃ k < n, x = p k
  · obtain ⟨k, hk, rfl⟩ := hxp
    rw [hPf k hk, sub_self, abs_zero]
    positivity
  · set W : ℝ[X] := Lagrange.nodal (Finset.range n) p with hW
    have hWx : W.eval x = ∏ k ∈ Finset.range n, (x - p k) := Lagrange.eval_nodal
    have hW0 : W.eval x ≠ 0 := by
      rw [hWx, Finset.prod_ne_zero_iff]
      intro k hk e
      exact hxp ⟨k, Finset.mem_range.1 hk, by linarith⟩
    set c : ℝ := (f x - P.eval x) / W.eval x with hc
    set Q : ℝ[X] := P + Polynomial.C c * W with hQ
    let g : ℝ → ℝ := f - fun t => Q.eval t
    have hQd : ContDiff ℝ n fun t => Q.eval t := by simpa using Q.contDiff_aeval (𝕜 := ℝ) n
    have hg : ContDiff ℝ n g := hf.sub hQd
    -- the zeros, in increasing order
    let Z : Finset ℝ := insert x ((Finset.range n).image p)
    have hcard : Z.card = n + 1 := by
      rw [Finset.card_insert_of_notMem, Finset.card_image_of_injOn hp, Finset.card_range]
      intro h
      obtain ⟨k, hk, e⟩ := Finset.mem_image.1 h
      exact hxp ⟨k, Finset.mem_range.1 hk, e.symm⟩
    let e := Z.orderEmbOfFin hcard
    have hZ : ∀ t ∈ Z, g t = 0 ∧ a ≤ t ∧ t ≤ b := by
      intro t ht
      rcases Finset.mem_insert.1 ht with rfl | ht
      · refine ⟨?_, hx⟩
        show f t - Q.eval t = 0
        rw [hQ, eval_add, eval_mul, eval_C, hc, div_mul_cancel₀ _ hW0]
        ring
      · obtain ⟨k, hk, rfl⟩ := Finset.mem_image.1 ht
        refine ⟨?_, hpab k (Finset.mem_range.1 hk)⟩
        show f (p k) - Q.eval (p k) = 0
        rw [hQ, eval_add, eval_mul, hPf k (Finset.mem_range.1 hk), hW, Lagrange.eval_nodal_at_node hk]
        ring
    have hz : ∀ i (hi : i ≤ n), e ⟨i, by omega⟩ ∈ Z := fun i hi => Finset.orderEmbOfFin_mem Z hcard _
    let z : ℕ → ℝ := fun i => if h : i < n + 1 then e ⟨i, h⟩ else 0
    have hzi : ∀ i (h : i < n + 1), z i = e ⟨i, h⟩ := fun i h => by simp only [z, dif_pos h]
    obtain ⟨t, h1, h2, h3⟩ := rolle_iterated n g z hg
      (fun i hi => by
        rw [hzi i (by omega), hzi (i + 1) (by omega)]
        exact e.strictMono (by simp [Fin.lt_def]))
      (fun i hi => by rw [hzi i (by omega)]; exact (hZ _ (hz i hi)).1)
    have hta : a ≤ t := (by rw [hzi 0 (by omega)]; exact (hZ _ (hz 0 (by omega))).2.1 : a ≤ z 0).trans h1
    have htb : t ≤ b := h2.trans (by rw [hzi n (by omega)]; exact (hZ _ (hz n le_rfl)).2.2 : z n ≤ b)
    have hWm : W.Monic := Lagrange.nodal_monic
    have hWd : W.natDegree = n := by rw [hW, Lagrange.natDegree_nodal, Finset.card_range]
    have hder : (derivative^[n] Q).eval t = c * n.factorial := by
      rw [hQ, iterate_map_add, iterate_derivative_C_mul, eval_add, eval_mul, eval_C]
      have hP0 : derivative^[n] P = 0 := by
        by_cases h0 : P = 0
        · rw [h0, iterate_derivative_zero]
        · exact iterate_derivative_eq_zero ((natDegree_lt_iff_degree_lt h0).2 hP)
      have hW1 : derivative^[n] W = Polynomial.C (n.factorial : ℝ) := by
        have h1 : (derivative^[n] W).natDegree = 0 := by
          have := natDegree_iterate_derivative W n
          omega
        rw [eq_C_of_natDegree_eq_zero h1, coeff_iterate_derivative]
        congr 1
        rw [zero_add, show W.coeff n = 1 by rw [← hWd]; exact hWm, Nat.descFactorial_self]
        simp
      rw [hP0, hW1, eval_zero, eval_C]
      ring
    have hzero : iteratedDeriv n f t = c * n.factorial := by
      have : iteratedDeriv n g t = iteratedDeriv n f t - iteratedDeriv n (fun t => Q.eval t) t :=
        iteratedDeriv_sub hf.contDiffAt hQd.contDiffAt
      rw [h3, iteratedDeriv_poly] at this
      dsimp only at this
      rw [hder] at this
      linarith
    have hfx : f x - P.eval x = iteratedDeriv n f t / n.factorial * W.eval x := by
      rw [hzero, hc]
      field_simp
    rw [hfx, abs_mul, abs_div, abs_of_pos hfac, ← hWx]
    gcongr
    exact hC t hta htb

/-- The product of the distances to the Chebyshev-Lobatto points. -/
theorem node_product_le {n : ℕ} (hn : 0 < n) {t : ℝ} (h1 : -1 ≤ t) (h2 : t ≤ 1) : |∏ k ∈ Finset.range n, (t - node n k)| ≤ 4 / 2 ^ n := by
  rcases Nat.lt_or_ge n 2 with h | h
  · have : n = 1 := by omega
    subst this
    rw [Finset.prod_range_one, node, if_pos rfl, sub_zero, abs_le]
    constructor <;> norm_num <;> linarith
  · obtain ⟨m, rfl⟩ := Nat.exists_eq_add_of_le' h
    set W : ℝ[X] := Lagrange.nodal (Finset.range (m + 2)) (node (m + 2)) with hW
    set V : ℝ[X] := Polynomial.C (1 / 2 ^ m : ℝ) * ((X ^ 2 - 1) * Chebyshev.U ℝ m) with hV
    have h2m : (2 : ℝ) ^ m ≠ 0 := by positivity
    have hXm : (X ^ 2 - 1 : ℝ[X]).Monic := by
      have := monic_X_pow_sub_C (1 : ℝ) (n := 2) (by norm_num)
      simpa using this
    have hXd : (X ^ 2 - 1 : ℝ[X]).natDegree = 2 := by
      have := natDegree_X_pow_sub_C (n := 2) (r := (1 : ℝ))
      simpa using this
    have hU0 : Chebyshev.U ℝ m ≠ 0 := by
      intro e
      have := Chebyshev.leadingCoeff_U_natCast ℝ m
      rw [e, leadingCoeff_zero] at this
      exact h2m this.symm
    have hVd : V.natDegree = m + 2 := by
      rw [hV, natDegree_C_mul (by positivity), hXm.natDegree_mul' hU0, hXd, Chebyshev.natDegree_U_natCast]
      omega
    have hVm : V.Monic := by
      unfold Monic
      rw [hV, leadingCoeff_mul, leadingCoeff_C, leadingCoeff_mul, hXm.leadingCoeff, Chebyshev.leadingCoeff_U_natCast]
      field_simp
    have hval : ∀ θ : ℝ, V.eval (Real.cos θ) = -(1 / 2 ^ m * (Real.sin θ * Real.sin ((m + 1) * θ))) := by
      intro θ
      have h := Polynomial.Chebyshev.U_real_cos θ (m : ℤ)
      push_cast at h
      have hs := Real.sin_sq_add_cos_sq θ
      have e : Real.cos θ ^ 2 - 1 = -(Real.sin θ * Real.sin θ) := by nlinarith
      simp only [hV, eval_mul, eval_C, eval_sub, eval_pow, eval_X, eval_one]
      rw [e, ← h]
      ring
    have hroot : ∀ k ∈ Finset.range (m + 2), V.eval (node (m + 2) k) = W.eval (node (m + 2) k) := by
      intro k hk
      rw [hW, Lagrange.eval_nodal_at_node hk]
      have hnode : node (m + 2) k = Real.cos (Real.pi - Real.pi * k / (m + 1)) := by
        rw [node, if_neg (by omega), Real.cos_pi_sub]
        push_cast
        congr 3
        ring
      rw [hnode, hval]
      have hm1 : (m : ℝ) + 1 ≠ 0 := by positivity
      have : ((m : ℝ) + 1) * (Real.pi - Real.pi * k / (m + 1)) = ((m : ℤ) + 1 - k : ℤ) * Real.pi := by
        push_cast
        field_simp
      rw [this, Real.sin_int_mul_pi]
      ring
    have hVW : V = W := by
      have hdeg : (V - W).degree < (Finset.range (m + 2)).card := by
        have hWd : W.degree = V.degree := by
          rw [hW, Lagrange.degree_nodal, Finset.card_range, degree_eq_natDegree hVm.ne_zero, hVd]
        have := degree_sub_lt_left hWd.symm hVm.ne_zero (by rw [hVm.leadingCoeff, hW, Lagrange.nodal_monic.leadingCoeff])
        rw [degree_eq_natDegree hVm.ne_zero, hVd] at this
        rw [Finset.card_range]
        exact this
      exact eq_of_degree_sub_lt_of_eval_index_eq _ (node_injOn (m + 2)) hdeg hroot
    have : ∏ k ∈ Finset.range (m + 2), (t - node (m + 2) k) = V.eval t := by
      rw [hVW, hW, Lagrange.eval_nodal]
    rw [this, ← Real.cos_arccos h1 h2, hval, abs_neg, abs_mul, abs_mul, abs_of_pos (by positivity)]
    have a1 := Real.abs_sin_le_one (Real.arccos t)
    have a2 := Real.abs_sin_le_one ((m + 1) * Real.arccos t)
    calc 1 / 2 ^ m * (|Real.sin (Real.arccos t)| * |Real.sin ((m + 1) * Real.arccos t)|) ≤ 1 / 2 ^ m * (1 * 1) := by gcongr
      _ = 4 / 2 ^ (m + 2) := by rw [pow_add]; norm_num; ring

end HOL
