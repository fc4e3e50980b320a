import Mathlib.Probability.Distributions.Gaussian.Real
import Mathlib.InformationTheory.KullbackLeibler.Basic

/-! # Divergence of a Gaussian from the standard Gaussian -/

namespace HOL
open MeasureTheory ProbabilityTheory InformationTheory
open scoped NNReal ENNReal

theorem log_pdf_ratio (m : ℝ) {v : ℝ≥0} (hv : v ≠ 0) (x : ℝ) :
    Real.log (gaussianPDFReal m v x / gaussianPDFReal 0 1 x) = -(1 / 2) * Real.log v - (x - m) ^ 2 / (2 * v) + x ^ 2 / 2 := by
  have hv' : (0 : ℝ) < v := by exact_mod_cast pos_iff_ne_zero.2 hv
  have h2 : (0 : ℝ) < 2 * Real.pi := by positivity
  rw [Real.log_div (gaussianPDFReal_pos m v x hv).ne' (gaussianPDFReal_pos 0 1 x one_ne_zero).ne', gaussianPDFReal_def, gaussianPDFReal_def]
  dsimp only
  rw [Real.log_mul (by positivity) (Real.exp_pos _).ne', Real.log_mul (by positivity) (Real.exp_pos _).ne', Real.log_exp, Real.log_exp,
    Real.log_inv, Real.log_inv, Real.log_sqrt (by positivity), Real.log_sqrt (by positivity), Real.log_mul (by positivity) hv'.ne']
  simp only [NNReal.coe_one, mul_one, sub_zero]
  ring

theorem llr_gaussian (m : ℝ) {v : ℝ≥0} (hv : v ≠ 0) :
    llr (gaussianReal m v) (gaussianReal 0 1) =ᵐ[gaussianReal m v]
      fun x => -(1 / 2) * Real.log v - (x - m) ^ 2 / (2 * v) + x ^ 2 / 2 := by
  have hac : gaussianReal m v ≪ gaussianReal 0 1 :=
    (gaussianReal_absolutelyContinuous m hv).trans (gaussianReal_absolutelyContinuous' 0 one_ne_zero)
  have h1 : (gaussianReal m v).rnDeriv (gaussianReal 0 1) * (gaussianReal 0 1).rnDeriv volume =ᵐ[volume] (gaussianReal m v).rnDeriv volume :=
    Measure.rnDeriv_mul_rnDeriv hac
  have h2 := rnDeriv_gaussianReal m v
  have h3 := rnDeriv_gaussianReal 0 1
  apply (gaussianReal_absolutelyContinuous m hv).ae_le
  filter_upwards [h1, h2, h3] with x e1 e2 e3
  rw [Pi.mul_apply, e2, e3] at e1
  have e4 : (gaussianReal m v).rnDeriv (gaussianReal 0 1) x = gaussianPDF m v x / gaussianPDF 0 1 x := by
    rw [← e1, ENNReal.mul_div_cancel_right (gaussianPDF_pos 0 one_ne_zero x).ne' gaussianPDF_ne_top]
  rw [llr, e4, ENNReal.toReal_div, toReal_gaussianPDF, toReal_gaussianPDF]
  exact log_pdf_ratio m hv x

/-- Closed form of the divergence. -/
theorem klDiv_gaussian (m : ℝ) {v : ℝ≥0} (hv : v ≠ 0) :
    (klDiv (gaussianReal m v) (gaussianReal 0 1)).toReal = -(1 / 2) * (1 + Real.log v - m ^ 2 - v) := by
  have hac : gaussianReal m v ≪ gaussianReal 0 1 :=
    (gaussianReal_absolutelyContinuous m hv).trans (gaussianReal_absolutelyContinuous' 0 one_ne_zero)
  have hv' : (v : ℝ) ≠ 0 := by exact_mod_cast hv
  rw [toReal_klDiv_of_measure_eq hac (by simp), integral_congr_ae (llr_gaussian m hv)]
  have hid : MemLp id 2 (gaussianReal m v) := memLp_id_gaussianReal' 2 (by simp)
  have hsq : Integrable (fun x => x ^ 2) (gaussianReal m v) := hid.integrable_sq
  have hint : Integrable (fun x => x) (gaussianReal m v) := hid.integrable (by simp)
  have i1 : Integrable (fun x => (x - m) ^ 2) (gaussianReal m v) := by
    have : (fun x : ℝ => (x - m) ^ 2) = fun x => x ^ 2 - 2 * m * x + m ^ 2 := by funext x; ring
    rw [this]
    exact (hsq.sub (hint.const_mul _)).add (integrable_const _)
  have hvar : ∫ x, (x - m) ^ 2 ∂gaussianReal m v = v := by
    have h := variance_fun_id_gaussianReal (μ := m) (v := v)
    rw [variance_eq_integral (by fun_prop), integral_id_gaussianReal] at h
    exact h
  have hsecond : ∫ x, x ^ 2 ∂gaussianReal m v = v + m ^ 2 := by
    have : (fun x : ℝ => x ^ 2) = fun x => (x - m) ^ 2 + (2 * m * x - m ^ 2) := by funext x; ring
    have i2 : Integrable (fun x => 2 * m * x) (gaussianReal m v) := hint.const_mul _
    have i3 : Integrable (fun x => 2 * m * x - m ^ 2) (gaussianReal m v) := i2.sub (integrable_const _)
    rw [this, integral_add i1 i3, hvar, integral_sub i2 (integrable_const _), integral_const_mul, integral_id_gaussianReal]
    simp
    ring
  have i4 : Integrable (fun x => (x - m) ^ 2 / (2 * (v : ℝ))) (gaussianReal m v) := i1.div_const _
  have i5 : Integrable (fun x => -(1 / 2) * Real.log v - (x - m) ^ 2 / (2 * (v : ℝ))) (gaussianReal m v) := (integrable_const _).sub i4
  have i6 : Integrable (fun x => x ^ 2 / (2 : ℝ)) (gaussianReal m v) := hsq.div_const _
  rw [integral_add i5 i6, integral_sub (integrable_const _) i4,
    integral_div, integral_div, hvar, hsecond]
  simp
  field_simp
  ring

end HOL
