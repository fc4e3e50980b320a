import Verif.Props.Backward
import Mathlib.Analysis.Convex.Deriv

/-! # Lemmas on convex losses -/

namespace HOL
open TorchScalar Spec

/-- A convex loss lies above its tangent plane. -/
theorem convex_tangent {B O : ℕ} (loss : (Fin B → Fin O → ℝ) → ℝ) (hc : ConvexOn ℝ Set.univ loss) (D : (Fin B → Fin O → ℝ) →L[ℝ] ℝ) (Y Y' : Fin B → Fin O → ℝ)
    (hD : HasFDerivAt loss D Y) {g : Tensor ℝ} (hg : GradOf D g) :
    loss Y + ∑ b : Fin B, ∑ o : Fin O, (Y' b o - Y b o) * g.get [(b : ℕ), (o : ℕ)] ≤ loss Y' := by
  have hd := loss_affine loss D Y (Y' - Y) 0 hD (fun t => Y + t • (Y' - Y)) (fun t b o => by simp) hg
  have hconv : ConvexOn ℝ Set.univ fun t : ℝ => loss (Y + t • (Y' - Y)) := by
    have := hc.comp_affineMap (AffineMap.lineMap Y Y' : ℝ →ᵃ[ℝ] (Fin B → Fin O → ℝ))
    rw [Set.preimage_univ] at this
    have e : (loss ∘ (AffineMap.lineMap Y Y' : ℝ →ᵃ[ℝ] (Fin B → Fin O → ℝ))) = fun t : ℝ => loss (Y + t • (Y' - Y)) := by
      funext t
      show loss (AffineMap.lineMap Y Y' t) = _
      rw [AffineMap.lineMap_apply, vsub_eq_sub, vadd_eq_add, add_comm]
    rw [e] at this
    exact this
  have := hconv.le_slope_of_hasDerivAt (Set.mem_univ 0) (Set.mem_univ 1) one_pos hd
  rw [slope_def_field] at this
  simp only [one_smul, zero_smul, add_zero, add_sub_cancel, sub_zero, div_one] at this
  have e : ∑ b : Fin B, ∑ o : Fin O, (Y' b o - Y b o) * g.get [(b : ℕ), (o : ℕ)] = ∑ b : Fin B, ∑ o : Fin O, (Y' - Y) b o * g.get [(b : ℕ), (o : ℕ)] := rfl
  rw [e]
  linarith

/-- Sum over the entries of `(p' - p) * g`. -/
noncomputable def stepDot (p' p g : Tensor ℝ) : ℝ :=
  ∑ k ∈ Finset.range (numel p.shape), (p'.get (unravel p.shape k) - p.get (unravel p.shape k)) * g.get (unravel p.shape k)

theorem stepDot3 {p' p g : Tensor ℝ} {a b c : ℕ} (hp : p.shape = [a, b, c]) :
    stepDot p' p g = ∑ o ∈ Finset.range a, ∑ i ∈ Finset.range b, ∑ q ∈ Finset.range c, (p'.get [o, i, q] - p.get [o, i, q]) * g.get [o, i, q] := by
  unfold stepDot
  rw [hp, show numel [a, b, c] = a * (b * c) by simp [numel], sum_range_mul_add]
  refine Finset.sum_congr rfl fun o ho => ?_
  rw [sum_range_mul_add]
  refine Finset.sum_congr rfl fun i hi => Finset.sum_congr rfl fun q hq => ?_
  have e : o * (b * c) + (i * c + q) = ravel [a, b, c] [o, i, q] := by simp [ravel, numel]
  rw [e, unravel_ravel (inShape3.2 ⟨Finset.mem_range.1 ho, Finset.mem_range.1 hi, Finset.mem_range.1 hq⟩)]

theorem stepDot2 {p' p g : Tensor ℝ} {a b : ℕ} (hp : p.shape = [a, b]) :
    stepDot p' p g = ∑ o ∈ Finset.range a, ∑ i ∈ Finset.range b, (p'.get [o, i] - p.get [o, i]) * g.get [o, i] := by
  unfold stepDot
  rw [hp, show numel [a, b] = a * b by simp [numel], sum_range_mul_add]
  refine Finset.sum_congr rfl fun o ho => Finset.sum_congr rfl fun i hi => ?_
  have e : o * b + i = ravel [a, b] [o, i] := by simp [ravel, numel]
  rw [e, unravel_ravel (inShape2.2 ⟨Finset.mem_range.1 ho, Finset.mem_range.1 hi⟩)]

theorem stepDot1 {p' p g : Tensor ℝ} {a : ℕ} (hp : p.shape = [a]) :
    stepDot p' p g = ∑ o ∈ Finset.range a, (p'.get [o] - p.get [o]) * g.get [o] := by
  unfold stepDot
  rw [hp, show numel [a] = a by simp [numel]]
  refine Finset.sum_congr rfl fun o ho => ?_
  have e : o = ravel [a] [o] := by simp [ravel, numel]
  conv_lhs => rw [e, unravel_ravel (inShape1.2 (Finset.mem_range.1 ho))]

/-- The change of the outputs in the direction of the gradient, for outputs linear in coefficients. -/
theorem linear_step {ι : Type} (J : Finset ι) {B O : ℕ} (d : ℕ → ι → ℝ) (c : ℕ → ι → ℝ) (g : Tensor ℝ) :
    ∑ b : Fin B, ∑ o : Fin O, (∑ j ∈ J, d o j * c b j) * g.get [(b : ℕ), (o : ℕ)] = ∑ o ∈ Finset.range O, ∑ j ∈ J, d o j * ∑ b ∈ Finset.range B, g.get [b, o] * c b j := by
  rw [Finset.sum_comm, ← Fin.sum_univ_eq_sum_range (fun o => ∑ j ∈ J, d o j * ∑ b ∈ Finset.range B, g.get [b, o] * c b j)]
  refine Finset.sum_congr rfl fun o _ => ?_
  have e : ∀ j, ∑ b ∈ Finset.range B, g.get [b, (o : ℕ)] * c b j = ∑ b : Fin B, g.get [(b : ℕ), (o : ℕ)] * c b j :=
    fun j => (Fin.sum_univ_eq_sum_range (fun b => g.get [b, (o : ℕ)] * c b j) B).symm
  simp only [e]
  simp only [Finset.mul_sum, Finset.sum_mul]
  rw [Finset.sum_comm]
  refine Finset.sum_congr rfl fun j _ => Finset.sum_congr rfl fun b _ => ?_
  ring

/-- Outputs of sum layers as linear functions of the weights. -/
theorem PwLayer.matFn_linear (L : PwLayer ℝ) (h : L.WF) (hc : L.cls = .continuous ∨ L.cls = .discontinuous) {B : ℕ} (X : Fin B → Fin L.inFeatures → ℝ) (b : Fin B) (o : Fin L.outFeatures) :
    L.matFn X b o = ∑ j ∈ Finset.range L.inFeatures ×ˢ Finset.range (PwLayer.wSize L.cls L.n L.segments), L.w.get [(o : ℕ), j.1, j.2]
      * ∑ k ∈ Finset.range L.n, if L.seg ((ofMat X).get [(b : ℕ), j.1]) * L.stride + k = j.2 then (getLagrangeBasis L.n ((2 : ℕ) : ℝ)).call (L.xIn ((ofMat X).get [(b : ℕ), j.1])) k else 0 := by
  unfold PwLayer.matFn
  have e : L.cls.combine L.inFeatures (fun j => L.linkFn o j ((ofMat X).get [(b : ℕ), j])) = ∑ i ∈ Finset.range L.inFeatures, L.linkFn o i ((ofMat X).get [(b : ℕ), i]) := by
    rcases hc with hc | hc <;> rw [hc] <;> rfl
  rw [e, Finset.sum_product]
  refine Finset.sum_congr rfl fun i hi => ?_
  dsimp only
  unfold PwLayer.linkFn
  rw [← sum_basis_call_two]
  simp only [Finset.mul_sum]
  rw [Finset.sum_comm]
  refine Finset.sum_congr rfl fun k hk => ?_
  rw [Finset.sum_eq_single (L.seg ((ofMat X).get [(b : ℕ), i]) * L.stride + k)]
  · rw [if_pos rfl, mul_comm]
  · intro q _ hne
    rw [if_neg hne.symm, mul_zero]
  · intro hne
    exact absurd (Finset.mem_range.2 (L.widx_lt h.n_pos (L.seg_lt h.seg_pos _) (Finset.mem_range.1 hk))) hne

theorem _root_.HOL.Tensor.set_get {t : Tensor ℝ} (hwf : t.WF) {idx : List ℕ} (h : InShape t.shape idx) : t.set idx (t.get idx) = t := by
  refine Tensor.ext_get (Tensor.wf_set hwf _ _) hwf rfl fun idx' h' => ?_
  by_cases e : idx = idx'
  · subst e
    exact Tensor.get_set_self hwf h
  · exact Tensor.get_set_ne h h' e

theorem ofMat_inj {B O : ℕ} {Y Z : Fin B → Fin O → ℝ} (h : ofMat Y = ofMat Z) : Y = Z := by
  funext b o
  have := congrArg (fun t : Tensor ℝ => t.get [(b : ℕ), (o : ℕ)]) h
  simpa only [ofMat_get] using this

/-- Sum of squared errors. -/
noncomputable def sqLoss {B O : ℕ} (T Y : Fin B → Fin O → ℝ) : ℝ := ∑ b : Fin B, ∑ o : Fin O, (Y b o - T b o) ^ 2

/-- Its gradient. -/
noncomputable def sqGrad {B O : ℕ} (T Y : Fin B → Fin O → ℝ) : Tensor ℝ := ofMat fun b o => 2 * (Y b o - T b o)

theorem sqLoss_convex {B O : ℕ} (T : Fin B → Fin O → ℝ) : ConvexOn ℝ Set.univ (sqLoss T) := by
  refine ⟨convex_univ, fun Y _ Z _ a c ha hc hac => ?_⟩
  unfold sqLoss
  rw [smul_eq_mul, smul_eq_mul, Finset.mul_sum, Finset.mul_sum, ← Finset.sum_add_distrib]
  refine Finset.sum_le_sum fun b _ => ?_
  rw [Finset.mul_sum, Finset.mul_sum, ← Finset.sum_add_distrib]
  refine Finset.sum_le_sum fun o _ => ?_
  show (a * Y b o + c * Z b o - T b o) ^ 2 ≤ _
  obtain rfl : a = 1 - c := by linarith
  nlinarith [mul_nonneg (mul_nonneg ha hc) (sq_nonneg (Y b o - Z b o))]

theorem sqLoss_deriv {B O : ℕ} (T Y : Fin B → Fin O → ℝ) : ∃ D : (Fin B → Fin O → ℝ) →L[ℝ] ℝ, HasFDerivAt (sqLoss T) D Y ∧ GradOf D (sqGrad T Y) := by
  refine ⟨∑ b : Fin B, rowMap b (fun o => 2 * (Y b o - T b o)), ?_, rfl, fun b o => ?_⟩
  · unfold sqLoss
    refine HasFDerivAt.fun_sum fun b _ => ?_
    have h := sum_deriv Y b (fun o v => (v - T b o) ^ 2) (fun o => 2 * (Y b o - T b o)) 0 fun o => by
      have := ((hasDerivAt_id (Y b o)).sub_const (T b o)).fun_pow 2
      simpa using this
    simpa using h
  · unfold sqGrad
    rw [ofMat_get, _root_.sum_apply, Finset.sum_eq_single b]
    · unfold rowMap
      rw [_root_.sum_apply, Finset.sum_eq_single o]
      · simp
      · intro o' _ hne
        simp [hne]
      · simp
    · intro b' _ hne
      unfold rowMap
      rw [_root_.sum_apply]
      refine Finset.sum_eq_zero fun o' _ => ?_
      simp [hne]
    · simp

end HOL
