import Verif.Lemmas.Fibers
import Verif.Model.Modules

/-! # Derivatives of the normalizations of one line of entries -/

namespace HOL
open TorchScalar Filter Topology

theorem sign_eq {x : ℝ} (h : x ≠ 0) : ((SignType.sign x : SignType) : ℝ) = Real.sign x := by
  rcases lt_or_gt_of_ne h with h | h
  · rw [sign_neg h, Real.sign_of_neg h]; rfl
  · rw [sign_pos h, Real.sign_of_pos h]; rfl

theorem sum_ite_left {n : ℕ} (a : Fin n) (k : ℝ) (c : Fin n → ℝ) : ∑ j, (if a = j then k else 0) * c j = k * c a := by
  rw [Finset.sum_eq_single a]
  · rw [if_pos rfl]
  · intro j _ h
    rw [if_neg h.symm, zero_mul]
  · simp

theorem sum_ite_place {n : ℕ} (a : Fin n) (k : Fin n → ℝ) (c : Fin n → ℝ) : ∑ j : Fin n, (if (j : ℕ) = (a : ℕ) then k j else 0) * c j = k a * c a := by
  rw [Finset.sum_eq_single a]
  · rw [if_pos rfl]
  · intro j _ h
    rw [if_neg (fun e => h (Fin.ext e)), zero_mul]
  · simp

/-! ## `max_abs_normalization` -/

noncomputable def maxAbsLine {n : ℕ} (eps : ℝ) (v : Fin n → ℝ) (i : Fin n) : ℝ := v i / (maxL (List.ofFn fun q => |v q|) + eps)

/-- Derivative of entry `i` by entry `j`; `k` is the index of the maximum. -/
noncomputable def maxAbsJ {n : ℕ} (eps : ℝ) (k : ℕ) (v : Fin n → ℝ) (i j : Fin n) : ℝ :=
  (if i = j then 1 / (maxL (List.ofFn fun q => |v q|) + eps) else 0)
    + if (j : ℕ) = k then -(v i) / ((maxL (List.ofFn fun q => |v q|) + eps) * (maxL (List.ofFn fun q => |v q|) + eps)) * Real.sign (v j) else 0

theorem maxAbs_deriv {n : ℕ} {eps : ℝ} (heps : 0 < eps) (v : Fin n → ℝ) {k : Fin n} (hk : ∀ q, |v q| ≤ |v k|)
    (hs : (∀ q, v q = 0) ∨ ∃ a, v a ≠ 0 ∧ ∀ q, q ≠ a → |v q| < |v a|) (i : Fin n) :
    HasFDerivAt (fun w => maxAbsLine eps w i) (∑ j, maxAbsJ eps k v i j • prj j) v := by
  have hmax : maxL (List.ofFn fun q => |v q|) = |v k| := maxL_ofFn hk
  rcases hs with hz | ⟨a, ha, hu⟩
  · -- all entries zero
    have hv : v = 0 := funext hz
    have h0 : maxL (List.ofFn fun q => |v q|) = 0 := by rw [hmax, hz k, abs_zero]
    have hc : ContinuousAt (fun w : Fin n → ℝ => (maxL (List.ofFn fun q => |w q|) + eps)⁻¹) v := by
      have ht : Tendsto (fun w : Fin n → ℝ => maxL (List.ofFn fun q => |w q|)) (𝓝 v) (𝓝 0) := by
        have hb : ∀ w : Fin n → ℝ, 0 ≤ maxL (List.ofFn fun q => |w q|) ∧ maxL (List.ofFn fun q => |w q|) ≤ ‖w‖ := by
          intro w
          obtain ⟨a, ha⟩ := exists_max k.pos fun q => |w q|
          rw [maxL_ofFn ha]
          exact ⟨abs_nonneg _, norm_le_pi_norm w a⟩
        have hn : Tendsto (fun w : Fin n → ℝ => ‖w‖) (𝓝 v) (𝓝 0) := by
          have := (continuous_norm (E := Fin n → ℝ)).tendsto v
          rw [hv, norm_zero] at this
          rw [hv]
          exact this
        exact tendsto_of_tendsto_of_tendsto_of_le_of_le tendsto_const_nhds hn (fun w => (hb w).1) fun w => (hb w).2
      show Tendsto _ _ (𝓝 (maxL (List.ofFn fun q => |v q|) + eps)⁻¹)
      rw [h0]
      exact (ht.add_const eps).inv₀ (by rw [zero_add]; exact heps.ne')
    have h1 := mul_deriv_zero (prj i) (v := v) (hz i) hc
    refine (h1.congr_fderiv (clm_ext fun c => ?_)).congr_of_eventuallyEq (Eventually.of_forall fun w => ?_)
    · rw [sum_prj]
      show (maxL (List.ofFn fun q => |v q|) + eps)⁻¹ * c i = _
      unfold maxAbsJ
      simp only [hz, Real.sign_zero, mul_zero, ite_self, add_zero]
      rw [sum_ite_left, one_div]
    · show w i / _ = w i * _
      rw [div_eq_mul_inv]
  · have hka : k = a := by
      by_contra h
      exact absurd (hk a) (not_le.2 (hu k h))
    subst hka
    set D := |v k| + eps with hD
    have hD0 : 0 < D := by have := abs_nonneg (v k); linarith
    have habs : HasFDerivAt (fun w : Fin n → ℝ => |w k|) (Real.sign (v k) • prj k) v := by
      have := (hasDerivAt_abs ha).comp_hasFDerivAt v (prj_deriv k v)
      rw [sign_eq ha] at this
      exact this
    have hinv : HasDerivAt (fun t : ℝ => (t + eps)⁻¹) (-1 / D ^ 2) |v k| := by
      have h1 : HasDerivAt (fun t : ℝ => t + eps) 1 |v k| := (hasDerivAt_id _).add_const eps
      exact h1.inv hD0.ne'
    have h2 := (prj_deriv i v).mul (hinv.comp_hasFDerivAt v habs)
    refine (h2.congr_fderiv (clm_ext fun c => ?_)).congr_of_eventuallyEq ?_
    · rw [sum_prj]
      show v i * (-1 / D ^ 2 * (Real.sign (v k) * c k)) + (|v k| + eps)⁻¹ * c i = _
      unfold maxAbsJ
      simp only [hmax, ← hD, add_mul, Finset.sum_add_distrib]
      rw [sum_ite_left, sum_ite_place k fun j => -(v i) / (D * D) * Real.sign (v j)]
      field_simp
      ring
    · filter_upwards [eventually_max (u := fun (w : Fin n → ℝ) q => |w q|) (fun q => (continuous_apply q).abs.continuousAt) hu] with w hw
      show w i / (maxL (List.ofFn fun q => |w q|) + eps) = w i * _
      rw [hw, div_eq_mul_inv]
      rfl

/-! ## `max_center_normalization` -/

/-- Centre and half the range. -/
noncomputable def midOf {n : ℕ} (v : Fin n → ℝ) : ℝ := 1 / ((2 : ℕ) : ℝ) * (maxL (List.ofFn v) + minL (List.ofFn v))

noncomputable def maxCenterLine {n : ℕ} (eps : ℝ) (v : Fin n → ℝ) (i : Fin n) : ℝ := (v i - midOf v) / (maxL (List.ofFn v) - midOf v + eps)

noncomputable def maxCenterJ {n : ℕ} (eps : ℝ) (k l : ℕ) (v : Fin n → ℝ) (i j : Fin n) : ℝ :=
  let D := maxL (List.ofFn v) - midOf v + eps
  let mag := -(v i - midOf v) / (D * D)
  (if i = j then 1 / D else 0) + (if (j : ℕ) = k then mag + 1 / 2 * (-(1 / D) - mag) else 0) + if (j : ℕ) = l then 1 / 2 * (-(1 / D) - mag) else 0

theorem maxCenter_deriv {n : ℕ} {eps : ℝ} (heps : 0 < eps) (v : Fin n → ℝ) {k l : Fin n} (hk : ∀ q, q ≠ k → v q < v k) (hl : ∀ q, q ≠ l → v l < v q) (i : Fin n) :
    HasFDerivAt (fun w => maxCenterLine eps w i) (∑ j, maxCenterJ eps k l v i j • prj j) v := by
  have hkl : v l ≤ v k := by
    by_cases h : l = k
    · rw [h]
    · exact (hk l h).le
  have hmax : maxL (List.ofFn v) = v k := maxL_ofFn fun q => by
    by_cases h : q = k
    · rw [h]
    · exact (hk q h).le
  have hmin : minL (List.ofFn v) = v l := minL_ofFn fun q => by
    by_cases h : q = l
    · rw [h]
    · exact (hl q h).le
  have hmid : midOf v = 1 / 2 * (v k + v l) := by unfold midOf; rw [hmax, hmin]; norm_num
  set D := v k - 1 / 2 * (v k + v l) + eps with hD
  have hD0 : 0 < D := by rw [hD]; linarith
  have hm : HasFDerivAt (fun w : Fin n → ℝ => 1 / 2 * (w k + w l)) ((1 / 2 : ℝ) • (prj k + prj l)) v := ((prj_deriv k v).add (prj_deriv l v)).const_mul (1 / 2 : ℝ)
  have hden : HasFDerivAt (fun w : Fin n → ℝ => w k - 1 / 2 * (w k + w l) + eps) (prj k - (1 / 2 : ℝ) • (prj k + prj l)) v := ((prj_deriv k v).sub hm).add_const eps
  have hinv : HasDerivAt (fun t : ℝ => t⁻¹) (-(D ^ 2)⁻¹) D := hasDerivAt_inv hD0.ne'
  have h2 := ((prj_deriv i v).sub hm).mul (hinv.comp_hasFDerivAt v hden)
  refine (h2.congr_fderiv (clm_ext fun c => ?_)).congr_of_eventuallyEq ?_
  · rw [sum_prj]
    show (v i - 1 / 2 * (v k + v l)) * (-(D ^ 2)⁻¹ * (c k - 1 / 2 * (c k + c l))) + D⁻¹ * (c i - 1 / 2 * (c k + c l)) = _
    unfold maxCenterJ
    simp only [hmax, hmid, add_mul, Finset.sum_add_distrib, ← hD]
    rw [sum_ite_left, sum_ite_place k fun _ => _, sum_ite_place l fun _ => _]
    field_simp
    ring
  · filter_upwards [eventually_max (u := fun (w : Fin n → ℝ) q => w q) (fun q => (continuous_apply q).continuousAt) hk,
      eventually_min (u := fun (w : Fin n → ℝ) q => w q) (fun q => (continuous_apply q).continuousAt) hl] with w h1 h2
    have hmidw : midOf w = 1 / 2 * (w k + w l) := by
      unfold midOf
      rw [show maxL (List.ofFn w) = w k from h1, show minL (List.ofFn w) = w l from h2]
      norm_num
    show (w i - midOf w) / (maxL (List.ofFn w) - midOf w + eps) = _
    rw [hmidw, show maxL (List.ofFn w) = w k from h1, div_eq_mul_inv]
    rfl

/-! ## `l2_normalization` -/

noncomputable def normOf {n : ℕ} (v : Fin n → ℝ) : ℝ := Real.sqrt (∑ q, v q * v q)

noncomputable def l2Line {n : ℕ} (eps : ℝ) (v : Fin n → ℝ) (i : Fin n) : ℝ := v i / (normOf v + eps)

noncomputable def l2J {n : ℕ} (eps : ℝ) (v : Fin n → ℝ) (i j : Fin n) : ℝ :=
  (if i = j then 1 / (normOf v + eps) else 0) + if normOf v = 0 then 0 else v j * (-(v i) / ((normOf v + eps) * (normOf v + eps)) / normOf v)

theorem normOf_continuous {n : ℕ} : Continuous (normOf (n := n)) := by
  unfold normOf
  exact (continuous_finsetSum _ fun q _ => (continuous_apply q).mul (continuous_apply q)).sqrt

theorem l2_deriv {n : ℕ} {eps : ℝ} (heps : 0 < eps) (v : Fin n → ℝ) (i : Fin n) : HasFDerivAt (fun w => l2Line eps w i) (∑ j, l2J eps v i j • prj j) v := by
  have hr0 : 0 ≤ normOf v := Real.sqrt_nonneg _
  by_cases hr : normOf v = 0
  · have hsum : ∑ q, v q * v q = 0 := (Real.sqrt_eq_zero (Finset.sum_nonneg fun q _ => mul_self_nonneg _)).1 hr
    have hz : ∀ q, v q = 0 := fun q => by
      have := (Finset.sum_eq_zero_iff_of_nonneg fun q _ => mul_self_nonneg (v q)).1 hsum q (Finset.mem_univ q)
      exact mul_self_eq_zero.1 this
    have hc : ContinuousAt (fun w : Fin n → ℝ => (normOf w + eps)⁻¹) v :=
      (normOf_continuous.continuousAt.add continuousAt_const).inv₀ (by show normOf v + eps ≠ 0; rw [hr, zero_add]; exact heps.ne')
    have h1 := mul_deriv_zero (prj i) (v := v) (hz i) hc
    refine (h1.congr_fderiv (clm_ext fun c => ?_)).congr_of_eventuallyEq (Eventually.of_forall fun w => ?_)
    · rw [sum_prj]
      show (normOf v + eps)⁻¹ * c i = _
      unfold l2J
      simp only [if_pos hr, add_zero]
      rw [sum_ite_left, one_div]
    · show w i / _ = w i * _
      rw [div_eq_mul_inv]
  · set r := normOf v with hrd
    have hrp : 0 < r := lt_of_le_of_ne hr0 (Ne.symm hr)
    have hsum : ∑ q, v q * v q ≠ 0 := fun h0 => hr (by rw [hrd]; unfold normOf; rw [h0, Real.sqrt_zero])
    have hq : HasFDerivAt (fun w : Fin n → ℝ => ∑ q, w q * w q) (∑ q, (v q • prj q + v q • prj q)) v :=
      HasFDerivAt.fun_sum fun q _ => (prj_deriv q v).mul (prj_deriv q v)
    have hn : HasFDerivAt (normOf (n := n)) ((1 / (2 * r)) • ∑ q, (v q • prj q + v q • prj q)) v := hq.sqrt hsum
    have hinv : HasDerivAt (fun t : ℝ => (t + eps)⁻¹) (-1 / (r + eps) ^ 2) (normOf v) := by
      have h1 : HasDerivAt (fun t : ℝ => t + eps) 1 (normOf v) := (hasDerivAt_id _).add_const eps
      exact h1.inv (by rw [← hrd]; positivity)
    have h2 := (prj_deriv i v).mul (hinv.comp_hasFDerivAt v hn)
    refine (h2.congr_fderiv (clm_ext fun c => ?_)).congr_of_eventuallyEq (Eventually.of_forall fun w => ?_)
    · rw [sum_prj]
      have e1 : (∑ q, (v q • prj q + v q • prj q)) c = 2 * ∑ q, v q * c q := by
        rw [_root_.sum_apply, Finset.mul_sum]
        refine Finset.sum_congr rfl fun q _ => ?_
        show v q * c q + v q * c q = _
        ring
      show v i * (-1 / (r + eps) ^ 2 * (1 / (2 * r) * (∑ q, (v q • prj q + v q • prj q)) c)) + (normOf v + eps)⁻¹ * c i = _
      rw [e1]
      unfold l2J
      have hE0 : 0 < r + eps := by positivity
      simp only [← hrd, if_neg hr]
      generalize r + eps = E at hE0
      simp only [add_mul, Finset.sum_add_distrib]
      rw [sum_ite_left]
      have e2 : ∑ j, v j * (-(v i) / (E * E) / r) * c j = (-(v i) / (E * E) / r) * ∑ j, v j * c j := by
        rw [Finset.mul_sum]
        refine Finset.sum_congr rfl fun j _ => ?_
        ring
      rw [e2]
      field_simp
      ring
    · show w i / _ = w i * _
      rw [div_eq_mul_inv]
      rfl

/-! ## layer normalization -/

noncomputable def avgOf {n : ℕ} (v : Fin n → ℝ) : ℝ := (∑ q, v q) / n
noncomputable def varOf {n : ℕ} (v : Fin n → ℝ) : ℝ := (∑ q, (v q - avgOf v) ^ 2) / n
noncomputable def hatLine {n : ℕ} (eps : ℝ) (v : Fin n → ℝ) (i : Fin n) : ℝ := (v i - avgOf v) / Real.sqrt (varOf v + eps)

noncomputable def hatJ {n : ℕ} (eps : ℝ) (v : Fin n → ℝ) (i j : Fin n) : ℝ :=
  ((if i = j then 1 else 0) - 1 / n - hatLine eps v i * hatLine eps v j / n) / Real.sqrt (varOf v + eps)

theorem meanL_ofFn {n : ℕ} (v : Fin n → ℝ) : meanL (List.ofFn v) = avgOf v := by
  unfold meanL avgOf
  rw [sumL_ofFn, List.length_ofFn]

theorem varL_ofFn {n : ℕ} (v : Fin n → ℝ) : varL (List.ofFn v) = varOf v := by
  unfold varL varOf
  rw [meanL_ofFn, List.map_ofFn, meanL_ofFn]
  unfold avgOf
  refine congrArg (· / (n : ℝ)) (Finset.sum_congr rfl fun q _ => ?_)
  show (v q - _) * (v q - _) = _
  rw [pow_two]

theorem hat_deriv {n : ℕ} (hn : 0 < n) {eps : ℝ} (heps : 0 < eps) (v : Fin n → ℝ) (i : Fin n) : HasFDerivAt (fun w => hatLine eps w i) (∑ j, hatJ eps v i j • prj j) v := by
  have hn0 : (n : ℝ) ≠ 0 := by positivity
  let M : (Fin n → ℝ) →L[ℝ] ℝ := (n : ℝ)⁻¹ • ∑ q, prj q
  have hM : HasFDerivAt (avgOf (n := n)) M v := by
    have h1 : HasFDerivAt (fun w : Fin n → ℝ => ∑ q, w q) (∑ q, prj q) v := HasFDerivAt.fun_sum fun q _ => prj_deriv q v
    refine (h1.const_mul (n : ℝ)⁻¹).congr_of_eventuallyEq (Eventually.of_forall fun w => ?_)
    show (∑ q, w q) / n = (n : ℝ)⁻¹ * _
    rw [div_eq_inv_mul]
  let V : (Fin n → ℝ) →L[ℝ] ℝ := (n : ℝ)⁻¹ • ∑ q, (2 * (v q - avgOf v)) • (prj q - M)
  have hV : HasFDerivAt (varOf (n := n)) V v := by
    have h1 : HasFDerivAt (fun w : Fin n → ℝ => ∑ q, (w q - avgOf w) ^ 2) (∑ q, (2 * (v q - avgOf v)) • (prj q - M)) v := by
      refine HasFDerivAt.fun_sum fun q _ => ?_
      have h2 := ((prj_deriv q v).sub hM).pow 2
      refine h2.congr_fderiv ?_
      simp
    refine (h1.const_mul (n : ℝ)⁻¹).congr_of_eventuallyEq (Eventually.of_forall fun w => ?_)
    show (∑ q, (w q - avgOf w) ^ 2) / n = (n : ℝ)⁻¹ * _
    rw [div_eq_inv_mul]
  have hv0 : 0 ≤ varOf v := div_nonneg (Finset.sum_nonneg fun q _ => sq_nonneg _) (Nat.cast_nonneg n)
  set s := Real.sqrt (varOf v + eps) with hs
  have hs0 : 0 < s := Real.sqrt_pos.2 (by linarith)
  have hinv : HasDerivAt (fun t : ℝ => (Real.sqrt (t + eps))⁻¹) (-(1 / (2 * s)) / s ^ 2) (varOf v) := by
    have h1 : HasDerivAt (fun t : ℝ => t + eps) 1 (varOf v) := (hasDerivAt_id _).add_const eps
    have h2 := h1.sqrt (by linarith)
    exact h2.inv hs0.ne'
  have hA := ((prj_deriv i v).sub hM).mul (hinv.comp_hasFDerivAt v hV)
  refine (hA.congr_fderiv (clm_ext fun c => ?_)).congr_of_eventuallyEq (Eventually.of_forall fun w => ?_)
  · rw [sum_prj]
    have e1 : M c = avgOf c := by
      show (n : ℝ)⁻¹ * (∑ q, prj q) c = _
      rw [_root_.sum_apply]
      unfold avgOf
      rw [div_eq_inv_mul]
      rfl
    have e0 : ∑ q, (v q - avgOf v) = 0 := by
      rw [Finset.sum_sub_distrib, Finset.sum_const, Finset.card_univ, Fintype.card_fin, nsmul_eq_mul]
      unfold avgOf
      field_simp
      ring
    have e2 : V c = 2 / n * ∑ q, (v q - avgOf v) * c q := by
      show (n : ℝ)⁻¹ * (∑ q, (2 * (v q - avgOf v)) • (prj q - M)) c = _
      rw [_root_.sum_apply]
      have : ∀ q, ((2 * (v q - avgOf v)) • (prj q - M)) c = 2 * ((v q - avgOf v) * c q) - 2 * (v q - avgOf v) * M c := by
        intro q
        show 2 * (v q - avgOf v) * (c q - M c) = _
        ring
      simp only [this]
      rw [Finset.sum_sub_distrib, ← Finset.sum_mul, ← Finset.mul_sum, ← Finset.mul_sum, e0]
      ring
    show (v i - avgOf v) * (-(1 / (2 * s)) / s ^ 2 * V c) + (Real.sqrt (varOf v + eps))⁻¹ * (c i - M c) = _
    rw [e1, e2, ← hs]
    have e3 : ∀ j, hatJ eps v i j * c j = (if i = j then s⁻¹ else 0) * c j - s⁻¹ / n * c j - (v i - avgOf v) / s ^ 3 / n * ((v j - avgOf v) * c j) := by
      intro j
      unfold hatJ hatLine
      rw [← hs]
      split <;> (field_simp; try ring)
    simp only [e3]
    rw [Finset.sum_sub_distrib, Finset.sum_sub_distrib, sum_ite_left, ← Finset.mul_sum, ← Finset.mul_sum]
    unfold avgOf
    field_simp
    ring
  · show (w i - avgOf w) / Real.sqrt (varOf w + eps) = _
    rw [div_eq_mul_inv]
    rfl

end HOL
