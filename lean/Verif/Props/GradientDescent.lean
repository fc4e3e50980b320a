import Verif.Lemmas.GradientDescent

/-! # C107: fitting one layer by gradient descent -/

namespace HOL
open TorchScalar Spec LeastSquares

/-- The layer `L` with this loss is at least as good as every layer of the same kind and sizes. -/
def PwLayer.IsBest (L : PwLayer ℝ) (x t : Tensor ℝ) : Prop :=
  ∃ ℓ, L.mse x t = .ok ℓ ∧ ∀ (L' : PwLayer ℝ) (ℓ' : ℝ), SameSizes L L' → L'.WF → L'.mse x t = .ok ℓ' → ℓ ≤ ℓ'

theorem PwLayer.eq_of_wVec {L L' : PwLayer ℝ} (hs : SameSizes L L') (h : L.WF) (h' : L'.WF) (e : ∀ j ∈ L.wIdx, L'.wVec j = L.wVec j) : L' = L := by
  have a : L'.w.shape = L.w.shape := by rw [h'.w_shape, h.w_shape, hs.outF, hs.inF, hs.cls, hs.n, hs.segments]
  have : L'.w = L.w := by
    refine Tensor.ext_get h'.w_wf h.w_wf a fun idx hi => ?_
    rw [a, h.w_shape] at hi
    match idx, hi with
    | [o, i, r], hi =>
      obtain ⟨h1, h2, h3⟩ := inShape3.1 hi
      exact e (o, i, r) (PwLayer.mem_wIdx.2 ⟨h1, h2, h3⟩)
  rw [PwLayer.eq_withW hs, this]

section
variable {L : PwLayer ℝ} (h : L.WF) (hc : L.cls = .continuous ∨ L.cls = .discontinuous) (hl : L.length = 2) {B : ℕ} (hB : 0 < B) {x t : Tensor ℝ}
  (hx : x.shape = [B, L.inFeatures]) (hwf : x.WF) (ht : t.shape = [B, L.outFeatures]) (hin : ∀ b < B, ∀ i < L.inFeatures, |periodize L.periodicity (x.get [b, i])| ≤ 1)
include h hc hl hB hx hwf ht hin

/-- **C107 (one step).** Sum layers, inputs in the interval, any batch, targets and learning rate `lr > 0`: one pass of gradient descent on the mean squared error succeeds, and the loss falls by at least
`1 / lr - q * in / out` times the squared change of the weights (`q = 1` for up to three nodes, else 2). The pass changes nothing exactly when no layer of the same sizes has a smaller loss. -/
theorem C107_step {lr : ℝ} (hlr : 0 < lr) :
    ∃ L₁ ℓ ℓ₁, L.gdStep lr x t = .ok L₁ ∧ SameSizes L L₁ ∧ L₁.WF ∧ L.mse x t = .ok ℓ ∧ L₁.mse x t = .ok ℓ₁ ∧
      ℓ₁ ≤ ℓ - (1 / lr - sqBound L.n * L.inFeatures / L.outFeatures) * weightDist L L₁ ∧ (L₁ = L ↔ L.IsBest x t) := by
  obtain ⟨L₁, e1, hs, h1, hw⟩ := L.gdStep_eq h hc lr (t := t) hx hwf
  have hx1 : x.shape = [B, L₁.inFeatures] := by rw [hx, hs.inF]
  have ht1 : t.shape = [B, L₁.outFeatures] := by rw [ht, hs.outF]
  have hc1 : L₁.cls = .continuous ∨ L₁.cls = .discontinuous := by rw [hs.cls]; exact hc
  have m0 := L.mse_eq h hc hx hwf ht
  have m1 := L₁.mse_eq h1 hc1 hx1 hwf ht1
  rw [PwLayer.same_lsq hs] at m1
  have hQ := L.design_bound h hl hin
  have hs0 := L.scale_nonneg B
  have hcQ := L.scale_bound h hB
  have hw' : ∀ j ∈ L.wIdx, L₁.wVec j = step L.wIdx (L.yIdx B) (L.design x) (PwLayer.target t) (L.scale B) lr L.wVec j := hw
  refine ⟨L₁, _, _, e1, hs, h1, m0, m1, ?_, ?_, ?_⟩
  · have a := loss_step (T := PwLayer.target t) hs0 hQ lr L.wVec
    rw [hcQ, ← loss_congr hw'] at a
    have d : weightDist L L₁ = lr ^ 2 * sqNorm L.wIdx (L.lsqGrad B x t L.wVec) := by
      rw [PwLayer.weightDist_eq h L L₁ ⟨rfl, rfl, rfl, rfl, rfl, rfl, rfl⟩ h hs h1]
      unfold sqNorm
      rw [Finset.mul_sum]
      refine Finset.sum_congr rfl fun j hj => ?_
      beta_reduce
      rw [hw j hj]
      ring
    refine le_trans a (le_of_eq ?_)
    rw [d]
    show _ - _ * sqNorm L.wIdx (L.lsqGrad B x t L.wVec) = _
    unfold PwLayer.lsq
    field_simp
  · intro e
    refine ⟨_, m0, fun L' ℓ' hs' h' m' => ?_⟩
    rw [L'.mse_eq h' (by rw [hs'.cls]; exact hc) (B := B) (by rw [hx, hs'.inF]) hwf (by rw [ht, hs'.outF]), PwLayer.same_lsq hs'] at m'
    cases m'
    have z : ∀ j ∈ L.wIdx, L.lsqGrad B x t L.wVec j = 0 := by
      intro j hj
      have := hw j hj
      rw [e] at this
      have : lr * L.lsqGrad B x t L.wVec j = 0 := by linarith
      exact (mul_eq_zero.1 this).resolve_left hlr.ne'
    have a := loss_tangent (J := L.wIdx) (M := L.yIdx B) (A := L.design x) (T := PwLayer.target t) hs0 L.wVec L'.wVec
    have zs : ∑ j ∈ L.wIdx, grad L.wIdx (L.yIdx B) (L.design x) (PwLayer.target t) (L.scale B) L.wVec j * (L'.wVec j - L.wVec j) = 0 :=
      Finset.sum_eq_zero fun j hj => by
        have := z j hj
        unfold PwLayer.lsqGrad at this
        rw [this, zero_mul]
    rw [zs, add_zero] at a
    exact a
  · rintro ⟨ℓ, hℓ, hbest⟩
    rw [m0] at hℓ
    cases hℓ
    set Q := sqBound L.n * L.inFeatures / L.outFeatures with hQd
    have hQ0 : 0 ≤ Q := by
      have := PwLayer.sqBound_pos L.n
      positivity
    set lr' : ℝ := 1 / (Q + 1) with hlr'
    have hp : 0 < lr' := by positivity
    obtain ⟨L₂, -, hs2, h2, hw2⟩ := L.gdStep_eq h hc lr' (t := t) hx hwf
    have m2 := L₂.mse_eq h2 (by rw [hs2.cls]; exact hc) (B := B) (by rw [hx, hs2.inF]) hwf (t := t) (by rw [ht, hs2.outF])
    have b := hbest L₂ _ hs2 h2 m2
    rw [PwLayer.same_lsq hs2] at b
    have hw2' : ∀ j ∈ L.wIdx, L₂.wVec j = step L.wIdx (L.yIdx B) (L.design x) (PwLayer.target t) (L.scale B) lr' L.wVec j := hw2
    have a := loss_step (T := PwLayer.target t) hs0 hQ lr' L.wVec
    rw [hcQ, ← loss_congr hw2'] at a
    unfold PwLayer.lsq at b
    have hfac : 0 < lr' * (1 - lr' * Q) := by
      refine mul_pos hp ?_
      rw [hlr']
      have : 1 - 1 / (Q + 1) * Q = 1 / (Q + 1) := by
        field_simp
        ring
      rw [this]
      positivity
    have g0 := sqNorm_nonneg L.wIdx (grad L.wIdx (L.yIdx B) (L.design x) (PwLayer.target t) (L.scale B) L.wVec)
    have gz : sqNorm L.wIdx (grad L.wIdx (L.yIdx B) (L.design x) (PwLayer.target t) (L.scale B) L.wVec) = 0 := by
      rcases g0.lt_or_eq with g | g
      · have := mul_pos hfac g
        linarith
      · exact g.symm
    have z : ∀ j ∈ L.wIdx, L.lsqGrad B x t L.wVec j = 0 := by
      intro j hj
      have := (Finset.sum_eq_zero_iff_of_nonneg fun _ _ => sq_nonneg _).1 gz j hj
      exact pow_eq_zero_iff (two_ne_zero) |>.1 this
    refine PwLayer.eq_of_wVec hs h h1 fun j hj => ?_
    rw [hw j hj, z j hj]
    ring

/-- **C107 (descent).** With a learning rate below `out / (q * in)` every pass over the batch makes the loss smaller, unless no layer of the same sizes has a smaller loss. The limit depends neither on the number of
segments nor on the batch size nor, beyond `q`, on the number of nodes. -/
theorem C107_descent {lr : ℝ} (hlr : 0 < lr) (hlr' : lr < L.outFeatures / (sqBound L.n * L.inFeatures)) (hnb : ¬ L.IsBest x t) :
    ∃ L₁ ℓ ℓ₁, L.gdStep lr x t = .ok L₁ ∧ L.mse x t = .ok ℓ ∧ L₁.mse x t = .ok ℓ₁ ∧ ℓ₁ < ℓ := by
  obtain ⟨L₁, ℓ, ℓ₁, e1, hs, h1, m0, m1, hd, hb⟩ := C107_step h hc hl hB hx hwf ht hin hlr
  refine ⟨L₁, ℓ, ℓ₁, e1, m0, m1, ?_⟩
  have hI : (0 : ℝ) < L.inFeatures := by exact_mod_cast h.in_pos
  have hO : (0 : ℝ) < L.outFeatures := by exact_mod_cast h.out_pos
  have hq := PwLayer.sqBound_pos L.n
  have hf : 0 < 1 / lr - sqBound L.n * L.inFeatures / L.outFeatures := by
    rw [sub_pos, div_lt_div_iff₀ hO hlr]
    rw [lt_div_iff₀ (by positivity)] at hlr'
    linarith
  have hwd : 0 < weightDist L L₁ := by
    rcases (show 0 ≤ weightDist L L₁ from Finset.sum_nonneg fun _ _ => sq_nonneg _).lt_or_eq with g | g
    · exact g
    · exfalso
      refine hnb (hb.1 ?_)
      rw [PwLayer.weightDist_eq h L L₁ ⟨rfl, rfl, rfl, rfl, rfl, rfl, rfl⟩ h hs h1] at g
      refine PwLayer.eq_of_wVec hs h h1 fun j hj => ?_
      have := (Finset.sum_eq_zero_iff_of_nonneg fun _ _ => sq_nonneg _).1 g.symm j hj
      have := pow_eq_zero_iff (two_ne_zero) |>.1 this
      linarith
  have := mul_pos hf hwd
  linarith

omit hl hB ht hin in
/-- Several passes are several steps of the least squares problem. -/
theorem gdRun_eq (lr : ℝ) (k : ℕ) : ∃ Lk, PwLayer.gdRun lr x t k L = .ok Lk ∧ SameSizes L Lk ∧ Lk.WF ∧
    ∀ j ∈ L.wIdx, Lk.wVec j = (step L.wIdx (L.yIdx B) (L.design x) (PwLayer.target t) (L.scale B) lr)^[k] L.wVec j := by
  have main : ∀ (k : ℕ) (L' : PwLayer ℝ) (u : ℕ × ℕ × ℕ → ℝ), SameSizes L L' → L'.WF → (∀ j ∈ L.wIdx, L'.wVec j = u j) →
      ∃ Lk, PwLayer.gdRun lr x t k L' = .ok Lk ∧ SameSizes L Lk ∧ Lk.WF ∧
        ∀ j ∈ L.wIdx, Lk.wVec j = (step L.wIdx (L.yIdx B) (L.design x) (PwLayer.target t) (L.scale B) lr)^[k] u j := by
    intro k
    induction k with
    | zero => exact fun L' u hs h' hu => ⟨L', rfl, hs, h', hu⟩
    | succ k ih =>
      intro L' u hs h' hu
      obtain ⟨L₁, e1, hs1, h1, hw⟩ := L'.gdStep_eq h' (by rw [hs.cls]; exact hc) lr (t := t) (B := B) (by rw [hx, hs.inF]) hwf
      have hs' : SameSizes L L₁ := ⟨hs1.cls.trans hs.cls, hs1.n.trans hs.n, hs1.segments.trans hs.segments, hs1.inF.trans hs.inF, hs1.outF.trans hs.outF, hs1.length.trans hs.length,
        hs1.periodicity.trans hs.periodicity⟩
      rw [PwLayer.same_wIdx hs, PwLayer.same_lsqGrad hs] at hw
      obtain ⟨Lk, ek, hsk, hk, hwk⟩ := ih L₁ (step L.wIdx (L.yIdx B) (L.design x) (PwLayer.target t) (L.scale B) lr u) hs' h1 fun j hj => by
        rw [hw j hj]
        unfold step PwLayer.lsqGrad
        rw [hu j hj, grad_congr hu]
      refine ⟨Lk, ?_, hsk, hk, hwk⟩
      show (L'.gdStep lr x t >>= fun L' => PwLayer.gdRun lr x t k L') = _
      rw [e1]
      exact ek
  exact main k L L.wVec ⟨rfl, rfl, rfl, rfl, rfl, rfl, rfl⟩ h fun _ _ => rfl

/-- **C107 (rate).** With a learning rate up to `out / (2 * q * in)`: after `k` passes over the batch the loss exceeds that of any layer `L'` of the same sizes by at most the squared distance of the initial
weights to those of `L'` divided by `2 * lr * k`, and the weights are no further from those of a layer with a smaller loss than at the start. -/
theorem C107_rate {lr : ℝ} (hlr : 0 < lr) (hlr' : lr ≤ L.outFeatures / (2 * sqBound L.n * L.inFeatures)) (k : ℕ) :
    ∃ Lk ℓk, PwLayer.gdRun lr x t k L = .ok Lk ∧ SameSizes L Lk ∧ Lk.WF ∧ Lk.mse x t = .ok ℓk ∧
      ∀ (L' : PwLayer ℝ) (ℓ' : ℝ), SameSizes L L' → L'.WF → L'.mse x t = .ok ℓ' →
        2 * lr * k * (ℓk - ℓ') ≤ weightDist L L' - weightDist Lk L' := by
  obtain ⟨Lk, ek, hsk, hk, hwk⟩ := gdRun_eq h hc hx hwf lr k (t := t)
  have mk := Lk.mse_eq hk (by rw [hsk.cls]; exact hc) (B := B) (by rw [hx, hsk.inF]) hwf (t := t) (by rw [ht, hsk.outF])
  rw [PwLayer.same_lsq hsk] at mk
  refine ⟨Lk, _, ek, hsk, hk, mk, fun L' ℓ' hs' h' m' => ?_⟩
  rw [L'.mse_eq h' (by rw [hs'.cls]; exact hc) (B := B) (by rw [hx, hs'.inF]) hwf (by rw [ht, hs'.outF]), PwLayer.same_lsq hs'] at m'
  cases m'
  have hI : (0 : ℝ) < L.inFeatures := by exact_mod_cast h.in_pos
  have hO : (0 : ℝ) < L.outFeatures := by exact_mod_cast h.out_pos
  have hq := PwLayer.sqBound_pos L.n
  have hlQ : lr * (L.scale B * (sqBound L.n * L.inFeatures * B)) ≤ 1 / 2 := by
    rw [L.scale_bound h hB]
    rw [le_div_iff₀ (by positivity)] at hlr'
    rw [mul_div_assoc', div_le_iff₀ hO]
    linarith
  have a := rate (T := PwLayer.target t) (L.scale_nonneg B) (L.design_bound h hl hin) hlr.le hlQ
    (fun k => (step L.wIdx (L.yIdx B) (L.design x) (PwLayer.target t) (L.scale B) lr)^[k] L.wVec) (fun k => Function.iterate_succ_apply' _ _ _) L'.wVec k
  rw [PwLayer.weightDist_eq h L L' ⟨rfl, rfl, rfl, rfl, rfl, rfl, rfl⟩ h hs' h', PwLayer.weightDist_eq h Lk L' hsk hk hs' h']
  have e1 := loss_congr (M := L.yIdx B) (A := L.design x) (T := PwLayer.target t) (c := L.scale B) hwk
  have e2 := sqNorm_congr (J := L.wIdx) (w := fun j => Lk.wVec j - L'.wVec j)
    (w' := fun j => (step L.wIdx (L.yIdx B) (L.design x) (PwLayer.target t) (L.scale B) lr)^[k] L.wVec j - L'.wVec j) fun j hj => by rw [hwk j hj]
  unfold PwLayer.lsq
  rw [e1, e2]
  exact a

/-- **C107 (convergence).** With such a learning rate the loss comes as close as one likes to the smallest loss of all layers of the same sizes, from every initial layer: for each layer `L'` and `ε > 0` there is
a number of passes after which the loss is at most that of `L'` plus `ε`. -/
theorem C107_converges {lr : ℝ} (hlr : 0 < lr) (hlr' : lr ≤ L.outFeatures / (2 * sqBound L.n * L.inFeatures)) {L' : PwLayer ℝ} {ℓ' : ℝ} (hs' : SameSizes L L') (h' : L'.WF)
    (m' : L'.mse x t = .ok ℓ') {ε : ℝ} (hε : 0 < ε) :
    ∃ N : ℕ, ∀ k ≥ N, ∃ Lk ℓk, PwLayer.gdRun lr x t k L = .ok Lk ∧ Lk.mse x t = .ok ℓk ∧ ℓk ≤ ℓ' + ε := by
  obtain ⟨N, hN⟩ := exists_nat_gt (weightDist L L' / (2 * lr * ε))
  refine ⟨N, fun k hk => ?_⟩
  obtain ⟨Lk, ℓk, ek, -, -, mk, hr⟩ := C107_rate h hc hl hB hx hwf ht hin hlr hlr' k
  refine ⟨Lk, ℓk, ek, mk, ?_⟩
  have a := hr L' ℓ' hs' h' m'
  have d0 : 0 ≤ weightDist L L' := Finset.sum_nonneg fun _ _ => sq_nonneg _
  have d : 0 ≤ weightDist Lk L' := Finset.sum_nonneg fun _ _ => sq_nonneg _
  by_contra hne
  push Not at hne
  rw [div_lt_iff₀ (by positivity)] at hN
  have hkN : (N : ℝ) ≤ k := by exact_mod_cast hk
  have p1 : (N : ℝ) * (2 * lr * ε) ≤ 2 * lr * k * ε := by nlinarith [mul_pos hlr hε]
  have hkpos : (0 : ℝ) < 2 * lr * k := by
    have : (0 : ℝ) < k := by
      rcases (Nat.cast_nonneg (α := ℝ) k).lt_or_eq with g | g
      · exact g
      · rw [← g] at hkN
        nlinarith [mul_pos hlr hε]
    positivity
  have p2 : 2 * lr * k * ε < 2 * lr * k * (ℓk - ℓ') := mul_lt_mul_of_pos_left (by linarith) hkpos
  linarith

end

/-- The link at the left end of the interval reads its first weight. -/
theorem PwLayer.feat_left (L : PwLayer ℝ) (h : L.WF) (hl : L.length = 2) (hp : L.periodicity = none) (r : ℕ) : L.feat (-1) r = if r = 0 then 1 else 0 := by
  have hS : (0 : ℝ) < L.segments := by exact_mod_cast h.seg_pos
  have hact : IsActive L.segments 0 (-1) := by
    refine ⟨h.seg_pos, Or.inl rfl, Or.inr ?_⟩
    unfold segLeft
    have : 0 < 2 * (((0 + 1 : ℕ)) : ℝ) / L.segments := by positivity
    linarith
  have h0 := L.isActive_seg h.seg_pos hl (-1)
  rw [hp] at h0
  have hseg : L.seg (-1) = 0 := isActive_unique h0 hact
  have hxi : L.xIn (-1) = -1 := by
    unfold xIn
    rw [L.whichSegment_eq_seg h.seg_pos, L.xLocal_real h.seg_pos hl, hseg, hp]
    show localCoord L.segments 0 (-1) = -1
    unfold localCoord
    simp
  have e : L.feat (-1) r = (linkPoly L.n fun k => if k = r then 1 else 0).eval (-1) := by
    rw [← sum_basis_call_two]
    unfold feat
    rw [hseg, hxi]
    refine Finset.sum_congr rfl fun k _ => ?_
    rw [zero_mul, zero_add]
    split <;> simp
  rw [e]
  rcases Nat.lt_or_ge L.n 2 with hn | hn
  · have : L.n = 1 := by have := h.n_pos; omega
    rw [this, linkPoly_cardinal, Finset.sum_range_one]
    simp only [cardinal, Lagrange.basis]
    simp [eq_comm]
  · rw [← node_zero hn, linkPoly_eval_node (by omega)]
    simp only [eq_comm]

/-- **C107 (limit of the learning rate).** On a batch with all inputs at the left end of the interval and targets 0 each pass multiplies the loss by `(1 - 2 * lr * in / out)²`, for every layer without periodicity:
with a learning rate above `out / in` the loss grows without bound. So the limit of `C107_descent` cannot be improved for up to three nodes, and by no more than a factor of two for more. -/
theorem C107_sharp (L : PwLayer ℝ) (h : L.WF) (hc : L.cls = .continuous ∨ L.cls = .discontinuous) (hl : L.length = 2) (hp : L.periodicity = none) {B : ℕ} (hB : 0 < B) (lr : ℝ) (k : ℕ) :
    ∃ Lk ℓ ℓk, PwLayer.gdRun lr (Tensor.tab2 B L.inFeatures fun _ _ => -1) (Tensor.tab2 B L.outFeatures fun _ _ => 0) k L = .ok Lk ∧
      L.mse (Tensor.tab2 B L.inFeatures fun _ _ => -1) (Tensor.tab2 B L.outFeatures fun _ _ => 0) = .ok ℓ ∧
      Lk.mse (Tensor.tab2 B L.inFeatures fun _ _ => -1) (Tensor.tab2 B L.outFeatures fun _ _ => 0) = .ok ℓk ∧
      ℓk = ((1 - 2 * lr * L.inFeatures / L.outFeatures) ^ 2) ^ k * ℓ := by
  set x : Tensor ℝ := Tensor.tab2 B L.inFeatures fun _ _ => -1 with hxd
  set t : Tensor ℝ := Tensor.tab2 B L.outFeatures fun _ _ => 0 with htd
  have hx : x.shape = [B, L.inFeatures] := rfl
  have ht : t.shape = [B, L.outFeatures] := rfl
  have hwf : x.WF := Tensor.wf_tab2 _ _ _
  obtain ⟨Lk, ek, hsk, hk, hwk⟩ := gdRun_eq h hc hx hwf lr k (t := t)
  have m0 := L.mse_eq h hc hx hwf ht
  have mk := Lk.mse_eq hk (by rw [hsk.cls]; exact hc) (B := B) (by rw [hx, hsk.inF]) hwf (t := t) (by rw [ht, hsk.outF])
  rw [PwLayer.same_lsq hsk] at mk
  refine ⟨Lk, _, _, ek, m0, mk, ?_⟩
  have e0 : L.lsq B x t Lk.wVec = L.lsq B x t ((step L.wIdx (L.yIdx B) (L.design x) (PwLayer.target t) (L.scale B) lr)^[k] L.wVec) := loss_congr hwk
  rw [e0]
  have hO : (0 : ℝ) < L.outFeatures := by exact_mod_cast h.out_pos
  have hB' : (0 : ℝ) < B := by exact_mod_cast hB
  have hR : 0 < PwLayer.wSize L.cls L.n L.segments := by
    have := L.widx_lt h.n_pos (L.seg_lt h.seg_pos 0) h.n_pos
    omega
  have feat : ∀ b < B, ∀ i < L.inFeatures, ∀ r, L.feat (x.get [b, i]) r = if r = 0 then 1 else 0 := by
    intro b hb i hi r
    rw [hxd, Tensor.get_tab2 hb hi]
    exact L.feat_left h hl hp r
  have hpred : ∀ (v : ℕ × ℕ × ℕ → ℝ), ∀ b < B, ∀ o < L.outFeatures, pred L.wIdx (L.design x) v (b, o) = ∑ i ∈ Finset.range L.inFeatures, v (o, i, 0) := by
    intro v b hb o ho
    rw [L.pred_eq x v b ho]
    refine Finset.sum_congr rfl fun i hi => ?_
    rw [Finset.sum_eq_single_of_mem 0 (Finset.mem_range.2 hR)]
    · rw [feat b hb i (Finset.mem_range.1 hi), if_pos rfl, one_mul]
    · intro r _ hne
      rw [feat b hb i (Finset.mem_range.1 hi), if_neg hne, zero_mul]
  have htgt : ∀ b < B, ∀ o < L.outFeatures, PwLayer.target t (b, o) = 0 := fun b hb o ho => Tensor.get_tab2 (f := fun _ _ => (0 : ℝ)) hb ho
  have hgrad : ∀ (v : ℕ × ℕ × ℕ → ℝ), ∀ o < L.outFeatures, ∀ i < L.inFeatures,
      grad L.wIdx (L.yIdx B) (L.design x) (PwLayer.target t) (L.scale B) v (o, i, 0) = 2 / L.outFeatures * ∑ i ∈ Finset.range L.inFeatures, v (o, i, 0) := by
    intro v o ho i hi
    unfold grad PwLayer.yIdx
    rw [Finset.sum_product]
    have : ∀ b ∈ Finset.range B, ∑ o' ∈ Finset.range L.outFeatures, L.design x (b, o') (o, i, 0) * (pred L.wIdx (L.design x) v (b, o') - PwLayer.target t (b, o'))
        = ∑ i ∈ Finset.range L.inFeatures, v (o, i, 0) := by
      intro b hb
      rw [Finset.sum_eq_single_of_mem o (Finset.mem_range.2 ho)]
      · rw [show L.design x (b, o) (o, i, 0) = L.feat (x.get [b, i]) 0 from if_pos rfl, feat b (Finset.mem_range.1 hb) i hi, if_pos rfl, one_mul, hpred v b (Finset.mem_range.1 hb) o ho,
          htgt b (Finset.mem_range.1 hb) o ho, sub_zero]
      · intro o' _ hne
        rw [show L.design x (b, o') (o, i, 0) = 0 from if_neg hne, zero_mul]
    rw [Finset.sum_congr rfl this, Finset.sum_const, Finset.card_range, nsmul_eq_mul]
    unfold PwLayer.scale
    field_simp
  have hstep : ∀ v : ℕ × ℕ × ℕ → ℝ, L.lsq B x t (step L.wIdx (L.yIdx B) (L.design x) (PwLayer.target t) (L.scale B) lr v) = (1 - 2 * lr * L.inFeatures / L.outFeatures) ^ 2 * L.lsq B x t v := by
    intro v
    unfold PwLayer.lsq loss
    rw [show L.yIdx B = Finset.range B ×ˢ Finset.range L.outFeatures from rfl, Finset.sum_product, Finset.sum_product, mul_left_comm]
    congr 1
    rw [Finset.mul_sum]
    refine Finset.sum_congr rfl fun b hb => ?_
    rw [Finset.mul_sum]
    refine Finset.sum_congr rfl fun o ho => ?_
    rw [Finset.mem_range] at hb ho
    rw [hpred _ b hb o ho, hpred v b hb o ho, htgt b hb o ho, sub_zero, sub_zero, ← mul_pow]
    congr 1
    have : ∀ i ∈ Finset.range L.inFeatures, step L.wIdx (L.yIdx B) (L.design x) (PwLayer.target t) (L.scale B) lr v (o, i, 0)
        = v (o, i, 0) - lr * (2 / L.outFeatures * ∑ i ∈ Finset.range L.inFeatures, v (o, i, 0)) := by
      intro i hi
      unfold step
      rw [hgrad v o ho i (Finset.mem_range.1 hi)]
    rw [show Finset.range B ×ˢ Finset.range L.outFeatures = L.yIdx B from rfl, Finset.sum_congr rfl this, Finset.sum_sub_distrib, Finset.sum_const, Finset.card_range, nsmul_eq_mul]
    ring
  clear e0 mk hwk ek
  generalize L.wVec = v
  induction k with
  | zero => simp
  | succ k ih =>
    rw [Function.iterate_succ_apply', hstep, ih, pow_succ]
    ring

/-- With one input and one output the learning rate 2 multiplies the loss by 9 at each pass. -/
example (v : ℕ → ℝ) : ∃ Lk ℓ ℓk, PwLayer.gdRun 2 (Tensor.tab2 4 1 fun _ _ => -1) (Tensor.tab2 4 1 fun _ _ => 0) 3 (lineLayer 5 v) = .ok Lk ∧
    (lineLayer 5 v).mse (Tensor.tab2 4 1 fun _ _ => -1) (Tensor.tab2 4 1 fun _ _ => 0) = .ok ℓ ∧ Lk.mse (Tensor.tab2 4 1 fun _ _ => -1) (Tensor.tab2 4 1 fun _ _ => 0) = .ok ℓk ∧ ℓk = 729 * ℓ := by
  obtain ⟨Lk, ℓ, ℓk, e1, e2, e3, e4⟩ := C107_sharp (lineLayer 5 v) (lineLayer_wf (by norm_num) v) (Or.inl rfl) rfl rfl (show 0 < 4 by norm_num) 2 3
  refine ⟨Lk, ℓ, ℓk, e1, e2, e3, ?_⟩
  rw [e4]
  have h1 : ((lineLayer 5 v).inFeatures : ℝ) = 1 := Nat.cast_one
  have h2 : ((lineLayer 5 v).outFeatures : ℝ) = 1 := Nat.cast_one
  rw [h1, h2]
  norm_num

/-- A line with five segments fitted to the square at 3 points: after 100 passes with learning rate 1/2 the loss is at most 1/100 of the squared distance to a layer that fits exactly. -/
example (L' : PwLayer ℝ) (hs : SameSizes (lineLayer 5 fun _ => 0) L') (h' : L'.WF) (m' : L'.mse (Tensor.tab2 3 1 fun b _ => (b : ℝ) / 2 - 1) (Tensor.tab2 3 1 fun b _ => ((b : ℝ) / 2 - 1) ^ 2) = .ok 0) :
    ∃ Lk ℓk, PwLayer.gdRun (1 / 2) (Tensor.tab2 3 1 fun b _ => (b : ℝ) / 2 - 1) (Tensor.tab2 3 1 fun b _ => ((b : ℝ) / 2 - 1) ^ 2) 100 (lineLayer 5 fun _ => 0) = .ok Lk ∧
      Lk.mse (Tensor.tab2 3 1 fun b _ => (b : ℝ) / 2 - 1) (Tensor.tab2 3 1 fun b _ => ((b : ℝ) / 2 - 1) ^ 2) = .ok ℓk ∧ ℓk ≤ weightDist (lineLayer 5 fun _ => 0) L' / 100 := by
  obtain ⟨Lk, ℓk, e1, -, -, e2, e3⟩ := C107_rate (L := lineLayer 5 fun _ => 0) (lineLayer_wf (by norm_num) _) (Or.inl rfl) rfl (show 0 < 3 by norm_num)
    (x := Tensor.tab2 3 1 fun b _ => (b : ℝ) / 2 - 1) (t := Tensor.tab2 3 1 fun b _ => ((b : ℝ) / 2 - 1) ^ 2) rfl (Tensor.wf_tab2 _ _ _) rfl
    (fun b hb i hi => by
      rw [Tensor.get_tab2 hb (show i < 1 from hi)]
      show |(b : ℝ) / 2 - 1| ≤ 1
      have : (b : ℝ) ≤ 2 := by exact_mod_cast (by omega : b ≤ 2)
      have : (0 : ℝ) ≤ b := Nat.cast_nonneg b
      exact abs_le.2 ⟨by linarith, by linarith⟩)
    (lr := 1 / 2) (by norm_num)
    (by
      have h1 : ((lineLayer 5 fun _ => 0).inFeatures : ℝ) = 1 := Nat.cast_one
      have h2 : ((lineLayer 5 fun _ => 0).outFeatures : ℝ) = 1 := Nat.cast_one
      have h3 : sqBound (lineLayer 5 fun _ => 0).n = 1 := if_pos (show 2 ≤ 3 by norm_num)
      rw [h1, h2, h3]
      norm_num) 100
  refine ⟨Lk, ℓk, e1, e2, ?_⟩
  have a := e3 L' 0 hs h' m'
  have d : 0 ≤ weightDist Lk L' := Finset.sum_nonneg fun _ _ => sq_nonneg _
  rw [le_div_iff₀ (by norm_num)]
  push_cast at a
  linarith

end HOL
