import Verif.Model.GradientDescent
import Verif.Spec.GradientDescent
import Verif.Lemmas.LeastSquares
import Verif.Lemmas.Extrapolation
import Verif.Props.Convex
import Verif.Props.Autoencoder

/-! # Lemmas on gradient descent on one layer: it is gradient descent on a least squares problem -/

namespace HOL
open TorchScalar Spec

namespace LeastSquares
variable {ι κ : Type} {J : Finset ι} {M : Finset κ} {A : κ → ι → ℝ} {T : κ → ℝ} {c : ℝ}

theorem pred_congr {w w' : ι → ℝ} (h : ∀ j ∈ J, w j = w' j) (m : κ) : pred J A w m = pred J A w' m :=
  Finset.sum_congr rfl fun j hj => by rw [h j hj]

theorem loss_congr {w w' : ι → ℝ} (h : ∀ j ∈ J, w j = w' j) : loss J M A T c w = loss J M A T c w' := by
  unfold loss
  simp only [pred_congr h]

theorem grad_congr {w w' : ι → ℝ} (h : ∀ j ∈ J, w j = w' j) (j : ι) : grad J M A T c w j = grad J M A T c w' j := by
  unfold grad
  simp only [pred_congr h]

theorem sqNorm_congr {w w' : ι → ℝ} (h : ∀ j ∈ J, w j = w' j) : sqNorm J w = sqNorm J w' :=
  Finset.sum_congr rfl fun j hj => by rw [h j hj]

end LeastSquares

namespace PwLayer
open LeastSquares

/-- Weights as a vector. -/
noncomputable def wVec (L : PwLayer ℝ) (j : ℕ × ℕ × ℕ) : ℝ := L.w.get [j.1, j.2.1, j.2.2]

/-- Factor of the weight `r` of a link at the input `v`. -/
noncomputable def feat (L : PwLayer ℝ) (v : ℝ) (r : ℕ) : ℝ :=
  ∑ k ∈ Finset.range L.n, if L.seg v * L.stride + k = r then (getLagrangeBasis L.n ((2 : ℕ) : ℝ)).call (L.xIn v) k else 0

/-- Positions of the weights. -/
def wIdx (L : PwLayer ℝ) : Finset (ℕ × ℕ × ℕ) := Finset.range L.outFeatures ×ˢ Finset.range L.inFeatures ×ˢ Finset.range (wSize L.cls L.n L.segments)

/-- Positions of the outputs. -/
def yIdx (L : PwLayer ℝ) (B : ℕ) : Finset (ℕ × ℕ) := Finset.range B ×ˢ Finset.range L.outFeatures

/-- The matrix of the layer on a batch. -/
noncomputable def design (L : PwLayer ℝ) (x : Tensor ℝ) (m : ℕ × ℕ) (j : ℕ × ℕ × ℕ) : ℝ := if m.2 = j.1 then L.feat (x.get [m.1, j.2.1]) j.2.2 else 0

/-- Targets. -/
noncomputable def target (t : Tensor ℝ) (m : ℕ × ℕ) : ℝ := t.get [m.1, m.2]

theorem linkFn_feat (L : PwLayer ℝ) (h : L.WF) (o i : ℕ) (v : ℝ) :
    L.linkFn o i v = ∑ r ∈ Finset.range (wSize L.cls L.n L.segments), L.feat v r * L.w.get [o, i, r] := by
  unfold PwLayer.linkFn feat
  rw [← sum_basis_call_two]
  simp only [Finset.sum_mul]
  rw [Finset.sum_comm]
  refine Finset.sum_congr rfl fun k hk => ?_
  rw [Finset.sum_eq_single (L.seg v * L.stride + k)]
  · rw [if_pos rfl]
  · intro q _ hne
    rw [if_neg hne.symm, zero_mul]
  · intro hne
    exact absurd (Finset.mem_range.2 (L.widx_lt h.n_pos (L.seg_lt h.seg_pos _) (Finset.mem_range.1 hk))) hne

theorem pred_eq (L : PwLayer ℝ) (x : Tensor ℝ) (v : ℕ × ℕ × ℕ → ℝ) (b : ℕ) {o : ℕ} (ho : o < L.outFeatures) :
    pred L.wIdx (L.design x) v (b, o) = ∑ i ∈ Finset.range L.inFeatures, ∑ r ∈ Finset.range (wSize L.cls L.n L.segments), L.feat (x.get [b, i]) r * v (o, i, r) := by
  unfold pred wIdx
  rw [Finset.sum_product, Finset.sum_eq_single o]
  · rw [Finset.sum_product]
    refine Finset.sum_congr rfl fun i _ => Finset.sum_congr rfl fun r _ => ?_
    unfold design
    rw [if_pos rfl]
  · intro o' _ hne
    refine Finset.sum_eq_zero fun j _ => ?_
    unfold design
    rw [if_neg (fun e => hne e.symm), zero_mul]
  · intro hne
    exact absurd (Finset.mem_range.2 ho) hne

theorem forward_pred (L : PwLayer ℝ) (h : L.WF) (hc : L.cls = .continuous ∨ L.cls = .discontinuous) {x : Tensor ℝ} {B : ℕ} (hx : x.shape = [B, L.inFeatures]) (hwf : x.WF) :
    L.forward x = .ok (Tensor.tab2 B L.outFeatures fun b o => pred L.wIdx (L.design x) L.wVec (b, o)) := by
  rw [L.forward_sum h hc hx hwf]
  congr 1
  apply tab2_congr
  intro b _ o ho
  rw [L.pred_eq x _ b ho]
  refine Finset.sum_congr rfl fun i _ => ?_
  rw [L.linkFn_feat h]
  rfl

/-- The scale of the loss. -/
noncomputable def scale (L : PwLayer ℝ) (B : ℕ) : ℝ := 1 / ((B : ℝ) * L.outFeatures)

theorem scale_nonneg (L : PwLayer ℝ) (B : ℕ) : 0 ≤ L.scale B := by unfold scale; positivity

/-- The loss as a least squares problem. -/
noncomputable def lsq (L : PwLayer ℝ) (B : ℕ) (x t : Tensor ℝ) (v : ℕ × ℕ × ℕ → ℝ) : ℝ :=
  loss L.wIdx (L.yIdx B) (L.design x) (target t) (L.scale B) v

/-- Its gradient. -/
noncomputable def lsqGrad (L : PwLayer ℝ) (B : ℕ) (x t : Tensor ℝ) (v : ℕ × ℕ × ℕ → ℝ) : ℕ × ℕ × ℕ → ℝ :=
  grad L.wIdx (L.yIdx B) (L.design x) (target t) (L.scale B) v

theorem mse_eq (L : PwLayer ℝ) (h : L.WF) (hc : L.cls = .continuous ∨ L.cls = .discontinuous) {x t : Tensor ℝ} {B : ℕ} (hx : x.shape = [B, L.inFeatures]) (hwf : x.WF)
    (ht : t.shape = [B, L.outFeatures]) : L.mse x t = .ok (L.lsq B x t L.wVec) := by
  unfold mse
  rw [L.forward_pred h hc hx hwf]
  show VAE.mseLoss _ t = _
  rw [mseLoss_eq (sh := [B, L.outFeatures]) rfl ht]
  congr 1
  have e : numel [B, L.outFeatures] = B * L.outFeatures := by simp [numel]
  unfold lsq loss scale yIdx
  rw [e, sum_range_mul_add, Finset.sum_product, div_eq_mul_inv, mul_comm, one_div]
  push_cast
  congr 1
  refine Finset.sum_congr rfl fun b hb => Finset.sum_congr rfl fun o ho => ?_
  have hin := (inShape2 (a := B) (b := L.outFeatures) (i := b) (j := o)).2 ⟨Finset.mem_range.1 hb, Finset.mem_range.1 ho⟩
  have e1 : b * L.outFeatures + o = ravel [B, L.outFeatures] [b, o] := by simp [ravel, numel]
  have g1 := Tensor.get_tab2 (f := fun b o => pred L.wIdx (L.design x) L.wVec (b, o)) (Finset.mem_range.1 hb) (Finset.mem_range.1 ho)
  have g2 : target t (b, o) = t.data.getD (ravel [B, L.outFeatures] [b, o]) 0 := by
    unfold target Tensor.get
    rw [ht]
  rw [e1, ← g2]
  congr 2

theorem grad_eq (L : PwLayer ℝ) (h : L.WF) (hc : L.cls = .continuous ∨ L.cls = .discontinuous) {x t : Tensor ℝ} {B : ℕ} (hx : x.shape = [B, L.inFeatures]) (hwf : x.WF)
    {y : Tensor ℝ} (hy : L.forward x = .ok y) {o i r : ℕ} (ho : o < L.outFeatures) (hi : i < L.inFeatures) (hr : r < wSize L.cls L.n L.segments) :
    (L.weightGrad x (mseGrad y t)).get [o, i, r] = L.lsqGrad B x t L.wVec (o, i, r) := by
  rw [weightGrad_get L h hx hwf _ ho hi hr]
  rw [L.forward_pred h hc hx hwf] at hy
  cases hy
  have hlf : ∀ b, L.linkFactor (fun j => L.linkFn o j (x.get [b, j])) i = 1 := by
    intro b
    unfold PwLayer.linkFactor
    rw [if_neg]
    rcases hc with hc | hc <;> rw [hc] <;> simp
  have hg : ∀ b ∈ Finset.range B, (mseGrad (Tensor.tab2 B L.outFeatures fun b o => pred L.wIdx (L.design x) L.wVec (b, o)) t).get [b, o]
      = 2 * (pred L.wIdx (L.design x) L.wVec (b, o) - t.get [b, o]) / ((B : ℝ) * L.outFeatures) := by
    intro b hb
    unfold mseGrad
    have e : (Tensor.tab2 B L.outFeatures fun b o => pred L.wIdx (L.design x) L.wVec (b, o)).shape = [B, L.outFeatures] := rfl
    have e' : numel [B, L.outFeatures] = B * L.outFeatures := by simp [numel]
    rw [e, e', Tensor.get_tabulate (inShape2.2 ⟨Finset.mem_range.1 hb, ho⟩), Tensor.get_tab2 (Finset.mem_range.1 hb) ho]
    push_cast
    rfl
  have hd : ∀ b, ∑ o' ∈ Finset.range L.outFeatures, L.design x (b, o') (o, i, r) * (pred L.wIdx (L.design x) L.wVec (b, o') - target t (b, o'))
      = L.feat (x.get [b, i]) r * (pred L.wIdx (L.design x) L.wVec (b, o) - t.get [b, o]) := by
    intro b
    rw [Finset.sum_eq_single_of_mem o (Finset.mem_range.2 ho)]
    · rw [show L.design x (b, o) (o, i, r) = L.feat (x.get [b, i]) r from if_pos rfl]
      rfl
    · intro o' _ hne
      rw [show L.design x (b, o') (o, i, r) = 0 from if_neg hne, zero_mul]
  unfold lsqGrad grad yIdx
  rw [Finset.sum_product, Finset.mul_sum]
  refine Finset.sum_congr rfl fun b hb => ?_
  rw [hd, hlf, mul_one, hg b hb]
  unfold scale feat
  ring

theorem mem_wIdx {L : PwLayer ℝ} {j : ℕ × ℕ × ℕ} : j ∈ L.wIdx ↔ j.1 < L.outFeatures ∧ j.2.1 < L.inFeatures ∧ j.2.2 < wSize L.cls L.n L.segments := by
  unfold wIdx
  simp only [Finset.mem_product, Finset.mem_range]

/-- Layers of the same sizes differ in the weights only. -/
theorem eq_withW {L L' : PwLayer ℝ} (hs : SameSizes L L') : L' = { L with w := L'.w } := by
  obtain ⟨c', n', s', i', o', l', p', w'⟩ := L'
  obtain ⟨h1, h2, h3, h4, h5, h6, h7⟩ := hs
  dsimp only at h1 h2 h3 h4 h5 h6 h7
  subst h1 h2 h3 h4 h5 h6 h7
  rfl

theorem same_lsq {L L' : PwLayer ℝ} (hs : SameSizes L L') (B : ℕ) (x t : Tensor ℝ) : L'.lsq B x t = L.lsq B x t := by
  rw [eq_withW hs]
  rfl

theorem same_wIdx {L L' : PwLayer ℝ} (hs : SameSizes L L') : L'.wIdx = L.wIdx := by
  rw [eq_withW hs]
  rfl

theorem same_lsqGrad {L L' : PwLayer ℝ} (hs : SameSizes L L') (B : ℕ) (x t : Tensor ℝ) : L'.lsqGrad B x t = L.lsqGrad B x t := by
  rw [eq_withW hs]
  rfl

theorem weightDist_eq {L : PwLayer ℝ} (h : L.WF) (L' L'' : PwLayer ℝ) (h1 : SameSizes L L') (h1' : L'.WF) (h2 : SameSizes L L'') (h2' : L''.WF) :
    weightDist L' L'' = sqNorm L.wIdx fun j => L'.wVec j - L''.wVec j := by
  have a1 : L'.w.shape = [L.outFeatures, L.inFeatures, wSize L.cls L.n L.segments] := by rw [h1'.w_shape, h1.outF, h1.inF, h1.cls, h1.n, h1.segments]
  have a2 : L''.w.shape = [L.outFeatures, L.inFeatures, wSize L.cls L.n L.segments] := by rw [h2'.w_shape, h2.outF, h2.inF, h2.cls, h2.n, h2.segments]
  unfold weightDist sqNorm wIdx wVec Tensor.get
  rw [a1, a2]
  generalize wSize L.cls L.n L.segments = R
  rw [Finset.sum_product, show numel [L.outFeatures, L.inFeatures, R] = L.outFeatures * (L.inFeatures * R) by simp [numel], sum_range_mul_add]
  refine Finset.sum_congr rfl fun o ho => ?_
  rw [Finset.sum_product, sum_range_mul_add]
  refine Finset.sum_congr rfl fun i hi => Finset.sum_congr rfl fun q hq => ?_
  have e : o * (L.inFeatures * R) + (i * R + q) = ravel [L.outFeatures, L.inFeatures, R] [o, i, q] := by simp [ravel, numel]
  rw [e]

/-- One step. -/
theorem gdStep_eq (L : PwLayer ℝ) (h : L.WF) (hc : L.cls = .continuous ∨ L.cls = .discontinuous) (lr : ℝ) {x t : Tensor ℝ} {B : ℕ} (hx : x.shape = [B, L.inFeatures]) (hwf : x.WF) :
    ∃ L', L.gdStep lr x t = .ok L' ∧ SameSizes L L' ∧ L'.WF ∧ ∀ j ∈ L.wIdx, L'.wVec j = L.wVec j - lr * L.lsqGrad B x t L.wVec j := by
  obtain ⟨y, hy⟩ : ∃ y, L.forward x = .ok y := ⟨_, L.forward_pred h hc hx hwf⟩
  refine ⟨{ L with w := Tensor.tabulate L.w.shape fun idx => L.w.get idx - lr * (L.weightGrad x (mseGrad y t)).get idx }, ?_, ⟨rfl, rfl, rfl, rfl, rfl, rfl, rfl⟩, ?_, fun j hj => ?_⟩
  · unfold gdStep
    rw [hy]
    rfl
  · exact h.withW rfl (Tensor.wf_tabulate _ _)
  · obtain ⟨h1, h2, h3⟩ := mem_wIdx.1 hj
    have e := Tensor.get_tabulate (f := fun idx => L.w.get idx - lr * (L.weightGrad x (mseGrad y t)).get idx) (s := L.w.shape) (idx := [j.1, j.2.1, j.2.2])
      (by rw [h.w_shape]; exact inShape3.2 ⟨h1, h2, h3⟩)
    unfold wVec
    dsimp only
    rw [e, L.grad_eq h hc hx hwf hy h1 h2 h3]
    rfl

theorem xIn_local (L : PwLayer ℝ) (h : L.WF) (hl : L.length = 2) {v : ℝ} (hv : |periodize L.periodicity v| ≤ 1) : |L.xIn v| ≤ 1 := by
  obtain ⟨h1, h2⟩ := abs_le.1 hv
  have hact := L.isActive_seg h.seg_pos hl v
  obtain ⟨-, -, b3, b4⟩ := isActive_bounds hact h1 h2
  unfold xIn
  rw [L.whichSegment_eq_seg h.seg_pos, L.xLocal_real h.seg_pos hl]
  exact abs_le.2 ⟨b3, b4⟩

theorem feat_sq (L : PwLayer ℝ) (h : L.WF) (hl : L.length = 2) {v : ℝ} (hv : |periodize L.periodicity v| ≤ 1) :
    ∑ r ∈ Finset.range (wSize L.cls L.n L.segments), L.feat v r ^ 2 ≤ sqBound L.n := by
  have e : ∀ r, L.feat v r ^ 2 = ∑ k ∈ Finset.range L.n, if L.seg v * L.stride + k = r then cardinal L.n k (L.xIn v) ^ 2 else 0 := by
    intro r
    unfold feat
    by_cases hr : ∃ k ∈ Finset.range L.n, L.seg v * L.stride + k = r
    · obtain ⟨k, hk, rfl⟩ := hr
      rw [Finset.sum_eq_single_of_mem k hk (fun k' _ hne => if_neg (by omega)), Finset.sum_eq_single_of_mem k hk (fun k' _ hne => if_neg (by omega)), if_pos rfl, if_pos rfl,
        cardinal_call (Finset.mem_range.1 hk)]
    · push Not at hr
      rw [Finset.sum_eq_zero fun k hk => if_neg (hr k hk), Finset.sum_eq_zero fun k hk => if_neg (hr k hk)]
      norm_num
  simp only [e]
  rw [Finset.sum_comm]
  refine le_trans (le_of_eq ?_) (cardinal_sqBound L.n (L.xIn_local h hl hv))
  refine Finset.sum_congr rfl fun k hk => ?_
  rw [Finset.sum_eq_single_of_mem _ (Finset.mem_range.2 (L.widx_lt h.n_pos (L.seg_lt h.seg_pos _) (Finset.mem_range.1 hk))) (fun r _ hne => if_neg (fun e => hne e.symm)), if_pos rfl]

theorem sqBound_pos (n : ℕ) : 0 < sqBound n := by
  unfold sqBound
  split <;> norm_num

/-- The layer does not stretch changes of the weights by more than `sqBound n * inFeatures * B`. -/
theorem design_bound (L : PwLayer ℝ) (h : L.WF) (hl : L.length = 2) {x : Tensor ℝ} {B : ℕ}
    (hin : ∀ b < B, ∀ i < L.inFeatures, |periodize L.periodicity (x.get [b, i])| ≤ 1) (v : ℕ × ℕ × ℕ → ℝ) :
    ∑ m ∈ L.yIdx B, pred L.wIdx (L.design x) v m ^ 2 ≤ (sqBound L.n * L.inFeatures * B) * sqNorm L.wIdx v := by
  have one : ∀ b ∈ Finset.range B, ∑ o ∈ Finset.range L.outFeatures, pred L.wIdx (L.design x) v (b, o) ^ 2 ≤ (sqBound L.n * L.inFeatures) * sqNorm L.wIdx v := by
    intro b hb
    have : sqNorm L.wIdx v = ∑ o ∈ Finset.range L.outFeatures, ∑ i ∈ Finset.range L.inFeatures, ∑ r ∈ Finset.range (wSize L.cls L.n L.segments), v (o, i, r) ^ 2 := by
      unfold sqNorm wIdx
      rw [Finset.sum_product]
      exact Finset.sum_congr rfl fun o _ => Finset.sum_product _ _ _
    rw [this, Finset.mul_sum]
    refine Finset.sum_le_sum fun o ho => ?_
    rw [L.pred_eq x v b (Finset.mem_range.1 ho)]
    have hf := fun i (hi : i ∈ Finset.range L.inFeatures) => L.feat_sq h hl (hin b (Finset.mem_range.1 hb) i (Finset.mem_range.1 hi))
    generalize Finset.range (wSize L.cls L.n L.segments) = R at hf ⊢
    have e1 : ∑ i ∈ Finset.range L.inFeatures, ∑ r ∈ R, L.feat (x.get [b, i]) r * v (o, i, r)
        = ∑ p ∈ Finset.range L.inFeatures ×ˢ R, L.feat (x.get [b, p.1]) p.2 * v (o, p.1, p.2) :=
      (Finset.sum_product _ _ fun p : ℕ × ℕ => L.feat (x.get [b, p.1]) p.2 * v (o, p.1, p.2)).symm
    have e2 : ∑ i ∈ Finset.range L.inFeatures, ∑ r ∈ R, v (o, i, r) ^ 2 = ∑ p ∈ Finset.range L.inFeatures ×ˢ R, v (o, p.1, p.2) ^ 2 :=
      (Finset.sum_product _ _ fun p : ℕ × ℕ => v (o, p.1, p.2) ^ 2).symm
    have e3 : ∑ p ∈ Finset.range L.inFeatures ×ˢ R, L.feat (x.get [b, p.1]) p.2 ^ 2 = ∑ i ∈ Finset.range L.inFeatures, ∑ r ∈ R, L.feat (x.get [b, i]) r ^ 2 := Finset.sum_product _ _ _
    have cs := Finset.sum_mul_sq_le_sq_mul_sq (Finset.range L.inFeatures ×ˢ R) (fun p => L.feat (x.get [b, p.1]) p.2) (fun p => v (o, p.1, p.2))
    rw [e1, e2]
    refine le_trans cs ?_
    refine mul_le_mul_of_nonneg_right ?_ (Finset.sum_nonneg fun _ _ => sq_nonneg _)
    rw [e3]
    refine le_trans (Finset.sum_le_sum hf) ?_
    rw [Finset.sum_const, Finset.card_range, nsmul_eq_mul, mul_comm]
  unfold yIdx
  rw [Finset.sum_product]
  refine le_trans (Finset.sum_le_sum one) ?_
  rw [Finset.sum_const, Finset.card_range, nsmul_eq_mul]
  exact le_of_eq (by ring)

theorem scale_bound (L : PwLayer ℝ) (h : L.WF) {B : ℕ} (hB : 0 < B) : L.scale B * (sqBound L.n * L.inFeatures * B) = sqBound L.n * L.inFeatures / L.outFeatures := by
  have hO : (0 : ℝ) < L.outFeatures := by exact_mod_cast h.out_pos
  have hB' : (0 : ℝ) < B := by exact_mod_cast hB
  unfold scale
  field_simp

end PwLayer
end HOL
