import Verif.Model.Autoencoder
import Verif.Lemmas.TensorOps
import Verif.Lemmas.Gaussian
import Verif.Props.ConvNet
import Verif.Props.Deconv

/-! # C68, C69, C75: the variational autoencoder and the evaluation steps -/

namespace HOL
open TorchScalar MeasureTheory ProbabilityTheory InformationTheory

/-! ## the divergence term -/

/-- The normal distribution with mean `m` and variance `exp l`. -/
noncomputable def latentLaw (m l : ℝ) : Measure ℝ := gaussianReal m (Real.exp l).toNNReal

theorem kldEntry_eq (m l : ℝ) : -(1 / 2) * VAE.kldEntry m l = (klDiv (latentLaw m l) (gaussianReal 0 1)).toReal := by
  have h : (Real.exp l).toNNReal ≠ 0 := by simp [Real.exp_pos]
  unfold latentLaw
  rw [klDiv_gaussian m h, Real.coe_toNNReal _ (Real.exp_pos l).le, Real.log_exp]
  simp only [VAE.kldEntry, exp_real]
  ring

theorem kldEntry_nonneg (m l : ℝ) : 0 ≤ -(1 / 2) * VAE.kldEntry m l := by
  have := Real.add_one_le_exp l
  simp only [VAE.kldEntry, exp_real]
  nlinarith [mul_self_nonneg m]

theorem kldEntry_zero (m l : ℝ) : -(1 / 2) * VAE.kldEntry m l = 0 ↔ m = 0 ∧ l = 0 := by
  constructor
  · intro h
    have h1 := Real.add_one_le_exp l
    simp only [VAE.kldEntry, exp_real] at h
    have h2 : m * m = 0 := by nlinarith [mul_self_nonneg m]
    refine ⟨mul_self_eq_zero.1 h2, ?_⟩
    by_contra hl
    have := Real.add_one_lt_exp hl
    nlinarith
  · rintro ⟨rfl, rfl⟩
    simp [VAE.kldEntry]

theorem kldLoss_eq {mu logVar : Tensor ℝ} {B D : ℕ} (h1 : mu.shape = [B, D]) (h2 : logVar.shape = [B, D]) :
    VAE.kldLoss mu logVar = .ok ((∑ b ∈ Finset.range B, ∑ j ∈ Finset.range D, -(1 / 2) * VAE.kldEntry (mu.get [b, j]) (logVar.get [b, j])) / B) := by
  unfold VAE.kldLoss
  rw [zipB_same _ h1 h2]
  simp only [bind, Except.bind, Tensor.shape_tabulate]
  congr 1
  rw [sumL_range]
  congr 1
  apply Finset.sum_congr rfl
  intro b hb
  rw [Finset.mem_range] at hb
  rw [sumL_range, Finset.mul_sum]
  apply Finset.sum_congr rfl
  intro j hj
  rw [Finset.mem_range] at hj
  have hin : InShape [B, D] [b, j] := ⟨hb, hj, trivial⟩
  rw [Tensor.get_tabulate hin]
  norm_num

/-- **C68 (divergence).** For a batch of at least one row, the divergence term is the mean over the rows of the summed Kullback-Leibler divergences of the normal
distributions with mean `mu` and variance `exp(log_var)` from the standard normal distribution. It is not negative, and zero exactly when all of `mu` and `log_var` are
zero. -/
theorem C68_divergence {mu logVar : Tensor ℝ} {B D : ℕ} (hB : 1 ≤ B) (h1 : mu.shape = [B, D]) (h2 : logVar.shape = [B, D]) :
    ∃ k, VAE.kldLoss mu logVar = .ok k ∧
      k = (∑ b ∈ Finset.range B, ∑ j ∈ Finset.range D,
        (klDiv (latentLaw (mu.get [b, j]) (logVar.get [b, j])) (gaussianReal 0 1)).toReal) / B ∧
      0 ≤ k ∧ (k = 0 ↔ ∀ b < B, ∀ j < D, mu.get [b, j] = 0 ∧ logVar.get [b, j] = 0) := by
  have hB' : (0 : ℝ) < B := by exact_mod_cast hB
  refine ⟨_, kldLoss_eq h1 h2, ?_, ?_, ?_⟩
  · simp only [kldEntry_eq]
  · exact div_nonneg (Finset.sum_nonneg fun b _ => Finset.sum_nonneg fun j _ => kldEntry_nonneg _ _) hB'.le
  · rw [div_eq_zero_iff, or_iff_left hB'.ne', Finset.sum_eq_zero_iff_of_nonneg fun b _ => Finset.sum_nonneg fun j _ => kldEntry_nonneg _ _]
    constructor
    · intro h b hb j hj
      have := (Finset.sum_eq_zero_iff_of_nonneg fun j _ => kldEntry_nonneg _ _).1 (h b (Finset.mem_range.2 hb)) j (Finset.mem_range.2 hj)
      exact (kldEntry_zero _ _).1 this
    · intro h b hb
      apply Finset.sum_eq_zero
      intro j hj
      exact (kldEntry_zero _ _).2 (h b (Finset.mem_range.1 hb) j (Finset.mem_range.1 hj))

/-- One row with `mu = (1, 0)` and `log_var = 0`: the divergence is `1/2`. -/
example : VAE.kldLoss (Tensor.tab2 1 2 fun _ j => if j = 0 then (1 : ℝ) else 0) (Tensor.tab2 1 2 fun _ _ => 0) = .ok (1 / 2) := by
  rw [kldLoss_eq (B := 1) (D := 2) rfl rfl]
  congr 1
  rw [Finset.sum_range_one, Finset.sum_range_succ, Finset.sum_range_one, Tensor.get_tab2 (by decide) (by decide), Tensor.get_tab2 (by decide) (by decide),
    Tensor.get_tab2 (by decide) (by decide), Tensor.get_tab2 (by decide) (by decide)]
  norm_num [VAE.kldEntry]

theorem mseLoss_eq {a b : Tensor ℝ} {sh : List ℕ} (ha : a.shape = sh) (hb : b.shape = sh) :
    VAE.mseLoss a b = .ok ((∑ q ∈ Finset.range (numel sh), (a.data.getD q 0 - b.data.getD q 0) ^ 2) / (numel sh : ℕ)) := by
  unfold VAE.mseLoss meanAll
  rw [zipB_same _ ha hb]
  simp only [bind, Except.bind, Tensor.length_data_tabulate]
  congr 2
  unfold Tensor.tabulate
  rw [sumL_range]
  apply Finset.sum_congr rfl
  intro q hq
  rw [Finset.mem_range] at hq
  unfold Tensor.get
  rw [ha, hb]
  beta_reduce
  rw [ravel_unravel hq]
  ring

/-- **C68 (loss).** `loss_function` of a reconstruction and an input of the same (nonempty) shape returns the mean squared error as `Reconstruction_Loss`, and as `loss` its
sum with `M_N` times the divergence. For `M_N ≥ 0` no term is negative; for `M_N > 0` the loss is zero exactly for a perfect reconstruction with all of `mu` and `log_var`
zero. The entry `KLD` of the returned dictionary is *minus* the divergence, so never positive. Without the keyword argument `M_N` the call is a KeyError. -/
theorem C68_loss {recons input mu logVar : Tensor ℝ} {sh : List ℕ} {B D : ℕ} (hr : recons.shape = sh) (hi : input.shape = sh) (hrw : recons.WF) (hiw : input.WF)
    (hsh : 1 ≤ numel sh) (hB : 1 ≤ B) (h1 : mu.shape = [B, D]) (h2 : logVar.shape = [B, D]) {w : ℝ} (hw : 0 ≤ w) :
    (∃ (L : VAE.Loss ℝ) (k : ℝ), VAE.lossFunction recons input mu logVar (some w) = .ok L ∧ VAE.kldLoss mu logVar = .ok k ∧
      L.reconstruction = (∑ q ∈ Finset.range (numel sh), (recons.data.getD q 0 - input.data.getD q 0) ^ 2) / (numel sh : ℕ) ∧
      L.loss = L.reconstruction + w * k ∧ L.kld = -k ∧ 0 ≤ L.reconstruction ∧ 0 ≤ L.loss ∧ L.kld ≤ 0 ∧
      (0 < w → (L.loss = 0 ↔ recons = input ∧ ∀ b < B, ∀ j < D, mu.get [b, j] = 0 ∧ logVar.get [b, j] = 0))) ∧
    VAE.lossFunction recons input mu logVar none = .error .keyError := by
  refine ⟨?_, rfl⟩
  obtain ⟨k, hk, -, hk0, hkz⟩ := C68_divergence hB h1 h2
  have hn : (0 : ℝ) < (numel sh : ℕ) := by exact_mod_cast hsh
  have hs : 0 ≤ (∑ q ∈ Finset.range (numel sh), (recons.data.getD q 0 - input.data.getD q 0) ^ 2) / (numel sh : ℕ) :=
    div_nonneg (Finset.sum_nonneg fun _ _ => sq_nonneg _) hn.le
  have hz : (∑ q ∈ Finset.range (numel sh), (recons.data.getD q 0 - input.data.getD q 0) ^ 2) / (numel sh : ℕ) = 0 ↔ recons = input := by
    rw [div_eq_zero_iff, or_iff_left hn.ne', Finset.sum_eq_zero_iff_of_nonneg fun _ _ => sq_nonneg _]
    constructor
    · intro h
      apply Tensor.ext_get hrw hiw (hr.trans hi.symm)
      intro idx hidx
      have := h (ravel sh idx) (Finset.mem_range.2 (ravel_lt (by rw [← hr]; exact hidx)))
      have := sub_eq_zero.1 (pow_eq_zero_iff (two_ne_zero) |>.1 this)
      unfold Tensor.get
      rw [hr, hi]
      exact this
    · rintro rfl q _
      simp
  refine ⟨⟨_, _, _⟩, k, ?_, hk, rfl, rfl, rfl, hs, add_nonneg hs (mul_nonneg hw hk0), neg_nonpos.2 hk0, ?_⟩
  · unfold VAE.lossFunction
    simp only [mseLoss_eq hr hi, hk, bind, Except.bind]
  · intro hw'
    have hwk := mul_nonneg hw hk0
    constructor
    · intro h
      have e1 : w * k = 0 := by dsimp only at h; linarith
      refine ⟨hz.1 (by dsimp only at h; linarith), hkz.1 ?_⟩
      rcases mul_eq_zero.1 e1 with h | h
      · exact absurd h hw'.ne'
      · exact h
    · rintro ⟨e1, e2⟩
      dsimp only
      rw [hz.2 e1, hkz.2 e2]
      ring

/-- A perfect reconstruction with `mu = 1`, `log_var = 0` and `M_N = 3`: the loss is `3/2`, the reported `KLD` is `-1/2`. -/
example : ∃ L : VAE.Loss ℝ, VAE.lossFunction (Tensor.tab1 4 fun _ => (5 : ℝ)) (Tensor.tab1 4 fun _ => 5) (Tensor.tab2 2 1 fun _ _ => 1) (Tensor.tab2 2 1 fun _ _ => 0) (some 3)
    = .ok L ∧ L.loss = 3 / 2 ∧ L.kld = -(1 / 2) := by
  obtain ⟨⟨L, k, e, ek, er, el, ekl, -⟩, -⟩ := C68_loss (recons := Tensor.tab1 4 fun _ => (5 : ℝ)) (input := Tensor.tab1 4 fun _ => 5)
    (mu := Tensor.tab2 2 1 fun _ _ => 1) (logVar := Tensor.tab2 2 1 fun _ _ => 0) (sh := [4]) (B := 2) (D := 1) rfl rfl (Tensor.wf_tab1 _ _) (Tensor.wf_tab1 _ _)
    (by decide) (by decide) rfl rfl (w := 3) (by norm_num)
  rw [kldLoss_eq (B := 2) (D := 1) rfl rfl] at ek
  have hk : k = 1 / 2 := by
    have := Except.ok.inj ek
    rw [← this, Finset.sum_range_succ, Finset.sum_range_one, Finset.sum_range_one, Finset.sum_range_one, Tensor.get_tab2 (by decide) (by decide),
      Tensor.get_tab2 (by decide) (by decide), Tensor.get_tab2 (by decide) (by decide), Tensor.get_tab2 (by decide) (by decide)]
    norm_num [VAE.kldEntry]
  have hr : L.reconstruction = 0 := by
    rw [er]
    simp
  refine ⟨L, e, ?_, ?_⟩
  · rw [el, hr, hk]; norm_num
  · rw [ekl, hk]

/-! ## sampling -/

/-- The matrix with the given entries. -/
noncomputable def matrixOf {B D : ℕ} (ω : Fin B × Fin D → ℝ) : Tensor ℝ :=
  Tensor.tab2 B D fun b j => if h : b < B ∧ j < D then ω (⟨b, h.1⟩, ⟨j, h.2⟩) else 0

theorem law_affine (m l : ℝ) : (gaussianReal 0 1).map (fun e => e * Real.exp (1 / 2 * l) + m) = latentLaw m l := by
  have h1 := gaussianReal_map_mul_const (μ := 0) (v := 1) (Real.exp (1 / 2 * l))
  have h2 := gaussianReal_map_add_const (μ := 0) (v := (Real.exp l).toNNReal) m
  have e : (fun e : ℝ => e * Real.exp (1 / 2 * l) + m) = (fun e => e + m) ∘ fun e => e * Real.exp (1 / 2 * l) := rfl
  rw [e, ← Measure.map_map (by fun_prop) (by fun_prop), h1]
  unfold latentLaw
  rw [mul_zero, mul_one]
  have hv : NNReal.mk (Real.exp (1 / 2 * l) ^ 2) (sq_nonneg _) = (Real.exp l).toNNReal := by
    apply NNReal.coe_injective
    rw [Real.coe_toNNReal _ (Real.exp_pos l).le, NNReal.coe_mk, ← Real.exp_nat_mul]
    congr 1
    push_cast
    ring
  rw [hv, h2, zero_add]

/-- **C75 (sampling).** When the entries drawn by `randn_like` are independent and standard normal, `reparameterize` returns a matrix with independent entries, entry
`(b, j)` being normal with mean `mu[b, j]` and variance `exp(log_var[b, j])`. (The draw zero gives `mu` itself.) -/
theorem C75_reparameterize {mu logVar : Tensor ℝ} {B D : ℕ} (h1 : mu.shape = [B, D]) (h2 : logVar.shape = [B, D]) (hw : logVar.WF) :
    ∃ z : (Fin B × Fin D → ℝ) → Tensor ℝ, (∀ ω, VAE.reparameterize mu logVar (matrixOf ω) = .ok (z ω)) ∧
      (∀ ω, (z ω).shape = [B, D] ∧ (z ω).WF) ∧
      (Measure.pi fun _ : Fin B × Fin D => gaussianReal 0 1).map (fun ω p => (z ω).get [p.1, p.2])
        = Measure.pi (fun p : Fin B × Fin D => latentLaw (mu.get [p.1, p.2]) (logVar.get [p.1, p.2])) ∧
      ∀ b < B, ∀ j < D, (z 0).get [b, j] = mu.get [b, j] := by
  have hm : ∀ f : ℝ → ℝ, (logVar.map f).shape = [B, D] := fun f => h2
  have key : ∀ ω : Fin B × Fin D → ℝ, VAE.reparameterize mu logVar (matrixOf ω) = .ok (Tensor.tabulate [B, D] fun idx =>
      (matrixOf ω).get idx * Real.exp (1 / 2 * logVar.get idx) + mu.get idx) := by
    intro ω
    unfold VAE.reparameterize
    dsimp only
    rw [zipB_same _ (sh := [B, D]) rfl (hm _)]
    simp only [bind, Except.bind]
    rw [zipB_same _ (sh := [B, D]) rfl h1]
    congr 1
    apply tabulate_congr
    intro idx hidx
    rw [Tensor.get_tabulate hidx, Tensor.get_map hw (by rw [h2]; exact hidx)]
    norm_num
  have ent : ∀ (ω : Fin B × Fin D → ℝ) (p : Fin B × Fin D), (Tensor.tabulate [B, D] fun idx =>
      (matrixOf ω).get idx * Real.exp (1 / 2 * logVar.get idx) + mu.get idx).get [p.1, p.2]
      = ω p * Real.exp (1 / 2 * logVar.get [p.1, p.2]) + mu.get [p.1, p.2] := by
    intro ω p
    have hin : InShape [B, D] [p.1.1, p.2.1] := ⟨p.1.2, p.2.2, trivial⟩
    rw [Tensor.get_tabulate hin]
    unfold matrixOf
    rw [Tensor.get_tab2 p.1.2 p.2.2, dif_pos ⟨p.1.2, p.2.2⟩]
  refine ⟨_, key, fun ω => ⟨rfl, Tensor.wf_tabulate _ _⟩, ?_, ?_⟩
  · simp only [ent]
    have := Measure.pi_map_pi (μ := fun _ : Fin B × Fin D => gaussianReal 0 1)
      (f := fun p e => e * Real.exp (1 / 2 * logVar.get [p.1, p.2]) + mu.get [p.1, p.2]) (fun p => by fun_prop)
    rw [this]
    congr 1
    funext p
    exact law_affine _ _
  · intro b hb j hj
    have := ent 0 (⟨b, hb⟩, ⟨j, hj⟩)
    dsimp only at this
    rw [this]
    simp

/-- The draw `2` with `mu = 3`, `log_var = 0` is `5`. -/
example : ∃ z, VAE.reparameterize (Tensor.tab2 1 1 fun _ _ => (3 : ℝ)) (Tensor.tab2 1 1 fun _ _ => 0) (Tensor.tab2 1 1 fun _ _ => 2) = .ok z ∧ z.get [0, 0] = 5 := by
  unfold VAE.reparameterize
  dsimp only
  rw [zipB_same _ (sh := [1, 1]) rfl rfl]
  simp only [bind, Except.bind]
  rw [zipB_same _ (sh := [1, 1]) rfl rfl]
  refine ⟨_, rfl, ?_⟩
  have hin : InShape [1, 1] [0, 0] := ⟨by decide, by decide, trivial⟩
  rw [Tensor.get_tabulate hin, Tensor.get_tabulate hin, Tensor.get_map (Tensor.wf_tab2 _ _ _) hin, Tensor.get_tab2 (by decide) (by decide),
    Tensor.get_tab2 (by decide) (by decide), Tensor.get_tab2 (by decide) (by decide)]
  norm_num

/-! ## shapes -/

section
set_option linter.unusedSectionVars false
variable {K : Type} [TorchScalar K]

theorem linear_shape {w b x : Tensor K} {B I O : ℕ} (hw : w.shape = [O, I]) (hx : x.shape = [B, I]) :
    ∃ y, linearForward w b x = .ok y ∧ y.WF ∧ y.shape = [B, O] := by
  unfold linearForward
  simp only [hx, hw, if_true]
  exact ⟨_, rfl, Tensor.wf_tab2 _ _ _, rfl⟩

theorem VAE.decode_ok {latent inC outSize : ℕ} (hc : 1 ≤ inC) {enc dec : Fwd K} {T : List ℕ} (hd : MapsShape dec [inC, 1, 1] T) (mu var dw : LinearDraw K)
    {z : Tensor K} {B : ℕ} (hz : z.shape = [B, latent]) :
    ∃ out, (VAE.init latent enc outSize dec inC mu var dw).decode z = .ok out ∧ out.WF ∧ out.shape = B :: T := by
  unfold VAE.decode
  obtain ⟨y, e1, e2, e3⟩ := linear_shape (w := (VAE.init latent enc outSize dec inC mu var dw).decWeight) (b := (VAE.init latent enc outSize dec inC mu var dw).decBias)
    (O := inC) rfl hz
  simp only [e1, bind, Except.bind]
  have hnum : numel [inC, 1, 1] = inC := by simp [numel]
  have hny : numel y.shape = B * inC := by rw [e3]; simp [numel]
  have hv : viewFirst [(VAE.init latent enc outSize dec inC mu var dw).inChannels, 1, 1] y = .ok (y.reshape [B, inC, 1, 1]) := by
    unfold viewFirst
    rw [show (VAE.init latent enc outSize dec inC mu var dw).inChannels = inC from rfl, hnum, hny, if_neg (by omega), if_pos (Nat.mul_mod_left _ _),
      Nat.mul_div_cancel _ (by omega)]
  rw [hv]
  exact hd B _ (Tensor.wf_reshape e2 (by rw [hny]; simp [numel])) rfl

/-- **C75 (shapes).** In every arithmetic: let the encoder take `[batch] + S` to `[batch] + S'`, and the decoder take `[batch, in_channels, 1, 1]` to `[batch] + T`. If the
sizes in `S'` multiply to `encoder.output_size`, `forward` of inputs `[batch] + S` returns the reconstruction of shape `[batch] + T`, the input itself, and `mu` and `log_var` of
shape `[batch, latent_dim]`; `generate` returns the reconstruction, and `sample` of `num` draws has shape `[num] + T`. Otherwise `encode` is a RuntimeError. -/
theorem C75_shapes {latent outSize inC : ℕ} (hc : 1 ≤ inC) {enc dec : Fwd K} {S T : List ℕ} {c : ℕ} {rest : List ℕ} (he : MapsShape enc S (c :: rest))
    (hd : MapsShape dec [inC, 1, 1] T) (mu var dw : VAE.LinearDraw K) {x : Tensor K} {B : ℕ} (hx : x.WF) (hxs : x.shape = B :: S) :
    (numel (c :: rest) = outSize → ∀ eps : Tensor K, eps.WF → eps.shape = [B, latent] →
      ∃ out m l, (VAE.init latent enc outSize dec inC mu var dw).forward x eps = .ok (out, x, m, l) ∧ out.WF ∧ out.shape = B :: T ∧
        m.shape = [B, latent] ∧ l.shape = [B, latent] ∧ (VAE.init latent enc outSize dec inC mu var dw).encode x = .ok (m, l) ∧
        (VAE.init latent enc outSize dec inC mu var dw).generate x eps = .ok out) ∧
    (∀ (num : ℕ) (z : Tensor K), z.shape = [num, latent] →
      ∃ out, (VAE.init latent enc outSize dec inC mu var dw).sample z = .ok out ∧ out.WF ∧ out.shape = num :: T) ∧
    (numel (c :: rest) ≠ outSize → (VAE.init latent enc outSize dec inC mu var dw).encode x = .error .runtimeError) := by
  obtain ⟨y, hy, hyw, hys⟩ := he B x hx hxs
  have hf : flatten1 y = .ok (y.reshape [B, numel (c :: rest)]) := by
    unfold flatten1
    rw [hys]
  refine ⟨?_, fun num z hz => VAE.decode_ok hc hd mu var dw hz, ?_⟩
  · intro hn eps hew hes
    obtain ⟨m, m1, m2, m3⟩ := linear_shape (w := (VAE.init latent enc outSize dec inC mu var dw).muWeight) (b := (VAE.init latent enc outSize dec inC mu var dw).muBias)
      (x := y.reshape [B, numel (c :: rest)]) (B := B) (I := outSize) (O := latent) rfl (by rw [← hn]; rfl)
    obtain ⟨l, l1, l2, l3⟩ := linear_shape (w := (VAE.init latent enc outSize dec inC mu var dw).varWeight) (b := (VAE.init latent enc outSize dec inC mu var dw).varBias)
      (x := y.reshape [B, numel (c :: rest)]) (B := B) (I := outSize) (O := latent) rfl (by rw [← hn]; rfl)
    have henc : (VAE.init latent enc outSize dec inC mu var dw).encode x = .ok (m, l) := by
      unfold VAE.encode
      simp only [show (VAE.init latent enc outSize dec inC mu var dw).encoder x = .ok y from hy, hf, m1, l1, bind, Except.bind]
    have hrep : ∃ z, VAE.reparameterize m l eps = .ok z ∧ z.shape = [B, latent] := by
      unfold VAE.reparameterize
      dsimp only
      rw [zipB_same _ hes (show (l.map _).shape = [B, latent] from l3)]
      simp only [bind, Except.bind]
      rw [zipB_same _ (sh := [B, latent]) rfl m3]
      exact ⟨_, rfl, rfl⟩
    obtain ⟨z, hz, hzs⟩ := hrep
    obtain ⟨out, o1, o2, o3⟩ := VAE.decode_ok (outSize := outSize) (enc := enc) hc hd mu var dw hzs
    have hfw : (VAE.init latent enc outSize dec inC mu var dw).forward x eps = .ok (out, x, m, l) := by
      unfold VAE.forward
      simp only [henc, hz, o1, bind, Except.bind]
    refine ⟨out, m, l, hfw, o2, o3, m3, l3, henc, ?_⟩
    unfold VAE.generate
    simp only [hfw, bind, Except.bind]
  · intro hn
    unfold VAE.encode
    simp only [show (VAE.init latent enc outSize dec inC mu var dw).encoder x = .ok y from hy, hf, bind, Except.bind]
    have : linearForward (VAE.init latent enc outSize dec inC mu var dw).muWeight (VAE.init latent enc outSize dec inC mu var dw).muBias
        (y.reshape [B, numel (c :: rest)]) = .error .runtimeError := by
      unfold linearForward
      simp only [Tensor.shape_reshape, show (VAE.init latent enc outSize dec inC mu var dw).muWeight.shape = [latent, outSize] from rfl]
      rw [if_neg hn]
    rw [this]

end

/-- A convolutional encoder of 9 × 9 images with three channels, and a deconvolutional decoder. -/
example (rand rand' : ℕ → ConvRng ℝ) (mu var dw : VAE.LinearDraw ℝ) : ∃ (E : FCN ℝ) (D : Deconv ℝ), FCN.init exFcn rand = .ok E ∧ Deconv.init exDeconv rand' = .ok D ∧
    ∀ x eps : Tensor ℝ, x.WF → x.shape = [7, 3, 9, 9] → eps.WF → eps.shape = [7, 11] →
      ∃ out m l, (VAE.init 11 E.forward 4 D.forward D.inChannels mu var dw).forward x eps = .ok (out, x, m, l) ∧ out.shape = [7, 3, 2, 2] ∧ m.shape = [7, 11] := by
  obtain ⟨E, Ls, h1, h2, h3, h4⟩ := C56_fully_convolutional (a := exFcn) exFcn_fine (by decide) rand
  obtain ⟨⟨D, Ms, g1, g2, g3, g4⟩, -⟩ := C74_deconvolution exDeconv_fine rand'
  refine ⟨E, D, h1, g1, fun x eps hx hxs hew hes => ?_⟩
  have w : ∀ i < 2, exFcn.kern i ≤ exFcn.widthAt 2 9 i + 2 * exFcn.padding := by decide
  have henc : MapsShape E.forward [3, 9, 9] [4] := by
    intro B x hx hs
    obtain ⟨y, -, -, -, h5, -⟩ := h4 (fun i => (Ls i).weight) none (fun _ _ => rfl) B 9 9 x hx hs w (fun _ => w) (by simp)
    obtain ⟨out, h6, h7, h8, -⟩ := h5 rfl rfl
    refine ⟨out, ?_, h7, h8⟩
    rw [← h6]
    congr 1
    cases E
    simp only [FCN.mk.injEq, and_true]
    exact h2
  have hdec : MapsShape D.forward [6, 1, 1] [3, 2, 2] := by
    intro B x hx hs
    obtain ⟨y, h5, h6, h7⟩ := g4 (fun i => (Ms i).weight) none (fun _ _ => rfl) B 1 1 x hx hs (by decide) (by decide) (by simp)
    refine ⟨y, ?_, h6, h7⟩
    rw [← h5]
    congr 1
    cases D
    simp only [Deconv.mk.injEq, and_true]
    exact g3
  rw [g2]
  obtain ⟨out, m, l, e1, -, e2, e3, -⟩ := (C75_shapes (latent := 11) (outSize := 4) (inC := 6) (by decide) henc hdec mu var dw hx hxs).1 rfl eps hew hes
  exact ⟨out, m, l, e1, e2, e3⟩

/-! ## evaluation steps -/

/-- The function picks a position of a largest entry. -/
def PicksMax (argmax : List ℝ → ℕ) : Prop := ∀ l : List ℝ, l ≠ [] → argmax l < l.length ∧ ∀ i < l.length, l.getD i 0 ≤ l.getD (argmax l) 0

/-- **C69 (accuracy).** Let the network return scores `[batch, classes]` for the inputs, and let the targets hold one class for each row, in any shape. The step returns the loss of
the scores and the flattened targets, and logs as accuracy the number of the rows whose predicted class is the target, divided by the number of rows; it lies between 0 and 1.
The predicted class of a row is a position of its largest score. -/
theorem C69_accuracy {model : Fwd ℝ} {loss : Tensor ℝ → List ℤ → Py ℝ} {argmax : List ℝ → ℕ} (ha : PicksMax argmax) {x s : Tensor ℝ} {y : Tensor ℤ} {B C : ℕ}
    (hB : 1 ≤ B) (hC : 1 ≤ C) (hm : model x = .ok s) (hs : s.shape = [B, C]) (hy : y.data.length = B) {v : ℝ} (hl : loss s y.data = .ok v) :
    ∃ (acc : ℝ) (pred : ℕ → ℕ), classificationStep model loss argmax x y = .ok (v, acc) ∧
      (∀ b < B, pred b < C ∧ ∀ j < C, s.get [b, j] ≤ s.get [b, pred b]) ∧
      acc = ((Finset.range B).filter fun b => (pred b : ℤ) = y.data.getD b 0).card / (B : ℝ) ∧ 0 ≤ acc ∧ acc ≤ 1 := by
  have hB' : (0 : ℝ) < B := by exact_mod_cast hB
  let row : ℕ → List ℝ := fun b => (List.range C).map fun j => s.get [b, j]
  have hsum : ∀ p : ℕ → Prop, ∀ _ : DecidablePred p, ∀ n : ℕ, (((List.range n).map fun b => if p b then 1 else 0 : List ℕ)).sum = ((Finset.range n).filter p).card := by
    intro p _ n
    induction n with
    | zero => simp
    | succ n ih =>
      rw [List.range_succ, List.map_append, List.sum_append, ih, Finset.range_add_one, Finset.filter_insert]
      by_cases hp : p n
      · simp [hp]
      · simp [hp]
  refine ⟨((Finset.range B).filter fun b => (argmax (row b) : ℤ) = y.data.getD b 0).card / (B : ℝ), fun b => argmax (row b), ?_, ?_, rfl, by positivity, ?_⟩
  · unfold classificationStep
    simp only [hm, hl, bind, Except.bind]
    have e1 : argmaxRows argmax s = .ok ((List.range B).map fun b => ((argmax (row b) : ℕ) : ℤ)) := by
      unfold argmaxRows
      simp only [hs]
      rw [if_neg (by omega)]
    have e2 : subInts ((List.range B).map fun b => ((argmax (row b) : ℕ) : ℤ)) y.data
        = .ok ((List.range B).map fun b => (argmax (row b) : ℤ) - y.data.getD b 0) := by
      unfold subInts
      simp only [List.length_map, List.length_range, hy, bcast_self, bind, Except.bind]
      congr 1
      apply List.map_congr_left
      intro b hb
      rw [List.mem_range] at hb
      rw [bidx_of_lt hb, List.getD_eq_getElem?_getD, List.getElem?_map, List.getElem?_range hb]
      rfl
    simp only [e1, e2, List.length_map, List.length_range]
    congr 3
    rw [List.map_map]
    have e3 := hsum (fun b => (argmax (row b) : ℤ) = y.data.getD b 0) inferInstance B
    rw [← e3]
    congr 2
    apply List.map_congr_left
    intro b _
    simp only [Function.comp, sub_eq_zero]
  · intro b _
    have hlen : (row b).length = C := by simp [row]
    have hne : row b ≠ [] := by
      intro h
      rw [h] at hlen
      simp at hlen
      omega
    obtain ⟨a1, a2⟩ := ha (row b) hne
    rw [hlen] at a1 a2
    have hget : ∀ j < C, (row b).getD j 0 = s.get [b, j] := by
      intro j hj
      simp only [row]
      rw [List.getD_eq_getElem?_getD, List.getElem?_map, List.getElem?_range hj]
      rfl
    refine ⟨a1, fun j hj => ?_⟩
    rw [← hget j hj, ← hget _ a1]
    exact a2 j hj
  · rw [div_le_one hB']
    exact_mod_cast (Finset.card_filter_le _ _).trans (by simp)

/-- The position of the first largest entry. -/
theorem exists_picksMax : ∃ argmax, PicksMax argmax := by
  have : ∀ l : List ℝ, ∃ a, l ≠ [] → a < l.length ∧ ∀ i < l.length, l.getD i 0 ≤ l.getD a 0 := by
    intro l
    by_cases h : l = []
    · exact ⟨0, fun h' => absurd h h'⟩
    · have hpos : 0 < l.length := List.length_pos_iff.2 h
      obtain ⟨a, ha, hm⟩ := Finset.exists_max_image (Finset.range l.length) (fun i => l.getD i 0) ⟨0, Finset.mem_range.2 hpos⟩
      exact ⟨a, fun _ => ⟨Finset.mem_range.1 ha, fun i hi => hm i (Finset.mem_range.2 hi)⟩⟩
  choose f hf using this
  exact ⟨f, hf⟩

/-- Scores `(1, 2)`, `(5, 3)` and `(0, 1)` with targets `1`, `1`, `1`: the accuracy is `2/3`. -/
example {argmax : List ℝ → ℕ} (ha : PicksMax argmax) :
    classificationStep (fun _ => .ok ⟨[3, 2], [1, 2, 5, 3, 0, 1]⟩) (fun _ _ => .ok 7) argmax ⟨[1], [0]⟩ ⟨[3, 1], [1, 1, 1]⟩ = .ok (7, (2 / 3 : ℝ)) := by
  obtain ⟨acc, pred, e1, e2, e3, -⟩ := C69_accuracy (model := fun _ => .ok ⟨[3, 2], [1, 2, 5, 3, 0, 1]⟩) (loss := fun _ _ => .ok 7) ha (x := ⟨[1], [0]⟩)
    (y := ⟨[3, 1], [1, 1, 1]⟩) (B := 3) (C := 2) (by decide) (by decide) rfl rfl rfl rfl
  rw [e1, e3]
  have p0 : pred 0 = 1 := by
    obtain ⟨a1, a2⟩ := e2 0 (by decide)
    have := a2 1 (by decide)
    interval_cases h : pred 0
    · norm_num [Tensor.get, ravel, numel] at this
    · rfl
  have p1 : pred 1 = 0 := by
    obtain ⟨a1, a2⟩ := e2 1 (by decide)
    have := a2 0 (by decide)
    interval_cases h : pred 1
    · rfl
    · norm_num [Tensor.get, ravel, numel] at this
  have p2 : pred 2 = 1 := by
    obtain ⟨a1, a2⟩ := e2 2 (by decide)
    have := a2 1 (by decide)
    interval_cases h : pred 2
    · norm_num [Tensor.get, ravel, numel] at this
    · rfl
  have : ((Finset.range 3).filter fun b => (pred b : ℤ) = ([1, 1, 1] : List ℤ).getD b 0) = {0, 2} := by
    ext b
    simp only [Finset.mem_filter, Finset.mem_range, Finset.mem_insert, Finset.mem_singleton]
    constructor
    · rintro ⟨h1, h2⟩
      interval_cases b <;> simp_all
    · rintro (rfl | rfl) <;> simp [p0, p2]
  rw [this]
  norm_num

/-- **C69 (regression).** The regression step is the loss of the flattened output and the flattened targets, whatever their shapes. -/
theorem C69_regression {K : Type} [TorchScalar K] {model : Fwd K} {loss : Tensor K → Tensor K → Py K} {x s y : Tensor K} (hm : model x = .ok s) :
    regressionStep model loss x y = loss ⟨[numel s.shape], s.data⟩ ⟨[numel y.shape], y.data⟩ := by
  unfold regressionStep
  simp only [hm, bind, Except.bind]
  rfl

/-- An output of shape `[2, 1]` is compared with targets of shape `[2]` entry by entry, not broadcast to a matrix. -/
example : regressionStep (fun _ => .ok ⟨[2, 1], [1, 2]⟩) VAE.mseLoss ⟨[1], [0]⟩ ⟨[2], [3, (5 : ℝ)]⟩ = .ok (13 / 2) := by
  rw [C69_regression (model := fun _ => .ok ⟨[2, 1], [1, 2]⟩) (s := ⟨[2, 1], [1, 2]⟩) rfl, mseLoss_eq (sh := [2]) rfl rfl]
  congr 1
  norm_num [numel, Finset.sum_range_succ]

end HOL
