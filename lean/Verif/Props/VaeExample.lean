import Verif.Model.VaeExample
import Verif.Props.BatchNormPooling
import Verif.Lemmas.Width

/-! # C109: the variational autoencoder example -/

namespace HOL
open TorchScalar Spec

theorem vaeEncoder_fine (training : Bool) {n segments : ℕ} (hn : 1 ≤ n) (hs : 1 ≤ segments) (p : Option ℝ) :
    (vaeEncoderArgs training n segments p).Fine (vaeEncoderArgs training n segments p).kernelSize.length .two (fun _ => .piecewise true .two) 3 := by
  refine ⟨by decide, rfl, ?_, ?_, ?_, ?_, ?_, ?_, ?_⟩
  all_goals intro i hi
  all_goals interval_cases i
  all_goals first
    | exact ⟨"continuous2d", rfl, rfl⟩
    | exact ⟨rfl, by simp⟩
    | simp [vaeEncoderArgs, ConvNetArgs.chan, ConvNetArgs.kern, ConvNetArgs.step, ConvNetArgs.lists, OneOrMany.toList, hn, hs]

theorem vaeDecoder_fine (training : Bool) {n segments : ℕ} (hn : 1 ≤ n) (hs : 1 ≤ segments) (p : Option ℝ) : (vaeDecoderArgs training n segments p).FineT 4 := by
  refine ⟨by decide, rfl, ?_, ?_, ?_, ?_, ?_, ?_⟩
  all_goals intro i hi
  all_goals interval_cases i
  all_goals first
    | rfl
    | simp [vaeDecoderArgs, ConvNetArgs.chan, ConvNetArgs.kern, ConvNetArgs.step, ConvNetArgs.lists, OneOrMany.toList, hn, hs]

/-- The encoder with other weights and normalizations (as after training), in training or evaluation mode. -/
noncomputable def encoderWith (E : FCN ℝ) (Ls : ℕ → ConvLayer ℝ) (Ws : ℕ → Tensor ℝ) (bn : ℕ → BatchNorm ℝ) (training : Bool) : FCN ℝ :=
  { E with stages := stagesOf 3 (fun i => { Ls i with weight := Ws i }) (some fun i => (bn i).call2 training) }

/-- The decoder with other weights and normalizations. -/
noncomputable def decoderWith (D : Deconv ℝ) (Ls : ℕ → ConvLayer ℝ) (Ws : ℕ → Tensor ℝ) (bn : ℕ → BatchNorm ℝ) (training : Bool) : Deconv ℝ :=
  { D with stages := stagesOf 4 (fun i => { Ls i with weight := Ws i }) (some fun i => (bn i).call2 training) }

/-- `decode` calls the decoder on a batch of one pixel images. -/
theorem VAE.decode_eq {latent inC outSize : ℕ} (hc : 1 ≤ inC) (enc dec : Fwd ℝ) (mu var dw : LinearDraw ℝ) {z : Tensor ℝ} {B : ℕ} (hz : z.shape = [B, latent]) :
    ∃ v : Tensor ℝ, v.WF ∧ v.shape = [B, inC, 1, 1] ∧ (VAE.init latent enc outSize dec inC mu var dw).decode z = dec v := by
  unfold VAE.decode
  obtain ⟨y, e1, e2, e3⟩ := linear_shape (w := (VAE.init latent enc outSize dec inC mu var dw).decWeight) (b := (VAE.init latent enc outSize dec inC mu var dw).decBias)
    (O := inC) rfl hz
  simp only [e1, bind, Except.bind]
  have hnum : numel [inC, 1, 1] = inC := by simp [numel]
  have hny : numel y.shape = B * inC := by rw [e3]; simp [numel]
  have hv : viewFirst [(VAE.init latent enc outSize dec inC mu var dw).inChannels, 1, 1] y = .ok (y.reshape [B, inC, 1, 1]) := by
    unfold viewFirst
    rw [show (VAE.init latent enc outSize dec inC mu var dw).inChannels = inC from rfl, hnum, hny, if_neg (by omega), if_pos (Nat.mul_mod_left _ _),
      Nat.mul_div_cancel _ (by omega)]
  rw [hv]
  exact ⟨_, Tensor.wf_reshape e2 (by rw [hny]; simp [numel]), rfl, rfl⟩

/-- **C109 (training mode).** The network of the example can be built for every order and number of segments, and whatever its weights have become: on every batch of `32 × 32` images a
training step computes a loss. In training mode

* the means over the batch of `mu` and of `log_var` do not depend on the images, and single images all have the same `mu` and `log_var`,
* every channel of the reconstructions, and of the samples shown after an epoch, has the mean `bias` of the last normalization of the decoder, so the loss is at least the mean of the squared differences between
  those biases and the channel means of the batch. -/
theorem C109_training {n segments : ℕ} (hn : 1 ≤ n) (hs : 1 ≤ segments) (p : Option ℝ) (rE rD : ℕ → ConvRng ℝ) :
    ∃ (E : FCN ℝ) (Le : ℕ → ConvLayer ℝ) (D : Deconv ℝ) (Ld : ℕ → ConvLayer ℝ),
      FCN.init (vaeEncoderArgs true n segments p) rE = .ok E ∧ E = encoderWith E Le (fun i => (Le i).weight) (fun _ => BatchNorm.new defaultEps) true ∧
      Deconv.init (vaeDecoderArgs true n segments p) rD = .ok D ∧ D = decoderWith D Ld (fun i => (Ld i).weight) (fun _ => BatchNorm.new defaultEps) true ∧
      ∀ (We Wd : ℕ → Tensor ℝ) (be bd : ℕ → BatchNorm ℝ) (mu var dw : VAE.LinearDraw ℝ), (∀ i < 3, (We i).shape = (Le i).weight.shape) → (∀ i < 4, (Wd i).shape = (Ld i).weight.shape) →
      ∃ V, vaeNet (encoderWith E Le We be true) (decoderWith D Ld Wd bd true) mu var dw = .ok V ∧
        (∀ (B : ℕ) (x eps : Tensor ℝ), 1 ≤ B → x.WF → x.shape = [B, 3, 32, 32] → eps.WF → eps.shape = [B, 128] →
          ∃ out m l L, V.forward x eps = .ok (out, x, m, l) ∧ vaeEvalStep V x eps = .ok L ∧ out.shape = [B, 3, 32, 32] ∧ m.shape = [B, 128] ∧ l.shape = [B, 128] ∧
            (∀ j < 128, (∑ b ∈ Finset.range B, m.get [b, j]) / B = (∑ o ∈ Finset.range 128, mu.weight j o * (be 2).bias o) + mu.bias j ∧
              (∑ b ∈ Finset.range B, l.get [b, j]) / B = (∑ o ∈ Finset.range 128, var.weight j o * (be 2).bias o) + var.bias j) ∧
            (∀ o < 3, imageMean out B 32 32 o = (bd 3).bias o) ∧
            (∑ o ∈ Finset.range 3, ((bd 3).bias o - imageMean x B 32 32 o) ^ 2) / 3 ≤ L.reconstruction ∧ L.reconstruction ≤ L.loss ∧ L.kld ≤ 0 ∧ L.loss = L.reconstruction + 256 / 10000000 * -L.kld) ∧
        (∀ x x' : Tensor ℝ, x.WF → x'.WF → x.shape = [1, 3, 32, 32] → x'.shape = [1, 3, 32, 32] → V.encode x = V.encode x') ∧
        (∀ (num : ℕ) (z : Tensor ℝ), 1 ≤ num → z.shape = [num, 128] → ∃ out, V.sample z = .ok out ∧ out.shape = [num, 3, 32, 32] ∧ ∀ o < 3, imageMean out num 32 32 o = (bd 3).bias o) := by
  obtain ⟨E, Le, e1, e2, e3⟩ := C108_pooled (vaeEncoder_fine true hn hs p) rfl (bn₀ := fun _ _ => BatchNorm.new defaultEps) rfl rE
  obtain ⟨D, Ld, d1, d2, d3⟩ := C108_decoder (vaeDecoder_fine true hn hs p) (bn₀ := fun _ _ => BatchNorm.new defaultEps) rfl rD
  have dc : D.inChannels = 128 := by
    obtain ⟨⟨N, -, k1, k2, -⟩, -⟩ := C74_deconvolution (vaeDecoder_fine true hn hs p) rD
    rw [d1] at k1
    cases k1
    exact k2
  have ec : E.outputSize = .ok 128 := by
    obtain ⟨N, -, k1, -, k2, -⟩ := C56_fully_convolutional (vaeEncoder_fine true hn hs p) (show 1 ≤ 128 by norm_num) rE
    rw [e1] at k1
    cases k1
    exact k2
  refine ⟨E, Le, D, Ld, e1, ?_, d1, ?_, ?_⟩
  · cases E
    simp only at e2
    unfold encoderWith
    rw [e2]
    rfl
  · cases D
    simp only at d2
    unfold decoderWith
    rw [d2]
    rfl
  intro We Wd be bd mu var dw hWe hWd
  have wid : ∀ i, (vaeEncoderArgs true n segments p).widthAt (vaeEncoderArgs true n segments p).kernelSize.length 32 i = (vaeEncoderArgs true 1 1 (none : Option ℝ)).widthAt 3 32 i := by
    intro i
    induction i with
    | zero => rfl
    | succ i ih => rw [ConvNetArgs.widthAt, ih]; rfl
  have gro : ∀ i, (vaeDecoderArgs true n segments p).growthAt (4 + 1) 1 i = (vaeDecoderArgs true 1 1 (none : Option ℝ)).growthAt 5 1 i := by
    intro i
    induction i with
    | zero => rfl
    | succ i ih => rw [ConvNetArgs.growthAt, ih]; rfl
  have enc : ∀ (B : ℕ) (x : Tensor ℝ), x.WF → x.shape = [B, 3, 32, 32] →
      (∃ out, (encoderWith E Le We be true).forward x = .ok out ∧ out.WF ∧ out.shape = [B, 128] ∧ (1 ≤ B → ∀ o < 128, (∑ b ∈ Finset.range B, out.get [b, o]) / B = (be 2).bias o)) ∧
      (B = 1 → (encoderWith E Le We be true).forward x = .ok (Tensor.tab2 1 128 fun _ o => (be 2).bias o)) := by
    intro B x hx hxs
    have hk0 : ∀ i < 3, (vaeEncoderArgs true 1 1 (none : Option ℝ)).kern i ≤ (vaeEncoderArgs true 1 1 (none : Option ℝ)).widthAt 3 32 i + 2 * (vaeEncoderArgs true 1 1 (none : Option ℝ)).padding := by
      decide
    have hk : ∀ i < 3, (vaeEncoderArgs true n segments p).kern i ≤ (vaeEncoderArgs true n segments p).widthAt (vaeEncoderArgs true n segments p).kernelSize.length 32 i
        + 2 * (vaeEncoderArgs true n segments p).padding := by
      intro i hi
      rw [wid]
      exact hk0 i hi
    have := (e3 We be hWe B 32 32 x hx hxs hk hk).1 (by
      intro i hi h
      rw [wid] at h
      have h4 : 4 ≤ (vaeEncoderArgs true 1 1 (none : Option ℝ)).widthAt 3 32 (i + 1) := by interval_cases i <;> decide
      have := Nat.eq_one_of_mul_eq_one_left h
      omega)
    exact this
  have dec : ∀ (B : ℕ) (x : Tensor ℝ), x.WF → x.shape = [B, 128, 1, 1] → ∃ y, (decoderWith D Ld Wd bd true).forward x = .ok y ∧ y.WF ∧ y.shape = [B, 3, 32, 32] ∧
      (1 ≤ B → ∀ o < 3, imageMean y B 32 32 o = (bd 3).bias o) := by
    intro B x hx hxs
    have hk0 : ∀ i < 4, 1 ≤ (vaeDecoderArgs true 1 1 (none : Option ℝ)).growthAt 5 1 i ∧ 2 * (vaeDecoderArgs true 1 1 (none : Option ℝ)).padding <
        ((vaeDecoderArgs true 1 1 (none : Option ℝ)).growthAt 5 1 i - 1) * (vaeDecoderArgs true 1 1 (none : Option ℝ)).step 5 i + (vaeDecoderArgs true 1 1 (none : Option ℝ)).kern i := by
      decide
    have hk : ∀ i < 4, 1 ≤ (vaeDecoderArgs true n segments p).growthAt (4 + 1) 1 i ∧ 2 * (vaeDecoderArgs true n segments p).padding <
        ((vaeDecoderArgs true n segments p).growthAt (4 + 1) 1 i - 1) * (vaeDecoderArgs true n segments p).step (4 + 1) i + (vaeDecoderArgs true n segments p).kern i := by
      intro i hi
      rw [gro]
      exact hk0 i hi
    have := (d3 Wd bd hWd B 1 1 x hx hxs hk hk).1 (by
      intro i hi h
      rw [gro] at h
      have h4 : 3 ≤ (vaeDecoderArgs true 1 1 (none : Option ℝ)).growthAt 5 1 (i + 1) := by interval_cases i <;> decide
      have := Nat.eq_one_of_mul_eq_one_left h
      omega)
    rw [gro, show (vaeDecoderArgs true 1 1 (none : Option ℝ)).growthAt 5 1 4 = 32 by decide] at this
    exact this
  have hV : vaeNet (encoderWith E Le We be true) (decoderWith D Ld Wd bd true) mu var dw
      = .ok (VAE.init 128 (encoderWith E Le We be true).forward 128 (decoderWith D Ld Wd bd true).forward 128 mu var dw) := by
    unfold vaeNet
    rw [show (encoderWith E Le We be true).outputSize = .ok 128 from ec, show (decoderWith D Ld Wd bd true).inChannels = 128 from dc]
    rfl
  refine ⟨_, hV, ?_, ?_, ?_⟩
  · intro B x eps hB hx hxs heps heps'
    obtain ⟨⟨out₀, q1, q2, q3, q4⟩, -⟩ := enc B x hx hxs
    have lat := (C108_latent (V := VAE.init 128 (encoderWith E Le We be true).forward 128 (decoderWith D Ld Wd bd true).forward 128 mu var dw) (C := 128) rfl rfl
      (β := fun o => (be 2).bias o)).1 B x out₀ hB (by norm_num) q1 q2 q3 (q4 hB)
    obtain ⟨m, l, m1, m2, m3, m4⟩ := lat
    have hrep : ∃ z, VAE.reparameterize m l eps = .ok z ∧ z.shape = [B, 128] := by
      unfold VAE.reparameterize
      dsimp only
      rw [zipB_same _ heps' (show (l.map _).shape = [B, 128] from m3)]
      simp only [bind, Except.bind]
      rw [zipB_same _ (sh := [B, 128]) rfl m2]
      exact ⟨_, rfl, rfl⟩
    obtain ⟨z, hz, hzs⟩ := hrep
    obtain ⟨v, v1, v2, v3⟩ := VAE.decode_eq (outSize := 128) (inC := 128) (by norm_num) (encoderWith E Le We be true).forward (decoderWith D Ld Wd bd true).forward mu var dw hzs
    obtain ⟨out, y1, y2, y3, y4⟩ := dec B v v1 v2
    have hfw : (VAE.init 128 (encoderWith E Le We be true).forward 128 (decoderWith D Ld Wd bd true).forward 128 mu var dw).forward x eps = .ok (out, x, m, l) := by
      unfold VAE.forward
      simp only [m1, hz, v3, y1, bind, Except.bind]
    have hw : (0 : ℝ) ≤ vaeKldWeight := by unfold vaeKldWeight; positivity
    have hnum : 1 ≤ numel [B, 3, 32, 32] := by simp [numel]; omega
    obtain ⟨⟨L, k, L1, L2, L3, L4, L5, L6, L7, L8, -⟩, -⟩ := C68_loss y3 hxs y2 hx hnum hB m2 m3 hw
    refine ⟨out, m, l, L, hfw, ?_, y3, m2, m3, ?_, y4 hB, ?_, ?_, L8, by rw [L4, L5]; unfold vaeKldWeight; norm_num⟩
    · unfold vaeEvalStep
      rw [hfw]
      exact L1
    · intro j hj
      obtain ⟨a1, a2⟩ := m4 j hj
      have g2 : ∀ W : ℕ → ℕ → ℝ, ∑ o ∈ Finset.range 128, (Tensor.tab2 128 128 W).get [j, o] * (be 2).bias o = ∑ o ∈ Finset.range 128, W j o * (be 2).bias o := fun W =>
        Finset.sum_congr rfl fun o ho => by rw [Tensor.get_tab2 hj (Finset.mem_range.1 ho)]
      have g1 : ∀ b : ℕ → ℝ, (Tensor.tab1 128 b).get [j] = b j := fun b => Tensor.get_tab1 hj
      refine ⟨a1.trans ?_, a2.trans ?_⟩
      · exact congrArg₂ (· + ·) (g2 _) (g1 _)
      · exact congrArg₂ (· + ·) (g2 _) (g1 _)
    · obtain ⟨v', w1, w2⟩ := C108_reconstruction y3 hxs (by positivity) (by norm_num) (y4 hB)
      rw [mseLoss_eq y3 hxs] at w1
      cases w1
      rw [L3]
      exact_mod_cast w2
    · have := (C68_divergence hB m2 m3)
      obtain ⟨k', k1, -, k2, -⟩ := this
      rw [L2] at k1
      cases k1
      rw [L4]
      have := mul_nonneg hw k2
      linarith
  · intro x x' hx hx' hxs hxs'
    exact (C108_latent (V := VAE.init 128 (encoderWith E Le We be true).forward 128 (decoderWith D Ld Wd bd true).forward 128 mu var dw) rfl rfl).2 x x' ((enc 1 x hx hxs).2 rfl)
      ((enc 1 x' hx' hxs').2 rfl)
  · intro num z hnum hz
    obtain ⟨v, v1, v2, v3⟩ := VAE.decode_eq (outSize := 128) (inC := 128) (by norm_num) (encoderWith E Le We be true).forward (decoderWith D Ld Wd bd true).forward mu var dw hz
    obtain ⟨y, y1, -, y3, y4⟩ := dec num v v1 v2
    exact ⟨y, v3.trans y1, y3, y4 hnum⟩

theorem eval2_mapsShape (N : BatchNorm ℝ) (C H W : ℕ) : MapsShape N.eval2 [C, H, W] [C, H, W] := by
  intro B x _ hs
  unfold BatchNorm.eval2
  simp only [hs]
  exact ⟨_, rfl, Tensor.wf_tab4 _ _ _ _ _, rfl⟩

/-- When an image of size `H × W` can be compared with a reconstruction of size `32 × 32`. -/
theorem bcast_images (B H W : ℕ) :
    ((H = 1 ∨ H = 32) → (W = 1 ∨ W = 32) → bcastShape [B, 3, 32, 32] [B, 3, H, W] = .ok [B, 3, 32, 32]) ∧
    (¬ ((H = 1 ∨ H = 32) ∧ (W = 1 ∨ W = 32)) → bcastShape [B, 3, 32, 32] [B, 3, H, W] = .error .runtimeError) := by
  constructor
  · rintro (rfl | rfl) (rfl | rfl) <;> simp [bcastShape, bcastRev, bind, Except.bind]
  · intro h
    have err : ∀ w, ¬ (w = 1 ∨ w = 32) → bcast 32 w = .error .runtimeError := by
      intro w hw
      rcases bcast_cases 32 w with ⟨c, -, -, hc⟩ | ⟨hc, -⟩
      · omega
      · exact hc
    have ok : ∀ w, (w = 1 ∨ w = 32) → bcast 32 w = .ok 32 := by
      rintro w (rfl | rfl) <;> simp
    by_cases hW : W = 1 ∨ W = 32
    · have hH : ¬ (H = 1 ∨ H = 32) := fun hH => h ⟨hH, hW⟩
      simp [bcastShape, bcastRev, bind, Except.bind, ok W hW, err H hH]
    · simp [bcastShape, bcastRev, bind, Except.bind, err W hW]

/-- **C109 (evaluation mode).** In evaluation mode the network accepts images of every size `H × W`, and the reconstruction is always `32 × 32`. So a validation or test step computes a loss for
images of size `32 × 32`; sizes 1 are silently stretched; for all other sizes it is a RuntimeError. -/
theorem C109_evaluation {n segments : ℕ} (hn : 1 ≤ n) (hs : 1 ≤ segments) (p : Option ℝ) (rE rD : ℕ → ConvRng ℝ) :
    ∃ (E : FCN ℝ) (Le : ℕ → ConvLayer ℝ) (D : Deconv ℝ) (Ld : ℕ → ConvLayer ℝ),
      FCN.init (vaeEncoderArgs false n segments p) rE = .ok E ∧ Deconv.init (vaeDecoderArgs false n segments p) rD = .ok D ∧
      ∀ (We Wd : ℕ → Tensor ℝ) (be bd : ℕ → BatchNorm ℝ) (mu var dw : VAE.LinearDraw ℝ), (∀ i < 3, (We i).shape = (Le i).weight.shape) → (∀ i < 4, (Wd i).shape = (Ld i).weight.shape) →
      ∃ V, vaeNet (encoderWith E Le We be false) (decoderWith D Ld Wd bd false) mu var dw = .ok V ∧
        ∀ (B H W : ℕ) (x eps : Tensor ℝ), 1 ≤ H → 1 ≤ W → x.WF → x.shape = [B, 3, H, W] → eps.WF → eps.shape = [B, 128] →
          (∃ out m l, V.forward x eps = .ok (out, x, m, l) ∧ out.shape = [B, 3, 32, 32] ∧ m.shape = [B, 128] ∧ l.shape = [B, 128]) ∧
          ((H = 1 ∨ H = 32) → (W = 1 ∨ W = 32) → ∃ L, vaeEvalStep V x eps = .ok L) ∧
          (¬ ((H = 1 ∨ H = 32) ∧ (W = 1 ∨ W = 32)) → vaeEvalStep V x eps = .error .runtimeError) := by
  obtain ⟨E, Le, e1, -, ec, e4⟩ := C56_fully_convolutional (vaeEncoder_fine false hn hs p) (show 1 ≤ 128 by norm_num) rE
  obtain ⟨⟨D, Ld, d1, dc, -, d4⟩, -⟩ := C74_deconvolution (vaeDecoder_fine false hn hs p) rD
  refine ⟨E, Le, D, Ld, e1, d1, ?_⟩
  intro We Wd be bd mu var dw hWe hWd
  have gro : ∀ i, (vaeDecoderArgs false n segments p).growthAt (4 + 1) 1 i = (vaeDecoderArgs true 1 1 (none : Option ℝ)).growthAt 5 1 i := by
    intro i
    induction i with
    | zero => rfl
    | succ i ih => rw [ConvNetArgs.growthAt, ih]; rfl
  have enc : ∀ H W, 1 ≤ H → 1 ≤ W → MapsShape (encoderWith E Le We be false).forward [3, H, W] [128] := by
    intro H W hH hW B x hx hxs
    have hk : ∀ H, 1 ≤ H → ∀ i < 3, (vaeEncoderArgs false n segments p).kern i ≤ (vaeEncoderArgs false n segments p).widthAt (vaeEncoderArgs false n segments p).kernelSize.length H i
        + 2 * (vaeEncoderArgs false n segments p).padding := by
      intro H hH i hi
      have h1 : 1 ≤ (vaeEncoderArgs false n segments p).widthAt (vaeEncoderArgs false n segments p).kernelSize.length H i := by
        cases i with
        | zero => exact hH
        | succ i => exact widthAt_pos _ _ (by omega)
      have h3 : (vaeEncoderArgs false n segments p).kern i = 3 := by interval_cases i <;> rfl
      rw [h3]
      show 3 ≤ _ + 2 * 1
      omega
    obtain ⟨y, -, -, -, h5, -⟩ := e4 We (some fun i => (be i).call2 false) hWe B H W x hx hxs (hk H hH) (fun _ => hk W hW) (by
      rintro f ⟨rfl⟩ i hi
      exact (eval2_mapsShape (be i) _ _ _).keeps B)
    obtain ⟨out, h6, h7, h8, -⟩ := h5 rfl rfl
    exact ⟨out, h6, h7, h8⟩
  have dec : MapsShape (decoderWith D Ld Wd bd false).forward [128, 1, 1] [3, 32, 32] := by
    intro B x hx hxs
    have hk0 : ∀ i < 4, 1 ≤ (vaeDecoderArgs true 1 1 (none : Option ℝ)).growthAt 5 1 i ∧ 2 * (vaeDecoderArgs true 1 1 (none : Option ℝ)).padding <
        ((vaeDecoderArgs true 1 1 (none : Option ℝ)).growthAt 5 1 i - 1) * (vaeDecoderArgs true 1 1 (none : Option ℝ)).step 5 i + (vaeDecoderArgs true 1 1 (none : Option ℝ)).kern i := by
      decide
    have hk : ∀ i < 4, 1 ≤ (vaeDecoderArgs false n segments p).growthAt (4 + 1) 1 i ∧ 2 * (vaeDecoderArgs false n segments p).padding <
        ((vaeDecoderArgs false n segments p).growthAt (4 + 1) 1 i - 1) * (vaeDecoderArgs false n segments p).step (4 + 1) i + (vaeDecoderArgs false n segments p).kern i := by
      intro i hi
      rw [gro]
      exact hk0 i hi
    have := d4 Wd (some fun i => (bd i).call2 false) hWd B 1 1 x hx hxs hk hk (by
      rintro f ⟨rfl⟩ i hi
      exact (eval2_mapsShape (bd i) _ _ _).keeps B)
    rw [gro, show (vaeDecoderArgs true 1 1 (none : Option ℝ)).growthAt 5 1 4 = 32 by decide] at this
    exact this
  have hV : vaeNet (encoderWith E Le We be false) (decoderWith D Ld Wd bd false) mu var dw
      = .ok (VAE.init 128 (encoderWith E Le We be false).forward 128 (decoderWith D Ld Wd bd false).forward 128 mu var dw) := by
    unfold vaeNet
    rw [show (encoderWith E Le We be false).outputSize = .ok 128 from ec, show (decoderWith D Ld Wd bd false).inChannels = 128 from dc]
    rfl
  refine ⟨_, hV, ?_⟩
  intro B H W x eps hH hW hx hxs heps heps'
  obtain ⟨out, m, l, f1, f2, f3, f4, f5, -⟩ := (C75_shapes (outSize := 128) (by norm_num) (enc H W hH hW) dec mu var dw hx hxs).1 (by simp [numel]) eps heps heps'
  refine ⟨⟨out, m, l, f1, f3, f4, f5⟩, fun h1 h2 => ?_, fun h => ?_⟩
  · have hb := (bcast_images B H W).1 h1 h2
    unfold vaeEvalStep
    rw [f1]
    simp only [bind, Except.bind, VAE.lossFunction, VAE.mseLoss, zipB, f3, hxs, hb, kldLoss_eq f4 f5]
    exact ⟨_, rfl⟩
  · have hb := (bcast_images B H W).2 h
    unfold vaeEvalStep
    rw [f1]
    simp only [bind, Except.bind, VAE.lossFunction, VAE.mseLoss, zipB, f3, hxs, hb]

/-- **C109 (shown samples).** "UNDO DATA NORMALIZATION" uses other constants than the normalization of the data: a pixel of brightness `p` is shown with brightness `p` for exactly one `p` per channel; the
brightness from 0 to 1 is shown as less than 56 percent of it, black as more than 16 percent grey, white as less than 78 percent. -/
theorem C109_shown (c : Fin 3) :
    (∃! p : ℝ, vaeShown c (vaeNormalize p) = p) ∧ vaeShown c (vaeNormalize 0) ≠ (0 : ℝ) ∧
    ∀ p q : ℝ, 0 ≤ p → p ≤ 1 → 4 / 25 < vaeShown c (vaeNormalize p) ∧ vaeShown c (vaeNormalize p) < 39 / 50 ∧
      (p < q → 0 < vaeShown c (vaeNormalize q) - vaeShown c (vaeNormalize p) ∧ vaeShown c (vaeNormalize q) - vaeShown c (vaeNormalize p) < 14 / 25 * (q - p)) := by
  have lin : ∀ p : ℝ, ∀ s m : ℝ, (p - 1 / 2) / (1 / 2) * (s / 10 / 255) + m / 10 / 255 = (2 * s * p + (m - s)) / 2550 := by
    intro p s m
    ring
  have e : ∀ p : ℝ, vaeShown c (vaeNormalize p) = (2 * (![682, 654, 704] c : ℝ) * p + ((![1293, 1241, 1124] c : ℝ) - (![682, 654, 704] c : ℝ))) / 2550 := by
    intro p
    unfold vaeShown vaeNormalize
    rw [← lin]
    fin_cases c <;> norm_num
  simp only [e]
  refine ⟨⟨((![1293, 1241, 1124] c : ℝ) - (![682, 654, 704] c : ℝ)) / (2550 - 2 * (![682, 654, 704] c : ℝ)), ?_, ?_⟩, ?_, ?_⟩
  · fin_cases c <;> norm_num
  · intro y hy
    fin_cases c <;> norm_num at hy ⊢ <;> linarith
  · fin_cases c <;> norm_num
  · intro p q h0 h1
    fin_cases c <;> norm_num <;> (refine ⟨by linarith, by linarith, fun h => ⟨by linarith, by linarith⟩⟩)

/-! ## concrete checks -/

/-- The shipped configuration, in evaluation mode, on two black images: 32 × 32 works, 28 × 28 does not. -/
example (rE rD : ℕ → ConvRng ℝ) (mu var dw : VAE.LinearDraw ℝ) : ∃ (E : FCN ℝ) (D : Deconv ℝ) (Le Ld : ℕ → ConvLayer ℝ) (V : VAE ℝ),
    FCN.init (vaeEncoderArgs false 2 2 (some 2)) rE = .ok E ∧ Deconv.init (vaeDecoderArgs false 2 2 (some 2)) rD = .ok D ∧
    vaeNet (encoderWith E Le (fun i => (Le i).weight) (fun _ => BatchNorm.new defaultEps) false) (decoderWith D Ld (fun i => (Ld i).weight) (fun _ => BatchNorm.new defaultEps) false) mu var dw = .ok V ∧
    (∃ L, vaeEvalStep V (Tensor.tab4 2 3 32 32 fun _ _ _ _ => -1) (Tensor.tab2 2 128 fun _ _ => 0) = .ok L) ∧
    vaeEvalStep V (Tensor.tab4 2 3 28 28 fun _ _ _ _ => -1) (Tensor.tab2 2 128 fun _ _ => 0) = .error .runtimeError := by
  obtain ⟨E, Le, D, Ld, h1, h2, h3⟩ := C109_evaluation (n := 2) (segments := 2) (by norm_num) (by norm_num) (some 2) rE rD
  obtain ⟨V, h4, h5⟩ := h3 (fun i => (Le i).weight) (fun i => (Ld i).weight) (fun _ => BatchNorm.new defaultEps) (fun _ => BatchNorm.new defaultEps) mu var dw (fun _ _ => rfl) (fun _ _ => rfl)
  refine ⟨E, D, Le, Ld, V, h1, h2, h4, ?_, ?_⟩
  · exact (h5 2 32 32 _ _ (by norm_num) (by norm_num) (Tensor.wf_tab4 _ _ _ _ _) rfl (Tensor.wf_tab2 _ _ _) rfl).2.1 (.inr rfl) (.inr rfl)
  · exact (h5 2 28 28 _ _ (by norm_num) (by norm_num) (Tensor.wf_tab4 _ _ _ _ _) rfl (Tensor.wf_tab2 _ _ _) rfl).2.2 (by norm_num)

/-- Black, shown in the first channel. -/
example : vaeShown 0 (vaeNormalize (0 : ℝ)) = 611 / 2550 := by
  unfold vaeShown vaeNormalize
  norm_num

end HOL
