import Verif.Props.Conv

/-! # C52: initial weights of the other convolutions -/

namespace HOL
open TorchScalar Spec

/-- **C52 (uniform initialization).** The 1d layers, `fourier2d` and the transposed layers do not use the constant initialization. A draw `r` from `[0, 1]`
becomes the weight `(2 r - 1) m` with `m = weight_magnitude / (channels · kernel²)` (also in one dimension, and whatever `rescale_output` is): weights lie between
`-m` and `m`, and draws `r` and `1 - r` give opposite weights. -/
theorem C52_uniform_initialization (cls : ConvClass) {a : ConvArgs ℝ} (hz : cls.channels a * a.geometry.kernel * a.geometry.kernel ≠ 0)
    (rand : ConvRng ℝ) :
    let k := a.geometry.kernel
    let m := a.weightMagnitude / (cls.channels a * k * k)
    (cls.rank = .one → cls ≠ .fourier .one → ∃ L, convInit cls a rand = .ok L ∧ L.weight.shape = [a.outChannels, cls.channels a, k] ∧
      ∀ o < a.outChannels, ∀ c < cls.channels a, ∀ u < k, L.weight.get [o, c, u] = (2 * rand o c u 0 - 1) * m) ∧
    (cls = .fourier .two → ∃ L, convInit cls a rand = .ok L ∧ L.weight.shape = [a.outChannels, cls.channels a, k, k] ∧
      ∀ o < a.outChannels, ∀ c < cls.channels a, ∀ u < k, ∀ v < k, L.weight.get [o, c, u, v] = (2 * rand o c u v - 1) * m) ∧
    (cls = .piecewise true .two → ∃ L, convTransposeInit a rand = .ok L ∧ L.weight.shape = [cls.channels a, a.outChannels, k, k] ∧
      ∀ c < cls.channels a, ∀ o < a.outChannels, ∀ u < k, ∀ v < k, L.weight.get [c, o, u, v] = (2 * rand c o u v - 1) * m) ∧
    (0 ≤ a.weightMagnitude → ∀ r, 0 ≤ r → r ≤ 1 → |(2 * r - 1) * m| ≤ m ∧ (2 * (1 - r) - 1) * m = -((2 * r - 1) * m)) := by
  intro k m
  have entry : ∀ r : ℝ, uniformEntry r a.weightMagnitude (cls.channels a * k * k) = (2 * r - 1) * m := by
    intro r
    unfold uniformEntry uniformBetween
    simp only [m, Nat.cast_mul]
    ring
  refine ⟨fun h1 h2 => ?_, fun h => ?_, fun h => ?_, fun hm r h0 h1 => ⟨?_, by ring⟩⟩
  · refine ⟨{ expander := cls.expander a, kind := .conv1d, geometry := a.geometry, periodicity := a.periodicity, rescale := convRescale a
              weight := Tensor.tab3 a.outChannels (cls.channels a) k fun o c u => uniformEntry (rand o c u 0) a.weightMagnitude (cls.channels a * k * k) },
      ?_, rfl, fun o ho c hc u hu => ?_⟩
    · match cls, h1, h2 with
      | .polynomial .one, _, _ => simp only [convInit]; rw [if_neg hz]
      | .piecewise _ .one, _, _ => simp only [convInit]; rw [if_neg hz]
      | .fourier .one, _, h => exact absurd rfl h
    · rw [Tensor.get_tab3 ho hc hu, entry]
  · subst h
    refine ⟨_, by simp only [convInit]; rw [if_neg hz], rfl, fun o ho c hc u hu v hv => ?_⟩
    rw [Tensor.get_tab4 ho hc hu hv]
    exact entry _
  · subst h
    refine ⟨_, by simp only [convTransposeInit]; rw [if_neg hz], rfl, fun c hc o ho u hu v hv => ?_⟩
    rw [Tensor.get_tab4 hc ho hu hv]
    exact entry _
  · have hm0 : 0 ≤ m := div_nonneg hm (by positivity)
    rw [abs_mul, abs_of_nonneg hm0]
    exact mul_le_of_le_one_left hm0 (abs_le.2 ⟨by linarith, by linarith⟩)

/-- `continuous1d` with 2 nodes, 1 segment, 1 input and 1 output channel and kernel 1. -/
noncomputable def exConv1 : ConvArgs ℝ :=
  { n := 2, segments := 1, inChannels := 1, outChannels := 1, length := 2, rescaleOutput := false, periodicity := none, weightMagnitude := 1
    geometry := { kernel := 1, stride := 1, padding := 0, dilation := 1, outputPadding := 0 } }

/-- It has 2 weights between `-1/2` and `1/2`; the draws 0 and 3/4 give `-1/2` and `1/4`. -/
example : ∃ L, convInit (.piecewise true .one) exConv1 (fun _ c _ _ => if c = 0 then (0 : ℝ) else 3 / 4) = .ok L ∧
    L.weight.get [0, 0, 0] = -1 / 2 ∧ L.weight.get [0, 1, 0] = 1 / 4 := by
  obtain ⟨L, h1, -, h2⟩ := (C52_uniform_initialization (.piecewise true .one) (a := exConv1) (by simp [ConvClass.channels, exConv1])
    (fun _ c _ _ => if c = 0 then (0 : ℝ) else 3 / 4)).1 rfl (by simp)
  refine ⟨L, h1, ?_, ?_⟩
  · rw [h2 0 (by simp [exConv1]) 0 (by simp [ConvClass.channels, exConv1]) 0 (by simp [exConv1])]
    norm_num [ConvClass.channels, exConv1]
  · rw [h2 0 (by simp [exConv1]) 1 (by simp [ConvClass.channels, exConv1]) 0 (by simp [exConv1])]
    norm_num [ConvClass.channels, exConv1]

/-- **C52 (the wrappers).** `conv_wrapper` and `conv_transpose_wrapper` turn a draw `r` into `(2 r - 1) m`, where `m` is `weight_magnitude / in_features` without and
`weight_magnitude` with `rescale_output`; the former fails without inputs. Any other value of `rescale_output` keeps the weight PyTorch has drawn. -/
theorem C52_wrapper (r kaiming wm : ℝ) {inFeatures : ℕ} (h : 0 < inFeatures) :
    wrapperEntry (some false) r kaiming wm inFeatures = .ok ((2 * r - 1) * (wm / inFeatures)) ∧
    wrapperEntry (some false) r kaiming wm 0 = .error .zeroDivisionError ∧
    (∀ N, wrapperEntry (some true) r kaiming wm N = .ok ((2 * r - 1) * wm)) ∧ ∀ N, wrapperEntry none r kaiming wm N = .ok kaiming := by
  refine ⟨?_, rfl, fun N => ?_, fun N => rfl⟩
  · simp only [wrapperEntry, uniformEntry, uniformBetween]
    rw [if_neg (by omega)]
    congr 1
    ring
  · simp only [wrapperEntry, uniformBetween]
    congr 1
    ring

/-- Two inputs, magnitude 3 and the draw 3/4 give 3/4 or, with `rescale_output`, 3/2. -/
example : wrapperEntry (some false) (3 / 4 : ℝ) 7 3 2 = .ok (3 / 4) ∧ wrapperEntry (some true) (3 / 4 : ℝ) 7 3 2 = .ok (3 / 2) := by
  obtain ⟨h1, -, h2, -⟩ := C52_wrapper (3 / 4) 7 3 (inFeatures := 2) (by norm_num)
  refine ⟨h1.trans ?_, (h2 2).trans ?_⟩ <;> norm_num

end HOL
