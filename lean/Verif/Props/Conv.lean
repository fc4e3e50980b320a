import Verif.Lemmas.ConvReal
import Mathlib.Algebra.BigOperators.Field

/-! # C52 - C54: convolutional layers -/

namespace HOL
open TorchScalar Spec Polynomial

/-! ## constructors -/

/-- Usable arguments: at least one node, channel, kernel entry, step; for piecewise functions a segment and `length = 2`. -/
structure ConvArgs.Good (a : ConvArgs ℝ) (kind : LinkKind) : Prop where
  n_pos : 1 ≤ a.n
  channels : 1 ≤ a.inChannels
  kernel : 1 ≤ a.geometry.kernel
  stride : 1 ≤ a.geometry.stride
  dilation : 1 ≤ a.geometry.dilation
  length : a.length ≠ 0
  piecewise : kind = .continuous ∨ kind = .discontinuous → 1 ≤ a.segments ∧ a.length = 2

theorem ConvClass.variables_eq (cls : ConvClass) (a : ConvArgs ℝ) :
    (cls.expander a).variables = cls.linkKind.size a.n a.segments := by
  match cls with
  | .polynomial _ | .piecewise true _ | .piecewise false _ | .fourier _ => rfl

theorem ConvClass.channels_eq (cls : ConvClass) (a : ConvArgs ℝ) :
    cls.channels a = a.inChannels * cls.linkKind.size a.n a.segments := by
  match cls with
  | .polynomial _ | .piecewise true _ | .piecewise false _ | .fourier _ => exact Nat.mul_comm _ _

theorem ConvClass.fits (cls : ConvClass) {a : ConvArgs ℝ} (h : a.Good cls.linkKind) : (cls.expander a).Fits cls.rank := by
  match cls, h with
  | .polynomial _, h => exact h.n_pos
  | .piecewise true _, h => exact ⟨rfl, h.n_pos, (h.piecewise (Or.inl rfl)).1⟩
  | .piecewise false _, h => exact ⟨rfl, h.n_pos, (h.piecewise (Or.inr rfl)).1⟩
  | .fourier _, h => exact h.n_pos

theorem ConvClass.isLink (cls : ConvClass) {a : ConvArgs ℝ} (h : a.Good cls.linkKind) (v : ℕ → ℝ) :
    IsLink a.n a.segments a.length v ((cls.expander a).link v) cls.linkKind := by
  match cls, h with
  | .polynomial _, h =>
    have hinj := scaled_injOn a.n h.length
    refine ⟨Lagrange.interpolate (Finset.range a.n) (fun j => a.length / 2 * node a.n j) v, ?_, ?_, fun x => link_lagrange _ _ _ _⟩
    · simpa using Lagrange.degree_interpolate_lt v hinj
    · intro j hj
      exact Lagrange.eval_interpolate_at_node _ hinj (Finset.mem_range.2 hj)
  | .piecewise true r, h =>
    obtain ⟨h1, h2⟩ := h.piecewise (Or.inl rfl)
    have := link_piecewise true r h.n_pos h1 v
    simp only [ConvClass.expander, h2]
    exact this
  | .piecewise false r, h =>
    obtain ⟨h1, h2⟩ := h.piecewise (Or.inr rfl)
    have := link_piecewise false r h.n_pos h1 v
    simp only [ConvClass.expander, h2]
    exact this
  | .fourier _, h => exact fun x => link_fourier _ _ _ _

theorem ConvArgs.Good.size_pos {cls : ConvClass} {a : ConvArgs ℝ} (h : a.Good cls.linkKind) :
    0 < cls.linkKind.size a.n a.segments := by
  rw [← cls.variables_eq]
  exact (cls.fits h).variables_pos

theorem ConvArgs.Good.channels_pos {cls : ConvClass} {a : ConvArgs ℝ} (h : a.Good cls.linkKind) :
    cls.channels a * a.geometry.kernel * a.geometry.kernel ≠ 0 := by
  rw [cls.channels_eq]
  have := h.size_pos
  have := h.channels
  have := h.kernel
  positivity

/-- What the constructors leave behind, apart from the weights. -/
structure ConvLayer.BuiltFrom (L : ConvLayer ℝ) (cls : ConvClass) (a : ConvArgs ℝ) : Prop where
  expander : L.expander = cls.expander a
  geometry : L.geometry = a.geometry
  periodicity : L.periodicity = if cls.linkKind = .fourier then none else a.periodicity
  rescale : L.rescale = if a.rescaleOutput then 1 / ((a.inChannels * a.geometry.kernel * a.geometry.kernel : ℕ) : ℝ) else 1

theorem convInit_ok (cls : ConvClass) {a : ConvArgs ℝ} (h : a.Good cls.linkKind) (rand : ConvRng ℝ) (hf : cls ≠ .fourier .one) :
    ∃ L, convInit cls a rand = .ok L ∧ L.BuiltFrom cls a ∧
      (cls.rank = .two → L.kind = .conv2d ∧
        L.weight.shape = [a.outChannels, a.inChannels * cls.linkKind.size a.n a.segments, a.geometry.kernel, a.geometry.kernel]) ∧
      (cls.rank = .one → L.kind = .conv1d ∧
        L.weight.shape = [a.outChannels, a.inChannels * cls.linkKind.size a.n a.segments, a.geometry.kernel]) := by
  have hz := h.channels_pos
  have hc := cls.channels_eq a
  match cls, h, hz, hc, hf with
  | .polynomial .two, h, hz, hc, _ | .piecewise true .two, h, hz, hc, _ | .piecewise false .two, h, hz, hc, _
  | .polynomial .one, h, hz, hc, _ | .piecewise true .one, h, hz, hc, _ | .piecewise false .one, h, hz, hc, _
  | .fourier .two, h, hz, hc, _ =>
    simp only [convInit, hz, if_false]
    refine ⟨_, rfl, ⟨rfl, rfl, by simp [ConvClass.linkKind], rfl⟩, ?_, ?_⟩ <;> intro hr <;>
      first
      | (exfalso; simp [ConvClass.rank] at hr; done)
      | exact ⟨rfl, by simp [constantRandomConv_shape, hc]⟩

/-! ## C53 -/

/-- Rescaling: the sum is divided by `in_channels * kernel_size²` or left alone. -/
noncomputable def rescaled (a : ConvArgs ℝ) (v : ℝ) : ℝ :=
  if a.rescaleOutput then v / (a.inChannels * a.geometry.kernel * a.geometry.kernel) else v

theorem rescaled_eq (a : ConvArgs ℝ) (v : ℝ) :
    v * (if a.rescaleOutput then 1 / ((a.inChannels * a.geometry.kernel * a.geometry.kernel : ℕ) : ℝ) else 1) = rescaled a v := by
  unfold rescaled
  split
  · push_cast; ring
  · ring

/-- **C53 (2d).** Every 2d convolution constructs, and for all weights there are link functions `f o c d e` (output channel, input channel, kernel row,
kernel column), of the documented family and with the `size` weights in channels `c * size + v`, such that for every image the output has
`⌊(H + 2 p - dil (k - 1) - 1) / s⌋ + 1` rows (columns likewise) and each pixel is the (rescaled) sum of the link functions over the receptive field.
Offsets that fall into the padding contribute nothing (not `f 0`). With a periodicity the entries are first wrapped (not for Fourier). -/
theorem C53_conv2d (cls : ConvClass) (hr : cls.rank = .two) {a : ConvArgs ℝ} (h : a.Good cls.linkKind) (rand : ConvRng ℝ) :
    ∃ L N, N = cls.linkKind.size a.n a.segments ∧ convInit cls a rand = .ok L ∧
      L.weight.shape = [a.outChannels, a.inChannels * N, a.geometry.kernel, a.geometry.kernel] ∧
      ∀ w : Tensor ℝ, w.shape = L.weight.shape → ∃ f : ℕ → ℕ → ℕ → ℕ → ℝ → ℝ,
        (∀ o c d e, IsLink a.n a.segments a.length (fun v => w.get [o, c * N + v, d, e]) (f o c d e) cls.linkKind) ∧
        ∀ (B H W : ℕ) (x : Tensor ℝ), x.shape = [B, a.inChannels, H, W] → x.WF →
          a.geometry.dilation * (a.geometry.kernel - 1) + 1 ≤ H + 2 * a.geometry.padding →
          a.geometry.dilation * (a.geometry.kernel - 1) + 1 ≤ W + 2 * a.geometry.padding →
          ∃ out, ({ L with weight := w } : ConvLayer ℝ).forward x = .ok out ∧ out.WF ∧
            out.shape = [B, a.outChannels,
              (H + 2 * a.geometry.padding - (a.geometry.dilation * (a.geometry.kernel - 1) + 1)) / a.geometry.stride + 1,
              (W + 2 * a.geometry.padding - (a.geometry.dilation * (a.geometry.kernel - 1) + 1)) / a.geometry.stride + 1] ∧
            ∀ b o i j, InShape out.shape [b, o, i, j] → out.get [b, o, i, j] = rescaled a
              (convSum2 a.inChannels a.geometry.kernel a.geometry.stride a.geometry.padding a.geometry.dilation H W (f o)
                (fun c y z => periodize (if cls.linkKind = .fourier then none else a.periodicity) (x.get [b, c, y, z])) i j) := by
  obtain ⟨L, h1, hb, h2, _⟩ := convInit_ok cls h rand (by rintro rfl; exact absurd hr (by simp [ConvClass.rank]))
  obtain ⟨hk, hw0⟩ := h2 hr
  refine ⟨L, _, rfl, h1, hw0, ?_⟩
  intro w hw
  rw [hw0] at hw
  refine ⟨fun o c d e => (cls.expander a).link fun v => w.get [o, c * cls.linkKind.size a.n a.segments + v, d, e],
    fun o c d e => cls.isLink h _, ?_⟩
  intro B H W x hx hwf hH hW
  have hfit : (cls.expander a).Fits .two := by rw [← hr]; exact cls.fits h
  have hg := hb.geometry
  have s1 : ∀ n, a.geometry.dilation * (a.geometry.kernel - 1) + 1 ≤ n + 2 * a.geometry.padding → convSize L.geometry n
      = .ok ((n + 2 * a.geometry.padding - (a.geometry.dilation * (a.geometry.kernel - 1) + 1)) / a.geometry.stride + 1) := by
    intro n hn
    rw [hg, Nat.mul_comm a.geometry.dilation]
    rw [Nat.mul_comm a.geometry.dilation] at hn
    exact convSize_ok h.stride h.kernel h.dilation hn
  have hf := ({ L with weight := w } : ConvLayer ℝ).forward2_real (O := a.outChannels) hk (by show L.expander.Fits .two; rw [hb.expander]; exact hfit) hwf hx
    (by show w.shape = _; rw [hw]; simp only [hb.expander, cls.variables_eq, hg]) (s1 H hH) (s1 W hW)
  refine ⟨_, hf, Tensor.wf_tab4 _ _ _ _ _, rfl, ?_⟩
  intro b o i j hin
  obtain ⟨hb', ho, hi, hj⟩ := inShape4.1 hin
  rw [Tensor.get_tab4 hb' ho hi hj, ← rescaled_eq]
  simp only [hb.expander, hb.geometry, hb.periodicity, hb.rescale, cls.variables_eq]

/-- **C53 (1d).** The same for 1d convolutions (Fourier does not exist, see C60). The rescaling still divides by `in_channels * kernel_size²`, although an
output only has `in_channels * kernel_size` inputs. -/
theorem C53_conv1d (cls : ConvClass) (hr : cls.rank = .one) (hf : cls ≠ .fourier .one) {a : ConvArgs ℝ} (h : a.Good cls.linkKind) (rand : ConvRng ℝ) :
    ∃ L N, N = cls.linkKind.size a.n a.segments ∧ convInit cls a rand = .ok L ∧
      L.weight.shape = [a.outChannels, a.inChannels * N, a.geometry.kernel] ∧
      ∀ w : Tensor ℝ, w.shape = L.weight.shape → ∃ f : ℕ → ℕ → ℕ → ℝ → ℝ,
        (∀ o c d, IsLink a.n a.segments a.length (fun v => w.get [o, c * N + v, d]) (f o c d) cls.linkKind) ∧
        ∀ (B H : ℕ) (x : Tensor ℝ), x.shape = [B, a.inChannels, H] → x.WF →
          a.geometry.dilation * (a.geometry.kernel - 1) + 1 ≤ H + 2 * a.geometry.padding →
          ∃ out, ({ L with weight := w } : ConvLayer ℝ).forward x = .ok out ∧ out.WF ∧
            out.shape = [B, a.outChannels,
              (H + 2 * a.geometry.padding - (a.geometry.dilation * (a.geometry.kernel - 1) + 1)) / a.geometry.stride + 1] ∧
            ∀ b o i, InShape out.shape [b, o, i] → out.get [b, o, i] = rescaled a
              (convSum1 a.inChannels a.geometry.kernel a.geometry.stride a.geometry.padding a.geometry.dilation H (f o)
                (fun c y => periodize a.periodicity (x.get [b, c, y])) i) := by
  obtain ⟨L, h1, hb, _, h2⟩ := convInit_ok cls h rand hf
  obtain ⟨hk, hw0⟩ := h2 hr
  have hnf : cls.linkKind ≠ .fourier := by
    match cls, hr, hf with
    | .fourier .one, _, hf => exact absurd rfl hf
    | .polynomial _, _, _ | .piecewise true _, _, _ | .piecewise false _, _, _ => simp [ConvClass.linkKind]
  refine ⟨L, _, rfl, h1, hw0, ?_⟩
  intro w hw
  rw [hw0] at hw
  refine ⟨fun o c d => (cls.expander a).link fun v => w.get [o, c * cls.linkKind.size a.n a.segments + v, d],
    fun o c d => cls.isLink h _, ?_⟩
  intro B H x hx hwf hH
  have hfit : (cls.expander a).Fits .one := by rw [← hr]; exact cls.fits h
  have hg := hb.geometry
  have s1 : convSize L.geometry H
      = .ok ((H + 2 * a.geometry.padding - (a.geometry.dilation * (a.geometry.kernel - 1) + 1)) / a.geometry.stride + 1) := by
    rw [hg, Nat.mul_comm a.geometry.dilation]
    rw [Nat.mul_comm a.geometry.dilation] at hH
    exact convSize_ok h.stride h.kernel h.dilation hH
  have hf := ({ L with weight := w } : ConvLayer ℝ).forward1_real (O := a.outChannels) hk (by show L.expander.Fits .one; rw [hb.expander]; exact hfit) hwf hx
    (by show w.shape = _; rw [hw]; simp only [hb.expander, cls.variables_eq, hg]) s1
  refine ⟨_, hf, Tensor.wf_tab3 _ _ _ _, rfl, ?_⟩
  intro b o i hin
  obtain ⟨hb', ho, hi⟩ := inShape3.1 hin
  rw [Tensor.get_tab3 hb' ho hi, ← rescaled_eq]
  simp only [hb.expander, hb.geometry, hb.periodicity, hb.rescale, cls.variables_eq, hnf, if_false]

/-- **C53 (transposed).** The transposed convolution of continuous piecewise polynomials: the output has `(H - 1) s + dil (k - 1) + 1 + op - 2 p` rows, and each
pixel is the (rescaled) sum of the link functions of the input pixels that are sent there. -/
theorem C53_transpose2d {a : ConvArgs ℝ} (h : a.Good .continuous) (rand : ConvRng ℝ) :
    ∃ L N, N = (a.n - 1) * a.segments + 1 ∧ convTransposeInit a rand = .ok L ∧
      L.weight.shape = [a.inChannels * N, a.outChannels, a.geometry.kernel, a.geometry.kernel] ∧
      ∀ w : Tensor ℝ, w.shape = L.weight.shape → ∃ f : ℕ → ℕ → ℕ → ℕ → ℝ → ℝ,
        (∀ o c d e, IsPiecewisePoly a.n a.segments (a.n - 1) (fun v => w.get [c * N + v, o, d, e]) (f o c d e)) ∧
        ∀ (B H W : ℕ) (x : Tensor ℝ), x.shape = [B, a.inChannels, H, W] → x.WF → 1 ≤ H → 1 ≤ W →
          (a.geometry.outputPadding < a.geometry.stride ∨ a.geometry.outputPadding < a.geometry.dilation) →
          2 * a.geometry.padding < (H - 1) * a.geometry.stride + a.geometry.dilation * (a.geometry.kernel - 1) + a.geometry.outputPadding + 1 →
          2 * a.geometry.padding < (W - 1) * a.geometry.stride + a.geometry.dilation * (a.geometry.kernel - 1) + a.geometry.outputPadding + 1 →
          ∃ out, ({ L with weight := w } : ConvLayer ℝ).forward x = .ok out ∧ out.WF ∧
            out.shape = [B, a.outChannels,
              (H - 1) * a.geometry.stride + a.geometry.dilation * (a.geometry.kernel - 1) + a.geometry.outputPadding + 1 - 2 * a.geometry.padding,
              (W - 1) * a.geometry.stride + a.geometry.dilation * (a.geometry.kernel - 1) + a.geometry.outputPadding + 1 - 2 * a.geometry.padding] ∧
            ∀ b o y z, InShape out.shape [b, o, y, z] → out.get [b, o, y, z] = rescaled a
              (convTransposeSum2 a.inChannels a.geometry.kernel a.geometry.stride a.geometry.padding a.geometry.dilation H W (f o)
                (fun c i j => periodize a.periodicity (x.get [b, c, i, j])) y z) := by
  have hG : a.Good (ConvClass.piecewise true .two).linkKind := h
  have hz := hG.channels_pos
  have hv := (ConvClass.piecewise true .two).variables_eq a
  have hc := (ConvClass.piecewise true .two).channels_eq a
  simp only [convTransposeInit, hz, if_false]
  refine ⟨_, _, rfl, rfl, by rw [hc]; rfl, ?_⟩
  intro w hw
  rw [hc] at hw
  refine ⟨fun o c d e => ((ConvClass.piecewise true .two).expander a).link fun v => w.get [c * ((a.n - 1) * a.segments + 1) + v, o, d, e],
    fun o c d e => (ConvClass.piecewise true .two).isLink hG _, ?_⟩
  intro B H W x hx hwf hH hW hop h1 h2
  have s1 : ∀ n, 1 ≤ n → 2 * a.geometry.padding < (n - 1) * a.geometry.stride + a.geometry.dilation * (a.geometry.kernel - 1)
        + a.geometry.outputPadding + 1 →
      convTransposeSize a.geometry n = .ok ((n - 1) * a.geometry.stride + a.geometry.dilation * (a.geometry.kernel - 1)
        + a.geometry.outputPadding + 1 - 2 * a.geometry.padding) := by
    intro n hn hpos
    have := h.stride
    have := h.kernel
    have := h.dilation
    unfold convTransposeSize
    rw [if_neg]
    omega
  refine ⟨_, ConvLayer.forwardT_real _ rfl ((ConvClass.piecewise true .two).fits hG) hwf hx h.stride
    (by show w.shape = _; rw [hw]; rfl) (s1 H hH h1) (s1 W hW h2), Tensor.wf_tab4 _ _ _ _ _, rfl, ?_⟩
  intro b o i j hin
  obtain ⟨hb', ho, hi, hj⟩ := inShape4.1 hin
  rw [Tensor.get_tab4 hb' ho hi hj, ← rescaled_eq]
  rfl

/-- **C53 (errors).** In every arithmetic: an image smaller than the (dilated) kernel, or with another number of channels than the weights, is rejected. -/
theorem C53_rejects {K : Type} [TorchScalar K] (L : ConvLayer K) (hk : L.kind = .conv2d) (he : L.expander.Fits .two) {B C H W O C' : ℕ} {x : Tensor K}
    (hx : x.WF) (hs : x.shape = [B, C, H, W]) (hw : L.weight.shape = [O, C' * L.expander.variables, L.geometry.kernel, L.geometry.kernel])
    (hbad : C ≠ C' ∨ H + 2 * L.geometry.padding < (L.geometry.kernel - 1) * L.geometry.dilation + 1 ∨
      W + 2 * L.geometry.padding < (L.geometry.kernel - 1) * L.geometry.dilation + 1) :
    L.forward x = .error .runtimeError := by
  obtain ⟨T, t1, t2, t3⟩ := L.expanded2 he hx hs
  have hv := he.variables_pos
  unfold ConvLayer.forward conv2d
  rw [hk]
  simp only [bind, Except.bind, t1, t2, hw, and_self, and_true]
  by_cases hc : C = C'
  · subst hc
    have hsz : ∀ n, n + 2 * L.geometry.padding < (L.geometry.kernel - 1) * L.geometry.dilation + 1 →
        convSize L.geometry n = .error .runtimeError := by
      intro n hn
      unfold convSize
      rw [if_pos (by omega)]
    simp only [if_true]
    rcases hbad with h | h | h
    · exact absurd rfl h
    · rw [hsz H h]
    · cases hH : convSize L.geometry H with
      | error e =>
        have : e = .runtimeError := by
          unfold convSize at hH
          split at hH
          · exact (Except.error.inj hH).symm
          · exact absurd hH (by simp)
        rw [this]
      | ok v => simp only [hsz W h]
  · rw [if_neg]
    intro h
    exact hc (Nat.eq_of_mul_eq_mul_right hv h)

/-- A 3×3 convolution of quadratics on two channels, stride 2, padding 1, of a 5×7 image gives a 3×4 image. -/
noncomputable def exConv : ConvArgs ℝ :=
  { n := 3, segments := 2, inChannels := 2, outChannels := 4, length := 2, rescaleOutput := true, periodicity := none, weightMagnitude := 1
    geometry := ⟨3, 2, 1, 1, 0⟩ }

theorem exConv_good (kind : LinkKind) : exConv.Good kind :=
  ⟨by norm_num [exConv], by norm_num [exConv], by norm_num [exConv], by norm_num [exConv], by norm_num [exConv], by norm_num [exConv],
    fun _ => ⟨by norm_num [exConv], rfl⟩⟩

example (x : Tensor ℝ) (hx : x.shape = [1, 2, 5, 7]) (hwf : x.WF) :
    ∃ L out, convInit (.piecewise true .two) exConv (fun _ _ _ _ => 1 / 2) = .ok L ∧ L.forward x = .ok out ∧ out.shape = [1, 4, 3, 4] := by
  obtain ⟨L, N, _, h1, _, h3⟩ := C53_conv2d (.piecewise true .two) rfl (exConv_good _) (fun _ _ _ _ => 1 / 2)
  obtain ⟨f, _, h4⟩ := h3 L.weight rfl
  obtain ⟨out, h5, _, h6, _⟩ := h4 1 5 7 x hx hwf (by norm_num [exConv]) (by norm_num [exConv])
  exact ⟨L, out, h1, h5, h6⟩

/-- The transposed convolution with the same arguments takes a 3×4 image to a 5×7 one. -/
example (x : Tensor ℝ) (hx : x.shape = [1, 2, 3, 4]) (hwf : x.WF) :
    ∃ L out, convTransposeInit exConv (fun _ _ _ _ => 1 / 2) = .ok L ∧ L.forward x = .ok out ∧ out.shape = [1, 4, 5, 7] := by
  obtain ⟨L, N, _, h1, _, h3⟩ := C53_transpose2d (exConv_good _) (fun _ _ _ _ => 1 / 2)
  obtain ⟨f, _, h4⟩ := h3 L.weight rfl
  obtain ⟨out, h5, _, h6, _⟩ := h4 1 3 4 x hx hwf (by norm_num) (by norm_num) (by norm_num [exConv]) (by norm_num [exConv]) (by norm_num [exConv])
  exact ⟨L, out, h1, h5, h6⟩

/-! ## C52 -/

theorem constantRandomConv_get {K : Type} [TorchScalar K] (rand : ConvRng K) {N O C k : ℕ} (hN : 0 < N) (wm : K) {o c v d e : ℕ} (ho : o < O) (hc : c < C)
    (hv : v < N) (hd : d < k) (he : e < k) :
    (constantRandomConv rand N O (C * N) k wm).get [o, c * N + v, d, e] = rand o c d e * wm / ((k * k * C : ℕ) : K) := by
  unfold constantRandomConv
  have hdiv : C * N / N = C := Nat.mul_div_cancel _ hN
  have hdiv2 : k * k * (C * N) / N = k * k * C := by rw [← Nat.mul_assoc]; exact Nat.mul_div_cancel _ hN
  dsimp only
  rw [hdiv, hdiv2, Tensor.get_reshape (idx' := [o, c, v, d, e]), Tensor.get_tab5 ho hc hv hd he, Tensor.get_tab5 ho hc hd he hv,
    Tensor.get_tab4 ho hc hd he]
  simp only [Tensor.shape_tab5]
  rw [ravel4, ravel5]
  ring

theorem link_const (cls : ConvClass) {a : ConvArgs ℝ} (h : a.Good cls.linkKind) (hf : cls.linkKind ≠ .fourier) {v : ℕ → ℝ} {r : ℝ}
    (hv : ∀ m < (cls.expander a).variables, v m = r) (t : ℝ) : (cls.expander a).link v t = r := by
  have h1 : ∑ m ∈ Finset.range (cls.expander a).variables, (cls.expander a).val m t = 1 := by
    match cls, h, hf with
    | .polynomial _, h, _ => exact sum_basis_one h.n_pos h.length t
    | .piecewise true rk, h, _ => exact val_sum_one true rk h.n_pos (h.piecewise (Or.inl rfl)).1 h.length t
    | .piecewise false rk, h, _ => exact val_sum_one false rk h.n_pos (h.piecewise (Or.inr rfl)).1 h.length t
    | .fourier _, _, hf => exact absurd rfl hf
  unfold Expander.link
  rw [Finset.sum_congr rfl fun m hm => by rw [hv m (Finset.mem_range.1 hm)], ← Finset.sum_mul, h1, one_mul]

/-- **C52.** A freshly constructed 2d polynomial or piecewise polynomial convolution: output channel `o` has one and the same value for every image, at every
pixel whose receptive field lies inside the image (every pixel if there is no padding), namely the mean of the draws over input channels and kernel offsets times
`weight_magnitude` (rescaled). -/
theorem C52_constant_initialization (cls : ConvClass) (hr : cls.rank = .two) (hf : cls.linkKind ≠ .fourier) {a : ConvArgs ℝ} (h : a.Good cls.linkKind)
    (rand : ConvRng ℝ) :
    ∃ L, convInit cls a rand = .ok L ∧ ∀ (B H W : ℕ) (x : Tensor ℝ), x.shape = [B, a.inChannels, H, W] → x.WF →
      a.geometry.dilation * (a.geometry.kernel - 1) + 1 ≤ H + 2 * a.geometry.padding →
      a.geometry.dilation * (a.geometry.kernel - 1) + 1 ≤ W + 2 * a.geometry.padding →
      ∃ out, L.forward x = .ok out ∧ ∀ b o i j, InShape out.shape [b, o, i, j] →
        (a.geometry.padding = 0 ∨ (a.geometry.padding ≤ i * a.geometry.stride ∧ a.geometry.padding ≤ j * a.geometry.stride ∧
          i * a.geometry.stride + a.geometry.dilation * (a.geometry.kernel - 1) < H + a.geometry.padding ∧
          j * a.geometry.stride + a.geometry.dilation * (a.geometry.kernel - 1) < W + a.geometry.padding)) →
        out.get [b, o, i, j] = rescaled a ((∑ c ∈ Finset.range a.inChannels, ∑ d ∈ Finset.range a.geometry.kernel,
          ∑ e ∈ Finset.range a.geometry.kernel, rand o c d e) * a.weightMagnitude
            / (a.inChannels * a.geometry.kernel * a.geometry.kernel)) := by
  have hz := h.channels_pos
  have hc := cls.channels_eq a
  have hv := cls.variables_eq a
  have hpos := h.size_pos
  set N := cls.linkKind.size a.n a.segments with hN
  set g := a.geometry with hg
  have hfit : (cls.expander a).Fits .two := by rw [← hr]; exact cls.fits h
  obtain ⟨L, h1, h2⟩ : ∃ L, convInit cls a rand = .ok L ∧ L = { expander := cls.expander a, kind := .conv2d, geometry := g, periodicity := a.periodicity, rescale := convRescale a, weight := constantRandomConv rand N a.outChannels (a.inChannels * N) g.kernel a.weightMagnitude } := by
    match cls, hr, hf, hz, hc, hv, hN with
    | .polynomial .two, _, _, hz, hc, hv, hN | .piecewise true .two, _, _, hz, hc, hv, hN | .piecewise false .two, _, _, hz, hc, hv, hN =>
      simp only [convInit, hg]
      simp only [hg] at hz
      rw [if_neg hz]
      refine ⟨_, rfl, ?_⟩
      rw [hv, hc]
    | .fourier .two, _, hf, _, _, _, _ => exact absurd rfl hf
  refine ⟨L, h1, ?_⟩
  subst h2
  intro B H W x hx hwf hH hW
  have s1 : ∀ n, g.dilation * (g.kernel - 1) + 1 ≤ n + 2 * g.padding → convSize g n
      = .ok ((n + 2 * g.padding - (g.dilation * (g.kernel - 1) + 1)) / g.stride + 1) := by
    intro n hn
    rw [Nat.mul_comm g.dilation]
    rw [Nat.mul_comm g.dilation] at hn
    exact convSize_ok h.stride h.kernel h.dilation hn
  refine ⟨_, ConvLayer.forward2_real _ rfl hfit hwf hx (by rw [constantRandomConv_shape, hv]) (s1 H hH) (s1 W hW), ?_⟩
  intro b o i j hin hfield
  obtain ⟨hb', ho, hi, hj⟩ := inShape4.1 hin
  rw [Tensor.get_tab4 hb' ho hi hj]
  have hresc : convRescale a = if a.rescaleOutput then 1 / ((a.inChannels * a.geometry.kernel * a.geometry.kernel : ℕ) : ℝ) else 1 := rfl
  dsimp only
  rw [hresc, rescaled_eq]
  congr 1
  have hin1 : ∀ (n m d : ℕ), d < g.kernel → (g.padding = 0 ∨ (g.padding ≤ m * g.stride ∧
      m * g.stride + g.dilation * (g.kernel - 1) < n + g.padding)) → g.dilation * (g.kernel - 1) + 1 ≤ n + 2 * g.padding →
      m < (n + 2 * g.padding - (g.dilation * (g.kernel - 1) + 1)) / g.stride + 1 → ∀ (F : ℕ → ℝ) (r : ℝ), (∀ y < n, F y = r) →
      inside n ((m : ℤ) * g.stride + d * g.dilation - g.padding) F = r := by
    intro n m d hd hcase hfits hm F r hF
    have hst : 0 < g.stride := h.stride
    have hdd : d * g.dilation ≤ g.dilation * (g.kernel - 1) := by
      rw [Nat.mul_comm]; exact Nat.mul_le_mul_left _ (by omega)
    have hms : m * g.stride ≤ n + 2 * g.padding - (g.dilation * (g.kernel - 1) + 1) := by
      have : m ≤ (n + 2 * g.padding - (g.dilation * (g.kernel - 1) + 1)) / g.stride := by omega
      exact (Nat.le_div_iff_mul_le hst).1 this
    have e : (m : ℤ) * g.stride + d * g.dilation = ((m * g.stride + d * g.dilation : ℕ) : ℤ) := by push_cast; ring
    unfold inside
    rw [e]
    generalize m * g.stride = ms at *
    generalize d * g.dilation = dd at *
    rw [if_pos (by omega)]
    apply hF
    omega
  unfold convSum2
  rw [Finset.sum_mul, Finset.sum_div]
  apply Finset.sum_congr rfl
  intro c hc'
  rw [Finset.sum_mul, Finset.sum_div]
  apply Finset.sum_congr rfl
  intro d hd
  rw [Finset.sum_mul, Finset.sum_div]
  apply Finset.sum_congr rfl
  intro e he
  rw [Finset.mem_range] at hc' hd he
  apply hin1 H i d hd (by tauto) hH hi
  intro y _
  apply hin1 W j e he (by tauto) hW hj
  intro z _
  beta_reduce
  rw [link_const cls h hf (r := rand o c d e * a.weightMagnitude / ((g.kernel * g.kernel * a.inChannels : ℕ) : ℝ))]
  · push_cast
    congr 1
    ring
  · intro m hm
    rw [hv] at hm ⊢
    exact constantRandomConv_get rand hpos _ ho hc' hm hd he

/-- The initial output of the example does not depend on the image (here without padding, all draws `1/2`: the value is `1/36`). -/
example (x : Tensor ℝ) (hx : x.shape = [1, 2, 5, 7]) (hwf : x.WF) :
    ∃ L out, convInit (.piecewise false .two) { exConv with geometry := ⟨3, 2, 0, 1, 0⟩ } (fun _ _ _ _ => 1 / 2) = .ok L ∧ L.forward x = .ok out ∧
      (InShape out.shape [0, 3, 1, 1] → out.get [0, 3, 1, 1] = 1 / 36) := by
  have hg : ({ exConv with geometry := ⟨3, 2, 0, 1, 0⟩ } : ConvArgs ℝ).Good .discontinuous :=
    ⟨by norm_num [exConv], by norm_num [exConv], by norm_num, by norm_num, by norm_num, by norm_num [exConv],
      fun _ => ⟨by norm_num [exConv], rfl⟩⟩
  obtain ⟨L, h1, h2⟩ := C52_constant_initialization (.piecewise false .two) rfl (by simp [ConvClass.linkKind]) hg (fun _ _ _ _ => 1 / 2)
  obtain ⟨out, h3, h4⟩ := h2 1 5 7 x hx hwf (by norm_num) (by norm_num)
  refine ⟨L, out, h1, h3, fun hin => ?_⟩
  rw [h4 0 3 1 1 hin (Or.inl rfl)]
  norm_num [rescaled, exConv]

/-! ## C54 -/

/-- **C54 (2d).** In every arithmetic: if `x'` is `x` moved by `m` steps of the stride down and `n` steps to the right, the output of any 2d high order
convolution is moved by `m` and `n` pixels, wherever both receptive fields lie inside the images. -/
theorem C54_translation2d {K : Type} [TorchScalar K] (L : ConvLayer K) (hk : L.kind = .conv2d) (he : L.expander.Fits .two)
    {B C O H W H' W' : ℕ} {x x' out out' : Tensor K} (hx : x.WF) (hs : x.shape = [B, C, H, W]) (hx' : x'.WF) (hs' : x'.shape = [B, C, H', W'])
    (hw : L.weight.shape = [O, C * L.expander.variables, L.geometry.kernel, L.geometry.kernel])
    (hout : L.forward x = .ok out) (hout' : L.forward x' = .ok out') (m n : ℕ)
    (hmove : ∀ b < B, ∀ c < C, ∀ y z, y < H → z < W → y + m * L.geometry.stride < H' → z + n * L.geometry.stride < W' →
      x'.get [b, c, y + m * L.geometry.stride, z + n * L.geometry.stride] = x.get [b, c, y, z])
    (b o i j : ℕ) (hb : b < B) (ho : o < O)
    (hi : L.geometry.padding ≤ i * L.geometry.stride) (hj : L.geometry.padding ≤ j * L.geometry.stride)
    (hi2 : i * L.geometry.stride + L.geometry.dilation * (L.geometry.kernel - 1) < H + L.geometry.padding)
    (hj2 : j * L.geometry.stride + L.geometry.dilation * (L.geometry.kernel - 1) < W + L.geometry.padding)
    (hi3 : (i + m) * L.geometry.stride + L.geometry.dilation * (L.geometry.kernel - 1) < H' + L.geometry.padding)
    (hj3 : (j + n) * L.geometry.stride + L.geometry.dilation * (L.geometry.kernel - 1) < W' + L.geometry.padding) :
    out'.get [b, o, i + m, j + n] = out.get [b, o, i, j] := by
  have size : ∀ {N : ℕ} {y y' : Tensor K} {Hh Ww : ℕ}, y.WF → y.shape = [B, C, Hh, Ww] → L.forward y = .ok y' →
      0 < L.geometry.stride ∧ 0 < L.geometry.kernel ∧ 0 < L.geometry.dilation ∧
      (∃ oh, convSize L.geometry Hh = .ok oh) ∧ ∃ ow, convSize L.geometry Ww = .ok ow := by
    intro _ y y' Hh Ww hy hys hyf
    obtain ⟨T, t1, t2, _⟩ := L.expanded2 he hy hys
    unfold ConvLayer.forward conv2d at hyf
    rw [hk] at hyf
    simp only [bind, Except.bind, t1, t2, hw, and_self, if_true] at hyf
    cases h1 : convSize L.geometry Hh with
    | error e => rw [h1] at hyf; exact absurd hyf (by simp)
    | ok oh =>
      rw [h1] at hyf
      cases h2 : convSize L.geometry Ww with
      | error e => rw [h2] at hyf; exact absurd hyf (by simp)
      | ok ow =>
        have h1' := h1
        unfold convSize at h1'
        split at h1'
        · exact absurd h1' (by simp)
        · exact ⟨by omega, by omega, by omega, ⟨oh, rfl⟩, ⟨ow, rfl⟩⟩
  obtain ⟨hst, hke, hdi, ⟨oh, h1⟩, ⟨ow, h2⟩⟩ := size (N := 0) hx hs hout
  obtain ⟨_, _, _, ⟨oh', h1'⟩, ⟨ow', h2'⟩⟩ := size (N := 0) hx' hs' hout'
  have lt_size : ∀ {N v p : ℕ}, convSize L.geometry N = .ok v → L.geometry.padding ≤ p * L.geometry.stride →
      p * L.geometry.stride + L.geometry.dilation * (L.geometry.kernel - 1) < N + L.geometry.padding → p < v := by
    intro N v p hv hp1 hp2
    unfold convSize at hv
    split at hv
    · exact absurd hv (by simp)
    · have := Except.ok.inj hv
      rw [← this, Nat.lt_succ_iff, Nat.le_div_iff_mul_le hst, Nat.mul_comm (L.geometry.kernel - 1)]
      omega
  have hf := L.forward2_ok hk he hx hs hw h1 h2
  have hf' := L.forward2_ok hk he hx' hs' hw h1' h2'
  rw [hout] at hf
  rw [hout'] at hf'
  have e1 := Except.ok.inj hf
  have e2 := Except.ok.inj hf'
  have him : L.geometry.padding ≤ (i + m) * L.geometry.stride := by rw [Nat.add_mul]; omega
  have hjn : L.geometry.padding ≤ (j + n) * L.geometry.stride := by rw [Nat.add_mul]; omega
  rw [e1, e2, Tensor.get_tab4 hb ho (lt_size h1 hi hi2) (lt_size h2 hj hj2),
    Tensor.get_tab4 hb ho (lt_size h1' him hi3) (lt_size h2' hjn hj3)]
  have tap1 : ∀ {N p u : ℕ}, u < L.geometry.kernel → L.geometry.padding ≤ p * L.geometry.stride →
      p * L.geometry.stride + L.geometry.dilation * (L.geometry.kernel - 1) < N + L.geometry.padding →
      tap L.geometry N p u = some (p * L.geometry.stride + u * L.geometry.dilation - L.geometry.padding) ∧
        p * L.geometry.stride + u * L.geometry.dilation - L.geometry.padding < N := by
    intro N p u hu hp1 hp2
    have hud : u * L.geometry.dilation ≤ L.geometry.dilation * (L.geometry.kernel - 1) := by
      rw [Nat.mul_comm]; exact Nat.mul_le_mul_left _ (by omega)
    unfold tap
    dsimp only
    rw [if_pos (by omega)]
    exact ⟨rfl, by omega⟩
  congr 2
  apply List.flatMap_congr
  intro q hq
  apply List.flatMap_congr
  intro d hd
  apply List.map_congr_left
  intro e hee
  rw [List.mem_range] at hq hd hee
  obtain ⟨a1, a2⟩ := tap1 hd hi hi2
  obtain ⟨b1, b2⟩ := tap1 hee hj hj2
  obtain ⟨c1, c2⟩ := tap1 hd him hi3
  obtain ⟨d1, d2⟩ := tap1 hee hjn hj3
  rw [a1, b1, c1, d1]
  simp only [Option.elim_some]
  congr 2
  have f1 : (i + m) * L.geometry.stride + d * L.geometry.dilation - L.geometry.padding
      = i * L.geometry.stride + d * L.geometry.dilation - L.geometry.padding + m * L.geometry.stride := by
    rw [Nat.add_mul]; omega
  have f2 : (j + n) * L.geometry.stride + e * L.geometry.dilation - L.geometry.padding
      = j * L.geometry.stride + e * L.geometry.dilation - L.geometry.padding + n * L.geometry.stride := by
    rw [Nat.add_mul]; omega
  rw [f1] at c2 ⊢
  rw [f2] at d2 ⊢
  exact hmove b hb _ ((Nat.div_lt_iff_lt_mul he.variables_pos).2 hq) _ _ a2 b2 c2 d2

/-- **C54 (1d).** -/
theorem C54_translation1d {K : Type} [TorchScalar K] (L : ConvLayer K) (hk : L.kind = .conv1d) (he : L.expander.Fits .one)
    {B C O H H' : ℕ} {x x' out out' : Tensor K} (hx : x.WF) (hs : x.shape = [B, C, H]) (hx' : x'.WF) (hs' : x'.shape = [B, C, H'])
    (hw : L.weight.shape = [O, C * L.expander.variables, L.geometry.kernel])
    (hout : L.forward x = .ok out) (hout' : L.forward x' = .ok out') (m : ℕ)
    (hmove : ∀ b < B, ∀ c < C, ∀ y, y < H → y + m * L.geometry.stride < H' → x'.get [b, c, y + m * L.geometry.stride] = x.get [b, c, y])
    (b o i : ℕ) (hb : b < B) (ho : o < O) (hi : L.geometry.padding ≤ i * L.geometry.stride)
    (hi2 : i * L.geometry.stride + L.geometry.dilation * (L.geometry.kernel - 1) < H + L.geometry.padding)
    (hi3 : (i + m) * L.geometry.stride + L.geometry.dilation * (L.geometry.kernel - 1) < H' + L.geometry.padding) :
    out'.get [b, o, i + m] = out.get [b, o, i] := by
  have size : ∀ {y y' : Tensor K} {Hh : ℕ}, y.WF → y.shape = [B, C, Hh] → L.forward y = .ok y' →
      0 < L.geometry.stride ∧ ∃ oh, convSize L.geometry Hh = .ok oh := by
    intro y y' Hh hy hys hyf
    obtain ⟨T, t1, t2, _⟩ := L.expanded1 he hy hys
    unfold ConvLayer.forward conv1d at hyf
    rw [hk] at hyf
    simp only [bind, Except.bind, t1, t2, hw, and_self, if_true] at hyf
    cases h1 : convSize L.geometry Hh with
    | error e => rw [h1] at hyf; exact absurd hyf (by simp)
    | ok oh =>
      have h1' := h1
      unfold convSize at h1'
      split at h1'
      · exact absurd h1' (by simp)
      · exact ⟨by omega, ⟨oh, rfl⟩⟩
  obtain ⟨hst, ⟨oh, h1⟩⟩ := size hx hs hout
  obtain ⟨_, ⟨oh', h1'⟩⟩ := size hx' hs' hout'
  have lt_size : ∀ {N v p : ℕ}, convSize L.geometry N = .ok v → L.geometry.padding ≤ p * L.geometry.stride →
      p * L.geometry.stride + L.geometry.dilation * (L.geometry.kernel - 1) < N + L.geometry.padding → p < v := by
    intro N v p hv hp1 hp2
    unfold convSize at hv
    split at hv
    · exact absurd hv (by simp)
    · have := Except.ok.inj hv
      rw [← this, Nat.lt_succ_iff, Nat.le_div_iff_mul_le hst, Nat.mul_comm (L.geometry.kernel - 1)]
      omega
  have hf := L.forward1_ok hk he hx hs hw h1
  have hf' := L.forward1_ok hk he hx' hs' hw h1'
  rw [hout] at hf
  rw [hout'] at hf'
  have e1 := Except.ok.inj hf
  have e2 := Except.ok.inj hf'
  have him : L.geometry.padding ≤ (i + m) * L.geometry.stride := by rw [Nat.add_mul]; omega
  rw [e1, e2, Tensor.get_tab3 hb ho (lt_size h1 hi hi2), Tensor.get_tab3 hb ho (lt_size h1' him hi3)]
  have tap1 : ∀ {N p u : ℕ}, u < L.geometry.kernel → L.geometry.padding ≤ p * L.geometry.stride →
      p * L.geometry.stride + L.geometry.dilation * (L.geometry.kernel - 1) < N + L.geometry.padding →
      tap L.geometry N p u = some (p * L.geometry.stride + u * L.geometry.dilation - L.geometry.padding) ∧
        p * L.geometry.stride + u * L.geometry.dilation - L.geometry.padding < N := by
    intro N p u hu hp1 hp2
    have hud : u * L.geometry.dilation ≤ L.geometry.dilation * (L.geometry.kernel - 1) := by
      rw [Nat.mul_comm]; exact Nat.mul_le_mul_left _ (by omega)
    unfold tap
    dsimp only
    rw [if_pos (by omega)]
    exact ⟨rfl, by omega⟩
  congr 2
  apply List.flatMap_congr
  intro q hq
  apply List.map_congr_left
  intro d hd
  rw [List.mem_range] at hq hd
  obtain ⟨a1, a2⟩ := tap1 hd hi hi2
  obtain ⟨c1, c2⟩ := tap1 hd him hi3
  rw [a1, c1]
  simp only [Option.elim_some]
  congr 2
  have f1 : (i + m) * L.geometry.stride + d * L.geometry.dilation - L.geometry.padding
      = i * L.geometry.stride + d * L.geometry.dilation - L.geometry.padding + m * L.geometry.stride := by
    rw [Nat.add_mul]; omega
  rw [f1] at c2 ⊢
  exact hmove b hb _ ((Nat.div_lt_iff_lt_mul he.variables_pos).2 hq) _ a2 c2

/-- Moving an image with 12 columns down and right by one stride moves the output pixel `(1, 1)` to `(2, 2)`. -/
example (L : ConvLayer ℝ) (h : convInit (.piecewise true .two) exConv (fun _ _ _ _ => 1 / 2) = .ok L) (f : ℕ → ℕ → ℕ → ℕ → ℝ) :
    ∃ out out', L.forward (Tensor.tab4 1 2 12 12 fun b c i j => f b c i j) = .ok out ∧
      L.forward (Tensor.tab4 1 2 12 12 fun b c i j => f b c (i - 2) (j - 2)) = .ok out' ∧ out'.get [0, 3, 2, 2] = out.get [0, 3, 1, 1] := by
  obtain ⟨L', N, hN, h1, h2, h3⟩ := C53_conv2d (.piecewise true .two) rfl (exConv_good _) (fun _ _ _ _ => 1 / 2)
  obtain rfl : L' = L := Except.ok.inj (h1.symm.trans h)
  obtain ⟨g, _, h4⟩ := h3 L'.weight rfl
  obtain ⟨out, h5, _, _, _⟩ := h4 1 12 12 (Tensor.tab4 1 2 12 12 fun b c i j => f b c i j) rfl (Tensor.wf_tab4 _ _ _ _ _)
    (by norm_num [exConv]) (by norm_num [exConv])
  obtain ⟨out', h6, _, _, _⟩ := h4 1 12 12 (Tensor.tab4 1 2 12 12 fun b c i j => f b c (i - 2) (j - 2)) rfl (Tensor.wf_tab4 _ _ _ _ _)
    (by norm_num [exConv]) (by norm_num [exConv])
  obtain ⟨L'', k1, hb, k2, _⟩ := convInit_ok (.piecewise true .two) (exConv_good _) (fun _ _ _ _ => 1 / 2) (by simp)
  obtain rfl : L'' = L' := Except.ok.inj (k1.symm.trans h)
  have hg : L''.geometry = ⟨3, 2, 1, 1, 0⟩ := hb.geometry
  have hgs : L''.geometry.stride = 2 := by rw [hg]
  have he : L''.expander.Fits .two := by rw [hb.expander]; exact ConvClass.fits _ (exConv_good _)
  refine ⟨out, out', h5, h6, ?_⟩
  refine C54_translation2d (H := 12) (W := 12) (H' := 12) (W' := 12) L'' (k2 rfl).1 he (Tensor.wf_tab4 _ _ _ _ _) rfl (Tensor.wf_tab4 _ _ _ _ _) rfl
    (by rw [(k2 rfl).2, hb.expander, hg]; rfl) h5 h6 1 1 ?_ 0 3 1 1 (by norm_num) (by norm_num [exConv]) ?_ ?_ ?_ ?_ ?_ ?_
  · intro b hb' c hc y z hy hz hy' hz'
    rw [hgs] at *
    rw [Tensor.get_tab4 hb' hc hy' hz', Tensor.get_tab4 hb' hc hy hz]
    simp
  all_goals rw [hg]; norm_num

end HOL
