import Verif.Props.Conv
import Verif.Props.NetworkContinuity

/-! # C73: convolutions of continuous link functions are continuous in the image -/

namespace HOL
open TorchScalar Spec Polynomial

theorem isLink_continuous {n S : ℕ} {L : ℝ} {v : ℕ → ℝ} {f : ℝ → ℝ} {kind : LinkKind} (hk : kind ≠ .discontinuous) (hn : 0 < n)
    (hS : kind = .continuous → 0 < S) (h : IsLink n S L v f kind) : Continuous f := by
  match kind, hk, hS, h with
  | .polynomial, _, _, ⟨P, _, _, h⟩ => rw [funext h]; exact P.continuous
  | .continuous, _, hS, h => exact continuous_of_isPiecewise hn (hS rfl) h
  | .fourier, _, _, h => rw [funext h]; exact continuous_fourierSum n L v

theorem continuous_inside {T : Type} [TopologicalSpace T] (n : ℕ) (q : ℤ) {g : T → ℕ → ℝ} (h : ∀ y < n, Continuous fun t => g t y) :
    Continuous fun t => inside n q (g t) := by
  unfold inside
  split
  · exact h _ (by omega)
  · exact continuous_const

theorem continuous_rescaled {T : Type} [TopologicalSpace T] (a : ConvArgs ℝ) {g : T → ℝ} (h : Continuous g) :
    Continuous fun t => rescaled a (g t) := by
  unfold rescaled
  split
  · exact h.div_const _
  · exact h

/-- **C73.** For the 2d and 1d convolutions with polynomial, continuous piecewise polynomial or Fourier links (every class except the discontinuous ones), for all weights,
every output pixel depends continuously on the image (and on any parameter `t` the image depends on continuously). -/
theorem C73_conv_continuous (cls : ConvClass) (hd : cls.linkKind ≠ .discontinuous) (hne : cls ≠ .fourier .one) {a : ConvArgs ℝ} (h : a.Good cls.linkKind)
    (hp : ∀ q ∈ a.periodicity, 0 < q) (rand : ConvRng ℝ) {T : Type} [TopologicalSpace T] :
    ∃ L, convInit cls a rand = .ok L ∧ ∀ w : Tensor ℝ, w.shape = L.weight.shape → ∀ (B H W : ℕ) (x : T → Tensor ℝ),
      (∀ t, (x t).WF ∧ (x t).shape = if cls.rank = .two then [B, a.inChannels, H, W] else [B, a.inChannels, H]) →
      (∀ idx, (∀ t, InShape (x t).shape idx) → Continuous fun t => (x t).get idx) →
      a.geometry.dilation * (a.geometry.kernel - 1) + 1 ≤ H + 2 * a.geometry.padding →
      a.geometry.dilation * (a.geometry.kernel - 1) + 1 ≤ W + 2 * a.geometry.padding →
      ∃ out : T → Tensor ℝ, (∀ t, ({ L with weight := w } : ConvLayer ℝ).forward (x t) = .ok (out t)) ∧
        ∀ idx, (∀ t, InShape (out t).shape idx) → Continuous fun t => (out t).get idx := by
  have hn : 0 < a.n := h.n_pos
  have hS : cls.linkKind = .continuous → 0 < a.segments := fun e => (h.piecewise (Or.inl e)).1
  cases hr : cls.rank with
  | two =>
    obtain ⟨L, N, -, h1, -, h2⟩ := C53_conv2d cls hr h rand
    refine ⟨L, h1, ?_⟩
    intro w hw B H W x hx hc hH hW
    obtain ⟨f, hf, h3⟩ := h2 w hw
    choose out e1 _ e2 e3 using fun t => h3 B H W (x t) (by rw [(hx t).2, if_pos rfl]) (hx t).1 hH hW
    refine ⟨out, e1, fun idx hin => ?_⟩
    rcases isEmpty_or_nonempty T with hT | ⟨⟨t0⟩⟩
    · exact continuous_of_const fun t => hT.elim t
    obtain ⟨b, o, i, j, rfl, hb, _⟩ := inShape4_exists (by rw [← e2 t0]; exact hin t0)
    have := fun t => e3 t b o i j (hin t)
    rw [funext this]
    apply continuous_rescaled
    unfold convSum2
    refine continuous_finsetSum _ fun c hcc => continuous_finsetSum _ fun d _ => continuous_finsetSum _ fun e _ => ?_
    refine continuous_inside _ _ fun y hy => continuous_inside _ _ fun z hz => ?_
    refine (isLink_continuous hd hn hS (hf o c d e)).comp ?_
    have hper : Continuous (periodize (if cls.linkKind = .fourier then none else a.periodicity)) := by
      split
      · exact continuous_id
      · exact continuous_periodize hp
    have hx4 : InShape [B, a.inChannels, H, W] [b, c, y, z] := ⟨hb, Finset.mem_range.1 hcc, hy, hz, trivial⟩
    exact hper.comp (hc _ fun t => by rw [(hx t).2, if_pos rfl]; exact hx4)
  | one =>
    obtain ⟨L, N, -, h1, -, h2⟩ := C53_conv1d cls hr hne h rand
    refine ⟨L, h1, ?_⟩
    intro w hw B H W x hx hc hH hW
    obtain ⟨f, hf, h3⟩ := h2 w hw
    choose out e1 _ e2 e3 using fun t => h3 B H (x t) (by rw [(hx t).2, if_neg (by simp)]) (hx t).1 hH
    refine ⟨out, e1, fun idx hin => ?_⟩
    rcases isEmpty_or_nonempty T with hT | ⟨⟨t0⟩⟩
    · exact continuous_of_const fun t => hT.elim t
    obtain ⟨b, o, i, rfl, hb, _⟩ := inShape3_exists (by rw [← e2 t0]; exact hin t0)
    have := fun t => e3 t b o i (hin t)
    rw [funext this]
    apply continuous_rescaled
    unfold convSum1
    refine continuous_finsetSum _ fun c hcc => continuous_finsetSum _ fun d _ => ?_
    refine continuous_inside _ _ fun y hy => ?_
    have hx3 : InShape [B, a.inChannels, H] [b, c, y] := ⟨hb, Finset.mem_range.1 hcc, hy, trivial⟩
    exact (isLink_continuous hd hn hS (hf o c d)).comp ((continuous_periodize hp).comp (hc _ fun t => by rw [(hx t).2, if_neg (by simp)]; exact hx3))

/-- **C73 (transposed).** The same for the transposed convolution. -/
theorem C73_transpose_continuous {a : ConvArgs ℝ} (h : a.Good .continuous) (hp : ∀ q ∈ a.periodicity, 0 < q) (rand : ConvRng ℝ)
    {T : Type} [TopologicalSpace T] :
    ∃ L, convTransposeInit a rand = .ok L ∧ ∀ w : Tensor ℝ, w.shape = L.weight.shape → ∀ (B H W : ℕ) (x : T → Tensor ℝ),
      (∀ t, (x t).WF ∧ (x t).shape = [B, a.inChannels, H, W]) → (∀ idx, (∀ t, InShape (x t).shape idx) → Continuous fun t => (x t).get idx) → 1 ≤ H → 1 ≤ W →
      (a.geometry.outputPadding < a.geometry.stride ∨ a.geometry.outputPadding < a.geometry.dilation) →
      2 * a.geometry.padding < (H - 1) * a.geometry.stride + a.geometry.dilation * (a.geometry.kernel - 1) + a.geometry.outputPadding + 1 →
      2 * a.geometry.padding < (W - 1) * a.geometry.stride + a.geometry.dilation * (a.geometry.kernel - 1) + a.geometry.outputPadding + 1 →
      ∃ out : T → Tensor ℝ, (∀ t, ({ L with weight := w } : ConvLayer ℝ).forward (x t) = .ok (out t)) ∧
        ∀ idx, (∀ t, InShape (out t).shape idx) → Continuous fun t => (out t).get idx := by
  have hn : 0 < a.n := h.n_pos
  obtain ⟨L, N, -, h1, -, h2⟩ := C53_transpose2d h rand
  refine ⟨L, h1, ?_⟩
  intro w hw B H W x hx hc hH hW hop h3 h4
  obtain ⟨f, hf, h5⟩ := h2 w hw
  choose out e1 _ e2 e3 using fun t => h5 B H W (x t) (hx t).2 (hx t).1 hH hW hop h3 h4
  refine ⟨out, e1, fun idx hin => ?_⟩
  rcases isEmpty_or_nonempty T with hT | ⟨⟨t0⟩⟩
  · exact continuous_of_const fun t => hT.elim t
  obtain ⟨b, o, i, j, rfl, hb, _⟩ := inShape4_exists (by rw [← e2 t0]; exact hin t0)
  have := fun t => e3 t b o i j (hin t)
  rw [funext this]
  apply continuous_rescaled
  unfold convTransposeSum2
  refine continuous_finsetSum _ fun c hcc => continuous_finsetSum _ fun d _ => continuous_finsetSum _ fun e _ =>
    continuous_finsetSum _ fun y hy => continuous_finsetSum _ fun z hz => ?_
  have hx4 : InShape [B, a.inChannels, H, W] [b, c, y, z] :=
    ⟨hb, Finset.mem_range.1 hcc, Finset.mem_range.1 hy, Finset.mem_range.1 hz, trivial⟩
  split
  · exact (continuous_of_isPiecewise hn (h.piecewise (Or.inl rfl)).1 (hf o c d e)).comp ((continuous_periodize hp).comp (hc _ fun t => by rw [(hx t).2]; exact hx4))
  · exact continuous_const

/-- Fading one image into another moves every output pixel of the example continuously. -/
example (x y : Tensor ℝ) : ∃ L, convInit (.piecewise true .two) exConv (fun _ _ _ _ => 1 / 2) = .ok L ∧
    ∃ out : ℝ → Tensor ℝ,
      (∀ t, L.forward (Tensor.tab4 1 2 5 7 fun b c i j => (1 - t) * x.get [b, c, i, j] + t * y.get [b, c, i, j]) = .ok (out t)) ∧
      ∀ idx, (∀ t, InShape (out t).shape idx) → Continuous fun t => (out t).get idx := by
  obtain ⟨L, h1, h2⟩ := C73_conv_continuous (T := ℝ) (.piecewise true .two) (by simp [ConvClass.linkKind]) (by simp) (exConv_good _)
    (by simp [exConv]) (fun _ _ _ _ => 1 / 2)
  refine ⟨L, h1, h2 L.weight rfl 1 5 7 _ (fun t => ⟨Tensor.wf_tab4 _ _ _ _ _, rfl⟩) (fun idx hin => ?_) (by norm_num [exConv]) (by norm_num [exConv])⟩
  obtain ⟨b, c, i, j, rfl, hb, hc, hi, hj⟩ := inShape4_exists (hin 0)
  simp only [Tensor.get_tab4 hb hc hi hj]
  fun_prop

end HOL
