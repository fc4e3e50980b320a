import Verif.Lemmas.ConvNet
import Mathlib.Tactic.IntervalCases

/-! # C74: fully deconvolutional networks -/

namespace HOL
open TorchScalar Spec

section
set_option linter.unusedSectionVars false
variable {K : Type} [TorchScalar K]

/-- Size of an axis after a transposed convolution with kernel `k`, stride `s`, padding `p`. -/
def deconvOut (k s p w : ℕ) : ℕ := (w - 1) * s + k - 2 * p

/-- Size of an axis before layer `i` of the transposed network. -/
def ConvNetArgs.growthAt (a : ConvNetArgs K) (size w : ℕ) : ℕ → ℕ
  | 0 => w
  | i + 1 => deconvOut (a.kern i) (a.step size i) a.padding (a.growthAt size w i)

/-- A usable configuration of `m` layers (`continuous2d` is the only type in the table): every list has at least `m` entries. Single values are repeated
`len(channels)` times. -/
structure ConvNetArgs.FineT (a : ConvNetArgs K) (m : ℕ) : Prop where
  layers : 1 ≤ m
  channels : a.channels.length = m + 1
  positive : ∀ i < m, 1 ≤ a.chan i
  key : ∀ i < m, (a.lists (m + 1)).layerType[i]? = some "continuous2d"
  n : ∀ i < m, i < (a.lists (m + 1)).n.length ∧ 1 ≤ (a.lists (m + 1)).n.getD i 0
  segments : ∀ i < m, i < (a.lists (m + 1)).segments.length ∧ 1 ≤ (a.lists (m + 1)).segments.getD i 0
  kernel : ∀ i < m, i < a.kernelSize.length ∧ 1 ≤ a.kern i
  stride : ∀ i < m, (∀ l ∈ (a.lists (m + 1)).stride, i < l.length) ∧ 1 ≤ a.step (m + 1) i

structure ConvLayer.BetweenT (L : ConvLayer K) (C O k s p : ℕ) : Prop where
  kind : L.kind = .convTranspose2d
  expander : L.expander.Fits .two
  geometry : L.geometry = ⟨k, s, p, 1, 0⟩
  weight : L.weight.shape = [C * L.expander.variables, O, k, k]

theorem convTransposeSize_plain {k s p w : ℕ} (hk : 1 ≤ k) (hs : 1 ≤ s) (hw : 1 ≤ w) (hp : 2 * p < (w - 1) * s + k) :
    convTransposeSize ⟨k, s, p, 1, 0⟩ w = .ok (deconvOut k s p w) := by
  unfold convTransposeSize deconvOut
  dsimp only
  rw [if_neg (by omega)]
  congr 1
  omega

theorem ConvLayer.BetweenT.mapsShape {L : ConvLayer K} {C O k s p : ℕ} (h : L.BetweenT C O k s p) (hk : 1 ≤ k) (hs : 1 ≤ s)
    {H W : ℕ} (hH : 1 ≤ H ∧ 2 * p < (H - 1) * s + k) (hW : 1 ≤ W ∧ 2 * p < (W - 1) * s + k) :
    MapsShape L.forward [C, H, W] [O, deconvOut k s p H, deconvOut k s p W] := by
  intro B x hx hsh
  have hg := h.geometry
  exact ⟨_, L.forwardT_ok h.kind h.expander hx hsh (by rw [hg]; exact h.weight) (by rw [hg]; exact convTransposeSize_plain hk hs hH.1 hH.2)
    (by rw [hg]; exact convTransposeSize_plain hk hs hW.1 hW.2), Tensor.wf_tab4 _ _ _ _ _, rfl⟩

theorem convTransposeInit_between (a : ConvArgs K) (rand : ConvRng K) (hn : 1 ≤ a.n) (hs : 1 ≤ a.segments)
    (hc : 1 ≤ a.inChannels) {k s p : ℕ} (hg : a.geometry = ⟨k, s, p, 1, 0⟩) (hk : 1 ≤ k) :
    ∃ L, convTransposeInit a rand = .ok L ∧ L.BetweenT a.inChannels a.outChannels k s p := by
  have hfit : ((ConvClass.piecewise true .two).expander a).Fits .two := ⟨rfl, hn, hs⟩
  have hch : (ConvClass.piecewise true .two).channels a = a.inChannels * ((ConvClass.piecewise true .two).expander a).variables := Nat.mul_comm _ _
  have hpos := hfit.variables_pos
  have hz : ¬ (ConvClass.piecewise true .two).channels a * a.geometry.kernel * a.geometry.kernel = 0 := by
    rw [hch, hg]
    positivity
  simp only [convTransposeInit, hz, if_false]
  refine ⟨_, rfl, rfl, hfit, hg, ?_⟩
  simp [hch, hg]

theorem convRoundT_ok {a : ConvNetArgs K} {m : ℕ} (h : a.FineT m) (rand : ℕ → ConvRng K) {i : ℕ} (hi : i < m) :
    ∃ L, convRound convTransposeLayer a (a.lists (m + 1)) rand i
        = .ok (.conv L :: (a.normalization.map fun f => ConvStage.normal (f i (a.chan (i + 1)))).toList) ∧
      L.BetweenT (a.chan i) (a.chan (i + 1)) (a.kern i) (a.step (m + 1) i) a.padding := by
  have hs : (a.lists (m + 1)).strideAt i = .ok (a.step (m + 1) i) := by
    have := (h.stride i hi).1
    unfold ConvNetArgs.step ConvLists.strideAt
    cases hst : (a.lists (m + 1)).stride with
    | none => rfl
    | some l => exact pyIndex_ok (this l (by rw [hst]; rfl)) 0
  obtain ⟨L, hL, hb⟩ := convTransposeInit_between
    { n := (a.lists (m + 1)).n.getD i 0, segments := (a.lists (m + 1)).segments.getD i 0, inChannels := a.chan i, outChannels := a.chan (i + 1)
      length := ((2 : ℕ) : K), rescaleOutput := a.rescaleOutput, periodicity := a.periodicity, weightMagnitude := 1
      geometry := { kernel := a.kern i, stride := a.step (m + 1) i, padding := a.padding, dilation := 1, outputPadding := 0 } } (rand i)
    (h.n i hi).2 (h.segments i hi).2 (h.positive i hi) rfl (h.kernel i hi).2
  refine ⟨L, ?_, hb⟩
  have e1 : pyIndex (a.lists (m + 1)).layerType i = .ok "continuous2d" := by unfold pyIndex; rw [h.key i hi]
  have hlen := h.channels
  unfold convRound
  simp only [bind, Except.bind, e1, pyIndex_ok (h.n i hi).1 0, pyIndex_ok (h.segments i hi).1 0, pyIndex_ok (h.kernel i hi).1 0,
    pyIndex_ok (l := a.channels) (i := i) (by omega) 0, pyIndex_ok (l := a.channels) (i := i + 1) (by omega) 0, hs, convTransposeLayer, if_true]
  unfold ConvNetArgs.chan ConvNetArgs.kern at hL
  rw [hL]
  unfold ConvNetArgs.chan
  cases a.normalization <;> rfl

theorem deconvStages_ok {a : ConvNetArgs K} {m : ℕ} (h : a.FineT m) (rand : ℕ → ConvRng K) :
    ∃ Ls : ℕ → ConvLayer K, Deconv.init a rand = .ok ⟨stagesOf m Ls (a.normalization.map fun f i => f i (a.chan (i + 1))), a.chan 0⟩ ∧
      ∀ i < m, (Ls i).BetweenT (a.chan i) (a.chan (i + 1)) (a.kern i) (a.step (m + 1) i) a.padding := by
  have hlen := h.channels
  have hm := h.layers
  have : Nonempty (ConvLayer K) := ⟨(convRoundT_ok h rand (i := 0) h.layers).choose⟩
  choose! Ls h1 h2 using fun i (hi : i < m) => convRoundT_ok h rand hi
  have e : (List.range m).mapM (convRound convTransposeLayer a (a.lists (m + 1)) rand)
      = .ok ((List.range m).map fun i =>
        .conv (Ls i) :: (a.normalization.map fun f => ConvStage.normal (f i (a.chan (i + 1)))).toList) := by
    apply mapM_ok
    intro i hi
    rw [List.mem_range] at hi
    exact h1 i hi
  refine ⟨Ls, ?_, h2⟩
  · unfold Deconv.init convStages
    simp only [unequalLengths, wrongChannels, intIsFalse, Bool.and_false]
    rw [if_neg (by omega), hlen, Nat.add_sub_cancel, e]
    simp only [Bool.false_eq_true, if_false, bind, Except.bind]
    congr 1
    have e1 : a.channels.headD 0 = a.chan 0 := by
      unfold ConvNetArgs.chan
      cases a.channels <;> rfl
    rw [e1]
    congr 1
    unfold stagesOf
    rw [← List.flatMap_def]
    apply List.flatMap_congr
    intro i _
    cases a.normalization <;> rfl

/-- **C74 (deconvolution).** In every arithmetic: a configuration of `m` layers `continuous2d` is accepted, and `in_channels` is `channels[0]`. Whatever the weights and
the (shape preserving) normalizations are later, images `[batch, channels[0], H, W]` give `[batch, channels[-1], H', W']`, where every layer takes a size `w` to
`(w - 1) stride + kernel - 2 padding` (as long as that is positive). Any other layer type is a ValueError. -/
theorem C74_deconvolution {a : ConvNetArgs K} {m : ℕ} (h : a.FineT m) (rand : ℕ → ConvRng K) :
    (∃ (N : Deconv K) (Ls : ℕ → ConvLayer K), Deconv.init a rand = .ok N ∧ N.inChannels = a.chan 0 ∧
      N.stages = stagesOf m Ls (a.normalization.map fun f i => f i (a.chan (i + 1))) ∧
      ∀ (Ws : ℕ → Tensor K) (g : Option (ℕ → Fwd K)), (∀ i < m, (Ws i).shape = (Ls i).weight.shape) →
      ∀ (B H W : ℕ) (x : Tensor K), x.WF → x.shape = [B, a.chan 0, H, W] →
      (∀ i < m, 1 ≤ a.growthAt (m + 1) H i ∧ 2 * a.padding < (a.growthAt (m + 1) H i - 1) * a.step (m + 1) i + a.kern i) →
      (∀ i < m, 1 ≤ a.growthAt (m + 1) W i ∧ 2 * a.padding < (a.growthAt (m + 1) W i - 1) * a.step (m + 1) i + a.kern i) →
      (∀ f ∈ g, ∀ i < m, KeepsBatch (f i) [B, a.chan (i + 1), a.growthAt (m + 1) H (i + 1), a.growthAt (m + 1) W (i + 1)]) →
      ∃ y, ({ N with stages := stagesOf m (fun i => { Ls i with weight := Ws i }) g } : Deconv K).forward x = .ok y ∧ y.WF ∧
        y.shape = [B, a.chan m, a.growthAt (m + 1) H m, a.growthAt (m + 1) W m]) ∧
    (∀ t : String, t ≠ "continuous2d" → Deconv.init { a with layerType := .one t } rand = .error .valueError) := by
  have hlen := h.channels
  have hm := h.layers
  constructor
  · obtain ⟨Ls, h1, h2⟩ := deconvStages_ok h rand
    refine ⟨⟨stagesOf m Ls (a.normalization.map fun f i => f i (a.chan (i + 1))), a.chan 0⟩, Ls, h1, rfl, rfl, ?_⟩
    · intro Ws g hWs B H W x hx hxs hH hW hg
      exact runStages_keeps (m := m) (Ls := fun i => { Ls i with weight := Ws i }) (g := g)
        (S := fun i => [a.chan i, a.growthAt (m + 1) H i, a.growthAt (m + 1) W i])
        (fun i hi => ConvLayer.BetweenT.mapsShape (L := { Ls i with weight := Ws i })
          ⟨(h2 i hi).kind, (h2 i hi).expander, (h2 i hi).geometry, (hWs i hi).trans (h2 i hi).weight⟩
          (h.kernel i hi).2 (h.stride i hi).2 (hH i hi) (hW i hi))
        hg hx hxs
  · intro t ht
    have e : ∃ l, List.range m = 0 :: l := by
      cases m with
      | zero => omega
      | succ m => exact ⟨_, List.range_succ_eq_map⟩
    obtain ⟨l, e⟩ := e
    have hs : (a.lists (m + 1)).strideAt 0 = .ok (a.step (m + 1) 0) := by
      have := (h.stride 0 hm).1
      unfold ConvNetArgs.step ConvLists.strideAt
      cases hst : (a.lists (m + 1)).stride with
      | none => rfl
      | some l => exact pyIndex_ok (this l (by rw [hst]; rfl)) 0
    have r0 : convRound convTransposeLayer { a with layerType := .one t } (({ a with layerType := .one t } : ConvNetArgs K).lists (m + 1)) rand 0
        = .error .valueError := by
      have f1 := pyIndex_ok (h.n 0 hm).1 0
      have f2 := pyIndex_ok (h.segments 0 hm).1 0
      have f3 := pyIndex_ok (h.kernel 0 hm).1 0
      have f4 := pyIndex_ok (l := a.channels) (i := 0) (by omega) 0
      have f5 := pyIndex_ok (l := a.channels) (i := 0 + 1) (by omega) 0
      have f0 : pyIndex (({ a with layerType := .one t } : ConvNetArgs K).lists (m + 1)).layerType 0 = .ok t := rfl
      have g1 : (({ a with layerType := .one t } : ConvNetArgs K).lists (m + 1)).n = (a.lists (m + 1)).n := rfl
      have g2 : (({ a with layerType := .one t } : ConvNetArgs K).lists (m + 1)).segments = (a.lists (m + 1)).segments := rfl
      have g3 : (({ a with layerType := .one t } : ConvNetArgs K).lists (m + 1)).strideAt = (a.lists (m + 1)).strideAt := rfl
      unfold convRound
      simp only [f0, g1, g2, g3, f1, f2, f3, f4, f5, hs, bind, Except.bind, convTransposeLayer, ht, if_false]
    unfold Deconv.init convStages
    simp only [unequalLengths, wrongChannels, intIsFalse, Bool.and_false]
    rw [if_neg (by omega), hlen, Nat.add_sub_cancel, e, List.mapM_cons, r0]
    rfl

/-- **C74 (mirrored sizes).** A transposed layer with the kernel, stride and padding of a convolution restores the size `w` of its input, except for the
`(w + 2 padding - kernel) mod stride` last columns, which the strided convolution skips. So when all those remainders are zero, the network with the reversed lists goes
back through all the sizes of the convolutional network. -/
theorem C74_mirrored {a d : ConvNetArgs K} {size size' m : ℕ} (hk : ∀ i < m, d.kern i = a.kern (m - 1 - i)) (hs : ∀ i < m, d.step size' i = a.step size (m - 1 - i))
    (hp : d.padding = a.padding) :
    (∀ k s p w : ℕ, k ≤ w + 2 * p → (w + 2 * p - k) % s ≤ w → deconvOut k s p (convOut k s p w) + (w + 2 * p - k) % s = w) ∧
    ∀ w, (∀ i < m, a.kern i ≤ a.widthAt size w i + 2 * a.padding) →
      (∀ i < m, (a.widthAt size w i + 2 * a.padding - a.kern i) % a.step size i = 0) →
      ∀ i ≤ m, d.growthAt size' (a.widthAt size w m) i = a.widthAt size w (m - i) := by
  have one : ∀ k s p w : ℕ, k ≤ w + 2 * p → (w + 2 * p - k) % s ≤ w → deconvOut k s p (convOut k s p w) + (w + 2 * p - k) % s = w := by
    intro k s p w h1 h2
    have hd := Nat.div_add_mod (w + 2 * p - k) s
    rw [Nat.mul_comm] at hd
    unfold deconvOut convOut
    rw [Nat.add_sub_cancel]
    omega
  refine ⟨one, fun w hw h0 i hi => ?_⟩
  induction i with
  | zero => rfl
  | succ i ih =>
    have hlt : m - (i + 1) < m := by omega
    rw [ConvNetArgs.growthAt, ih (by omega), hk i (by omega), hs i (by omega), hp, show m - 1 - i = m - (i + 1) by omega,
      show m - i = m - (i + 1) + 1 by omega, ConvNetArgs.widthAt]
    have := one _ (a.step size (m - (i + 1))) a.padding _ (hw _ hlt) (by rw [h0 _ hlt]; exact Nat.zero_le _)
    rwa [h0 _ hlt, Nat.add_zero] at this

end

/-- Two layers from 6 to 5 to 3 channels with kernels 3 and 4, strides 2 and 1, padding 1. -/
noncomputable def exDeconv : ConvNetArgs ℝ :=
  { layerType := .one "continuous2d", n := .many [3, 2], channels := [6, 5, 3], segments := .one 2, kernelSize := [3, 4], rescaleOutput := false
    periodicity := none, normalization := none, pooling := "2d", stride := some (.many [2, 1]), padding := 1, focus := none }

theorem exDeconv_fine : exDeconv.FineT 2 := by
  refine ⟨by decide, rfl, ?_, ?_, ?_, ?_, ?_, ?_⟩
  all_goals intro i hi
  all_goals interval_cases i
  all_goals first
    | rfl
    | simp [exDeconv, ConvNetArgs.chan, ConvNetArgs.kern, ConvNetArgs.step, ConvNetArgs.lists, OneOrMany.toList]

/-- A 4 × 5 image grows to 7 × 9 and then to 8 × 10. -/
example (rand : ℕ → ConvRng ℝ) : ∃ N : Deconv ℝ, Deconv.init exDeconv rand = .ok N ∧ N.inChannels = 6 ∧
    ∀ x : Tensor ℝ, x.WF → x.shape = [7, 6, 4, 5] → ∃ out, N.forward x = .ok out ∧ out.shape = [7, 3, 8, 10] := by
  obtain ⟨⟨N, Ls, h1, h2, h3, h4⟩, -⟩ := C74_deconvolution exDeconv_fine rand
  refine ⟨N, h1, h2, fun x hx hs => ?_⟩
  obtain ⟨y, h5, -, h6⟩ := h4 (fun i => (Ls i).weight) none (fun _ _ => rfl) 7 4 5 x hx hs (by decide) (by decide) (by simp)
  refine ⟨y, ?_, h6⟩
  rw [← h5]
  congr 1
  cases N
  simp only [Deconv.mk.injEq, and_true]
  exact h3

/-- The mirrored convolutional network takes 8 × 10 to 7 × 9 and back to 4 × 5. -/
example : (∀ i ≤ 2, exDeconv.growthAt 3 4 i = ({ exDeconv with channels := [3, 5, 6], kernelSize := [4, 3], stride := some (.many [1, 2]) } : ConvNetArgs ℝ).widthAt 2 8
    (2 - i)) :=
  (C74_mirrored (a := { exDeconv with channels := [3, 5, 6], kernelSize := [4, 3], stride := some (.many [1, 2]) }) (d := exDeconv) (size := 2) (size' := 3) (m := 2)
    (by decide) (by decide) rfl).2 8 (by decide) (by decide)

end HOL
