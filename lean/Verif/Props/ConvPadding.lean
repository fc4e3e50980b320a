import Verif.Props.ConvGroups

/-! # C97: convolutions with padding modes -/

set_option linter.unusedSectionVars false

namespace HOL
open TorchScalar Spec
variable {K : Type} [TorchScalar K]

/-! ## specification -/

/-- The pixel of an axis of `n` pixels that stands at position `q`, also left and right of the axis: the axis is repeated, its last pixels are repeated, or it is mirrored
at its last pixels. -/
def extend (m : PadMode) (n : ℕ) (q : ℤ) : ℕ :=
  match m with
  | .zeros => 0
  | .circular => (q % n).toNat
  | .replicate => (max 0 (min q (n - 1))).toNat
  | .reflect => (if q < 0 then -q else if n ≤ q then 2 * (n - 1) - q else q).toNat

/-- The image with `p` more pixels on every side. -/
def extended2 (m : PadMode) (p : ℕ) (x : Tensor K) : Tensor K :=
  Tensor.tab4 (x.shape.getD 0 0) (x.shape.getD 1 0) (x.shape.getD 2 0 + 2 * p) (x.shape.getD 3 0 + 2 * p) fun b c y z =>
    x.get [b, c, extend m (x.shape.getD 2 0) (y - p), extend m (x.shape.getD 3 0) (z - p)]

/-- One dimensional version. -/
def extended1 (m : PadMode) (p : ℕ) (x : Tensor K) : Tensor K :=
  Tensor.tab3 (x.shape.getD 0 0) (x.shape.getD 1 0) (x.shape.getD 2 0 + 2 * p) fun b c y => x.get [b, c, extend m (x.shape.getD 2 0) (y - p)]

/-- Which paddings exist: a mirrored axis cannot be longer than twice the axis less the last pixels, a repeated axis not longer than three times the axis. -/
def Extends (m : PadMode) (n p : ℕ) : Prop :=
  match m with
  | .zeros => False
  | .circular => p ≤ n ∧ 0 < n
  | .replicate => 0 < n
  | .reflect => p < n

/-! ## helpers -/

theorem Extends.accepts {m : PadMode} {n p : ℕ} (h : Extends m n p) : m ≠ .zeros ∧ m.accepts n p = true := by
  cases m with
  | zeros => exact h.elim
  | circular => exact ⟨by simp, by simpa [PadMode.accepts, Extends] using h⟩
  | replicate => exact ⟨by simp, by simpa [PadMode.accepts, Extends] using h⟩
  | reflect => exact ⟨by simp, by simpa [PadMode.accepts, Extends] using h⟩

theorem accepts_iff {m : PadMode} (hm : m ≠ .zeros) (n p : ℕ) : m.accepts n p = true ↔ Extends m n p := by
  cases m with
  | zeros => exact absurd rfl hm
  | circular | replicate | reflect => simp [PadMode.accepts, Extends]

theorem source_eq {m : PadMode} {n p q : ℕ} (h : Extends m n p) (hq : q < n + 2 * p) : m.source n p q = extend m n ((q : ℤ) - p) := by
  cases m with
  | zeros => exact h.elim
  | circular =>
    obtain ⟨h1, h2⟩ := h
    have e : ((q + n - p : ℕ) : ℤ) = (q - p) + n := by omega
    simp only [PadMode.source, extend]
    have : (((q + n - p) % n : ℕ) : ℤ) = ((q : ℤ) - p) % n := by
      rw [Int.natCast_emod, e, Int.add_emod_right]
    omega
  | replicate =>
    simp only [Extends] at h
    simp only [PadMode.source, extend]
    split
    · omega
    · split <;> omega
  | reflect =>
    simp only [Extends] at h
    simp only [PadMode.source, extend]
    split
    · split <;> omega
    · split
      · split
        · omega
        · split <;> omega
      · split
        · omega
        · split <;> omega

theorem extend_lt {m : PadMode} {n p q : ℕ} (h : Extends m n p) (hq : q < n + 2 * p) : extend m n ((q : ℤ) - p) < n := by
  rw [← source_eq h hq]
  exact PadMode.source_lt h.accepts.1 h.accepts.2 hq

theorem extended1_shape {m : PadMode} {p B C H : ℕ} {x : Tensor K} (hs : x.shape = [B, C, H]) : (extended1 m p x).shape = [B, C, H + 2 * p] := by
  simp [extended1, hs, Tensor.tab3, Tensor.tabulate]

theorem extended1_get {m : PadMode} {p B C H : ℕ} {x : Tensor K} (hs : x.shape = [B, C, H]) {b c y : ℕ} (hb : b < B) (hc : c < C) (hy : y < H + 2 * p) :
    (extended1 m p x).get [b, c, y] = x.get [b, c, extend m H (y - p)] := by
  unfold extended1
  simp only [hs, List.getD_cons_zero, List.getD_cons_succ]
  rw [Tensor.get_tab3 hb hc hy]

theorem extended2_shape {m : PadMode} {p B C H W : ℕ} {x : Tensor K} (hs : x.shape = [B, C, H, W]) :
    (extended2 m p x).shape = [B, C, H + 2 * p, W + 2 * p] := by
  simp [extended2, hs, Tensor.tab4, Tensor.tabulate]

theorem extended2_get {m : PadMode} {p B C H W : ℕ} {x : Tensor K} (hs : x.shape = [B, C, H, W]) {b c y z : ℕ} (hb : b < B) (hc : c < C)
    (hy : y < H + 2 * p) (hz : z < W + 2 * p) :
    (extended2 m p x).get [b, c, y, z] = x.get [b, c, extend m H (y - p), extend m W (z - p)] := by
  unfold extended2
  simp only [hs, List.getD_cons_zero, List.getD_cons_succ]
  rw [Tensor.get_tab4 hb hc hy hz]

/-- The layer that pads nothing. -/
def OptConvLayer.unpadded (L : OptConvLayer K) : OptConvLayer K :=
  { base := { L.base with geometry := { L.base.geometry with padding := 0 } }, groups := L.groups, mode := .zeros }

/-! ## C97 -/

/-- **C97 (1d).** In every arithmetic and for any groups: a convolution with padding mode `'reflect'`, `'replicate'` or `'circular'` is the convolution without padding applied to the
image extended in this way. So the padded pixels are values of the image and pass through the link functions (with the mode `'zeros'` they contribute nothing,
C53). -/
theorem C97_extends_the_image1d (L : OptConvLayer K) (hk : L.base.kind = .conv1d) (he : L.base.expander.Fits .one) {B C H : ℕ} {x : Tensor K} (hx : x.WF)
    (hs : x.shape = [B, C, H]) (hm : Extends L.mode H L.base.geometry.padding) :
    L.forward x = L.unpadded.forward (extended1 L.mode L.base.geometry.padding x) := by
  obtain ⟨T, t1, t2, t3⟩ := L.base.expanded1 he hx hs
  obtain ⟨T', u1, u2, u3⟩ := L.base.expanded1 he (x := extended1 L.mode L.base.geometry.padding x) (Tensor.wf_tabulate _ _) (extended1_shape (m := L.mode) hs)
  obtain ⟨_, T'', _, _, _, v1, _, v2, _⟩ := expansion1d_ok he
    (L.base.wf_periodize (x := extended1 L.mode L.base.geometry.padding x) (Tensor.wf_tabulate _ _))
    (show ((extended1 L.mode L.base.geometry.padding x).map (periodize L.base.periodicity)).shape = _ from extended1_shape (m := L.mode) hs)
  obtain rfl : T'' = T' := Except.ok.inj (v1.symm.trans u1)
  have hV := he.variables_pos
  obtain ⟨a1, a2⟩ := hm.accepts
  have key : (Tensor.tab3 B (C * L.base.expander.variables) (H + 2 * L.base.geometry.padding)
      fun s q y => T.get [s, q, L.mode.source H L.base.geometry.padding y]) = T'' := by
    apply Tensor.ext_get (Tensor.wf_tab3 _ _ _ _) v2 (by rw [u2]; rfl)
    intro idx hidx
    change InShape [B, C * L.base.expander.variables, H + 2 * L.base.geometry.padding] idx at hidx
    match idx, hidx with
    | [b, q, y], hidx =>
      obtain ⟨hb, hq, hy⟩ := inShape3.1 hidx
      have hc : q / L.base.expander.variables < C := (Nat.div_lt_iff_lt_mul hV).2 hq
      rw [Tensor.get_tab3 hb hq hy, u3 b hb q hq y hy, extended1_get hs hb hc hy, source_eq hm hy, t3 b hb q hq _ (extend_lt hm hy)]
  unfold OptConvLayer.forward OptConvLayer.conv pad1d
  simp only [OptConvLayer.unpadded, hk, bind, Except.bind, t1, t2, u1, a1, a2, if_false, if_true, key]

/-- **C97 (2d).** -/
theorem C97_extends_the_image2d (L : OptConvLayer K) (hk : L.base.kind = .conv2d) (he : L.base.expander.Fits .two) {B C H W : ℕ} {x : Tensor K} (hx : x.WF)
    (hs : x.shape = [B, C, H, W]) (hm : Extends L.mode H L.base.geometry.padding) (hm' : Extends L.mode W L.base.geometry.padding) :
    L.forward x = L.unpadded.forward (extended2 L.mode L.base.geometry.padding x) := by
  obtain ⟨T, t1, t2, t3⟩ := L.base.expanded2 he hx hs
  obtain ⟨T', u1, u2, u3⟩ := L.base.expanded2 he (x := extended2 L.mode L.base.geometry.padding x) (Tensor.wf_tabulate _ _) (extended2_shape (m := L.mode) hs)
  obtain ⟨_, T'', _, _, _, v1, _, v2, _⟩ := expansion2d_ok he
    (L.base.wf_periodize (x := extended2 L.mode L.base.geometry.padding x) (Tensor.wf_tabulate _ _))
    (show ((extended2 L.mode L.base.geometry.padding x).map (periodize L.base.periodicity)).shape = _ from extended2_shape (m := L.mode) hs)
  obtain rfl : T'' = T' := Except.ok.inj (v1.symm.trans u1)
  have hV := he.variables_pos
  obtain ⟨a1, a2⟩ := hm.accepts
  obtain ⟨_, a3⟩ := hm'.accepts
  have key : (Tensor.tab4 B (C * L.base.expander.variables) (H + 2 * L.base.geometry.padding) (W + 2 * L.base.geometry.padding)
      fun s q y z => T.get [s, q, L.mode.source H L.base.geometry.padding y, L.mode.source W L.base.geometry.padding z]) = T'' := by
    apply Tensor.ext_get (Tensor.wf_tab4 _ _ _ _ _) v2 (by rw [u2]; rfl)
    intro idx hidx
    change InShape [B, C * L.base.expander.variables, H + 2 * L.base.geometry.padding, W + 2 * L.base.geometry.padding] idx at hidx
    match idx, hidx with
    | [b, q, y, z], hidx =>
      obtain ⟨hb, hq, hy, hz⟩ := inShape4.1 hidx
      have hc : q / L.base.expander.variables < C := (Nat.div_lt_iff_lt_mul hV).2 hq
      rw [Tensor.get_tab4 hb hq hy hz, u3 b hb q hq y hy z hz, extended2_get hs hb hc hy hz, source_eq hm hy, source_eq hm' hz,
        t3 b hb q hq _ (extend_lt hm hy) _ (extend_lt hm' hz)]
  unfold OptConvLayer.forward OptConvLayer.conv pad2d
  simp only [OptConvLayer.unpadded, hk, bind, Except.bind, t1, t2, u1, a1, a2, a3, and_self, if_false, if_true, key]

/-- **C97 (too much padding).** Otherwise the layer raises. -/
theorem C97_rejects (L : OptConvLayer K) (hz : L.mode ≠ .zeros) {B C H W : ℕ} {x : Tensor K} (hx : x.WF) :
    (L.base.kind = .conv1d → L.base.expander.Fits .one → x.shape = [B, C, H] → ¬ Extends L.mode H L.base.geometry.padding →
      L.forward x = .error .runtimeError) ∧
    (L.base.kind = .conv2d → L.base.expander.Fits .two → x.shape = [B, C, H, W] →
      ¬ (Extends L.mode H L.base.geometry.padding ∧ Extends L.mode W L.base.geometry.padding) → L.forward x = .error .runtimeError) := by
  constructor
  · intro hk he hs hno
    obtain ⟨T, t1, t2, t3⟩ := L.base.expanded1 he hx hs
    rw [← accepts_iff hz] at hno
    unfold OptConvLayer.forward OptConvLayer.conv pad1d
    simp only [hk, bind, Except.bind, t1, t2, hz, if_false, if_neg hno]
  · intro hk he hs hno
    obtain ⟨T, t1, t2, t3⟩ := L.base.expanded2 he hx hs
    rw [← accepts_iff hz, ← accepts_iff hz] at hno
    unfold OptConvLayer.forward OptConvLayer.conv pad2d
    simp only [hk, bind, Except.bind, t1, t2, hz, if_false, if_neg hno]

/-- **C97 (constructors).** The four modes of PyTorch are accepted by all convolutions and change nothing else; other strings raise `ValueError`, and the transposed
convolution refuses everything but `'zeros'`. -/
theorem C97_constructors (cls : ConvClass) (hf : cls ≠ .fourier .one) (a : ConvArgs K) (s : String) (rand : ConvRng K) :
    (∀ m, (s, m) ∈ [("zeros", PadMode.zeros), ("reflect", .reflect), ("replicate", .replicate), ("circular", .circular)] →
      convInitOpt cls a { paddingMode := s } rand = (convInit cls a rand).map fun L => { base := L, groups := 1, mode := m }) ∧
    (s ∉ ["zeros", "reflect", "replicate", "circular"] → convInitOpt cls a { paddingMode := s } rand = .error .valueError) ∧
    (s ≠ "zeros" → convTransposeInitOpt a { paddingMode := s } rand = .error .valueError) := by
  have build : ∀ m, padMode s = .ok m →
      convInitOpt cls a { paddingMode := s } rand = (convInit cls a rand).map fun L => { base := L, groups := 1, mode := m } := by
    intro m hm
    match cls, hf with
    | .fourier .one, hf => exact absurd rfl hf
    | .fourier .two, _ | .polynomial .one, _ | .polynomial .two, _ | .piecewise _ .one, _ | .piecewise _ .two, _ =>
      simp only [convInitOpt, convInit, hm, bind, Except.bind, Nat.one_ne_zero, Nat.mod_one, Nat.div_one, ne_eq, not_true, or_self,
        if_false, if_true]
      split <;> rfl
  refine ⟨?_, ?_, ?_⟩
  · intro m hm
    apply build
    simp only [List.mem_cons, Prod.mk.injEq, List.not_mem_nil, or_false] at hm
    rcases hm with ⟨rfl, rfl⟩ | ⟨rfl, rfl⟩ | ⟨rfl, rfl⟩ | ⟨rfl, rfl⟩ <;> rfl
  · intro hs
    simp only [List.mem_cons, List.not_mem_nil, or_false, not_or] at hs
    have hm : padMode s = .error .valueError := by
      unfold padMode
      split
      · exact absurd rfl hs.1
      · exact absurd rfl hs.2.1
      · exact absurd rfl hs.2.2.1
      · exact absurd rfl hs.2.2.2
      · rfl
    match cls, hf with
    | .fourier .one, hf => exact absurd rfl hf
    | .fourier .two, _ | .polynomial .one, _ | .polynomial .two, _ | .piecewise _ .one, _ | .piecewise _ .two, _ =>
      simp only [convInitOpt, hm, bind, Except.bind, Nat.one_ne_zero, Nat.mod_one, ne_eq, not_true, or_self, if_false]
  · intro hs
    simp only [convTransposeInitOpt, if_pos hs]

/-! ## link functions -/

/-- Sum of link functions over the receptive field in an extended image. -/
noncomputable def extSum1 (m : PadMode) (C k stride pad dil H : ℕ) (f : ℕ → ℕ → ℝ → ℝ) (img : ℕ → ℕ → ℝ) (i : ℕ) : ℝ :=
  ∑ c ∈ Finset.range C, ∑ d ∈ Finset.range k, f c d (img c (extend m H ((i : ℤ) * stride + d * dil - pad)))

/-- Two dimensional version. -/
noncomputable def extSum2 (m : PadMode) (C k stride pad dil H W : ℕ) (f : ℕ → ℕ → ℕ → ℝ → ℝ) (img : ℕ → ℕ → ℕ → ℝ) (i j : ℕ) : ℝ :=
  ∑ c ∈ Finset.range C, ∑ d ∈ Finset.range k, ∑ e ∈ Finset.range k,
    f c d e (img c (extend m H ((i : ℤ) * stride + d * dil - pad)) (extend m W ((j : ℤ) * stride + e * dil - pad)))

/-- Kernel offsets of an output position stay inside of the padded axis. -/
theorem offset_lt {g : Geometry} {N v i d : ℕ} (h : convSize g N = .ok v) (hi : i < v) (hd : d < g.kernel) :
    i * g.stride + d * g.dilation < N + 2 * g.padding ∧ 0 < g.stride := by
  unfold convSize at h
  split at h
  · exact absurd h (by simp)
  · rename_i hc
    have hst : 0 < g.stride := by omega
    have := Except.ok.inj h
    rw [← this, Nat.lt_succ_iff, Nat.le_div_iff_mul_le hst] at hi
    have : d * g.dilation ≤ (g.kernel - 1) * g.dilation := Nat.mul_le_mul_right _ (by omega)
    omega

theorem convSize_unpadded {g : Geometry} {N v : ℕ} (h : convSize g N = .ok v) : convSize { g with padding := 0 } (N + 2 * g.padding) = .ok v := by
  unfold convSize at h ⊢
  simpa using h

theorem convSize_of_unpadded (g : Geometry) (N : ℕ) : convSize { g with padding := 0 } (N + 2 * g.padding) = convSize g N := by
  unfold convSize
  simp

/-- **C97 (link functions, 1d).** With padding mode `m` each output is the (rescaled) sum of the link functions of the receptive field in the extended image. -/
theorem C97_link_functions1d (cls : ConvClass) (hr : cls.rank = .one) (hf : cls ≠ .fourier .one) {a : ConvArgs ℝ} (h : a.Good cls.linkKind) (rand : ConvRng ℝ)
    {s : String} {m : PadMode} (hs : (s, m) ∈ [("reflect", PadMode.reflect), ("replicate", .replicate), ("circular", .circular)]) :
    ∃ L N, N = cls.linkKind.size a.n a.segments ∧ convInitOpt cls a { paddingMode := s } rand = .ok L ∧
      L.base.weight.shape = [a.outChannels, a.inChannels * N, a.geometry.kernel] ∧
      ∀ w : Tensor ℝ, w.shape = L.base.weight.shape → ∃ f : ℕ → ℕ → ℕ → ℝ → ℝ,
        (∀ o c d, IsLink a.n a.segments a.length (fun v => w.get [o, c * N + v, d]) (f o c d) cls.linkKind) ∧
        ∀ (B H : ℕ) (x : Tensor ℝ), x.shape = [B, a.inChannels, H] → x.WF → Extends m H a.geometry.padding →
          a.geometry.dilation * (a.geometry.kernel - 1) + 1 ≤ H + 2 * a.geometry.padding →
          ∃ out, ({ L with base := { L.base with weight := w } } : OptConvLayer ℝ).forward x = .ok out ∧ out.WF ∧
            out.shape = [B, a.outChannels,
              (H + 2 * a.geometry.padding - (a.geometry.dilation * (a.geometry.kernel - 1) + 1)) / a.geometry.stride + 1] ∧
            ∀ b o i, InShape out.shape [b, o, i] → out.get [b, o, i] = rescaled a
              (extSum1 m a.inChannels a.geometry.kernel a.geometry.stride a.geometry.padding a.geometry.dilation H (f o)
                (fun c y => periodize a.periodicity (x.get [b, c, y])) i) := by
  obtain ⟨L, h1, hb, _, h2⟩ := convInit_ok cls h rand hf
  obtain ⟨hk, hw0⟩ := h2 hr
  have hnf : cls.linkKind ≠ .fourier := by
    match cls, hr, hf with
    | .fourier .one, _, hf => exact absurd rfl hf
    | .polynomial _, _, _ | .piecewise true _, _, _ | .piecewise false _, _, _ => simp [ConvClass.linkKind]
  have hc := (C97_constructors cls hf a s rand).1 m (List.mem_cons_of_mem _ hs)
  rw [h1] at hc
  refine ⟨_, _, rfl, hc, hw0, ?_⟩
  intro w hw
  replace hw : w.shape = L.weight.shape := hw
  rw [hw0] at hw
  refine ⟨fun o c d => (cls.expander a).link fun v => w.get [o, c * cls.linkKind.size a.n a.segments + v, d],
    fun o c d => cls.isLink h _, ?_⟩
  intro B H x hx hwf hm hH
  have hfit : L.expander.Fits .one := by rw [hb.expander, ← hr]; exact cls.fits h
  have hg := hb.geometry
  have s1 : convSize L.geometry H
      = .ok ((H + 2 * a.geometry.padding - (a.geometry.dilation * (a.geometry.kernel - 1) + 1)) / a.geometry.stride + 1) := by
    rw [hg, Nat.mul_comm a.geometry.dilation]
    rw [Nat.mul_comm a.geometry.dilation] at hH
    exact convSize_ok h.stride h.kernel h.dilation hH
  have hm' : Extends m H L.geometry.padding := by rw [hg]; exact hm
  have e1 := C97_extends_the_image1d (K := ℝ) { base := { L with weight := w }, groups := 1, mode := m } hk hfit hwf hx hm'
  have hwV : w.shape = [a.outChannels, a.inChannels * L.expander.variables, L.geometry.kernel] := by
    rw [hw, hb.expander, cls.variables_eq, hg]
  have e2 := (C96_one_group (K := ℝ) (OptConvLayer.unpadded { base := { L with weight := w }, groups := 1, mode := m }) rfl rfl
    (W := 0) (x := extended1 m L.geometry.padding x) (Tensor.wf_tabulate _ _)).2.1 hk hfit (extended1_shape hx) hwV
  have e3 := ({ L with weight := w, geometry := { L.geometry with padding := 0 } } : ConvLayer ℝ).forward1_real (O := a.outChannels)
    (x := extended1 m L.geometry.padding x) hk hfit (Tensor.wf_tabulate _ _) (extended1_shape hx) hwV (convSize_unpadded s1)
  refine ⟨_, (e1.trans e2).trans e3, Tensor.wf_tab3 _ _ _ _, rfl, ?_⟩
  intro b o i hin
  obtain ⟨hb', ho, hi⟩ := inShape3.1 hin
  rw [Tensor.get_tab3 hb' ho hi, ← rescaled_eq]
  dsimp only
  rw [hb.rescale]
  refine congrArg (fun t : ℝ => t * _) ?_
  unfold convSum1 extSum1
  apply Finset.sum_congr rfl
  intro c hc'
  apply Finset.sum_congr (by rw [hg])
  intro d hd
  rw [Finset.mem_range] at hc' hd
  obtain ⟨o1, _⟩ := offset_lt s1 hi (by rw [hg]; exact hd)
  have e : ((i : ℤ) * L.geometry.stride + d * L.geometry.dilation - ((0 : ℕ) : ℤ)) = ((i * L.geometry.stride + d * L.geometry.dilation : ℕ) : ℤ) := by
    push_cast; ring
  unfold inside
  rw [e, if_pos ⟨by omega, by exact_mod_cast o1⟩, Int.toNat_natCast]
  beta_reduce
  rw [extended1_get hx hb' hc' o1, hb.expander, hb.periodicity, if_neg hnf, hg, cls.variables_eq]
  push_cast
  rfl

/-- **C97 (link functions, 2d).** With padding mode `m` each output is the (rescaled) sum of the link functions of the receptive field in the extended image. -/
theorem C97_link_functions2d (cls : ConvClass) (hr : cls.rank = .two) {a : ConvArgs ℝ} (h : a.Good cls.linkKind) (rand : ConvRng ℝ)
    {s : String} {m : PadMode} (hs : (s, m) ∈ [("reflect", PadMode.reflect), ("replicate", .replicate), ("circular", .circular)]) :
    ∃ L N, N = cls.linkKind.size a.n a.segments ∧ convInitOpt cls a { paddingMode := s } rand = .ok L ∧
      L.base.weight.shape = [a.outChannels, a.inChannels * N, a.geometry.kernel, a.geometry.kernel] ∧
      ∀ w : Tensor ℝ, w.shape = L.base.weight.shape → ∃ f : ℕ → ℕ → ℕ → ℕ → ℝ → ℝ,
        (∀ o c d e, IsLink a.n a.segments a.length (fun v => w.get [o, c * N + v, d, e]) (f o c d e) cls.linkKind) ∧
        ∀ (B H W : ℕ) (x : Tensor ℝ), x.shape = [B, a.inChannels, H, W] → x.WF → Extends m H a.geometry.padding → Extends m W a.geometry.padding →
          a.geometry.dilation * (a.geometry.kernel - 1) + 1 ≤ H + 2 * a.geometry.padding →
          a.geometry.dilation * (a.geometry.kernel - 1) + 1 ≤ W + 2 * a.geometry.padding →
          ∃ out, ({ L with base := { L.base with weight := w } } : OptConvLayer ℝ).forward x = .ok out ∧ out.WF ∧
            out.shape = [B, a.outChannels,
              (H + 2 * a.geometry.padding - (a.geometry.dilation * (a.geometry.kernel - 1) + 1)) / a.geometry.stride + 1,
              (W + 2 * a.geometry.padding - (a.geometry.dilation * (a.geometry.kernel - 1) + 1)) / a.geometry.stride + 1] ∧
            ∀ b o i j, InShape out.shape [b, o, i, j] → out.get [b, o, i, j] = rescaled a
              (extSum2 m a.inChannels a.geometry.kernel a.geometry.stride a.geometry.padding a.geometry.dilation H W (f o)
                (fun c y z => periodize (if cls.linkKind = .fourier then none else a.periodicity) (x.get [b, c, y, z])) i j) := by
  have hf : cls ≠ .fourier .one := by rintro rfl; exact absurd hr (by simp [ConvClass.rank])
  obtain ⟨L, h1, hb, h2, _⟩ := convInit_ok cls h rand hf
  obtain ⟨hk, hw0⟩ := h2 hr
  have hc := (C97_constructors cls hf a s rand).1 m (List.mem_cons_of_mem _ hs)
  rw [h1] at hc
  refine ⟨_, _, rfl, hc, hw0, ?_⟩
  intro w hw
  replace hw : w.shape = L.weight.shape := hw
  rw [hw0] at hw
  refine ⟨fun o c d e => (cls.expander a).link fun v => w.get [o, c * cls.linkKind.size a.n a.segments + v, d, e],
    fun o c d e => cls.isLink h _, ?_⟩
  intro B H W x hx hwf hm hmW hH hW
  have hfit : L.expander.Fits .two := by rw [hb.expander, ← hr]; exact cls.fits h
  have hg := hb.geometry
  have s1 : ∀ H, a.geometry.dilation * (a.geometry.kernel - 1) + 1 ≤ H + 2 * a.geometry.padding → convSize L.geometry H
      = .ok ((H + 2 * a.geometry.padding - (a.geometry.dilation * (a.geometry.kernel - 1) + 1)) / a.geometry.stride + 1) := by
    intro H hH
    rw [hg, Nat.mul_comm a.geometry.dilation]
    rw [Nat.mul_comm a.geometry.dilation] at hH
    exact convSize_ok h.stride h.kernel h.dilation hH
  have hm' : Extends m H L.geometry.padding := by rw [hg]; exact hm
  have hmW' : Extends m W L.geometry.padding := by rw [hg]; exact hmW
  have e1 := C97_extends_the_image2d (K := ℝ) { base := { L with weight := w }, groups := 1, mode := m } hk hfit hwf hx hm' hmW'
  have hwV : w.shape = [a.outChannels, a.inChannels * L.expander.variables, L.geometry.kernel, L.geometry.kernel] := by
    rw [hw, hb.expander, cls.variables_eq, hg]
  have e2 := (C96_one_group (K := ℝ) (OptConvLayer.unpadded { base := { L with weight := w }, groups := 1, mode := m }) rfl rfl
    (x := extended2 m L.geometry.padding x) (Tensor.wf_tabulate _ _)).1 hk hfit (extended2_shape hx) hwV
  have e3 := ({ L with weight := w, geometry := { L.geometry with padding := 0 } } : ConvLayer ℝ).forward2_real (O := a.outChannels)
    (x := extended2 m L.geometry.padding x) hk hfit (Tensor.wf_tabulate _ _) (extended2_shape hx) hwV (convSize_unpadded (s1 H hH)) (convSize_unpadded (s1 W hW))
  refine ⟨_, (e1.trans e2).trans e3, Tensor.wf_tab4 _ _ _ _ _, rfl, ?_⟩
  intro b o i j hin
  obtain ⟨hb', ho, hi, hj⟩ := inShape4.1 hin
  rw [Tensor.get_tab4 hb' ho hi hj, ← rescaled_eq]
  dsimp only
  rw [hb.rescale]
  refine congrArg (fun t : ℝ => t * _) ?_
  unfold convSum2 extSum2
  apply Finset.sum_congr rfl
  intro c hc'
  apply Finset.sum_congr (by rw [hg])
  intro d hd
  apply Finset.sum_congr (by rw [hg])
  intro e he
  rw [Finset.mem_range] at hc' hd he
  obtain ⟨o1, _⟩ := offset_lt (s1 H hH) hi (by rw [hg]; exact hd)
  obtain ⟨o2, _⟩ := offset_lt (s1 W hW) hj (by rw [hg]; exact he)
  have e0 : ∀ i d : ℕ, ((i : ℤ) * L.geometry.stride + d * L.geometry.dilation - ((0 : ℕ) : ℤ)) = ((i * L.geometry.stride + d * L.geometry.dilation : ℕ) : ℤ) := by
    intro i d; push_cast; ring
  unfold inside
  have c1 : 0 ≤ ((i * L.geometry.stride + d * L.geometry.dilation : ℕ) : ℤ) ∧
      ((i * L.geometry.stride + d * L.geometry.dilation : ℕ) : ℤ) < ((H + 2 * L.geometry.padding : ℕ) : ℤ) := ⟨by omega, by exact_mod_cast o1⟩
  have c2 : 0 ≤ ((j * L.geometry.stride + e * L.geometry.dilation : ℕ) : ℤ) ∧
      ((j * L.geometry.stride + e * L.geometry.dilation : ℕ) : ℤ) < ((W + 2 * L.geometry.padding : ℕ) : ℤ) := ⟨by omega, by exact_mod_cast o2⟩
  rw [e0, e0, if_pos c1, Int.toNat_natCast]
  beta_reduce
  rw [if_pos c2, Int.toNat_natCast]
  beta_reduce
  rw [extended2_get hx hb' hc' o1 o2, hb.expander, hb.periodicity, hg, cls.variables_eq]
  push_cast
  rfl

/-! ## rolling the image -/

theorem circular_shift {n : ℕ} (hn : 0 < n) (i m D p : ℕ) :
    (extend .circular n ((i + D : ℕ) - (p : ℤ)) + m) % n = extend .circular n (((i + m) % n + D : ℕ) - (p : ℤ)) := by
  have hn' : (n : ℤ) ≠ 0 := by omega
  have c : ∀ q : ℤ, ((extend .circular n q : ℕ) : ℤ) = q % n := fun q => Int.toNat_of_nonneg (Int.emod_nonneg _ hn')
  have : (((extend .circular n ((i + D : ℕ) - (p : ℤ)) + m) % n : ℕ) : ℤ) = ((extend .circular n (((i + m) % n + D : ℕ) - (p : ℤ)) : ℕ) : ℤ) := by
    rw [c, Int.natCast_emod, Int.natCast_add, c, Int.emod_add_emod]
    push_cast
    have : (((i : ℤ) + m) % n + D - p) = ((i + m : ℤ) % n + (D - p)) := by ring
    rw [this, Int.emod_add_emod]
    congr 1
    ring
  exact_mod_cast this

theorem tap_unpadded {g : Geometry} {N v i d : ℕ} (h : convSize g N = .ok v) (hi : i < v) (hd : d < g.kernel) :
    tap { g with padding := 0 } (N + 2 * g.padding) i d = some (i * g.stride + d * g.dilation) := by
  have := (offset_lt h hi hd).1
  simp [tap, this]

/-- A convolution that keeps the size: stride 1 and `2 * padding = dilation * (kernel_size - 1)`. -/
structure Geometry.Same (g : Geometry) : Prop where
  stride : g.stride = 1
  kernel : 0 < g.kernel
  dilation : 0 < g.dilation
  padding : 2 * g.padding = (g.kernel - 1) * g.dilation

theorem Geometry.Same.size {g : Geometry} (h : g.Same) {n : ℕ} (hn : 0 < n) : convSize g n = .ok n := by
  have h1 := h.stride
  have h2 := h.kernel
  have h3 := h.dilation
  have h4 := h.padding
  unfold convSize
  rw [if_neg (by omega), h1, Nat.div_one]
  congr 1
  omega

/-- **C97 (circular, 1d).** In every arithmetic: with the mode `'circular'` and a geometry that keeps the size, rolling the image by any number of pixels rolls the output by the same number,
with no exception at the borders. -/
theorem C97_circular1d (L : OptConvLayer K) (hk : L.base.kind = .conv1d) (hmode : L.mode = .circular) (he : L.base.expander.Fits .one) (hg : L.base.geometry.Same)
    {B C G Og Cc H : ℕ} {x x' : Tensor K} (hG : L.groups = G) (hG0 : 0 < G) (hH : 0 < H) (hp : L.base.geometry.padding ≤ H)
    (hx : x.WF) (hs : x.shape = [B, C, H]) (hx' : x'.WF) (hs' : x'.shape = [B, C, H]) (hc : C * L.base.expander.variables = G * Cc)
    (hw : L.base.weight.shape = [G * Og, Cc, L.base.geometry.kernel]) (m : ℕ)
    (hroll : ∀ b < B, ∀ c < C, ∀ y < H, x'.get [b, c, y] = x.get [b, c, (y + m) % H]) :
    ∃ out out', L.forward x = .ok out ∧ L.forward x' = .ok out' ∧ out.shape = [B, G * Og, H] ∧ out'.shape = [B, G * Og, H] ∧
      ∀ b < B, ∀ o < G * Og, ∀ i < H, out'.get [b, o, i] = out.get [b, o, (i + m) % H] := by
  have hm : Extends L.mode H L.base.geometry.padding := by rw [hmode]; exact ⟨hp, hH⟩
  have hsz := hg.size hH
  have hV := he.variables_pos
  have f : ∀ {x : Tensor K}, x.WF → x.shape = [B, C, H] → _ := fun {x} hx hs =>
    (C97_extends_the_image1d L hk he hx hs hm).trans (L.unpadded.forward1_ok (x := extended1 L.mode L.base.geometry.padding x) hk rfl he hG hG0 (Tensor.wf_tabulate _ _)
      (extended1_shape hs) hc hw (convSize_unpadded hsz))
  refine ⟨_, _, f hx hs, f hx' hs', rfl, rfl, ?_⟩
  intro b hb o ho i hi
  have hi' : (i + m) % H < H := Nat.mod_lt _ hH
  rw [Tensor.get_tab3 hb ho hi, Tensor.get_tab3 hb ho hi']
  refine congrArg (fun t => sumL t * L.base.rescale) ?_
  apply List.flatMap_congr
  intro q hq
  apply List.map_congr_left
  intro d hd
  rw [List.mem_range] at hq hd
  have hd' : d < L.base.geometry.kernel := hd
  have t1 := tap_unpadded hsz hi hd'
  have t2 := tap_unpadded hsz hi' hd'
  simp only [OptConvLayer.unpadded] at *
  rw [t1, t2]
  simp only [Option.elim_some]
  have hch : (o / Og * Cc + q) / L.base.expander.variables < C :=
    (Nat.div_lt_iff_lt_mul hV).2 (by rw [hc]; exact OptConvLayer.group_lt ho hq)
  have hlt1 := (offset_lt hsz hi hd').1
  rw [extended1_get hs' hb hch hlt1, extended1_get hs hb hch (offset_lt hsz hi' hd').1,
    hroll b hb _ hch _ (extend_lt hm hlt1), hmode, hg.stride, Nat.mul_one, Nat.mul_one, circular_shift hH]

/-- **C97 (circular, 2d).** -/
theorem C97_circular2d (L : OptConvLayer K) (hk : L.base.kind = .conv2d) (hmode : L.mode = .circular) (he : L.base.expander.Fits .two) (hg : L.base.geometry.Same)
    {B C G Og Cc H W : ℕ} {x x' : Tensor K} (hG : L.groups = G) (hG0 : 0 < G) (hH : 0 < H) (hW : 0 < W) (hp : L.base.geometry.padding ≤ H)
    (hp' : L.base.geometry.padding ≤ W)
    (hx : x.WF) (hs : x.shape = [B, C, H, W]) (hx' : x'.WF) (hs' : x'.shape = [B, C, H, W]) (hc : C * L.base.expander.variables = G * Cc)
    (hw : L.base.weight.shape = [G * Og, Cc, L.base.geometry.kernel, L.base.geometry.kernel]) (m n : ℕ)
    (hroll : ∀ b < B, ∀ c < C, ∀ y < H, ∀ z < W, x'.get [b, c, y, z] = x.get [b, c, (y + m) % H, (z + n) % W]) :
    ∃ out out', L.forward x = .ok out ∧ L.forward x' = .ok out' ∧ out.shape = [B, G * Og, H, W] ∧ out'.shape = [B, G * Og, H, W] ∧
      ∀ b < B, ∀ o < G * Og, ∀ i < H, ∀ j < W, out'.get [b, o, i, j] = out.get [b, o, (i + m) % H, (j + n) % W] := by
  have hm : Extends L.mode H L.base.geometry.padding := by rw [hmode]; exact ⟨hp, hH⟩
  have hm' : Extends L.mode W L.base.geometry.padding := by rw [hmode]; exact ⟨hp', hW⟩
  have hsz := hg.size hH
  have hsz' := hg.size hW
  have hV := he.variables_pos
  have f : ∀ {x : Tensor K}, x.WF → x.shape = [B, C, H, W] → _ := fun {x} hx hs =>
    (C97_extends_the_image2d L hk he hx hs hm hm').trans (L.unpadded.forward2_ok (x := extended2 L.mode L.base.geometry.padding x) hk rfl he hG hG0
      (Tensor.wf_tabulate _ _) (extended2_shape hs) hc hw (convSize_unpadded hsz) (convSize_unpadded hsz'))
  refine ⟨_, _, f hx hs, f hx' hs', rfl, rfl, ?_⟩
  intro b hb o ho i hi j hj
  have hi' : (i + m) % H < H := Nat.mod_lt _ hH
  have hj' : (j + n) % W < W := Nat.mod_lt _ hW
  rw [Tensor.get_tab4 hb ho hi hj, Tensor.get_tab4 hb ho hi' hj']
  refine congrArg (fun t => sumL t * L.base.rescale) ?_
  apply List.flatMap_congr
  intro q hq
  apply List.flatMap_congr
  intro d hd
  apply List.map_congr_left
  intro e hee
  rw [List.mem_range] at hq hd hee
  have hd' : d < L.base.geometry.kernel := hd
  have he' : e < L.base.geometry.kernel := hee
  have t1 := tap_unpadded hsz hi hd'
  have t2 := tap_unpadded hsz hi' hd'
  have t3 := tap_unpadded hsz' hj he'
  have t4 := tap_unpadded hsz' hj' he'
  simp only [OptConvLayer.unpadded] at *
  rw [t1, t2, t3, t4]
  simp only [Option.elim_some]
  have hch : (o / Og * Cc + q) / L.base.expander.variables < C :=
    (Nat.div_lt_iff_lt_mul hV).2 (by rw [hc]; exact OptConvLayer.group_lt ho hq)
  have hlt1 := (offset_lt hsz hi hd').1
  have hlt2 := (offset_lt hsz' hj he').1
  rw [extended2_get hs' hb hch hlt1 hlt2, extended2_get hs hb hch (offset_lt hsz hi' hd').1 (offset_lt hsz' hj' he').1,
    hroll b hb _ hch _ (extend_lt hm hlt1) _ (extend_lt hm' hlt2), hmode, hg.stride, Nat.mul_one, Nat.mul_one, Nat.mul_one, Nat.mul_one,
    circular_shift hH, circular_shift hW]

/-! ## examples -/

/-- A 3×3 convolution of piecewise quadratics that keeps the size of the image. -/
noncomputable def exSame : ConvArgs ℝ := { exConv with geometry := ⟨3, 1, 1, 1, 0⟩ }

theorem exSame_good (kind : LinkKind) : exSame.Good kind :=
  ⟨by norm_num [exSame, exConv], by norm_num [exSame, exConv], by norm_num [exSame], by norm_num [exSame], by norm_num [exSame], by norm_num [exSame, exConv],
    fun _ => ⟨by norm_num [exSame, exConv], rfl⟩⟩

/-- With `padding_mode='circular'` it commutes with rolling a 5×7 image by two rows and three columns. -/
example (x x' : Tensor ℝ) (hx : x.WF) (hs : x.shape = [1, 2, 5, 7]) (hx' : x'.WF) (hs' : x'.shape = [1, 2, 5, 7])
    (hroll : ∀ b < 1, ∀ c < 2, ∀ y < 5, ∀ z < 7, x'.get [b, c, y, z] = x.get [b, c, (y + 2) % 5, (z + 3) % 7]) :
    ∃ L out out', convInitOpt (.piecewise true .two) exSame { paddingMode := "circular" } (fun _ _ _ _ => 1 / 2) = .ok L ∧ L.forward x = .ok out ∧
      L.forward x' = .ok out' ∧ out'.get [0, 3, 4, 6] = out.get [0, 3, 1, 2] := by
  obtain ⟨L, h1, hb, h2, _⟩ := convInit_ok (.piecewise true .two) (exSame_good _) (fun _ _ _ _ => 1 / 2) (by simp)
  obtain ⟨hk, hw⟩ := h2 rfl
  have hc := (C97_constructors (.piecewise true .two) (by simp) exSame "circular" (fun _ _ _ _ => 1 / 2)).1 .circular (by simp)
  rw [h1] at hc
  have hV : L.expander.variables = 5 := by rw [hb.expander]; rfl
  have hg : L.geometry.Same := by rw [hb.geometry]; exact ⟨rfl, by norm_num [exSame], by norm_num [exSame], rfl⟩
  have hpad : L.geometry.padding = 1 := by rw [hb.geometry]; rfl
  obtain ⟨out, out', o1, o2, _, _, o3⟩ := C97_circular2d (K := ℝ) { base := L, groups := 1, mode := .circular } hk rfl
    (by show L.expander.Fits .two; rw [hb.expander]; exact ConvClass.fits (.piecewise true .two) (exSame_good _)) hg (G := 1) (Og := 4) (Cc := 10) rfl (by norm_num)
    (by norm_num) (by norm_num) (by show L.geometry.padding ≤ 5; omega) (by show L.geometry.padding ≤ 7; omega) hx hs hx' hs'
    (by show 2 * L.expander.variables = _; omega) (by show L.weight.shape = [1 * 4, 10, L.geometry.kernel, L.geometry.kernel]; rw [hw, hb.geometry]; rfl) 2 3 hroll
  exact ⟨_, out, out', hc, o1, o2, o3 0 (by norm_num) 3 (by norm_num) 4 (by norm_num) 6 (by norm_num)⟩

/-- Mirroring: position -2 of an axis of five pixels is pixel 2, position 5 is pixel 3; replicating: pixel 0 and pixel 4; repeating: pixel 3 and pixel 0. -/
example : (extend .reflect 5 (-2), extend .reflect 5 5) = (2, 3) ∧ (extend .replicate 5 (-2), extend .replicate 5 5) = (0, 4) ∧
    (extend .circular 5 (-2), extend .circular 5 5) = (3, 0) := by decide

end HOL
