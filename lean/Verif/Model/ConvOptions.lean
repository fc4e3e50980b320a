import Verif.Model.Conv

/-!
# Convolutions with `groups` and `padding_mode`

`conv_wrapper` (FunctionalConvolution.py:53-103) and `conv_transpose_wrapper` (FunctionalConvolutionTranspose.py:18-72) hand the keywords
`groups` and `padding_mode` of every convolution class on to `nn.Conv1d`, `nn.Conv2d` and `nn.ConvTranspose2d`, with the number of *expanded* channels as
`in_channels`. The modules of PyTorch are modelled by their documented formula. `groups` is a natural number here; `0` stands for every integer
that is not positive. The other simplifications are those of `Verif.Model.Conv`.
-/

namespace HOL
open TorchScalar
variable {K : Type} [TorchScalar K]

/-- The values of `padding_mode` accepted by `nn.Conv1d` and `nn.Conv2d`. -/
inductive PadMode where
  | zeros | reflect | replicate | circular
  deriving DecidableEq

/-- Check of `padding_mode` by `nn.Conv1d` and `nn.Conv2d`. -/
def padMode (s : String) : Py PadMode :=
  match s with
  | "zeros" => .ok .zeros
  | "reflect" => .ok .reflect
  | "replicate" => .ok .replicate
  | "circular" => .ok .circular
  | _ => .error .valueError

/-- `F.pad` accepts padding `p` on both sides of an axis with `n` entries. -/
def PadMode.accepts (m : PadMode) (n p : ℕ) : Bool :=
  match m with
  | .zeros => true
  | .reflect => p < n
  | .replicate => 0 < n
  | .circular => p ≤ n && 0 < n

/-- The entry of an axis with `n` entries that `F.pad` puts at position `q` of the padded axis (not for zeros). -/
def PadMode.source (m : PadMode) (n p q : ℕ) : ℕ :=
  match m with
  | .zeros => 0
  | .reflect => if q < p then p - q else if q - p < n then q - p else 2 * (n - 1) - (q - p)
  | .replicate => if q < p then 0 else if q - p < n then q - p else n - 1
  | .circular => (q + n - p) % n

/-- `F.pad(x, (p, p, p, p), mode)`. -/
def pad2d (m : PadMode) (p : ℕ) (x : Tensor K) : Py (Tensor K) :=
  match x.shape with
  | [b, c, h, w] =>
    if m.accepts h p ∧ m.accepts w p then
      .ok (Tensor.tab4 b c (h + 2 * p) (w + 2 * p) fun s q y z => x.get [s, q, m.source h p y, m.source w p z])
    else .error .runtimeError
  | _ => .error .runtimeError

/-- `F.pad(x, (p, p), mode)`. -/
def pad1d (m : PadMode) (p : ℕ) (x : Tensor K) : Py (Tensor K) :=
  match x.shape with
  | [b, c, h] =>
    if m.accepts h p then .ok (Tensor.tab3 b c (h + 2 * p) fun s q y => x.get [s, q, m.source h p y])
    else .error .runtimeError
  | _ => .error .runtimeError

/-- `F.conv2d(x, w, groups=groups)` without bias: the weight has shape `[out, in / groups, k, k]`, output channel `r` belongs to group
`r / (out / groups)` and reads the input channels of this group. -/
def groupedConv2d (g : Geometry) (groups : ℕ) (w x : Tensor K) : Py (Tensor K) :=
  match x.shape, w.shape with
  | [b, c, h, v], [o, c', k, k'] => do
    if groups ≠ 0 ∧ o % groups = 0 ∧ c = groups * c' ∧ k = g.kernel ∧ k' = g.kernel then
      let oh ← convSize g h
      let ow ← convSize g v
      .ok (Tensor.tab4 b o oh ow fun s r i j =>
        sumL ((List.range c').flatMap fun q => (List.range k).flatMap fun d => (List.range k).map fun e =>
          ((tap g h i d).elim 0 fun y => (tap g v j e).elim 0 fun z => x.get [s, r / (o / groups) * c' + q, y, z]) * w.get [r, q, d, e]))
    else .error .runtimeError
  | _, _ => .error .runtimeError

/-- `F.conv1d(x, w, groups=groups)` without bias. -/
def groupedConv1d (g : Geometry) (groups : ℕ) (w x : Tensor K) : Py (Tensor K) :=
  match x.shape, w.shape with
  | [b, c, h], [o, c', k] => do
    if groups ≠ 0 ∧ o % groups = 0 ∧ c = groups * c' ∧ k = g.kernel then
      let oh ← convSize g h
      .ok (Tensor.tab3 b o oh fun s r i =>
        sumL ((List.range c').flatMap fun q => (List.range k).map fun d =>
          ((tap g h i d).elim 0 fun y => x.get [s, r / (o / groups) * c' + q, y]) * w.get [r, q, d]))
    else .error .runtimeError
  | _, _ => .error .runtimeError

/-- `F.conv_transpose2d(x, w, groups=groups)` without bias: the weight has shape `[in, out / groups, k, k]`. -/
def groupedConvTranspose2d (g : Geometry) (groups : ℕ) (w x : Tensor K) : Py (Tensor K) :=
  match x.shape, w.shape with
  | [b, c, h, v], [c', o', k, k'] => do
    if groups ≠ 0 ∧ c % groups = 0 ∧ c = c' ∧ k = g.kernel ∧ k' = g.kernel then
      let oh ← convTransposeSize g h
      let ow ← convTransposeSize g v
      .ok (Tensor.tab4 b (groups * o') oh ow fun s r i j =>
        sumL ((List.range (c / groups)).flatMap fun q => (List.range k).flatMap fun d => (List.range k).map fun e =>
          ((tapTranspose g h i d).elim 0 fun y => (tapTranspose g v j e).elim 0 fun z =>
            x.get [s, r / o' * (c / groups) + q, y, z]) * w.get [r / o' * (c / groups) + q, r % o', d, e]))
    else .error .runtimeError
  | _, _ => .error .runtimeError

/-- The keywords `groups` and `padding_mode` of the constructors (defaults FunctionalConvolution.py:60-61, FunctionalConvolutionTranspose.py:26-27). -/
structure ConvOptions where
  groups : ℕ := 1
  paddingMode : String := "zeros"

/-- A convolution whose `self.conv` has groups and a padding mode. -/
structure OptConvLayer (K : Type) where
  base : ConvLayer K
  groups : ℕ
  mode : PadMode

/-- `nn.Conv2d.forward`, `nn.Conv1d.forward`: unless the mode is `'zeros'` the input is padded by `F.pad` and the convolution gets padding 0. -/
def OptConvLayer.conv (L : OptConvLayer K) (x : Tensor K) : Py (Tensor K) :=
  let g := L.base.geometry
  match L.base.kind with
  | .conv2d =>
    if L.mode = .zeros then groupedConv2d g L.groups L.base.weight x
    else do
      let x ← pad2d L.mode g.padding x
      groupedConv2d { g with padding := 0 } L.groups L.base.weight x
  | .conv1d =>
    if L.mode = .zeros then groupedConv1d g L.groups L.base.weight x
    else do
      let x ← pad1d L.mode g.padding x
      groupedConv1d { g with padding := 0 } L.groups L.base.weight x
  | .convTranspose2d => groupedConvTranspose2d g L.groups L.base.weight x

/-- `forward` of the convolution classes, FunctionalConvolution.py:215-218, 314-320, 441-447, 568-574, FunctionalConvolutionTranspose.py:123-129. -/
def OptConvLayer.forward (L : OptConvLayer K) (x : Tensor K) : Py (Tensor K) := do
  let x := x.map (periodize L.base.periodicity)
  let x ← (match L.base.kind with
    | .conv1d => expansion1d L.base.expander x
    | .conv2d | .convTranspose2d => expansion2d L.base.expander x)
  let out ← L.conv x
  .ok (out.map (· * L.base.rescale))

/-- The constructors, FunctionalConvolution.py:176-650, with the two options: `FourierConvolution1d` still raises `TypeError` before the
convolution is created; `_ConvNd.__init__` raises `ValueError` for groups that are not positive or do not divide the numbers of (expanded) input and
of output channels and for unknown padding modes; then the weights of shape `[out, channels / groups, k, k]` are drawn (95-97, `in_features` counts all channels). Finally
`constant_random_initialization_conv2d` (17-50) copies values of shape `[out, channels, k, k]` into the weights of the 2d polynomial classes:
`copy_` raises `RuntimeError` unless the shapes agree. -/
def convInitOpt (cls : ConvClass) (a : ConvArgs K) (o : ConvOptions) (rand : ConvRng K) : Py (OptConvLayer K) :=
  let channels := cls.channels a
  let k := a.geometry.kernel
  match cls with
  | .fourier .one => .error .typeError
  | _ =>
    if o.groups = 0 ∨ channels % o.groups ≠ 0 ∨ a.outChannels % o.groups ≠ 0 then .error .valueError
    else do
      let mode ← padMode o.paddingMode
      if channels * k * k = 0 then .error .zeroDivisionError
      else
        let draw (c : ℕ) : Tensor K := Tensor.tab4 a.outChannels c k k fun o c u v => uniformEntry (rand o c u v) a.weightMagnitude (channels * k * k)
        match cls with
        | .fourier _ =>
          .ok { groups := o.groups, mode := mode
                base := { expander := cls.expander a, kind := .conv2d, geometry := a.geometry, periodicity := none, rescale := convRescale a
                          weight := draw (channels / o.groups) } }
        | .polynomial .two | .piecewise _ .two =>
          if channels / o.groups = channels then
            .ok { groups := o.groups, mode := mode
                  base := { expander := cls.expander a, kind := .conv2d, geometry := a.geometry, periodicity := a.periodicity, rescale := convRescale a
                            weight := constantRandomConv rand (cls.expander a).variables a.outChannels channels k a.weightMagnitude } }
          else .error .runtimeError
        | .polynomial .one | .piecewise _ .one =>
          .ok { groups := o.groups, mode := mode
                base := { expander := cls.expander a, kind := .conv1d, geometry := a.geometry, periodicity := a.periodicity, rescale := convRescale a
                          weight := Tensor.tab3 a.outChannels (channels / o.groups) k fun o c u =>
                            uniformEntry (rand o c u 0) a.weightMagnitude (channels * k * k) } }

/-- `PiecewisePolynomialConvolutionTranspose2d.__init__`, FunctionalConvolutionTranspose.py:75-160, with the two options: `_ConvTransposeNd.__init__` accepts
only the padding mode `'zeros'`. -/
def convTransposeInitOpt (a : ConvArgs K) (o : ConvOptions) (rand : ConvRng K) : Py (OptConvLayer K) :=
  let cls : ConvClass := .piecewise true .two
  let channels := cls.channels a
  let k := a.geometry.kernel
  if o.paddingMode ≠ "zeros" then .error .valueError
  else if o.groups = 0 ∨ channels % o.groups ≠ 0 ∨ a.outChannels % o.groups ≠ 0 then .error .valueError
  else if channels * k * k = 0 then .error .zeroDivisionError
  else .ok { groups := o.groups, mode := .zeros
             base := { expander := cls.expander a, kind := .convTranspose2d, geometry := a.geometry, periodicity := a.periodicity, rescale := convRescale a
                       weight := Tensor.tab4 channels (a.outChannels / o.groups) k k fun c o u v =>
                         uniformEntry (rand c o u v) a.weightMagnitude (channels * k * k) } }

end HOL
