import Verif.Model.Piecewise

/-!
# Expansions and convolutional layers

Model of Basis.py:9-378, LagrangePolynomial.py:237-272, FunctionalConvolution.py, FunctionalConvolutionTranspose.py and
layers.py:278-295, 366-382.

Images have shape `[batch, channels, height, width]` (2d) or `[batch, channels, width]` (1d). `nn.Conv2d`, `nn.Conv1d` and `nn.ConvTranspose2d` are
modelled by their documented formula, with one integer for `kernel_size`, `stride`, `padding`, `dilation`; `groups=1` and zero padding, the
defaults (FunctionalConvolution.py:53-66). Memory layouts are not modelled (the 1d expansions call `view`, which
may reject a transposed tensor).
-/

namespace HOL
open TorchScalar
variable {K : Type} [TorchScalar K]

/-! ## expansions -/

/-- Number of spatial axes. -/
inductive Rank where
  | one | two
  deriving DecidableEq

/-- Rank of the images. -/
def Rank.dims : Rank → ℕ
  | .one => 3
  | .two => 4

/-- The expansion objects. In the model `n ≥ 1` is assumed where `n - 1` occurs. -/
inductive Expander (K : Type) where
  /-- `LagrangeExpand`, `FourierExpand`: `BasisExpand(basis, n)` -/
  | plain (n : ℕ) (basis : BasisFn K)
  /-- `PiecewisePolynomialExpand`, `PiecewisePolynomialExpand1d` (`shared`), `PiecewiseDiscontinuousPolynomialExpand`,
  `PiecewiseDiscontinuousPolynomialExpand1d` -/
  | piecewise (shared : Bool) (rank : Rank) (n segments : ℕ) (length : K)

/-- `LagrangeExpand(n, length)`, LagrangePolynomial.py:237-239. -/
def lagrangeExpand (n : ℕ) (length : K) : Expander K := .plain n (getLagrangeBasis n length)
/-- `FourierExpand(n, length)`, LagrangePolynomial.py:270-272. -/
def fourierExpand (n : ℕ) (length : K) : Expander K := .plain n (.fourier length)

/-- `self._variables`, Basis.py:62, 152, 235, 314; for `BasisExpand` the number of functions. -/
def Expander.variables : Expander K → ℕ
  | .plain n _ => n
  | .piecewise true _ n segments _ => (n - 1) * segments + 1
  | .piecewise false _ n segments _ => n * segments

/-- Limit the segment number to the existing ones: `torch.where` twice (Basis.py:77-82, 165-170, 327-332), in the discontinuous 2d class
`.clamp` (247-251). -/
def limitSegment (shared : Bool) (rank : Rank) (segments : ℕ) (v : ℤ) : ℤ :=
  if shared = false ∧ rank = .two then clampInt v 0 ((segments : ℤ) - 1)
  else
    let v := if v ≤ (segments : ℤ) - 1 then v else (segments : ℤ) - 1
    if v ≥ 0 then v else 0

/-- `id_min`, Basis.py:75-82, 163-170, 246-251, 325-332, on one entry. -/
def expandSegment (shared : Bool) (rank : Rank) (segments : ℕ) (length x : K) : ℤ :=
  limitSegment shared rank segments
    (toLong (((x + 1 / ((2 : ℕ) : K) * length) / length) * ((segments : ℕ) : K)))

/-- `_eta`, Basis.py:128-135, 210-217, 290-296, 372-378. -/
def expandEta (segments : ℕ) (index : ℤ) : K := (index : K) / ((segments : ℕ) : K) * ((2 : ℕ) : K) - 1

/-- `x_in`, Basis.py:88-92, 176-180, 256-260, 338-342, on one entry. -/
def expandLocal (segments : ℕ) (length x : K) (id : ℤ) : K :=
  length * ((x - expandEta segments id) / (expandEta segments (id + 1) - expandEta segments id)) - 1 / ((2 : ℕ) : K) * length

/-- `mat[windex, wrange] = values`: every index must exist (negative ones wrap), then write the values one after another. -/
def scatter (mat : Tensor K) (windex : List ℕ) (wrange : List ℤ) (values : List K) : Py (Tensor K) :=
  match mat.shape with
  | [rows, cols] =>
    if (∀ r ∈ windex, r < rows) ∧ ∀ c ∈ wrange, (PwLayer.normIndex cols c).isSome then
      .ok ((windex.zip (wrange.zip values)).foldl
        (fun m p => m.set [p.1, (PwLayer.normIndex cols p.2.1).getD 0] p.2.2) mat)
    else .error .indexError
  | _ => .error .runtimeError

/-- `__call__` of the four piecewise expansions, Basis.py:67-126, 157-208, 239-288, 319-370. The input must have rank 4 (2d) or 3 (1d): reading the
shape raises `IndexError` for smaller ranks, `permute` raises for larger ones. -/
def piecewiseExpand (shared : Bool) (rank : Rank) (n segments : ℕ) (length : K) (x : Tensor K) : Py (Tensor K) := do
  let vars := Expander.variables (.piecewise shared rank n segments length)
  let idMin : Tensor ℤ := x.map (expandSegment shared rank segments length)
  let widMin : Tensor ℤ := idMin.map (· * ((if shared then n - 1 else n : ℕ) : ℤ))
  let xIn := Tensor.tabulate x.shape fun idx => expandLocal segments length (x.get idx) (idMin.get idx)
  let out ← stackBasis n (getLagrangeBasis n length) xIn
  if x.shape.length < rank.dims then .error .indexError
  else if rank.dims < x.shape.length then .error .runtimeError
  else if vars = 0 then .error .runtimeError
  else do
    -- out.permute(1, 2, 3, 4, 0)
    let out := Tensor.tabulate (x.shape ++ [n]) fun idx => out.get (idx.getLastD 0 :: idx.dropLast)
    let pixels := numel x.shape
    -- mat.reshape(-1, variables)
    let mat : Tensor K := Tensor.tab2 pixels vars fun _ _ => 0
    let wrange := (List.range (pixels * n)).map fun q => widMin.data.getD (q / n) 0 + ((q % n : ℕ) : ℤ)
    let windex := (List.range (pixels * n)).map fun q => q / n
    let mat ← scatter mat windex wrange out.data
    let mat := mat.reshape (x.shape ++ [vars])
    -- mat.permute(4, 0, 1, 2, 3)
    .ok (Tensor.tabulate (vars :: x.shape) fun idx => mat.get (idx.tail ++ [idx.headD 0]))

/-- `expand(x)`: `BasisExpand.__call__`, Basis.py:20-35, and the piecewise classes. -/
def Expander.call (e : Expander K) (x : Tensor K) : Py (Tensor K) :=
  match e with
  | .plain n basis => stackBasis n basis x
  | .piecewise shared rank n segments length => piecewiseExpand shared rank n segments length x

/-- `Expansion2d.__init__` and `Expansion1d.__init__`, FunctionalConvolution.py:108-118, 143-153 (`build`, FunctionalConvolution.py:120-121, 155-156, does nothing): a missing basis
raises. -/
def expansionInit (basis : Option (Expander K)) : Py (Expander K) :=
  match basis with
  | none => .error .exception
  | some e => .ok e

/-- `Expansion2d.__call__`, FunctionalConvolution.py:123-139. -/
def expansion2d (e : Expander K) (x : Tensor K) : Py (Tensor K) := do
  let res ← e.call x
  match res.shape with
  | [v, b, c, h, w] =>
    let res := Tensor.tab5 b h w c v fun b h w c v => res.get [v, b, c, h, w]     -- permute(1, 3, 4, 2, 0)
    let res := res.reshape [b, h, w, c * v]
    .ok (Tensor.tab4 b (c * v) h w fun b c h w => res.get [b, h, w, c])           -- permute(0, 3, 1, 2)
  | _ => .error .runtimeError

/-- `Expansion1d.__call__`, FunctionalConvolution.py:158-172. -/
def expansion1d (e : Expander K) (x : Tensor K) : Py (Tensor K) := do
  let res ← e.call x
  match res.shape with
  | [v, b, c, w] =>
    let res := Tensor.tab4 b w c v fun b w c v => res.get [v, b, c, w]            -- permute(1, 3, 2, 0)
    let res := res.reshape [b, w, c * v]
    .ok (Tensor.tab3 b (c * v) w fun b c w => res.get [b, w, c])                  -- permute(0, 2, 1)
  | _ => .error .runtimeError

/-! ## convolutions of PyTorch -/

/-- Geometry arguments. -/
structure Geometry where
  kernel : ℕ
  stride : ℕ
  padding : ℕ
  dilation : ℕ
  /-- of transposed convolutions only -/
  outputPadding : ℕ

/-- Size of one axis after a convolution; too small inputs raise. -/
def convSize (g : Geometry) (n : ℕ) : Py ℕ :=
  if g.stride = 0 ∨ g.kernel = 0 ∨ g.dilation = 0 ∨ n + 2 * g.padding < (g.kernel - 1) * g.dilation + 1 then .error .runtimeError
  else .ok ((n + 2 * g.padding - ((g.kernel - 1) * g.dilation + 1)) / g.stride + 1)

/-- Position read by kernel offset `u` for output position `i`, `none` in the padding. -/
def tap (g : Geometry) (n i u : ℕ) : Option ℕ :=
  let q := i * g.stride + u * g.dilation
  if g.padding ≤ q ∧ q - g.padding < n then some (q - g.padding) else none

/-- `nn.Conv2d.forward` without bias. -/
def conv2d (g : Geometry) (w x : Tensor K) : Py (Tensor K) :=
  match x.shape, w.shape with
  | [b, c, h, v], [o, c', k, k'] => do
    if c = c' ∧ k = g.kernel ∧ k' = g.kernel then
      let oh ← convSize g h
      let ow ← convSize g v
      .ok (Tensor.tab4 b o oh ow fun s r i j =>
        sumL ((List.range c).flatMap fun q => (List.range k).flatMap fun d => (List.range k).map fun e =>
          ((tap g h i d).elim 0 fun y => (tap g v j e).elim 0 fun z => x.get [s, q, y, z]) * w.get [r, q, d, e]))
    else .error .runtimeError
  | _, _ => .error .runtimeError

/-- `nn.Conv1d.forward` without bias. -/
def conv1d (g : Geometry) (w x : Tensor K) : Py (Tensor K) :=
  match x.shape, w.shape with
  | [b, c, h], [o, c', k] => do
    if c = c' ∧ k = g.kernel then
      let oh ← convSize g h
      .ok (Tensor.tab3 b o oh fun s r i =>
        sumL ((List.range c).flatMap fun q => (List.range k).map fun d =>
          ((tap g h i d).elim 0 fun y => x.get [s, q, y]) * w.get [r, q, d]))
    else .error .runtimeError
  | _, _ => .error .runtimeError

/-- Size of one axis after a transposed convolution. -/
def convTransposeSize (g : Geometry) (n : ℕ) : Py ℕ :=
  if g.stride = 0 ∨ g.kernel = 0 ∨ g.dilation = 0 ∨ n = 0 ∨ ¬ (g.outputPadding < g.stride ∨ g.outputPadding < g.dilation) ∨
      (n - 1) * g.stride + g.dilation * (g.kernel - 1) + g.outputPadding + 1 ≤ 2 * g.padding then .error .runtimeError
  else .ok ((n - 1) * g.stride + g.dilation * (g.kernel - 1) + g.outputPadding + 1 - 2 * g.padding)

/-- The input position that kernel offset `u` adds to output position `i`. -/
def tapTranspose (g : Geometry) (n i u : ℕ) : Option ℕ :=
  let q := i + g.padding
  if u * g.dilation ≤ q ∧ (q - u * g.dilation) % g.stride = 0 ∧ (q - u * g.dilation) / g.stride < n
  then some ((q - u * g.dilation) / g.stride) else none

/-- `nn.ConvTranspose2d.forward` without bias; the weight has shape `[in, out, k, k]`. -/
def convTranspose2d (g : Geometry) (w x : Tensor K) : Py (Tensor K) :=
  match x.shape, w.shape with
  | [b, c, h, v], [c', o, k, k'] => do
    if c = c' ∧ k = g.kernel ∧ k' = g.kernel then
      let oh ← convTransposeSize g h
      let ow ← convTransposeSize g v
      .ok (Tensor.tab4 b o oh ow fun s r i j =>
        sumL ((List.range c).flatMap fun q => (List.range k).flatMap fun d => (List.range k).map fun e =>
          ((tapTranspose g h i d).elim 0 fun y => (tapTranspose g v j e).elim 0 fun z => x.get [s, q, y, z]) * w.get [q, r, d, e]))
    else .error .runtimeError
  | _, _ => .error .runtimeError

/-! ## layers -/

/-- Which PyTorch module `self.conv` is. -/
inductive ConvKind where
  | conv2d | conv1d | convTranspose2d
  deriving DecidableEq

/-- A high order convolution: attributes `poly`, `periodicity`, `conv`, `_rescale`. -/
structure ConvLayer (K : Type) where
  expander : Expander K
  kind : ConvKind
  geometry : Geometry
  weight : Tensor K
  periodicity : Option K
  rescale : K

/-- `forward`, FunctionalConvolution.py:215-218, 314-320, 441-447, 568-574, FunctionalConvolutionTranspose.py:123-129. `FourierConvolution`
has no periodicity. -/
def ConvLayer.forward (L : ConvLayer K) (x : Tensor K) : Py (Tensor K) := do
  let x := x.map (periodize L.periodicity)
  match L.kind with
  | .conv2d => do
    let x ← expansion2d L.expander x
    let out ← conv2d L.geometry L.weight x
    .ok (out.map (· * L.rescale))
  | .conv1d => do
    let x ← expansion1d L.expander x
    let out ← conv1d L.geometry L.weight x
    .ok (out.map (· * L.rescale))
  | .convTranspose2d => do
    let x ← expansion2d L.expander x
    let out ← convTranspose2d L.geometry L.weight x
    .ok (out.map (· * L.rescale))

/-- Values of the tables, layers.py:278-295. -/
inductive ConvClass where
  | polynomial (rank : Rank)
  | piecewise (shared : Bool) (rank : Rank)
  | fourier (rank : Rank)
  deriving DecidableEq

/-- Table `convolutional_layers`, layers.py:278-291; some entries are `None`. -/
def convTable : List (String × Option ConvClass) :=
  [ ("continuous2d", some (.piecewise true .two)),
    ("continuous1d", some (.piecewise true .one)),
    ("continuous_prod2d", none),
    ("discontinuous2d", some (.piecewise false .two)),
    ("discontinuous1d", some (.piecewise false .one)),
    ("discontinuous_prod2d", none),
    ("polynomial2d", some (.polynomial .two)),
    ("polynomial1d", some (.polynomial .one)),
    ("polynomial_prod2d", none),
    ("product2d", none),
    ("fourier2d", some (.fourier .two)),
    ("fourier1d", some (.fourier .one)) ]

/-- Keyword arguments of the convolution constructors. -/
structure ConvArgs (K : Type) where
  n : ℕ
  /-- ignored by polynomial and Fourier convolutions -/
  segments : ℕ
  inChannels : ℕ
  outChannels : ℕ
  length : K
  rescaleOutput : Bool
  periodicity : Option K
  weightMagnitude : K
  geometry : Geometry

/-- Random numbers of `torch.rand` / `uniform_`: every entry in `[0, 1)`. -/
abbrev ConvRng (K : Type) := ℕ → ℕ → ℕ → ℕ → K

/-- The expansion of each class, FunctionalConvolution.py:202, 298, 423, 552 and the classes passed as `expansion_function`. -/
def ConvClass.expander (cls : ConvClass) (a : ConvArgs K) : Expander K :=
  match cls with
  | .polynomial _ => lagrangeExpand a.n a.length
  | .piecewise shared rank => .piecewise shared rank a.n a.segments a.length
  | .fourier _ => fourierExpand a.n a.length

/-- `self._channels`, FunctionalConvolution.py:203, 299, 424, 553. -/
def ConvClass.channels (cls : ConvClass) (a : ConvArgs K) : ℕ :=
  match cls with
  | .polynomial _ => a.n * a.inChannels
  | .piecewise true _ => ((a.n - 1) * a.segments + 1) * a.inChannels
  | .piecewise false _ => a.n * a.segments * a.inChannels
  | .fourier _ => a.n * a.inChannels

/-- `constant_random_initialization_conv2d`, FunctionalConvolution.py:17-50. `resize` of a non contiguous tensor copies it
in row-major order; `in_channels` is the number of expanded channels. -/
def constantRandomConv (rand : ConvRng K) (nodes outC inC k : ℕ) (wm : K) : Tensor K :=
  let inFeatures := k * k * inC / nodes
  let r := Tensor.tab4 outC (inC / nodes) k k fun o c u v => rand o c u v * wm / ((inFeatures : ℕ) : K)
  let r5 := Tensor.tab5 outC (inC / nodes) k k nodes fun o c u v _ => r.get [o, c, u, v]
  let p := Tensor.tab5 outC (inC / nodes) nodes k k fun o c j u v => r5.get [o, c, u, v, j]
  p.reshape [outC, inC, k, k]

/-- An entry of `uniform_(-hi, hi)` for the draw `r`. -/
def uniformBetween (r hi : K) : K :=
  let lo := -hi
  lo + (hi - lo) * r

/-- `conv.weight.data.uniform_(-m, m)` with `m = weight_magnitude / in_features`, FunctionalConvolution.py:94-97. -/
def uniformEntry (r wm : K) (inFeatures : ℕ) : K := uniformBetween r (wm / ((inFeatures : ℕ) : K))

/-- The weights left by `conv_wrapper` (FunctionalConvolution.py:53-103) and `conv_transpose_wrapper` (FunctionalConvolutionTranspose.py:18-72) for a draw `r`:
`rescale_output` is `False`, `True` or anything else (`none`), which keeps the initial value `kaiming` of PyTorch. `in_features` is
`in_channels * kernel_size²`, also in one dimension; dividing by zero raises. -/
def wrapperEntry (rescaleOutput : Option Bool) (r kaiming wm : K) (inFeatures : ℕ) : Py K :=
  match rescaleOutput with
  | some false => if inFeatures = 0 then .error .zeroDivisionError else .ok (uniformEntry r wm inFeatures)
  | some true => .ok (uniformBetween r wm)
  | none => .ok kaiming

/-- `self._rescale`, FunctionalConvolution.py:210-213 and the same lines of the other classes. -/
def convRescale (a : ConvArgs K) : K :=
  if a.rescaleOutput then 1 / ((a.inChannels * a.geometry.kernel * a.geometry.kernel : ℕ) : K) else 1

/-- The constructors, FunctionalConvolution.py:176-650. `FourierConvolution1d` passes no `expansion`, so that `None` is called
(`TypeError`); without channels or with an empty kernel `weight_magnitude / in_features` raises `ZeroDivisionError`. The wrapper never receives `rescale_output`, so
its weights are those of `wrapperEntry (some false)`. The 2d polynomial classes then initialize
with equal weights; `num_nodes` (355, 483, 612) is the number of variables. -/
def convInit (cls : ConvClass) (a : ConvArgs K) (rand : ConvRng K) : Py (ConvLayer K) :=
  let channels := cls.channels a
  let k := a.geometry.kernel
  let zeroDiv := channels * k * k = 0
  match cls with
  | .fourier .one => .error .typeError
  | .fourier .two =>
    if zeroDiv then .error .zeroDivisionError
    else .ok { expander := cls.expander a, kind := .conv2d, geometry := a.geometry, periodicity := none, rescale := convRescale a
               weight := Tensor.tab4 a.outChannels channels k k fun o c u v => uniformEntry (rand o c u v) a.weightMagnitude (channels * k * k) }
  | .polynomial .two | .piecewise _ .two =>
    if zeroDiv then .error .zeroDivisionError
    else .ok { expander := cls.expander a, kind := .conv2d, geometry := a.geometry, periodicity := a.periodicity, rescale := convRescale a
               weight := constantRandomConv rand (cls.expander a).variables a.outChannels channels k a.weightMagnitude }
  | .polynomial .one | .piecewise _ .one =>
    if zeroDiv then .error .zeroDivisionError
    else .ok { expander := cls.expander a, kind := .conv1d, geometry := a.geometry, periodicity := a.periodicity, rescale := convRescale a
               weight := Tensor.tab3 a.outChannels channels k fun o c u => uniformEntry (rand o c u 0) a.weightMagnitude (channels * k * k) }

/-- `high_order_convolution_layers(layer_type, **kwargs)`, layers.py:366-372: calling `None` raises `TypeError`. -/
def convLayer (layerType : String) (a : ConvArgs K) (rand : ConvRng K) : Py (ConvLayer K) :=
  match convTable.lookup layerType with
  | none => .error .valueError
  | some none => .error .typeError
  | some (some cls) => convInit cls a rand

/-- `PiecewisePolynomialConvolutionTranspose2d.__init__`, FunctionalConvolutionTranspose.py:75-160. -/
def convTransposeInit (a : ConvArgs K) (rand : ConvRng K) : Py (ConvLayer K) :=
  let cls : ConvClass := .piecewise true .two
  let channels := cls.channels a
  let k := a.geometry.kernel
  if channels * k * k = 0 then .error .zeroDivisionError
  else .ok { expander := cls.expander a, kind := .convTranspose2d, geometry := a.geometry, periodicity := a.periodicity, rescale := convRescale a
             weight := Tensor.tab4 channels a.outChannels k k fun c o u v => uniformEntry (rand c o u v) a.weightMagnitude (channels * k * k) }

/-- Table `convolutional_transpose_layers` and `high_order_convolution_transpose_layers`, layers.py:293-295, 375-382. -/
def convTransposeLayer (layerType : String) (a : ConvArgs K) (rand : ConvRng K) : Py (ConvLayer K) :=
  if layerType = "continuous2d" then convTransposeInit a rand else .error .valueError

end HOL
