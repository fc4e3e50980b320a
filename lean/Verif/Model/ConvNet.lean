import Verif.Model.Conv
import Verif.Model.Network

/-!
# Model: networks of convolutions

networks.py:444-781: `HighOrderFullyConvolutionalNetwork`, `HighOrderFullyDeconvolutionalNetwork`, `HighOrderTailFocusNetwork`.
Sizes, strides and focus values are natural numbers; `device` is unused in the code. All convolutions keep the default `length=2`,
`weight_magnitude=1` and `dilation=1`.
-/

namespace HOL
open TorchScalar

variable {K : Type} [TorchScalar K]

/-- A value or a list of values, as accepted by the network constructors. -/
inductive OneOrMany (α : Type) where
  | one (a : α)
  | many (l : List α)

/-- `scalar_to_list`, networks.py:444-450 (for arguments other than `None`). -/
def OneOrMany.toList {α : Type} (v : OneOrMany α) (size : ℕ) : List α :=
  match v with
  | .one a => List.replicate size a
  | .many l => l

/-- `l[i]` for a natural number `i`. -/
def pyIndex {α : Type} (l : List α) (i : ℕ) : Py α :=
  match l[i]? with
  | some a => .ok a
  | none => .error .indexError

/-- Arguments of the three constructors. `normalization` is called with the number of channels; every call makes a new module, told apart by the
number of the layer. `focus` is used by `HighOrderTailFocusNetwork` only, `pooling` by `HighOrderFullyConvolutionalNetwork` only. -/
structure ConvNetArgs (K : Type) where
  layerType : OneOrMany String
  n : OneOrMany ℕ
  channels : List ℕ
  segments : OneOrMany ℕ
  kernelSize : List ℕ
  rescaleOutput : Bool
  periodicity : Option K
  normalization : Option (ℕ → ℕ → Fwd K)
  pooling : String
  stride : Option (OneOrMany ℕ)
  padding : ℕ
  focus : Option (OneOrMany ℕ)

/-- `k is False` for an integer `k`: different objects. -/
def intIsFalse (_ : ℕ) : Bool := false

/-- `len(segments) == len(kernel_size) == len(layer_type) == len(n) is False`, networks.py:506-512, 602-608, 707-713: a chain of comparisons, that is
the conjunction of the four neighbouring ones. -/
def unequalLengths (segments kernelSize layerType n : ℕ) : Bool :=
  segments == kernelSize && kernelSize == layerType && layerType == n && intIsFalse n

/-- `len(channels) == len(n) + 1 is False`, networks.py:517, 613, 718. -/
def wrongChannels (channels n : ℕ) : Bool := channels == n + 1 && intIsFalse (n + 1)

/-- A module of the list of layers. -/
inductive ConvStage (K : Type) where
  | conv (L : ConvLayer K)
  | normal (f : Fwd K)

/-- Calling a module. -/
def ConvStage.call : ConvStage K → Fwd K
  | .conv L => L.forward
  | .normal f => f

/-- `nn.Sequential`. -/
def runStages : List (ConvStage K) → Fwd K
  | [], x => .ok x
  | s :: ss, x => do
    let y ← s.call x
    runStages ss y

/-- The lists that the constructor works with, networks.py:498-502, 596-600, 700-705. -/
structure ConvLists where
  layerType : List String
  n : List ℕ
  segments : List ℕ
  stride : Option (List ℕ)

def ConvNetArgs.lists (a : ConvNetArgs K) (size : ℕ) : ConvLists :=
  { layerType := a.layerType.toList size, n := a.n.toList size, segments := a.segments.toList size, stride := a.stride.map (·.toList size) }

/-- `1 if self.stride is None else self.stride[i]`. -/
def ConvLists.strideAt (l : ConvLists) (i : ℕ) : Py ℕ :=
  match l.stride with
  | none => .ok 1
  | some s => pyIndex s i

/-- One round of the loop, networks.py:523-538, 623-638, 725-750, where `factory` is `high_order_convolution_layers` or
`high_order_convolution_transpose_layers`. -/
def convRound (factory : String → ConvArgs K → ConvRng K → Py (ConvLayer K)) (a : ConvNetArgs K) (l : ConvLists) (rand : ℕ → ConvRng K) (i : ℕ) :
    Py (List (ConvStage K)) := do
  let layerType ← pyIndex l.layerType i
  let n ← pyIndex l.n i
  let inChannels ← pyIndex a.channels i
  let outChannels ← pyIndex a.channels (i + 1)
  let kernel ← pyIndex a.kernelSize i
  let segments ← pyIndex l.segments i
  let stride ← l.strideAt i
  let L ← factory layerType
    { n := n, segments := segments, inChannels := inChannels, outChannels := outChannels, length := ((2 : ℕ) : K), rescaleOutput := a.rescaleOutput
      periodicity := a.periodicity, weightMagnitude := 1
      geometry := { kernel := kernel, stride := stride, padding := a.padding, dilation := 1, outputPadding := 0 } } (rand i)
  match a.normalization with
  | none => .ok [.conv L]
  | some f => .ok [.conv L, .normal (f i outChannels)]

/-- Checks and loop shared by the three constructors. -/
def convStages (factory : String → ConvArgs K → ConvRng K → Py (ConvLayer K)) (a : ConvNetArgs K) (size : ℕ) (rand : ℕ → ConvRng K) :
    Py (List (ConvStage K)) := do
  let l := a.lists size
  if a.channels.length < 2 then .error .valueError
  else if unequalLengths l.segments.length a.kernelSize.length l.layerType.length l.n.length then .error .valueError
  else if wrongChannels a.channels.length l.n.length then .error .valueError
  else do
    let ss ← (List.range (a.channels.length - 1)).mapM (convRound factory a l rand)
    .ok ss.flatten

/-! ## pooling -/

/-- `nn.AdaptiveAvgPool{1,2,3}d(1)`: the mean over the last `d` axes, which stay as axes of size 1. Inputs have `d + 1` (no batch) or `d + 2` axes, and none of the
averaged axes may be empty. -/
def adaptiveAvgPool (d : ℕ) (x : Tensor K) : Py (Tensor K) :=
  let r := x.shape.length
  if r = d + 1 ∨ r = d + 2 then
    let keep := x.shape.take (r - d)
    let last := x.shape.drop (r - d)
    if numel last = 0 then .error .runtimeError
    else
      let flat := x.reshape [numel keep, numel last]
      let mean := Tensor.tab1 (numel keep) fun p => sumL ((List.range (numel last)).map fun q => flat.get [p, q]) / ((numel last : ℕ) : K)
      .ok (mean.reshape (keep ++ List.replicate d 1))
  else .error .runtimeError

/-- `nn.Flatten()` and `flatten(1)`. -/
def flatten1 (x : Tensor K) : Py (Tensor K) :=
  match x.shape with
  | b :: c :: rest => .ok (x.reshape [b, numel (c :: rest)])
  | _ => .error .indexError

/-! ## the three networks -/

/-- Attributes of `HighOrderFullyConvolutionalNetwork`. -/
structure FCN (K : Type) where
  stages : List (ConvStage K)
  /-- number of pooled axes -/
  pool : Option ℕ
  channels : List ℕ

/-- `__init__`, networks.py:483-552. Any other string than `1d`, `2d`, `3d` means no pooling. -/
def FCN.init (a : ConvNetArgs K) (rand : ℕ → ConvRng K) : Py (FCN K) := do
  let stages ← convStages convLayer a a.kernelSize.length rand
  let pool := if a.pooling = "1d" then some 1 else if a.pooling = "2d" then some 2 else if a.pooling = "3d" then some 3 else none
  .ok { stages := stages, pool := pool, channels := a.channels }

/-- `forward`, networks.py:554-556. -/
def FCN.forward (N : FCN K) (x : Tensor K) : Py (Tensor K) := do
  let y ← runStages N.stages x
  match N.pool with
  | some d => do
    let y ← adaptiveAvgPool d y
    flatten1 y
  | none => flatten1 y

/-- `output_size`, networks.py:558-560. -/
def FCN.outputSize (N : FCN K) : Py ℕ :=
  match N.channels.getLast? with
  | some c => .ok c
  | none => .error .indexError

/-- Attributes of `HighOrderFullyDeconvolutionalNetwork`. -/
structure Deconv (K : Type) where
  stages : List (ConvStage K)
  inChannels : ℕ

/-- `__init__`, networks.py:581-640: here a single value is repeated `len(channels)` times. -/
def Deconv.init (a : ConvNetArgs K) (rand : ℕ → ConvRng K) : Py (Deconv K) := do
  let stages ← convStages convTransposeLayer a a.channels.length rand
  .ok { stages := stages, inChannels := a.channels.headD 0 }

/-- `forward`, networks.py:646-647. -/
def Deconv.forward (N : Deconv K) (x : Tensor K) : Py (Tensor K) := runStages N.stages x

/-- Attributes of `HighOrderTailFocusNetwork`. -/
structure TailFocus (K : Type) where
  stages : List (ConvStage K)
  channels : List ℕ
  kernelSize : List ℕ
  stride : Option (List ℕ)
  focus : Option (List ℕ)

/-- `__init__`, networks.py:684-750. -/
def TailFocus.init (a : ConvNetArgs K) (rand : ℕ → ConvRng K) : Py (TailFocus K) := do
  let size := a.kernelSize.length
  let stages ← convStages convLayer a size rand
  .ok { stages := stages, channels := a.channels, kernelSize := a.kernelSize, stride := (a.lists size).stride, focus := a.focus.map (·.toList size) }

/-- One round of the first loop of `compute_sizes`, networks.py:754-756. `math.ceil` of the float quotient is taken to be the exact ceiling (true below
`2 ^ 53`). -/
def TailFocus.nextWidth (N : TailFocus K) (w : ℤ) (i k : ℕ) : Py ℤ := do
  let s ← match N.stride with
    | none => .error .typeError
    | some s => pyIndex s i
  if s = 0 then .error .zeroDivisionError
  else .ok (-((-(w - k + 1)) / (s : ℤ)))

/-- The loop, networks.py:754-756: the widths after `w`. -/
def TailFocus.widthsFrom (N : TailFocus K) : ℤ → ℕ → List ℕ → Py (List ℤ)
  | w, _, [] => .ok [w]
  | w, i, k :: ks => do
    let w' ← N.nextWidth w i k
    let rest ← N.widthsFrom w' (i + 1) ks
    .ok (w :: rest)

/-- `compute_sizes`, networks.py:752-763. -/
def TailFocus.computeSizes (N : TailFocus K) (inputSize : ℕ) : Py (List ℤ × List ℤ) := do
  let widths ← N.widthsFrom inputSize 0 N.kernelSize
  match N.focus with
  | none => .error .typeError
  | some focus => do
    let f := focus.map (fun v : ℕ => (v : ℤ)) ++ [widths.getLastD 0]
    let sizes ← f.zipIdx.mapM fun p => do
      let c ← pyIndex N.channels p.2
      .ok ((c : ℤ) * p.1)
    .ok (widths, sizes)

/-- `x[:, :, -f:].flatten(1)`: for `f = 0` the slice is `0:`, for `f` larger than the width it is everything. Only signals with three axes are modelled
("This only works for 1d convolutions", networks.py:672). -/
def tailSlice (f : ℕ) (x : Tensor K) : Py (Tensor K) :=
  match x.shape with
  | [b, c, w] =>
    let start := if f = 0 then 0 else w - f
    flatten1 (Tensor.tab3 b c (w - start) fun s r i => x.get [s, r, start + i])
  | _ => .error .indexError

/-- The two sizes of a matrix. -/
def matrixSize (t : Tensor K) : Py (ℕ × ℕ) :=
  match t.shape with
  | [b, c] => .ok (b, c)
  | _ => .error .runtimeError

/-- `torch.cat(l, dim=1)` of matrices. -/
def catColumns (l : List (Tensor K)) : Py (Tensor K) := do
  let sizes ← l.mapM matrixSize
  match sizes with
  | [] => .error .runtimeError
  | (b, _) :: _ =>
    if sizes.all fun s => s.1 == b then
      .ok ⟨[b, (sizes.map Prod.snd).sum], (List.range b).flatMap fun s => l.flatMap fun t => (List.range (t.shape.getD 1 0)).map fun j => t.get [s, j]⟩
    else .error .runtimeError

/-- The loop of `forward`, networks.py:767-773: after every normalization a tail is kept, while there are entries of `focus` left. Returns the final `x` and
the new tails. -/
def TailFocus.loop (focus : List ℕ) : List (ConvStage K) → ℕ → Tensor K → Py (Tensor K × List (Tensor K))
  | [], _, x => .ok (x, [])
  | s :: ss, count, x => do
    let x ← s.call x
    match s, focus[count]? with
    | .normal _, some f => do
      let tail ← tailSlice f x
      let r ← loop focus ss (count + 1) x
      .ok (r.1, tail :: r.2)
    | _, _ => loop focus ss count x

/-- `forward`, networks.py:765-781. -/
def TailFocus.forward (N : TailFocus K) (x : Tensor K) : Py (Tensor K) :=
  match N.focus with
  | none => .error .typeError
  | some focus => do
    let f ← pyIndex focus 0
    let first ← tailSlice f x
    let r ← TailFocus.loop focus N.stages 1 x
    let last ← flatten1 r.1
    catColumns (first :: r.2 ++ [last])

end HOL
