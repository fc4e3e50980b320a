import Verif.Model.Refine
import Verif.Model.Product
import Verif.Model.ND

/-!
# Modules, layer factories and networks

Model of layers.py:148-276, 357-363 and networks.py:34-447, 1002-1131.

Python objects have identity: a module can occur several times in a network, two networks can share a module, and
refinement changes a module in place. So all modules live in one heap (a list), a reference to an object is its position (a natural number), and the
modules an object refers to were created before it (smaller positions).

Modules are modelled by what `forward` computes and what `parameters()`/`modules()` enumerate. Training mode, devices, hooks, buffers and the
parameter `result` of `Function` layers (allocated, never read) are left out.
-/

namespace HOL
open TorchScalar
variable {K : Type} [TorchScalar K]

/-- The `nn.Module` classes. `other` stands for a module without parameters and submodules that applies a given function: normalizations
(layers.py:43-137), activation functions, `nn.Dropout` (the identity when evaluating). -/
inductive Mod (K : Type) where
  /-- `PiecewisePolynomial`, `PiecewisePolynomialProd`, `PiecewiseDiscontinuousPolynomial`, `PiecewiseDiscontinuousPolynomialProd` -/
  | pw (L : PwLayer K)
  /-- `Polynomial`, `FourierSeries` -/
  | fn (L : FnLayer K)
  /-- `Product` -/
  | product (L : ProductLayer K)
  /-- `torch.nn.Linear` with bias -/
  | linear (weight bias : Tensor K)
  /-- `LinearReluAdapter`, layers.py:152-158 -/
  | linearRelu (f : ℕ)
  /-- `Polynomial2D` ... `Polynomial5D` -/
  | polyND (L : PolyNDLayer K)
  /-- `PiecewiseND` -/
  | pwND (L : PwNDLayer K)
  /-- `SwitchLayer`, layers.py:171-230: `_layers` is a Python list, `_normalization` a module or `None` -/
  | switch (inFeatures : ℕ) (layers : List ℕ) (norm : Option ℕ)
  /-- `SumLayer`, layers.py:161-168: `_layer_list` is a Python list -/
  | sum (layers : List ℕ)
  /-- `nn.Sequential` -/
  | seq (children : List ℕ)
  /-- `HighOrderMLP`, networks.py:160-288: attributes `dropout_layer`, `input_layer`, `output_layer`, `model` -/
  | mlp (dropoutLayer inputLayer outputLayer model : ℕ)
  /-- `LowOrderMLP`, `HighOrderMLPList`: attribute `model` -/
  | wrap (model : ℕ)
  | other (f : Tensor K → Py (Tensor K))

abbrev Heap (K : Type) := List (Mod K)
/-- What calling a module does. -/
abbrev Fwd (K : Type) := Tensor K → Py (Tensor K)

/-! ## forward -/

/-- Entrywise operation on two tensors, broadcasting matrices; other shapes must agree (general broadcasting is not modelled). -/
def zipBcast (f : K → K → K) (s t : Tensor K) : Py (Tensor K) :=
  match s.shape, t.shape with
  | [a, b], [a', b'] => do
    let m ← bcast a a'
    let n ← bcast b b'
    .ok (Tensor.tab2 m n fun p q => f (s.get [bidx a p, bidx b q]) (t.get [bidx a' p, bidx b' q]))
  | s1, s2 =>
    if s1 = s2 then .ok (Tensor.tabulate s1 fun idx => f (s.get idx) (t.get idx)) else .error .runtimeError

/-- `torch.nn.Linear.forward` for a matrix. -/
def linearForward (weight bias x : Tensor K) : Py (Tensor K) :=
  match x.shape, weight.shape with
  | [b, i], [o, i'] =>
    if i = i' then
      .ok (Tensor.tab2 b o fun s r => sumL ((List.range i).map fun q => x.get [s, q] * weight.get [r, q]) + bias.get [r])
    else .error .runtimeError
  | _, _ => .error .runtimeError

/-- `torch.nn.functional.relu` -/
def reluT (x : Tensor K) : Tensor K := x.map fun v => if ltB v 0 then 0 else v

/-- `final *= outputs[i]` for the remaining outputs, layers.py:224-225: an in-place product cannot change the shape. -/
def mulAll (final : Tensor K) : List (Tensor K) → Py (Tensor K)
  | [] => .ok final
  | t :: ts => do
    let r ← zipBcast (· * ·) final t
    if r.shape = final.shape then mulAll r ts else .error .runtimeError

/-- `torch.add(*x_all)`, layers.py:168: takes exactly two tensors. -/
def addStar (l : List (Tensor K)) : Py (Tensor K) :=
  match l with
  | [a, b] => zipBcast (· + ·) a b
  | _ => .error .typeError

/-- `nn.Sequential.forward` -/
def seqForward : List (Fwd K) → Fwd K
  | [], x => .ok x
  | f :: fs, x => f x >>= seqForward fs

/-- Calling a module whose submodules act as `call`. -/
def Mod.forward (call : ℕ → Fwd K) (m : Mod K) (x : Tensor K) : Py (Tensor K) :=
  match m with
  | .pw L => L.forward x
  | .fn L => L.forward x
  | .product L => L.forward x
  | .linear w b => linearForward w b x
  | .linearRelu f => do                                          -- layers.py:157-158
    let y ← call f x
    .ok (reluT y)
  | .polyND L => L.forward x
  | .pwND L => L.forward x
  | .switch _ layers norm => do                                   -- layers.py:220-230
    let outputs ← layers.mapM fun l => call l x
    match outputs with
    | [] => .error .indexError
    | o :: os =>
      let final ← mulAll o os
      match norm with
      | none => .ok final
      | some n => call n final
  | .sum layers => do                                             -- layers.py:166-168
    let xAll ← layers.mapM fun l => call l x
    addStar xAll
  | .seq cs => seqForward (cs.map call) x
  | .mlp _ _ _ model => call model x                              -- networks.py:287-288
  | .wrap model => call model x                                   -- networks.py:80-81, 156-157
  | .other f => f x

/-- Tabulate a recursive function over the heap, oldest module first. -/
def Heap.fold {β : Type} (dflt : β) (step : (ℕ → β) → ℕ → Mod K → β) (h : Heap K) : List β :=
  h.foldl (fun acc m => acc ++ [step (fun i => acc.getD i dflt) acc.length m]) []

/-- A call of a module that is not in the heap (does not occur). -/
def noFwd : Fwd K := fun _ => .error .runtimeError

/-- `module(x)` -/
def Heap.forward (h : Heap K) (i : ℕ) : Fwd K :=
  (h.fold noFwd fun call _ m => m.forward call).getD i noFwd

/-! ## enumeration of modules -/

/-- Registered submodules (`_modules`), in order. Modules in a Python list are not registered. -/
def Mod.children (m : Mod K) : List ℕ :=
  match m with
  | .linearRelu f => [f]
  | .switch _ _ norm => norm.toList
  | .seq cs => cs
  | .mlp d i o m => [d, i, o, m]
  | .wrap m => [m]
  | _ => []

/-- Modules held in a plain Python list. -/
def Mod.hidden (m : Mod K) : List ℕ :=
  match m with
  | .switch _ layers _ => layers
  | .sum layers => layers
  | _ => []

/-- `named_modules(memo)`: append the module and its registered descendants that are not yet in the memo. -/
def visitor (call : ℕ → List ℕ → List ℕ) (i : ℕ) (m : Mod K) (memo : List ℕ) : List ℕ :=
  if i ∈ memo then memo else m.children.foldl (fun memo c => call c memo) (memo ++ [i])

/-- `list(module.modules())` -/
def Heap.modules (h : Heap K) (i : ℕ) : List ℕ :=
  (h.fold (fun memo => memo) visitor).getD i (fun memo => memo) []

/-- `isinstance(module, nn.Sequential)` -/
def Mod.isSeq : Mod K → Bool
  | .seq _ => true
  | _ => false

/-- The modules owning parameters that `module.parameters()` enumerates. -/
def Mod.hasParams : Mod K → Bool
  | .pw _ | .fn _ | .product _ | .linear _ _ | .polyND _ | .pwND _ => true
  | _ => false

def Heap.parameters (h : Heap K) (i : ℕ) : List ℕ :=
  (h.modules i).filter fun j => ((h[j]?).map Mod.hasParams).getD false

/-! ## layer factory -/

/-- Keyword arguments reaching a fully connected layer. The last group is accepted and ignored by every class. -/
structure FcArgs (K : Type) where
  n : IntOrList
  inFeatures : ℕ
  outFeatures : ℕ
  segments : Option IntOrList
  periodicity : Option K
  /-- of `SwitchLayer` only -/
  numInputLayers : ℕ
  scale : K
  rescaleOutput : Bool
  initialization : String

/-- Values of the table `fc_layers`, layers.py:258-276, without the two switch layers. -/
inductive LeafKind where
  | linearRelu | linear
  | pw (cls : PwClass)
  | polynomial | polynomialProd | product | fourier
  /-- `Polynomial2D` ... `Polynomial5D` -/
  | polynomialND (dimensions : ℕ)
  | piecewiseND
  deriving DecidableEq

inductive FcKind where
  | leaf (k : LeafKind)
  /-- `switch_continuous`, `switch_discontinuous`, layers.py:250-255 -/
  | switch (cls : PwClass)
  deriving DecidableEq

/-- Table `fc_layers`, layers.py:258-276. -/
def fcTable : List (String × FcKind) :=
  [ ("baseline_relu", .leaf .linearRelu),
    ("baseline", .leaf .linear),
    ("continuous", .leaf (.pw .continuous)),
    ("continuous_prod", .leaf (.pw .continuousProd)),
    ("discontinuous", .leaf (.pw .discontinuous)),
    ("discontinuous_prod", .leaf (.pw .discontinuousProd)),
    ("polynomial", .leaf .polynomial),
    ("polynomial_prod", .leaf .polynomialProd),
    ("product", .leaf .product),
    ("fourier", .leaf .fourier),
    ("switch_continuous", .switch .continuous),
    ("switch_discontinuous", .switch .discontinuous),
    ("polynomial_2d", .leaf (.polynomialND 2)),
    ("polynomial_3d", .leaf (.polynomialND 3)),
    ("polynomial_4d", .leaf (.polynomialND 4)),
    ("polynomial_5d", .leaf (.polynomialND 5)),
    ("continuous_nd", .leaf .piecewiseND) ]

/-- Random draws: the module that draws, and a position. -/
abbrev Rng (K : Type) := ℕ → ℕ → ℕ → K

/-- The modules created by a constructor when the heap has `base` modules; the object itself comes last. A random weight is an arbitrary
function of the module and the position. A list where an integer is expected (or `segments=None`) raises `TypeError` in the piecewise,
polynomial and Fourier layers. `length` and `weight_magnitude` keep their defaults 2 and 1. -/
def leafMods (rng : Rng K) (kind : LeafKind) (a : FcArgs K) (base : ℕ) : Py (List (Mod K)) :=
  match kind with
  | .linear =>                                                     -- layers.py:148-149
    .ok [.linear (Tensor.tab2 a.outFeatures a.inFeatures (rng base)) (Tensor.tab1 a.outFeatures fun o => rng base o a.inFeatures)]
  | .linearRelu =>                                                 -- layers.py:152-155
    .ok [.linear (Tensor.tab2 a.outFeatures a.inFeatures (rng base)) (Tensor.tab1 a.outFeatures fun o => rng base o a.inFeatures),
      .linearRelu base]
  | .pw cls =>
    match a.n, a.segments with
    | .int n, some (.int s) => .ok [.pw (PwLayer.init cls n a.inFeatures a.outFeatures s ((2 : ℕ) : K) (rng base) 1 a.periodicity)]
    | _, _ => .error .typeError
  | .polynomial =>
    match a.n with
    | .int n => do
      let L ← polynomialInit n a.inFeatures a.outFeatures ((2 : ℕ) : K) (rng base) 1 a.periodicity
      .ok [.fn L]
    | .list _ => .error .typeError
  | .polynomialProd =>
    match a.n with
    | .int n => do
      let L ← polynomialProdInit n a.inFeatures a.outFeatures ((2 : ℕ) : K) (rng base) 1 a.periodicity
      .ok [.fn L]
    | .list _ => .error .typeError
  | .fourier =>
    match a.n with
    | .int n => do
      let L ← fourierSeriesInit n a.inFeatures a.outFeatures ((2 : ℕ) : K) (rng base) 1 a.periodicity
      .ok [.fn L]
    | .list _ => .error .typeError
  | .product =>                                                    -- ProductLayer.py:13-42
    .ok [.product { inFeatures := a.inFeatures, outFeatures := a.outFeatures, alpha := 1, periodicity := a.periodicity
                    weight := Tensor.tab2 a.outFeatures a.inFeatures (rng base)
                    bias := some (Tensor.tab1 a.outFeatures fun o => rng base o a.inFeatures) }]
  | .polynomialND _ => do
    let L ← PolyNDLayer.init a.n a.inFeatures a.outFeatures ((2 : ℕ) : K) (rng base) 1 a.periodicity
    .ok [.polyND L]
  | .piecewiseND =>
    match a.segments with
    | none => match a.n with
      | .int _ => .error .valueError
      | .list _ => .error .typeError
    | some s => do
      let L ← PwNDLayer.init a.n a.inFeatures a.outFeatures s none ((2 : ℕ) : K) (rng base) 1
      .ok [.pwND L]

/-- The list comprehension of `SwitchLayer.__init__`, layers.py:195-208: the sublayers one after another; modules and references. -/
def sublayers (sub : ℕ → Py (List (Mod K))) : ℕ → ℕ → Py (List (Mod K) × List ℕ)
  | 0, _ => .ok ([], [])
  | num + 1, base => do
    let ms ← sub base
    let rest ← sublayers sub num (base + ms.length)
    .ok (ms ++ rest.1, (base + ms.length - 1) :: rest.2)

/-- `SwitchLayer.__init__`, layers.py:178-210, where `sub` builds a layer of `layer_type`. The sublayers get `periodicity=None`. -/
def switchMods (sub : FcArgs K → ℕ → Py (List (Mod K))) (norm : Option ℕ) (a : FcArgs K) (base : ℕ) : Py (List (Mod K)) := do
  let r ← sublayers (sub { a with periodicity := none, rescaleOutput := false }) a.numInputLayers base
  .ok (r.1 ++ [.switch a.inFeatures r.2 norm])

/-- A constructor of the table `fc_layers`. -/
def fcMods (rng : Rng K) (kind : FcKind) (a : FcArgs K) (base : ℕ) : Py (List (Mod K)) :=
  match kind with
  | .leaf k => leafMods rng k a base
  | .switch cls => switchMods (leafMods rng (.pw cls)) none a base

/-- `SwitchLayer(layer_type, ...)`, layers.py:178-210. -/
def switchInit (rng : Rng K) (layerType : String) (norm : Option ℕ) (a : FcArgs K) (base : ℕ) : Py (List (Mod K)) :=
  switchMods (fun a b => match fcTable.lookup layerType with
    | some kind => fcMods rng kind a b
    | none => .error .valueError) norm a base

/-- `high_order_fc_layers(layer_type, **kwargs)`, layers.py:357-363: reference to the new layer and the new heap. -/
def fcLayer (rng : Rng K) (layerType : String) (a : FcArgs K) (h : Heap K) : Py (ℕ × Heap K) :=
  match fcTable.lookup layerType with
  | none => .error .valueError
  | some kind => do
    let ms ← fcMods rng kind a h.length
    .ok (h.length + ms.length - 1, h ++ ms)

/-! ## HighOrderMLP -/

/-- Python truth value. -/
def IntOrList.truthy : IntOrList → Bool
  | .int n => n ≠ 0
  | .list l => l ≠ []

/-- `a or b` for an optional `a`. -/
def orElse (a : Option IntOrList) (b : IntOrList) : IntOrList :=
  match a with
  | some v => if v.truthy then v else b
  | none => b

/-- `layer_type_in or layer_type` -/
def orStr (a : Option String) (b : String) : String :=
  match a with
  | some v => if v = "" then b else v
  | none => b

/-- Arguments of `HighOrderMLP`, networks.py:161-185 (without `device`). `normalization` is a factory of modules applying a function,
`nonLinearity` a module in the heap, `dropoutFn` what the dropout module does. Simplification: `0 ≤ dropout ≤ 1` (`nn.Dropout` raises `ValueError`
otherwise). -/
structure MLPArgs (K : Type) where
  layerType : String
  layerTypeIn : Option String
  n : IntOrList
  nIn : Option IntOrList
  nOut : Option IntOrList
  nHidden : Option IntOrList
  inWidth : ℕ
  outWidth : ℕ
  hiddenLayers : ℕ
  hiddenWidth : ℕ
  inSegments : Option IntOrList
  outSegments : Option IntOrList
  hiddenSegments : Option IntOrList
  periodicity : Option K
  normalization : Option (Fwd K)
  nonLinearity : Option ℕ
  resnet : Bool
  dropout : K
  dropoutFn : Fwd K
  scale : K
  rescaleOutput : Bool
  initialization : String

namespace MLPArgs

/-- Arguments of the input layer, networks.py:221-232. The keyword is misspelt `intialization` there; it is ignored
all the same. -/
def inputArgs (c : MLPArgs K) : FcArgs K :=
  { n := orElse c.nIn c.n, inFeatures := c.inWidth, outFeatures := c.hiddenWidth, segments := c.inSegments
    periodicity := c.periodicity, numInputLayers := 2, scale := c.scale, rescaleOutput := c.rescaleOutput
    initialization := "constant_random" }

/-- Arguments of a hidden layer, networks.py:244-255. -/
def hiddenArgs (c : MLPArgs K) : FcArgs K :=
  { n := orElse c.nHidden c.n, inFeatures := c.hiddenWidth, outFeatures := c.hiddenWidth, segments := c.hiddenSegments
    periodicity := c.periodicity, numInputLayers := 2, scale := c.scale, rescaleOutput := c.rescaleOutput
    initialization := c.initialization }

/-- Arguments of the output layer, networks.py:271-282. -/
def outputArgs (c : MLPArgs K) : FcArgs K :=
  { n := orElse c.nOut c.n, inFeatures := c.hiddenWidth, outFeatures := c.outWidth, segments := c.outSegments
    periodicity := c.periodicity, numInputLayers := 2, scale := c.scale, rescaleOutput := c.rescaleOutput
    initialization := c.initialization }

end MLPArgs

/-- `layer_list` and the heap while a network is being built. -/
abbrev Build (K : Type) := List ℕ × Heap K

/-- `normalization`, `non_linearity` and dropout entries, networks.py:235-242, 263-269. -/
def appendPre (c : MLPArgs K) (drop : ℕ) (s : Build K) : Build K :=
  let s := match c.normalization with
    | some f => (s.1 ++ [s.2.length], s.2 ++ [.other f])
    | none => s
  let s := match c.nonLinearity with
    | some i => (s.1 ++ [i], s.2)
    | none => s
  if ltB 0 c.dropout then (s.1 ++ [drop], s.2) else s

/-- Body of the loop over hidden layers, networks.py:234-261. `layer_list[-1]` of an empty list does not occur. -/
def hiddenStep (rng : Rng K) (c : MLPArgs K) (drop : ℕ) (i : ℕ) (s : Build K) : Py (Build K) := do
  let s := appendPre c drop s
  let r ← fcLayer rng c.layerType c.hiddenArgs s.2
  if c.resnet = true ∧ 0 < i then
    .ok (s.1 ++ [r.2.length], r.2 ++ [.sum [r.1, s.1.getLastD 0]])
  else
    .ok (s.1 ++ [r.1], r.2)

/-- `for i in range(k)` of the hidden layers. -/
def hiddenLoop (rng : Rng K) (c : MLPArgs K) (drop : ℕ) : ℕ → Build K → Py (Build K)
  | 0, s => .ok s
  | k + 1, s => do
    let s ← hiddenLoop rng c drop k s
    hiddenStep rng c drop k s

/-- `HighOrderMLP.__init__`, networks.py:161-285: reference to the network and the new heap. -/
def mlpInit (rng : Rng K) (c : MLPArgs K) (h : Heap K) : Py (ℕ × Heap K) := do
  let drop := h.length
  let h := h ++ [.other c.dropoutFn]
  let inp ← fcLayer rng (orStr c.layerTypeIn c.layerType) c.inputArgs h
  let s ← hiddenLoop rng c drop c.hiddenLayers ([inp.1], inp.2)
  let s := appendPre c drop s
  let out ← fcLayer rng c.layerType c.outputArgs s.2
  let model := out.2.length
  .ok (model + 1, out.2 ++ [.seq (s.1 ++ [out.1]), .mlp drop inp.1 out.1 model])

/-- `HighOrderMLPList.__init__`, networks.py:86-154. The loop (line 132) runs over `range(1, len(layer_list))` where
`layer_list` has one element, so its body is never executed. -/
def mlpListInit (rng : Rng K) (layerType : List String) (n : List IntOrList) (width : List ℕ) (segments : List (Option IntOrList))
    (scale : K) (rescaleOutput : Bool) (periodicity : Option K) (h : Heap K) : Py (ℕ × Heap K) :=
  if width.length ≠ layerType.length + 1 then .error .valueError
  else
    match layerType, n, width, segments with
    | t :: _, n0 :: _, w0 :: w1 :: _, s0 :: _ => do
      let inp ← fcLayer rng t
        { n := n0, inFeatures := w0, outFeatures := w1, segments := s0, periodicity := periodicity, numInputLayers := 2
          scale := scale, rescaleOutput := rescaleOutput, initialization := "constant_random" } h
      let layerList := [inp.1]
      let rest := List.range' 1 (layerList.length - 1)
      if rest = [] then
        .ok (inp.2.length + 1, inp.2 ++ [.seq layerList, .wrap inp.2.length])
      else .error .runtimeError
    | _, _, _, _ => .error .indexError

/-- `HighOrderMultiMLP.__init__`, networks.py:292-428, called at a Python stack with room for `depth` nested calls. Every replica is again a
`HighOrderMultiMLP` with the same number of replicas; at the end the attribute `input_list`, which is never set, is read. The
constructors of layers between are those of `HighOrderMLP`. -/
def multiMlpInit (rng : Rng K) : (depth : ℕ) → (replicas : ℕ) → MLPArgs K → Heap K → Py (ℕ × Heap K)
  | 0, _, _, _ => .error .recursionError
  | depth + 1, replicas, c, h => do
    let h := h ++ [.other c.dropoutFn]
    let inp ← fcLayer rng (orStr c.layerTypeIn c.layerType) c.inputArgs h
    let h := match c.normalization with
      | some f => inp.2 ++ [.other f]
      | none => inp.2
    let hid := some (orElse c.nHidden c.n)
    let c' : MLPArgs K :=
      { c with inWidth := c.hiddenWidth, outWidth := c.hiddenWidth, nIn := hid, nOut := hid, nHidden := hid
               inSegments := c.hiddenSegments, outSegments := c.hiddenSegments }
    let h ← (List.range replicas).foldlM (fun h _ => do
      let r ← multiMlpInit rng depth replicas c' h
      .ok r.2) h
    let h := match c.normalization with
      | some f => h ++ [.other f]
      | none => h
    let _ ← fcLayer rng c.layerType c.outputArgs h
    .error .attributeError

/-! ## LowOrderMLP -/

/-- Normalization and nonlinearity of `LowOrderMLP`, networks.py:60-63, 70-73. -/
def appendPreLow (normalization : Option (Fwd K)) (nonLinearity : Option ℕ) (s : Build K) : Build K :=
  let s := match normalization with
    | some f => (s.1 ++ [s.2.length], s.2 ++ [.other f])
    | none => s
  match nonLinearity with
  | some i => (s.1 ++ [i], s.2)
  | none => s

/-- `Linear(in_features, out_features, bias=True)` -/
def linearInit (rng : Rng K) (inF outF : ℕ) (s : Build K) : Build K :=
  let id := s.2.length
  (s.1 ++ [id], s.2 ++ [.linear (Tensor.tab2 outF inF (rng id)) (Tensor.tab1 outF fun o => rng id o inF)])

/-- `LowOrderMLP.__init__`, networks.py:35-78. -/
def lowMlpInit (rng : Rng K) (inWidth outWidth hiddenLayers hiddenWidth : ℕ) (nonLinearity : Option ℕ)
    (normalization : Option (Fwd K)) (h : Heap K) : ℕ × Heap K :=
  let s := linearInit rng inWidth hiddenWidth (([] : List ℕ), h)
  let s := (List.range hiddenLayers).foldl (fun s _ =>
    linearInit rng hiddenWidth hiddenWidth (appendPreLow normalization nonLinearity s)) s
  let s := linearInit rng hiddenWidth outWidth (appendPreLow normalization nonLinearity s)
  (s.2.length + 1, s.2 ++ [.seq s.1, .wrap s.2.length])

/-! ## loops over networks -/

/-- Outcome of a call changing the heap. -/
abbrev HEff (K : Type) := Eff (Heap K)

/-- Run an action for every element; an exception ends the loop. -/
def forEach {α : Type} (body : α → Heap K → HEff K) : List α → Heap K → HEff K
  | [], h => (.ok (), h)
  | a :: as, h => match body a h with
    | (.ok _, h') => forEach body as h'
    | (.error e, h') => (.error e, h')

/-- Apply a layer operation to two piecewise layers (different objects); another kind of `layer_out` lacks the attribute
`_poly`. -/
def pairOp (op : PwLayer K → PwLayer K → Eff (PwLayer K)) (a b : ℕ) (h : Heap K) : HEff K :=
  match h[a]?, h[b]? with
  | some (.pw La), some (.pw Lb) => let r := op La Lb; (r.1, h.set b (.pw r.2))
  | _, _ => (.error .attributeError, h)

/-- Method `interpolate` or `refine` of a module (`op` is that of the piecewise layers): `SwitchLayer.interpolate`/`refine` go
through the sublayers in parallel (layers.py:238-247), a module without the method raises `AttributeError`. -/
def methodOp (op : PwLayer K → PwLayer K → Eff (PwLayer K)) (call : ℕ → ℕ → Heap K → HEff K) (i : ℕ) (m : Mod K)
    (b : ℕ) (h : Heap K) : HEff K :=
  match m with
  | .pw _ => pairOp op i b h
  | .switch _ las _ =>
    match h[b]? with
    | some (.switch _ lbs _) => forEach (fun p h => call p.1 p.2 h) (las.zip lbs) h
    | _ => (.error .attributeError, h)
  | _ => (.error .attributeError, h)

/-- `l_in.interpolate(l_out)` / `l_in.refine(l_out)`. -/
def Heap.method (op : PwLayer K → PwLayer K → Eff (PwLayer K)) (h : Heap K) (a b : ℕ) : HEff K :=
  (h.fold (fun _ h => (.error .attributeError, h)) (methodOp op)).getD a (fun _ h => (.error .attributeError, h)) b h

/-- `hasattr(l_in, "interpolate")`, `hasattr(l_in, "refine")`. -/
def Mod.hasMethod : Mod K → Bool
  | .pw _ | .switch _ _ _ => true
  | _ => false

/-- The attribute `model` of a network (`HighOrderMLP`, `LowOrderMLP`, `HighOrderMLPList`). -/
def Heap.model (h : Heap K) (net : ℕ) : Py ℕ :=
  match h[net]? with
  | some (.mlp _ _ _ m) => .ok m
  | some (.wrap m) => .ok m
  | _ => .error .attributeError

/-- `[module for module in net.modules() if not isinstance(module, nn.Sequential)]` -/
def Heap.layers (h : Heap K) (i : ℕ) : List ℕ :=
  (h.modules i).filter fun j => !((h[j]?).map Mod.isSeq).getD false

/-- The common body of `interpolate_high_order_mlp` (networks.py:1048-1078) and `hp_refine_high_order_mlp` (1081-1109). -/
def transferNetwork (op : PwLayer K → PwLayer K → Eff (PwLayer K)) (netIn netOut : ℕ) (h : Heap K) : HEff K :=
  match h.model netIn, h.model netOut with
  | .ok mi, .ok mo =>
    forEach (fun p h' =>
      if ((h'[p.1]?).map Mod.hasMethod).getD false then h'.method op p.1 p.2 else (.ok (), h'))
      ((h.layers mi).zip (h.layers mo)) h
  | _, _ => (.error .attributeError, h)

/-- `interpolate_high_order_mlp(network_in, network_out)`, networks.py:1048-1078. -/
def interpolateNetwork (netIn netOut : ℕ) (h : Heap K) : HEff K := transferNetwork interpolateLayer netIn netOut h

/-- `hp_refine_high_order_mlp(network_in, network_out)`, networks.py:1081-1109. -/
def refineNetwork (netIn netOut : ℕ) (h : Heap K) : HEff K := transferNetwork PwLayer.refine netIn netOut h

/-- Apply an in-place operation to a piecewise layer; other modules are left alone. -/
def pwUpdate (op : ℕ → PwLayer K → Eff (PwLayer K)) (i : ℕ) (h : Heap K) : HEff K :=
  match h[i]? with
  | some (.pw L) => let r := op i L; (r.1, h.set i (.pw r.2))
  | _ => (.ok (), h)

/-- `isinstance(layer, PiecewiseDiscontinuous)` -/
def PwClass.isDiscontinuous : PwClass → Bool
  | .discontinuous | .discontinuousProd => true
  | _ => false

/-- Body of `initialize_network_polynomial_layers`, networks.py:1030-1045; `r1 i`, `r2 i` are the draws for module `i`,
`scale` is `scale_slope`. `initialize_polynomial_layer` returns at once for other layers. -/
def initializeBody (maxSlope maxOffset : K) (scale : ℕ → K) (r1 r2 : Rng K) (i : ℕ) (h : Heap K) : HEff K :=
  match h[i]? with
  | some (.pw L) =>
    if L.cls = .continuous ∨ L.cls.isDiscontinuous then
      pwUpdate (fun i L => initializePolynomialLayer L (maxSlope * scale L.inFeatures) maxOffset (r1 i) (r2 i)) i h
    else (.ok (), h)
  | some (.switch inF layers _) =>                                  -- layers.py:232-236
    forEach (pwUpdate fun i L => initializePolynomialLayer L (maxSlope * scale inF) maxOffset (r1 i) (r2 i)) layers h
  | _ => (.ok (), h)

/-- `initialize_network_polynomial_layers(network, max_slope, max_offset, scale_slope)`, networks.py:1002-1045. -/
def initializeNetwork (net : ℕ) (maxSlope maxOffset : K) (scale : ℕ → K) (r1 r2 : Rng K) (h : Heap K) : HEff K :=
  forEach (initializeBody maxSlope maxOffset scale r1 r2) (h.layers net) h

/-- `isinstance(module, PiecewiseDiscontinuous)`; the classes `discontinuous` and `discontinuous_prod` are its subclasses, PolynomialLayers.py:706-754. -/
def Mod.isPiecewiseDiscontinuous : Mod K → Bool
  | .pw L => L.cls.isDiscontinuous
  | _ => false

/-- `smooth_discontinuous_network(network_in, factor)`, networks.py:1123-1131. -/
def smoothNetwork (net : ℕ) (factor : K) (h : Heap K) : HEff K :=
  match h.model net with
  | .ok m =>
    forEach (pwUpdate fun _ L => smoothLayer L factor)
      ((h.modules m).filter fun j => ((h[j]?).map Mod.isPiecewiseDiscontinuous).getD false) h
  | .error e => (.error e, h)

end HOL
