import Verif.Model.Network
import Mathlib.Logic.Relation

/-! # Specification vocabulary: networks

Stated without the enumeration and loops of the model. -/

namespace HOL
variable {K : Type}

/-- `j` is registered as a submodule of `i`. -/
def Heap.Child (h : Heap K) (i j : ℕ) : Prop := ∃ m, h[i]? = some m ∧ j ∈ m.children

/-- `i` uses `j` when it is called: registered or in a Python list. -/
def Heap.Uses (h : Heap K) (i j : ℕ) : Prop := ∃ m, h[i]? = some m ∧ (j ∈ m.hidden ∨ j ∈ m.children)

/-- The list of a switch layer. -/
def Mod.switchList : Mod K → List ℕ
  | .switch _ layers _ => layers
  | _ => []

/-- `j` is registered in `i`, or in the list of the switch layer `i`. -/
def Heap.Enters (h : Heap K) (i j : ℕ) : Prop := ∃ m, h[i]? = some m ∧ (j ∈ m.children ∨ j ∈ m.switchList)

/-- Modules a module refers to. -/
def Mod.refs (m : Mod K) : List ℕ := m.hidden ++ m.children

/-- Every module refers to older modules (always so in Python: an object is created before it is stored in another one). -/
def Heap.Ordered (h : Heap K) : Prop := ∀ (i : ℕ) (m : Mod K), h[i]? = some m → ∀ j ∈ m.refs, j < i

/-- What an optimizer step (or loading weights) may change about a module: the entries of its parameters. -/
inductive Mod.Trained : Mod K → Mod K → Prop
  | refl (m : Mod K) : Trained m m
  | pw (L : PwLayer K) (w : Tensor K) (hs : w.shape = L.w.shape) (hw : w.WF) : Trained (.pw L) (.pw { L with w := w })
  | fn (L : FnLayer K) (w : Tensor K) (hs : w.shape = L.w.shape) (hw : w.WF) : Trained (.fn L) (.fn { L with w := w })
  | product (L : ProductLayer K) (w b : Tensor K) (hs : w.shape = L.weight.shape) (hb : ∀ b0 ∈ L.bias, b.shape = b0.shape) :
      Trained (.product L) (.product { L with weight := w, bias := L.bias.map fun _ => b })
  | linear (w b w' b' : Tensor K) (hs : w'.shape = w.shape) (hb : b'.shape = b.shape) : Trained (.linear w b) (.linear w' b')

/-- The heap after any training and creation of further modules: the modules of `h` are there, with other weights. -/
def Heap.Later (h h' : Heap K) : Prop := ∀ (i : ℕ) (m : Mod K), h[i]? = some m → ∃ m', h'[i]? = some m' ∧ m.Trained m'

/-- The forward function takes every `[batch, w]` tensor to a `[batch, w']` tensor. -/
def MapsTo (f : Fwd K) (w w' : ℕ) : Prop :=
  ∀ (B : ℕ) (x : Tensor K), x.shape = [B, w] → x.WF → ∃ y, f x = .ok y ∧ y.shape = [B, w'] ∧ y.WF

/-- The function keeps the shape of `[batch, w]` tensors whenever it succeeds. -/
def KeepsShape (f : Fwd K) (w : ℕ) : Prop :=
  ∀ (B : ℕ) (x y : Tensor K), x.shape = [B, w] → x.WF → f x = .ok y → y.shape = [B, w] ∧ y.WF

/-- Module `j` is a (trained) layer that the factory built for these arguments. -/
def IsLayer [TorchScalar K] (kind : FcKind) (a : FcArgs K) (h : Heap K) (j : ℕ) : Prop :=
  ∃ (rng : Rng K) (base : ℕ) (ms : List (Mod K)), fcMods rng kind a base = .ok ms ∧ j + 1 = base + ms.length ∧
    ∀ (k : ℕ) (m : Mod K), ms[k]? = some m → ∃ m', h[base + k]? = some m' ∧ m.Trained m'

/-- The arguments suit the kind of layer. `polynomial_prod` cannot be built (C32); the layers of several variables, which
take lists, are left out. -/
def Usable : FcKind → FcArgs K → Prop
  | .leaf .linear, _ | .leaf .linearRelu, _ | .leaf .product, _ => True
  | .leaf (.pw _), a => ∃ n s, a.n = .int n ∧ a.segments = some (.int s) ∧ 0 < n ∧ 0 < s ∧ 0 < a.inFeatures ∧ 0 < a.outFeatures
  | .switch _, a => (∃ n s, a.n = .int n ∧ a.segments = some (.int s) ∧ 0 < n ∧ 0 < s ∧ 0 < a.inFeatures ∧ 0 < a.outFeatures) ∧
      a.numInputLayers = 2
  | .leaf .polynomial, a | .leaf .fourier, a => ∃ n, a.n = .int n ∧ 0 < n
  | _, _ => False

/-- What is applied before every hidden layer and before the output layer: normalization, nonlinearity, dropout, each if there is
one; `nonlin` is the function of the nonlinearity. -/
def preFns [TorchScalar K] (c : MLPArgs K) (nonlin : Fwd K) : List (Fwd K) :=
  c.normalization.toList ++ (if c.nonLinearity.isSome then [nonlin] else []) ++
    (if TorchScalar.ltB 0 c.dropout then [c.dropoutFn] else [])

/-- Input layer, then for every layer of the list (hidden layers and output layer) the functions `pre` and the layer. -/
def compose (pre : List (Fwd K)) (input : Fwd K) (layers : List (Fwd K)) : Fwd K :=
  seqForward (input :: layers.flatMap fun l => pre ++ [l])

/-- Hidden entry `i` of a `resnet` network with hidden layers `hid`: for `i > 0` the hidden layer plus the entry before it in the list (the
last of `pre`, or else the previous hidden entry), both applied to the same input. -/
def resEntry [TorchScalar K] (pre : List (Fwd K)) (hid : ℕ → Fwd K) : ℕ → Fwd K
  | 0 => hid 0
  | i + 1 => fun y => do
    let u ← hid (i + 1) y
    let v ← pre.getLastD (resEntry pre hid i) y
    zipBcast (· + ·) u v

/-- What networks.py calls a residual: the hidden layer plus its input. -/
def residual [TorchScalar K] (f : Fwd K) : Fwd K := fun y => do
  let u ← f y
  zipBcast (· + ·) u y

end HOL
