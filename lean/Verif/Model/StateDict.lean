import Verif.Model.Network

/-!
# Saving and loading weights

Model of `state_dict()` and `load_state_dict(state)` (with `strict=True`, the default) on the modules of layers.py and networks.py, what saving and restoring a checkpoint does.

`torch.nn.Module` goes through the registered parameters and submodules (modules in plain Python lists are not registered), a module that is registered twice has its entries twice. There are no buffers. Left out: the
parameter `result` of `Function` layers (PolynomialLayers.py:56-58), which is never read and has the first size of `w`.
-/

namespace HOL
variable {K : Type}

/-- Part of a key: the name of an attribute, or the position in `nn.Sequential` (a number as text). -/
inductive Key where
  | attr (name : String)
  | item (pos : ℕ)
  deriving DecidableEq

/-- `_parameters` of a module: `w` (PolynomialLayers.py:43, 241, 409, 607), `weight` and `bias` (ProductLayer.py:24-30, `torch.nn.Linear`). -/
def Mod.ownParams : Mod K → List (String × Tensor K)
  | .pw L => [("w", L.w)]
  | .fn L => [("w", L.w)]
  | .polyND L => [("w", L.w)]
  | .pwND L => [("w", L.w)]
  | .product L => ("weight", L.weight) :: L.bias.toList.map fun b => ("bias", b)
  | .linear w b => [("weight", w), ("bias", b)]
  | _ => []

/-- `param.copy_(value)` for the parameter with this name. -/
def Mod.setParam (m : Mod K) (name : String) (t : Tensor K) : Mod K :=
  match m with
  | .pw L => if name = "w" then .pw { L with w := t } else m
  | .fn L => if name = "w" then .fn { L with w := t } else m
  | .polyND L => if name = "w" then .polyND { L with w := t } else m
  | .pwND L => if name = "w" then .pwND { L with w := t } else m
  | .product L =>
    if name = "weight" then .product { L with weight := t } else if name = "bias" then .product { L with bias := L.bias.map fun _ => t } else m
  | .linear w b => if name = "weight" then .linear t b else if name = "bias" then .linear w t else m
  | _ => m

/-- `_modules` of a module with the names: `f` of `LinearReluAdapter` (layers.py:155), `_normalization` of `SwitchLayer` (layers.py:210), positions of `nn.Sequential`, the attributes of
`HighOrderMLP` (networks.py:220, 222, 272, 285) and `model` of `LowOrderMLP` and `HighOrderMLPList` (79, 154). -/
def Mod.namedChildren : Mod K → List (Key × ℕ)
  | .linearRelu f => [(.attr "f", f)]
  | .switch _ _ norm => norm.toList.map fun n => (.attr "_normalization", n)
  | .seq cs => cs.zipIdx.map fun c => (.item c.2, c.1)
  | .mlp d i o m => [(.attr "dropout_layer", d), (.attr "input_layer", i), (.attr "output_layer", o), (.attr "model", m)]
  | .wrap m => [(.attr "model", m)]
  | _ => []

/-- A parameter found under a key: the key, the module that owns it, its name there. -/
abbrev ParamSlot := List Key × ℕ × String

/-- Parameters in the order `state_dict` visits them: own parameters, then those of the submodules with their names in front. -/
def slotStep (call : ℕ → List ParamSlot) (i : ℕ) (m : Mod K) : List ParamSlot :=
  m.ownParams.map (fun p => ([Key.attr p.1], i, p.1)) ++ m.namedChildren.flatMap fun c => (call c.2).map fun s => (c.1 :: s.1, s.2)

def Heap.slots (h : Heap K) (i : ℕ) : List ParamSlot := (h.fold [] slotStep).getD i []

/-- Value of a parameter. -/
def Heap.param (h : Heap K) (j : ℕ) (name : String) : Tensor K := ((h[j]? >>= fun m => m.ownParams.lookup name).getD ⟨[], []⟩)

/-- `module.state_dict()` -/
def Heap.stateDict (h : Heap K) (i : ℕ) : List (List Key × Tensor K) := (h.slots i).map fun s => (s.1, h.param s.2.1 s.2.2)

/-- `_load_from_state_dict` for one parameter: the value is copied if the key is there and the shapes agree. -/
def loadOne (st : List (List Key × Tensor K)) (h : Heap K) (s : ParamSlot) : Heap K :=
  match st.lookup s.1, h[s.2.1]? with
  | some t, some m => if t.shape = (h.param s.2.1 s.2.2).shape then h.set s.2.1 (m.setParam s.2.2 t) else h
  | _, _ => h

/-- Is the key missing, or has its value another shape? -/
def slotFails (st : List (List Key × Tensor K)) (h : Heap K) (s : ParamSlot) : Bool :=
  match st.lookup s.1 with
  | some t => decide (t.shape ≠ (h.param s.2.1 s.2.2).shape)
  | none => true

/-- `module.load_state_dict(st)`: all parameters with fitting values are overwritten; then `RuntimeError` if there were missing or unexpected keys or values of other shapes. -/
def Heap.loadStateDict (h : Heap K) (i : ℕ) (st : List (List Key × Tensor K)) : Py Unit × Heap K :=
  let slots := h.slots i
  let h' := slots.foldl (loadOne st) h
  let unexpected := st.any fun e => slots.all fun s => decide (s.1 ≠ e.1)
  if slots.any (slotFails st h) || unexpected then (.error .runtimeError, h') else (.ok (), h')

end HOL
