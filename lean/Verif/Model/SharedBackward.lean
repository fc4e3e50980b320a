import Verif.Model.NormBackward

/-!
# Model: the backward pass of networks with branches and shared modules

Networks in which a module reads the output of several modules, or is called several times: `resnet = True` of `HighOrderMLP` (networks.py:235-262), where `SumLayer`
(layers.py:161-168) adds the outputs of two modules for the same input and the earlier module is also called on its own, and `SwitchLayer` (layers.py:171-230), which
multiplies the outputs of several modules. Automatic differentiation adds what the branches contribute to the gradient of their common input, and adds to `.grad` of a parameter what every
use of its module contributes. Inputs of sums and products have equal shapes here (no broadcasting).
-/

namespace HOL
open TorchScalar
variable {K : Type} [TorchScalar K]

/-- What is computed from the input of a network: modules are referred to by number, so that a module can be used more than once. -/
inductive GExpr (K : Type) where
  /-- Module `j`. -/
  | leaf (j : ℕ)
  /-- A module whose parameters are left alone: `relu`, normalizations. -/
  | fixed (s : NStage K)
  /-- `a`, then `b`: `nn.Sequential`. -/
  | comp (a b : GExpr K)
  /-- The sum of both: `torch.add` of `SumLayer`, layers.py:166-168. -/
  | add (a b : GExpr K)
  /-- The product of both: `final *= outputs[i]` of `SwitchLayer`, layers.py:224-225. -/
  | mul (a b : GExpr K)

/-- Sum of two gradients of one shape. -/
def addT (s t : Tensor K) : Tensor K := Tensor.tabulate s.shape fun idx => s.get idx + t.get idx

/-- Entrywise product. -/
def mulT (s t : Tensor K) : Tensor K := Tensor.tabulate s.shape fun idx => s.get idx * t.get idx

namespace GExpr

/-- The modules, one entry for every use. -/
def modules : GExpr K → List ℕ
  | .leaf j => [j]
  | .fixed _ => []
  | .comp a b | .add a b | .mul a b => a.modules ++ b.modules

/-- The output, when module `j` is `σ j`. -/
def forward (σ : ℕ → GLayer K) : GExpr K → Fwd K
  | .leaf j => (σ j).forward
  | .fixed s => s.forward
  | .comp a b => fun x => do
    let y ← a.forward σ x
    b.forward σ y
  | .add a b => fun x => do
    let u ← a.forward σ x
    let v ← b.forward σ x
    zipBcast (· + ·) u v
  | .mul a b => fun x => do
    let u ← a.forward σ x
    let v ← b.forward σ x
    let r ← zipBcast (· * ·) u v
    if r.shape = u.shape then .ok r else .error .runtimeError

/-- The backward pass after a forward pass on `x` for the gradient `g` of the output: the gradient of the input, and for every use of a module the gradients of its parameters. `P` are the places
`torch.max` and `torch.min` return (as in `stageBackward`). `final *= outputs[i]` keeps a copy of the old `final` for the backward pass. -/
def backward (P : Picks K) (σ : ℕ → GLayer K) : GExpr K → Tensor K → Tensor K → Py (Tensor K × List (ℕ × List (Tensor K)))
  | .leaf j, x, g => .ok ((σ j).inputGrad x g, [(j, (σ j).paramGrads x g)])
  | .fixed s, x, g => do
    let gx ← s.inputGrad P x g
    .ok (gx, [])
  | .comp a b, x, g => do
    let y ← a.forward σ x
    let rb ← b.backward P σ y g
    let ra ← a.backward P σ x rb.1
    .ok (ra.1, ra.2 ++ rb.2)
  | .add a b, x, g => do
    let ra ← a.backward P σ x g
    let rb ← b.backward P σ x g
    .ok (addT ra.1 rb.1, ra.2 ++ rb.2)
  | .mul a b, x, g => do
    let u ← a.forward σ x
    let v ← b.forward σ x
    let ra ← a.backward P σ x (mulT g v)
    let rb ← b.backward P σ x (mulT g u)
    .ok (addT ra.1 rb.1, ra.2 ++ rb.2)

end GExpr

/-- What the uses of module `j` contribute to the gradient of its parameter `k`. -/
def contributions (cs : List (ℕ × List (Tensor K))) (j k : ℕ) : List (Tensor K) := cs.filterMap fun c => if c.1 = j then c.2[k]? else none

/-- `.grad` of parameter `k` of module `j` after the backward pass (`None` before): the sum of the contributions, `None` if there are none. -/
def accumulated (cs : List (ℕ × List (Tensor K))) (j k : ℕ) : Option (Tensor K) :=
  match contributions cs j k with
  | [] => none
  | g :: gs => some (gs.foldl addT g)

end HOL
