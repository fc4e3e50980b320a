import Verif.Model.SharedBackward

/-!
# Model: one step of gradient descent on a network

`opt = torch.optim.SGD(params, lr)` without momentum, dampening and weight decay: `loss.backward(); opt.step()` replaces every parameter the optimizer was given that has a gradient by `p - lr * p.grad`. The optimizer is
PyTorch and not repository code (the examples of the repository use `Adam`, `Lion`, `LBFGS` and others, `SparseLion` of the library is modelled in Model/SparseLion); the gradients are those of the layers and networks
of the repository.
-/

namespace HOL
open TorchScalar
variable {K : Type} [TorchScalar K]

/-- A parameter after the step; `p.grad` is `None` if the backward pass did not reach it. -/
def sgdParam (lr : K) (p : Tensor K) (grad : Option (Tensor K)) : Tensor K :=
  match grad with
  | none => p
  | some g => Tensor.tabulate p.shape fun idx => p.get idx - lr * g.get idx

/-- A layer after the step: `grad k` is the gradient of its parameter `k` (in the order of `GLayer.params`). -/
def GLayer.sgd (lr : K) (grad : ℕ → Option (Tensor K)) : GLayer K → GLayer K
  | .pw L => .pw { L with w := sgdParam lr L.w (grad 0) }
  | .fn L => .fn { L with w := sgdParam lr L.w (grad 0) }
  | .product L => .product { L with weight := sgdParam lr L.weight (grad 0), bias := L.bias.map fun b => sgdParam lr b (grad 1) }
  | .linear w b => .linear (sgdParam lr w (grad 0)) (sgdParam lr b (grad 1))
  | .relu => .relu

/-- The modules after the step of an optimizer that was given the parameters of the modules `trained`, with the contributions `cs` of the backward pass. -/
def sgdStep (trained : List ℕ) (lr : K) (cs : List (ℕ × List (Tensor K))) (σ : ℕ → GLayer K) (j : ℕ) : GLayer K :=
  if j ∈ trained then (σ j).sgd lr (accumulated cs j) else σ j

/-- A module of a heap after the step. -/
def Mod.sgd (lr : K) (grad : ℕ → Option (Tensor K)) : Mod K → Mod K
  | .pw L => .pw { L with w := sgdParam lr L.w (grad 0) }
  | .fn L => .fn { L with w := sgdParam lr L.w (grad 0) }
  | .product L => .product { L with weight := sgdParam lr L.weight (grad 0), bias := L.bias.map fun b => sgdParam lr b (grad 1) }
  | .linear w b => .linear (sgdParam lr w (grad 0)) (sgdParam lr b (grad 1))
  | m => m

/-- All modules after the step of an optimizer that was given the parameters of the modules `trained`, with the contributions `cs` of the backward pass. -/
def Heap.sgd (h : Heap K) (trained : List ℕ) (lr : K) (cs : List (ℕ × List (Tensor K))) : Heap K :=
  h.mapIdx fun j m => if j ∈ trained then m.sgd lr (accumulated cs j) else m

end HOL
