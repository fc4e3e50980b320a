import Verif.Model.SparseLion
import Verif.Model.StepNetwork

/-!
# A step of `SparseLion` for the parameters of a network

`optimizer.step()` after `loss.backward()`: sparse_lion.py:61-92 for every parameter of the modules that were given to the optimizer (modules.py:58 and the examples
pass `self.parameters()` to their optimizers). `exp k` is `state[p]["exp_avg"]` of parameter `k`, `None` before its first step. Only the new values of the parameters are returned here; the new
`exp_avg` is part of the result of `stepParam` (C46).
-/

namespace HOL
open TorchScalar

variable {K : Type} [TorchScalar K]

/-- A parameter after the step, sparse_lion.py:69-90. -/
def lionParam (lr wd beta1 beta2 : K) (p : Tensor K) (grad exp : Option (Tensor K)) : Py (Tensor K) := do
  let q ← stepParam lr wd beta1 beta2 ⟨p, grad, exp⟩
  .ok q.data

/-- A layer after the step. -/
def GLayer.lion (lr wd beta1 beta2 : K) (grad exp : ℕ → Option (Tensor K)) : GLayer K → Py (GLayer K)
  | .pw L => do
    let w ← lionParam lr wd beta1 beta2 L.w (grad 0) (exp 0)
    .ok (.pw { L with w := w })
  | .fn L => do
    let w ← lionParam lr wd beta1 beta2 L.w (grad 0) (exp 0)
    .ok (.fn { L with w := w })
  | .product L => do
    let w ← lionParam lr wd beta1 beta2 L.weight (grad 0) (exp 0)
    match L.bias with
    | none => .ok (.product { L with weight := w })
    | some b =>
      let b' ← lionParam lr wd beta1 beta2 b (grad 1) (exp 1)
      .ok (.product { L with weight := w, bias := some b' })
  | .linear w b => do
    let w' ← lionParam lr wd beta1 beta2 w (grad 0) (exp 0)
    let b' ← lionParam lr wd beta1 beta2 b (grad 1) (exp 1)
    .ok (.linear w' b')
  | .relu => .ok .relu

/-- Module `j` after the step of an optimizer that was given the parameters of the modules `trained`, with the contributions `cs` of the backward pass. -/
def lionStep (trained : List ℕ) (lr wd beta1 beta2 : K) (exp : ℕ → ℕ → Option (Tensor K)) (cs : List (ℕ × List (Tensor K))) (σ : ℕ → GLayer K) (j : ℕ) : Py (GLayer K) :=
  if j ∈ trained then (σ j).lion lr wd beta1 beta2 (accumulated cs j) (exp j) else .ok (σ j)

/-- A module of a heap after the step. -/
def Mod.lion (lr wd beta1 beta2 : K) (grad exp : ℕ → Option (Tensor K)) : Mod K → Py (Mod K)
  | .pw L => do
    let w ← lionParam lr wd beta1 beta2 L.w (grad 0) (exp 0)
    .ok (.pw { L with w := w })
  | .fn L => do
    let w ← lionParam lr wd beta1 beta2 L.w (grad 0) (exp 0)
    .ok (.fn { L with w := w })
  | .product L => do
    let w ← lionParam lr wd beta1 beta2 L.weight (grad 0) (exp 0)
    match L.bias with
    | none => .ok (.product { L with weight := w })
    | some b =>
      let b' ← lionParam lr wd beta1 beta2 b (grad 1) (exp 1)
      .ok (.product { L with weight := w, bias := some b' })
  | .linear w b => do
    let w' ← lionParam lr wd beta1 beta2 w (grad 0) (exp 0)
    let b' ← lionParam lr wd beta1 beta2 b (grad 1) (exp 1)
    .ok (.linear w' b')
  | m => .ok m

/-- All modules after the step. -/
def Heap.lion (h : Heap K) (trained : List ℕ) (lr wd beta1 beta2 : K) (exp : ℕ → ℕ → Option (Tensor K)) (cs : List (ℕ × List (Tensor K))) : Py (Heap K) :=
  (h.mapIdx fun j m => if j ∈ trained then m.lion lr wd beta1 beta2 (accumulated cs j) (exp j) else .ok m).mapM id

end HOL
