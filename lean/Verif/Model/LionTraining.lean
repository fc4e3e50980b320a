import Verif.Model.LionNetwork
import Verif.Model.Training

/-!
# Model: training a network with `SparseLion`

The loop `for batch: loss(model(x)).backward(); opt.step(); opt.zero_grad()` (examples/function_example.py:112-125; PyTorch Lightning in the other examples) with `opt = SparseLion` (sparse_lion.py:38-92).
-/

namespace HOL
variable {K : Type} [TorchScalar K]

/-- `state[p]["exp_avg"]` of a parameter after the step, sparse_lion.py:69-90. -/
def lionMomentum (lr wd beta1 beta2 : K) (p : Tensor K) (grad exp : Option (Tensor K)) : Py (Option (Tensor K)) := do
  let q ← stepParam lr wd beta1 beta2 ⟨p, grad, exp⟩
  .ok q.expAvg

/-- The state of parameter `k` of module `j` after the step of an optimizer that was given the parameters of the modules `trained`. -/
def lionMomenta (trained : List ℕ) (lr wd beta1 beta2 : K) (exp : ℕ → ℕ → Option (Tensor K)) (cs : List (ℕ × List (Tensor K))) (σ : ℕ → GLayer K) (j k : ℕ) : Py (Option (Tensor K)) :=
  if j ∈ trained then
    match (σ j).params[k]? with
    | some p => lionMomentum lr wd beta1 beta2 p (accumulated cs j k) (exp j k)
    | none => .ok (exp j k)
  else .ok (exp j k)

/-- The loop runs through the batches without raising and leads from the parameters `σ` and the state `exp` of the optimizer to the last ones. As the forward pass, the backward pass and the step are functions, there is at most one
end. -/
inductive LionTrained (P : Picks K) (e : GExpr K) (trained : List ℕ) (wd beta1 beta2 : K) : (ℕ → GLayer K) → (ℕ → ℕ → Option (Tensor K)) → List (Batch K) → (ℕ → GLayer K) → (ℕ → ℕ → Option (Tensor K)) → Prop
  | nil (σ : ℕ → GLayer K) (exp : ℕ → ℕ → Option (Tensor K)) : LionTrained P e trained wd beta1 beta2 σ exp [] σ exp
  | cons {σ σ1 σ2 : ℕ → GLayer K} {exp exp1 exp2 : ℕ → ℕ → Option (Tensor K)} {b : Batch K} {bs : List (Batch K)} {y gx : Tensor K} {cs : List (ℕ × List (Tensor K))} (hy : e.forward σ b.x = .ok y)
      (hb : e.backward P σ b.x (b.lossGrad y) = .ok (gx, cs)) (hs : ∀ j, lionStep trained b.lr wd beta1 beta2 exp cs σ j = .ok (σ1 j)) (he : ∀ j k, lionMomenta trained b.lr wd beta1 beta2 exp cs σ j k = .ok (exp1 j k))
      (h : LionTrained P e trained wd beta1 beta2 σ1 exp1 bs σ2 exp2) : LionTrained P e trained wd beta1 beta2 σ exp (b :: bs) σ2 exp2

end HOL
