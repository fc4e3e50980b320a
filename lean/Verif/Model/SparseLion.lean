import Verif.Tensor

/-!
# `sparse_optimizers/sparse_lion.py`

Parameters hold their data, their gradient (`None` before the first backward pass) and the optimizer state
(`exp_avg`, absent before the first step). Autograd is not modelled: gradients are inputs. The `use_triton`
option (an import from another package) is not modelled.
-/

namespace HOL
open TorchScalar

variable {K : Type} [TorchScalar K]

/-- Entries selected by a boolean mask, in row-major order. -/
def maskSelect {α : Type} : List Bool → List α → List α
  | true :: m, a :: d => a :: maskSelect m d
  | false :: m, _ :: d => maskSelect m d
  | _, _ => []

/-- Overwrite the selected entries by the listed values. -/
def maskAssign {α : Type} : List Bool → List α → List α → List α
  | true :: m, _ :: d, v :: vs => v :: maskAssign m d vs
  | false :: m, a :: d, vs => a :: maskAssign m d vs
  | _, d, _ => d

/-- `t[mask]` on the right of an assignment: a new tensor (a copy) holding the selected entries. The mask must
have the shape of `t`. -/
def Tensor.maskGet (t : Tensor K) (mask : Tensor Bool) : Py (List K) :=
  if mask.shape = t.shape then .ok (maskSelect mask.data t.data) else .error .indexError

/-- `t[mask] = values`. -/
def Tensor.maskSet (t : Tensor K) (mask : Tensor Bool) (vs : List K) : Py (Tensor K) :=
  if mask.shape = t.shape then .ok ⟨t.shape, maskAssign mask.data t.data vs⟩ else .error .indexError

/-- `a.add(b, alpha=c)` entry by entry. -/
def addAlpha (a b : List K) (c : K) : List K := List.zipWith (fun x y => x + c * y) a b

/-- `update_fn(p, grad, exp_avg, lr, wd, beta1, beta2, update_indexes)`, sparse_lion.py:13-35. Returns the new
`p` and `exp_avg`. The product of line 19 is made in a copy which nothing refers to afterwards. -/
def updateFn (p grad expAvg : Tensor K) (lr wd beta1 beta2 : K) (mask : Tensor Bool) :
    Py (Tensor K × Tensor K) := do
  -- p.data[update_indexes].mul_(1 - lr * wd)
  let _copy := (← p.maskGet mask).map fun v => v * (1 - lr * wd)
  let gradUpdate ← grad.maskGet mask
  let update := (addAlpha ((← expAvg.maskGet mask).map fun v => v * beta1) gradUpdate (1 - beta1)).map sign
  let p' ← p.maskSet mask (addAlpha (← p.maskGet mask) update (-lr))
  let e' ← expAvg.maskSet mask
    (addAlpha ((← expAvg.maskGet mask).map fun v => v * beta2) gradUpdate (1 - beta2))
  return (p', e')

/-- A parameter together with its `.grad` and `self.state[p]`. -/
structure LionParam (K : Type) where
  data : Tensor K
  grad : Option (Tensor K)
  expAvg : Option (Tensor K)

/-- An entry of `self.param_groups`. -/
structure LionGroup (K : Type) where
  lr : K
  wd : K
  beta1 : K
  beta2 : K
  params : List (LionParam K)

/-- `SparseLion.__init__`, sparse_lion.py:39-54, on a list of parameters (one group). `Optimizer.__init__`
rejects an empty list. Groups given as dictionaries with their own options are not modelled. -/
def sparseLionInit (params : List (Tensor K)) (lr beta1 beta2 wd : K) : Py (List (LionGroup K)) :=
  if !ltB 0 lr then .error .assertionError
  else if ltB beta1 0 || ltB 1 beta1 || ltB beta2 0 || ltB 1 beta2 then .error .assertionError
  else if params.isEmpty then .error .valueError
  else .ok [⟨lr, wd, beta1, beta2, params.map fun t => ⟨t, none, none⟩⟩]

/-- Body of the loop over the parameters of a group, sparse_lion.py:69-90. Parameters without gradient are
filtered out by `exists` (sparse_lion.py:9-10). -/
def stepParam (lr wd beta1 beta2 : K) (p : LionParam K) : Py (LionParam K) :=
  match p.grad with
  | none => .ok p
  | some grad => do
    let expAvg := match p.expAvg with
      | none => Tensor.tabulate p.data.shape fun _ => (0 : K)
      | some e => e
    let mask := grad.map fun g => !eqB g 0
    let (d, e) ← updateFn p.data grad expAvg lr wd beta1 beta2 mask
    return ⟨d, p.grad, some e⟩

/-- `SparseLion.step()`, sparse_lion.py:61-92. A closure only sets gradients before the loop (and returns the
loss), which is the same as setting them before calling `step`. -/
def sparseLionStep (s : List (LionGroup K)) : Py (List (LionGroup K)) :=
  s.mapM fun g => do
    let ps ← g.params.mapM (stepParam g.lr g.wd g.beta1 g.beta2)
    return { g with params := ps }

/-- Backward pass: set the gradient of every parameter (`gr` group number, parameter number). -/
def setGrads (gr : ℕ → ℕ → Option (Tensor K)) (s : List (LionGroup K)) : List (LionGroup K) :=
  s.mapIdx fun gi g => { g with params := g.params.mapIdx fun pi p => { p with grad := gr gi pi } }

/-- A training history: one backward pass and one `step` per listed gradient assignment. -/
def sparseLionRun : List (LionGroup K) → List (ℕ → ℕ → Option (Tensor K)) → Py (List (LionGroup K))
  | s, [] => .ok s
  | s, gr :: hist => do
    let s' ← sparseLionStep (setGrads gr s)
    sparseLionRun s' hist

end HOL
