import Verif.Tensor

/-! # `fixed_rotation_layer` (layers.py) and `positions_from_mesh` (utils.py) -/

namespace HOL
open TorchScalar

variable {K : Type} [TorchScalar K]

/-- `row[i] += v` on a Python list. -/
def addAt (row : List K) (i : ℕ) (v : K) : List K := row.set i (row.getD i 0 + v)

/-- `abs(rot_x) + abs(rot_y)` or 1, layers.py:330. -/
def rotNorm (normalize : Bool) (rotX rotY : K) : K := if normalize = false then 1 else abs rotX + abs rotY

/-- The body of the loop over `r`, layers.py:323-342: the two lists `temp` and `other`. -/
def rotationRows (n rotations : ℕ) (normalize : Bool) (i j r : ℕ) : List (List K) :=
  let theta : K := (pi / ((2 : ℕ) : K)) * ((r : K) / (rotations : K))
  let rotX := cos theta
  let rotY := sin theta
  let normVal := rotNorm normalize rotX rotY
  let temp := addAt (addAt (List.replicate n 0) i (rotX / normVal)) j (rotY / normVal)
  let other := addAt (addAt (List.replicate n 0) i (rotY / normVal)) j (-rotX / normVal)
  [temp, other]

/-- The list `combos`, layers.py:318-342. -/
def combos (n rotations : ℕ) (normalize : Bool) : List (List K) :=
  (List.range n).flatMap fun i =>
    ((List.replicate n (0 : K)).set i 1) ::
      (List.range' (i + 1) (n - (i + 1))).flatMap fun j =>
        (List.range' 1 (rotations - 1)).flatMap fun r => rotationRows n rotations normalize i j r

/-- `fixed_rotation_layer(n, rotations, normalize)`, layers.py:298-354: the weight of the bias free linear layer (it is
replaced by `torch.tensor(combos)`) and the announced width. For `n = 0` the weight is the empty one-dimensional
tensor. -/
def fixedRotationLayer (n : ℕ) (rotations : ℤ) (normalize : Bool) : Py (Tensor K × ℕ) :=
  if rotations < 1 then .error .valueError
  else
    let rot := rotations.toNat
    let cs : List (List K) := combos n rot normalize
    let outputWidth := n + n * (n - 1) * (rot - 1)
    .ok (⟨if cs.isEmpty then [0] else [cs.length, n], cs.flatten⟩, outputWidth)

/-- `torch.nn.functional.linear(x, weight)`: `out[b, r] = sum_i x[b, i] * weight[r, i]`. -/
def linearNoBias (weight x : Tensor K) : Py (Tensor K) :=
  match x.shape, weight.shape with
  | [b, i], [o, i'] =>
    if i = i' then .ok (Tensor.tab2 b o fun s r => sumL ((List.range i).map fun q => x.get [s, q] * weight.get [r, q]))
    else .error .runtimeError
  | _, _ => .error .runtimeError

/-- `((r - min) / (max - min) - 0.5) * max_dim` and the optional normalization, utils.py:119-138. `torch.max` of an
empty tensor raises. -/
def rescaleMesh (maxDim : ℕ) (normalize : Bool) (r : Tensor K) : Py (Tensor K) :=
  if r.data.isEmpty then .error .runtimeError
  else
    let rMax := maxL r.data
    let rMin := minL r.data
    let dr := rMax - rMin
    let r := r.map fun v => ((v - rMin) / dr - 1 / ((2 : ℕ) : K)) * (maxDim : K)
    .ok (if normalize then
      r.map fun v => ((2 : ℕ) : K) * (v + (maxDim : K) / ((2 : ℕ) : K)) / (maxDim : K) - 1 else r)

/-- `positions_from_mesh(width, height, rotations, normalize=normalize)`, utils.py:82-142. The division in line 103
is between Python numbers and raises for `max_dim = 1`. `torch.meshgrid` uses `ij` indexing: the meshes have shape
`[width, height]`. The device is not modelled. -/
def positionsFromMesh (width height rotations : ℕ) (normalize : Bool) : Py (List (Tensor K)) :=
  let maxDim := max width height
  if maxDim = 1 then .error .zeroDivisionError
  else do
    let scale : K := (maxDim : K) / (((maxDim : ℤ) - 1 : ℤ) : K)
    let xv : Tensor K := Tensor.tab2 width height fun x _ => scale * (x : K)
    let yv : Tensor K := Tensor.tab2 width height fun _ y => scale * (y : K)
    let pairs ← (List.range rotations).mapM fun (i : ℕ) => do
      let theta : K := (pi / ((2 : ℕ) : K)) * ((i : K) / (rotations : K))
      let rotX := cos theta
      let rotY := sin theta
      let r1 : Tensor K := Tensor.tab2 width height fun x y => rotX * xv.get [x, y] + rotY * yv.get [x, y]
      let r2 : Tensor K := Tensor.tab2 width height fun x y => rotX * xv.get [x, y] - rotY * yv.get [x, y]
      let r1 ← rescaleMesh maxDim normalize r1
      let r2 ← rescaleMesh maxDim normalize r2
      return [r1, r2]
    return pairs.flatten

end HOL
