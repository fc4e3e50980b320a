import Verif.Model.Network

/-!
# Model: tensor operations of PyTorch used by the attention modules and the autoencoder

Broadcasting, `mean`, `torch.flatten`, `view` with one inferred size, `torch.bmm`, `nn.Linear` on the last axis.
-/

namespace HOL
open TorchScalar

variable {K : Type} [TorchScalar K]

/-- Broadcast shapes, both reversed: sizes are compared from the last axis on. -/
def bcastRev : List ℕ → List ℕ → Py (List ℕ)
  | [], t => .ok t
  | s, [] => .ok s
  | a :: s, b :: t => do
    let c ← bcast a b
    let r ← bcastRev s t
    .ok (c :: r)

/-- Shape of an entry-wise operation on tensors of shapes `s` and `t`. -/
def bcastShape (s t : List ℕ) : Py (List ℕ) := do
  let r ← bcastRev s.reverse t.reverse
  .ok r.reverse

/-- Entry of `t` used for the entry `idx` of a broadcast result: the last axes of `idx`, and position 0 on axes of size 1. -/
def Tensor.bget (t : Tensor K) (idx : List ℕ) : K :=
  t.get (List.zipWith bidx t.shape (idx.drop (idx.length - t.shape.length)))

/-- Entry-wise operation on two tensors with broadcasting. -/
def zipB (f : K → K → K) (s t : Tensor K) : Py (Tensor K) := do
  let r ← bcastShape s.shape t.shape
  .ok (Tensor.tabulate r fun idx => f (s.bget idx) (t.bget idx))

/-- `torch.mean` over all entries. -/
def meanAll (t : Tensor K) : K := sumL t.data / ((t.data.length : ℕ) : K)

/-- `t.view(a, -1, *tail)`: the missing size is the number of entries divided by the product of the others, which must be positive and divide. -/
def viewSecond {α : Type} (a : ℕ) (tail : List ℕ) (t : Tensor α) : Py (Tensor α) :=
  let p := a * numel tail
  if p = 0 then .error .runtimeError
  else if numel t.shape % p = 0 then .ok (t.reshape (a :: numel t.shape / p :: tail))
  else .error .runtimeError

/-- `t.view(-1, *tail)`. -/
def viewFirst {α : Type} (tail : List ℕ) (t : Tensor α) : Py (Tensor α) :=
  if numel tail = 0 then .error .runtimeError
  else if numel t.shape % numel tail = 0 then .ok (t.reshape (numel t.shape / numel tail :: tail))
  else .error .runtimeError

/-- `t.view(s)` with all sizes given. -/
def viewAs {α : Type} (s : List ℕ) (t : Tensor α) : Py (Tensor α) :=
  if numel s = numel t.shape then .ok (t.reshape s) else .error .runtimeError

/-- `torch.bmm`. -/
def bmm (x y : Tensor K) : Py (Tensor K) :=
  match x.shape, y.shape with
  | [b, m, k], [b', k', n] =>
    if b = b' ∧ k = k' then .ok (Tensor.tab3 b m n fun s i j => sumL ((List.range k).map fun q => x.get [s, i, q] * y.get [s, q, j]))
    else .error .runtimeError
  | _, _ => .error .runtimeError

/-- `t.transpose(1, 2)` of a tensor with three axes (an IndexError for fewer). -/
def transpose12 (t : Tensor K) : Py (Tensor K) :=
  match t.shape with
  | [a, b, c] => .ok (Tensor.tab3 a c b fun s i j => t.get [s, j, i])
  | _ => .error .indexError

/-- `t.permute(*p)`: axis `k` of the result is axis `p[k]` of the tensor. (An axis that occurs twice is not modelled.) -/
def permute {α : Type} [Zero α] (p : List ℕ) (t : Tensor α) : Py (Tensor α) :=
  if p.length = t.shape.length then
    .ok (Tensor.tabulate (p.map fun a => t.shape.getD a 0) fun idx =>
      t.get ((List.range t.shape.length).map fun a => idx.getD (p.idxOf a) 0))
  else .error .runtimeError

/-- `t.squeeze(-1)` -/
def squeezeLast {α : Type} (t : Tensor α) : Tensor α :=
  if t.shape.getLast? = some 1 then t.reshape t.shape.dropLast else t

/-- `t.unsqueeze(1)` -/
def unsqueeze1 {α : Type} (t : Tensor α) : Py (Tensor α) :=
  match t.shape with
  | a :: rest => .ok (t.reshape (a :: 1 :: rest))
  | [] => .error .indexError

/-- `t.squeeze(1)` -/
def squeeze1 {α : Type} (t : Tensor α) : Py (Tensor α) :=
  match t.shape with
  | a :: 1 :: rest => .ok (t.reshape (a :: rest))
  | _ :: _ :: _ => .ok t
  | _ => .error .indexError

/-- `torch.matmul` of two tensors with four axes (the first two must agree: broadcasting them is not modelled). -/
def matmul4 (x y : Tensor K) : Py (Tensor K) :=
  match x.shape, y.shape with
  | [a, b, m, k], [a', b', k', n] =>
    if a = a' ∧ b = b' ∧ k = k' then
      .ok (Tensor.tab4 a b m n fun s h i j => sumL ((List.range k).map fun q => x.get [s, h, i, q] * y.get [s, h, q, j]))
    else .error .runtimeError
  | _, _ => .error .runtimeError

/-- `nn.Linear.forward` for a tensor with any number of axes: the layer acts on the last one. `bias=False` is `none`. -/
def linearLast (weight : Tensor K) (bias : Option (Tensor K)) (x : Tensor K) : Py (Tensor K) :=
  match x.shape.getLast?, weight.shape with
  | some i, [o, i'] =>
    if i = i' then
      let pre := x.shape.dropLast
      let flat := x.reshape [numel pre, i]
      .ok ((Tensor.tab2 (numel pre) o fun p r =>
        let v := sumL ((List.range i).map fun q => flat.get [p, q] * weight.get [r, q])
        match bias with
        | none => v
        | some b => v + b.get [r]).reshape (pre ++ [o]))
    else .error .runtimeError
  | _, _ => .error .runtimeError

/-- The parameters of an `nn.Linear`. -/
structure Linear (K : Type) where
  weight : Tensor K
  bias : Option (Tensor K)

def Linear.forward (L : Linear K) (x : Tensor K) : Py (Tensor K) := linearLast L.weight L.bias x

/-- `nn.Conv1d(channels, out, kernel_size=3, padding=1)` with bias. -/
def convThree (weight bias x : Tensor K) : Py (Tensor K) :=
  match x.shape, weight.shape with
  | [b, c, t], [o, c', _] =>
    if c = c' then
      .ok (Tensor.tab3 b o t fun s r i => sumL ((List.range c).flatMap fun q => (List.range 3).map fun k =>
        weight.get [r, q, k] * (if 1 ≤ i + k ∧ i + k - 1 < t then x.get [s, q, i + k - 1] else 0)) + bias.get [r])
    else .error .runtimeError
  | _, _ => .error .runtimeError

/-! ## softmax -/

/-- `exp(v - m)`, with `exp(-inf) = 0`. -/
def expShift (m : K) : Option K → K
  | none => 0
  | some v => TorchScalar.exp (v - m)

/-- One entry of the softmax of a row of scores; `none` is `-inf`. As in PyTorch the largest score is subtracted first. A row of `-inf` only gives `0/0`
(NaN in floating point arithmetic). -/
def softmaxEntry (row : List (Option K)) (j : ℕ) : K :=
  let m := maxL (row.filterMap id)
  expShift m (row.getD j none) / sumL (row.map (expShift m))

/-- `F.softmax(t, -1)`: every row along the last axis. -/
def softmaxLast (t : Tensor K) : Tensor K :=
  let c := t.shape.getLastD 1
  Tensor.tabulate t.shape fun idx =>
    softmaxEntry ((List.range c).map fun j => some (t.get (idx.dropLast ++ [j]))) (idx.getLastD 0)

/-- The same after `masked_fill(mask, -inf)`; the mask has the shape of the tensor, `0` is `False`. -/
def maskedSoftmax (t : Tensor K) (mask : Tensor ℕ) : Tensor K :=
  let c := t.shape.getLastD 1
  Tensor.tabulate t.shape fun idx =>
    softmaxEntry ((List.range c).map fun j => if mask.get (idx.dropLast ++ [j]) ≠ 0 then none else some (t.get (idx.dropLast ++ [j]))) (idx.getLastD 0)

/-- `torch.sigmoid` -/
def sigmoid (v : K) : K := 1 / (1 + TorchScalar.exp (-v))

end HOL
