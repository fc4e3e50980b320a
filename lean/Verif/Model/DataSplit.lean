import Verif.Tensor

/-!
# Training and validation images of the examples

Model of `setup` in examples/mnist.py:161-173, examples/block_mnist.py:97-111, examples/invariant_mnist.py:63-75, examples/variational_autoencoder.py:80-93,
examples/autoencoder.py:100-113 and examples/cifar100.py:33-48. Images are represented by their position in the training part of the data set. `random_split` and `randperm` are PyTorch and
not repository code.
-/

namespace HOL
open TorchScalar
variable {K : Type} [TorchScalar K]

/-- A bound of a Python slice of a list with `len` elements: negative numbers count from the end, all are cut to the list. -/
def sliceBound (len : ℕ) (i : ℤ) : ℕ := (min (if i < 0 then max (i + len) 0 else i) len).toNat

/-- Python's `l[a:b]`. -/
def pySlice {α : Type} (l : List α) (a b : ℤ) : List α := (l.take (sliceBound l.length b)).drop (sliceBound l.length a)

/-- `[indices[offset - length : offset] for offset, length in zip(accumulate(lengths), lengths)]` from `offset` on. -/
def splitFrom (indices : List ℕ) (offset : ℤ) : List ℤ → List (List ℕ)
  | [] => []
  | length :: rest => pySlice indices offset (offset + length) :: splitFrom indices (offset + length) rest

/-- `torch.utils.data.random_split(dataset, lengths, generator)` for integer lengths: `ValueError` if they do not add up to the size of the data set; negative lengths are not looked at. `randperm n` is what
`torch.randperm(n, generator=generator)` gives. Lengths with sum 1 (taken as fractions by PyTorch) do not occur in the examples. -/
def randomSplit (size : ℕ) (randperm : ℕ → List ℕ) (lengths : List ℤ) : Py (List (List ℕ)) :=
  if lengths.sum ≠ size then .error .valueError else .ok (splitFrom (randperm size) 0 lengths)

/-- The two subsets kept by `a, b, extra = random_split(...)`. -/
def keepTwo (l : List (List ℕ)) : Py (List ℕ × List ℕ) :=
  match l with
  | [a, b, _] => .ok (a, b)
  | _ => .error .valueError

/-- `setup` of the examples with 10000 validation images. `base` is 50000 for MNIST (mnist.py:162-173, block_mnist.py:98-111, invariant_mnist.py:64-75) and 40000 for CIFAR10 (variational_autoencoder.py:81-93,
autoencoder.py:101-113), `size` the number of images of the data set, 60000 resp. 50000. The result are `_train_subset` and `_val_subset`. `num_val` is computed and not used. -/
def setupSplit (base size : ℕ) (randperm : ℕ → List ℕ) (trainFraction : K) : Py (List ℕ × List ℕ) := do
  let numTrain := toLong (trainFraction * ((base : ℕ) : K))
  let numExtra := (base : ℤ) - numTrain
  let l ← randomSplit size randperm [numTrain, 10000, numExtra]
  keepTwo l

/-- `setup` of examples/cifar100.py:33-48. -/
def cifar100Split (randperm : ℕ → List ℕ) (trainFraction : K) : Py (List ℕ × List ℕ) := do
  let numTrain := toLong (trainFraction * ((50000 : ℕ) : K))
  let numVal := 50000 - numTrain
  let l ← randomSplit 50000 randperm [numTrain, numVal, 0]
  keepTwo l

end HOL
