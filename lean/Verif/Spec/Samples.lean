import Verif.Tensor

/-! # Specification vocabulary: functions that treat the samples of a batch separately -/

namespace HOL.Spec
variable {K : Type} [Zero K]

/-- `f` accepts every batch of at least one sample of shape `s` and returns as many samples of shape `s'`, and what it returns for a sample is determined by that sample alone: neither its
place in the batch nor the other samples matter. -/
structure SampleMap (f : Tensor K → Py (Tensor K)) (s s' : List ℕ) : Prop where
  accepts : ∀ (B : ℕ) (x : Tensor K), 1 ≤ B → x.WF → x.shape = B :: s → ∃ y, f x = .ok y ∧ y.WF ∧ y.shape = B :: s'
  own : ∀ (B B' : ℕ) (x x' y y' : Tensor K) (b b' : ℕ), b < B → b' < B' → x.WF → x'.WF → x.shape = B :: s → x'.shape = B' :: s →
    f x = .ok y → f x' = .ok y' → (∀ i, InShape s i → x.get (b :: i) = x'.get (b' :: i)) → ∀ i, InShape s' i → y.get (b :: i) = y'.get (b' :: i)

/-- `f` raises `RuntimeError` on every batch of at least one sample of shape `s`. -/
def RejectsAll (f : Tensor K → Py (Tensor K)) (s : List ℕ) : Prop :=
  ∀ (B : ℕ) (x : Tensor K), 1 ≤ B → x.WF → x.shape = B :: s → f x = .error .runtimeError

end HOL.Spec
