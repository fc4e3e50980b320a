import Mathlib.Analysis.SpecialFunctions.Trigonometric.Basic
import Mathlib.Analysis.SpecialFunctions.Sqrt
import Mathlib.Data.Real.Sign
import Mathlib.Analysis.SpecialFunctions.Log.Basic
import Mathlib.Algebra.Order.Floor.Ring
import Mathlib.Algebra.BigOperators.Group.Finset.Basic

/-!
# Scalars and Python results

Python exceptions are values of `PyErr`; a Python call that may raise returns `Py α`.

`TorchScalar K` collects the scalar operations the package uses on tensor entries. The
class has *no laws*: theorems proved for every `TorchScalar K` therefore hold for float32 or
float64 arithmetic with rounding, overflow and NaN, whatever the reduction order.
The instance for `ℝ` is exact arithmetic.
-/

namespace HOL

/-- The exceptions that occur in the modelled code. -/
inductive PyErr where
  | valueError
  | typeError
  | indexError
  | attributeError
  | runtimeError
  | zeroDivisionError
  | unboundLocalError
  | assertionError
  | recursionError
  | keyError
  /-- `raise Exception(...)` -/
  | exception
  deriving DecidableEq, Repr

/-- Result of a Python call: a value or an exception. -/
abbrev Py (α : Type) := Except PyErr α

/-- Entry-wise operations on tensor elements, without any laws.
`toLong` is `.long()`, `remainder` is `torch.remainder`, `sumL`/`prodL` are `torch.sum` and
`torch.prod` (also the contraction of an einsum) over the listed entries, whose evaluation
order PyTorch does not specify. -/
class TorchScalar (K : Type) extends Zero K, One K, Add K, Sub K, Mul K, Div K, Neg K,
    NatCast K, IntCast K where
  /-- `a < b` on tensor entries -/
  ltB : K → K → Bool
  /-- `a == b` on tensor entries -/
  eqB : K → K → Bool
  /-- `.long()` -/
  toLong : K → ℤ
  /-- `torch.remainder` -/
  remainder : K → K → K
  /-- `torch.cos` -/
  cos : K → K
  /-- `torch.sin` -/
  sin : K → K
  /-- `torch.exp` -/
  exp : K → K
  /-- `torch.sqrt` -/
  sqrt : K → K
  /-- `torch.pi`, `math.pi` -/
  pi : K
  /-- `torch.sum` over the listed entries -/
  sumL : List K → K
  /-- `torch.prod` over the listed entries -/
  prodL : List K → K
  /-- `.abs()` -/
  abs : K → K
  /-- `math.log` -/
  log : K → K
  /-- `torch.tanh` -/
  tanh : K → K
  /-- `.sign_()` -/
  sign : K → K
  /-- `torch.max` over the listed entries -/
  maxL : List K → K
  /-- `torch.min` over the listed entries -/
  minL : List K → K

open Classical in
/-- Exact real arithmetic. `.long()` truncates toward zero, `torch.remainder(x, y)` is
`x - y * floor(x / y)`. -/
noncomputable instance : TorchScalar ℝ where
  ltB a b := decide (a < b)
  eqB a b := decide (a = b)
  toLong x := if 0 ≤ x then ⌊x⌋ else ⌈x⌉
  remainder x y := x - y * ⌊x / y⌋
  cos := Real.cos
  sin := Real.sin
  exp := Real.exp
  sqrt := Real.sqrt
  pi := Real.pi
  sumL := List.sum
  prodL := List.prod
  abs := fun x => |x|
  log := Real.log
  tanh := Real.tanh
  sign := Real.sign
  maxL l := match l with
    | [] => 0
    | a :: t => t.foldl max a
  minL l := match l with
    | [] => 0
    | a :: t => t.foldl min a

open TorchScalar

@[simp] theorem ltB_real (a b : ℝ) : (ltB a b = true) ↔ a < b := by
  simp [ltB]

@[simp] theorem eqB_real (a b : ℝ) : (eqB a b = true) ↔ a = b := by
  simp [eqB]

@[simp] theorem cos_real (a : ℝ) : TorchScalar.cos a = Real.cos a := rfl
@[simp] theorem sin_real (a : ℝ) : TorchScalar.sin a = Real.sin a := rfl
@[simp] theorem exp_real (a : ℝ) : TorchScalar.exp a = Real.exp a := rfl
@[simp] theorem sqrt_real (a : ℝ) : TorchScalar.sqrt a = Real.sqrt a := rfl
@[simp] theorem pi_real : (TorchScalar.pi : ℝ) = Real.pi := rfl
theorem toLong_real (x : ℝ) : toLong x = if 0 ≤ x then ⌊x⌋ else ⌈x⌉ := rfl
theorem remainder_real (x y : ℝ) : remainder x y = x - y * ⌊x / y⌋ := rfl
theorem sumL_real (l : List ℝ) : sumL l = l.sum := rfl
theorem prodL_real (l : List ℝ) : prodL l = l.prod := rfl

@[simp] theorem abs_real (a : ℝ) : TorchScalar.abs a = |a| := rfl
@[simp] theorem log_real (a : ℝ) : TorchScalar.log a = Real.log a := rfl
@[simp] theorem tanh_real (a : ℝ) : TorchScalar.tanh a = Real.tanh a := rfl
@[simp] theorem sign_real (a : ℝ) : TorchScalar.sign a = Real.sign a := rfl

theorem foldl_max_spec (t : List ℝ) (a : ℝ) :
    (t.foldl max a = a ∨ t.foldl max a ∈ t) ∧ a ≤ t.foldl max a ∧ ∀ v ∈ t, v ≤ t.foldl max a := by
  induction t generalizing a with
  | nil => simp
  | cons b t ih =>
    obtain ⟨h1, h2, h3⟩ := ih (max a b)
    simp only [List.foldl_cons, List.mem_cons]
    refine ⟨?_, (le_max_left a b).trans h2, ?_⟩
    · rcases h1 with h | h
      · rw [h]
        rcases max_choice a b with e | e <;> rw [e] <;> simp
      · exact Or.inr (Or.inr h)
    · rintro v (rfl | hv)
      · exact (le_max_right a v).trans h2
      · exact h3 v hv

theorem foldl_min_spec (t : List ℝ) (a : ℝ) :
    (t.foldl min a = a ∨ t.foldl min a ∈ t) ∧ t.foldl min a ≤ a ∧ ∀ v ∈ t, t.foldl min a ≤ v := by
  induction t generalizing a with
  | nil => simp
  | cons b t ih =>
    obtain ⟨h1, h2, h3⟩ := ih (min a b)
    simp only [List.foldl_cons, List.mem_cons]
    refine ⟨?_, h2.trans (min_le_left a b), ?_⟩
    · rcases h1 with h | h
      · rw [h]
        rcases min_choice a b with e | e <;> rw [e] <;> simp
      · exact Or.inr (Or.inr h)
    · rintro v (rfl | hv)
      · exact h2.trans (min_le_right a v)
      · exact h3 v hv

/-- `torch.max` returns the greatest listed entry. -/
theorem maxL_isGreatest {l : List ℝ} (h : l ≠ []) : IsGreatest {v | v ∈ l} (maxL l) := by
  match l, h with
  | a :: t, _ =>
    obtain ⟨h1, h2, h3⟩ := foldl_max_spec t a
    change IsGreatest {v | v ∈ a :: t} (t.foldl max a)
    refine ⟨?_, ?_⟩
    · simp only [List.mem_cons, Set.mem_ofPred_eq]; exact h1
    · intro v hv
      simp only [List.mem_cons, Set.mem_ofPred_eq] at hv
      rcases hv with rfl | hv
      · exact h2
      · exact h3 v hv

/-- `torch.min` returns the least listed entry. -/
theorem minL_isLeast {l : List ℝ} (h : l ≠ []) : IsLeast {v | v ∈ l} (minL l) := by
  match l, h with
  | a :: t, _ =>
    obtain ⟨h1, h2, h3⟩ := foldl_min_spec t a
    change IsLeast {v | v ∈ a :: t} (t.foldl min a)
    refine ⟨?_, ?_⟩
    · simp only [List.mem_cons, Set.mem_ofPred_eq]; exact h1
    · intro v hv
      simp only [List.mem_cons, Set.mem_ofPred_eq] at hv
      rcases hv with rfl | hv
      · exact h2
      · exact h3 v hv

@[simp] theorem sumL_range (n : ℕ) (f : ℕ → ℝ) :
    sumL ((List.range n).map f) = ∑ i ∈ Finset.range n, f i := by
  rw [sumL_real]
  induction n with
  | zero => simp
  | succ n ih => simp [List.range_succ, Finset.sum_range_succ, ih]

@[simp] theorem prodL_range (n : ℕ) (f : ℕ → ℝ) :
    prodL ((List.range n).map f) = ∏ i ∈ Finset.range n, f i := by
  rw [prodL_real]
  induction n with
  | zero => simp
  | succ n ih => simp [List.range_succ, Finset.prod_range_succ, ih]

/-- A double contraction (einsum over two summed indices). -/
theorem sumL_flatMap_range (n m : ℕ) (f : ℕ → ℕ → ℝ) :
    sumL ((List.range n).flatMap fun i => (List.range m).map fun k => f i k)
      = ∑ i ∈ Finset.range n, ∑ k ∈ Finset.range m, f i k := by
  rw [sumL_real]
  induction n with
  | zero => simp
  | succ n ih =>
    rw [List.range_succ, List.flatMap_append, List.sum_append, ih, Finset.sum_range_succ]
    simp only [List.flatMap_cons, List.flatMap_nil, List.append_nil]
    congr 1

end HOL
