import Verif.Model.Piecewise

/-!
# Specification: arithmetic with rounding

`Rounding K ε M` says that the scalars of type `K` behave like floating point numbers: `val` is the number a finite scalar stands for, every operation whose
exact result is at most `M` in absolute value returns a finite scalar, and what it returns differs from the exact result `y` by at most `ε (1 + |y|)`. Relative
rounding errors up to `ε` and absolute ones up to `ε` (underflow) are covered; nothing is said about larger results (overflow) or scalars that are not finite.
Sums and products of lists are computed in any order with one rounding per entry. `toLong` truncates a finite scalar in the range exactly.
-/

namespace HOL.Spec
open TorchScalar

/-- Computed scalar `k` stands for the exact result `y`, up to one rounding. -/
def Rounds {K : Type} (fin : K → Prop) (val : K → ℝ) (ε y : ℝ) (k : K) : Prop := fin k ∧ |val k - y| ≤ ε * (1 + |y|)

/-- Laws of an arithmetic with rounding unit `ε` and range `M`. -/
structure Rounding (K : Type) [TorchScalar K] (ε M : ℝ) where
  /-- the number a scalar stands for -/
  val : K → ℝ
  /-- neither infinite nor NaN -/
  fin : K → Prop
  zero : fin 0 ∧ val 0 = 0
  one : fin 1 ∧ val 1 = 1
  add : ∀ a b, fin a → fin b → |val a + val b| ≤ M → Rounds fin val ε (val a + val b) (a + b)
  sub : ∀ a b, fin a → fin b → |val a - val b| ≤ M → Rounds fin val ε (val a - val b) (a - b)
  mul : ∀ a b, fin a → fin b → |val a * val b| ≤ M → Rounds fin val ε (val a * val b) (a * b)
  div : ∀ a b, fin a → fin b → val b ≠ 0 → |val a / val b| ≤ M → Rounds fin val ε (val a / val b) (a / b)
  neg : ∀ a, fin a → fin (-a) ∧ val (-a) = -val a
  natCast : ∀ n : ℕ, (n : ℝ) ≤ M → Rounds fin val ε n (n : K)
  intCast : ∀ z : ℤ, |(z : ℝ)| ≤ M → Rounds fin val ε z (z : K)
  pi : Real.pi ≤ M → Rounds fin val ε Real.pi (pi : K)
  cos : ∀ a, fin a → |val a| ≤ M → Rounds fin val ε (Real.cos (val a)) (TorchScalar.cos a)
  sin : ∀ a, fin a → |val a| ≤ M → Rounds fin val ε (Real.sin (val a)) (TorchScalar.sin a)
  toLong : ∀ a, fin a → |val a| ≤ M → toLong a = toLong (val a)
  sumL : ∀ l : List K, (∀ a ∈ l, fin a) → (1 + ε) ^ l.length * (1 + (l.map fun a => |val a|).sum) ≤ M →
    fin (sumL l) ∧ |val (sumL l) - (l.map val).sum| ≤ ((1 + ε) ^ l.length - 1) * (1 + (l.map fun a => |val a|).sum)
  prodL : ∀ l : List K, (∀ a ∈ l, fin a) → (1 + ε) ^ l.length * (l.map fun a => 1 + |val a|).prod ≤ M →
    fin (prodL l) ∧ |val (prodL l) - (l.map val).prod| ≤ ((1 + ε) ^ l.length - 1) * (l.map fun a => 1 + |val a|).prod

/-- Real numbers in which every result is replaced by `fl` of it. -/
structure Fl (fl : ℝ → ℝ) : Type where
  /-- the number -/
  num : ℝ

/-- Class, numbers of points and segments, and widths of a piecewise layer. -/
structure PwSize where
  cls : PwClass
  n : ℕ
  segments : ℕ
  inF : ℕ
  outF : ℕ

/-- Each layer takes as many features as the one before returns: from `i` to `o` features. -/
def Widths : ℕ → List PwSize → ℕ → Prop
  | i, [], o => i = o
  | i, z :: zs, o => z.inF = i ∧ Widths z.outF zs o

/-- `L` is a layer of size `z` on `[-1, 1]` without periodicity, whose weights are finite and at most `W` in absolute value. -/
structure Bounded {K : Type} [TorchScalar K] {ε M : ℝ} (R : Rounding K ε M) (W : ℝ) (L : PwLayer K) (z : PwSize) : Prop where
  wf : L.WF
  cls : L.cls = z.cls
  n : L.n = z.n
  segments : L.segments = z.segments
  inF : L.inFeatures = z.inF
  outF : L.outFeatures = z.outF
  length : L.length = ((2 : ℕ) : K)
  periodicity : L.periodicity = none
  weights : ∀ idx, InShape L.w.shape idx → R.fin (L.w.get idx) ∧ |R.val (L.w.get idx)| ≤ W

end HOL.Spec

namespace HOL

/-- The layer in exact arithmetic: the same sizes, the numbers its weights stand for, length 2 and no periodicity. -/
noncomputable def PwLayer.exact {K : Type} (val : K → ℝ) (L : PwLayer K) : PwLayer ℝ :=
  { cls := L.cls, n := L.n, segments := L.segments, inFeatures := L.inFeatures, outFeatures := L.outFeatures, length := 2, periodicity := none, w := L.w.map val }

end HOL
