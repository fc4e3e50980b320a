import Mathlib.Algebra.Order.BigOperators.Ring.Finset
import Mathlib.Data.Real.Basic
import Mathlib.Tactic.Linarith
import Mathlib.Tactic.Ring
import Mathlib.Tactic.Positivity
import Mathlib.Tactic.LinearCombination
import Mathlib.Tactic.FieldSimp

/-!
# Gradient steps on a least squares problem

`c * Σ (Σ_j A m j * w j - T m)²`, its gradient, and what a gradient step of size `lr` does to it.
-/

namespace HOL.LeastSquares
variable {ι κ : Type} (J : Finset ι) (M : Finset κ) (A : κ → ι → ℝ) (T : κ → ℝ) (c : ℝ)

/-- Predictions. -/
noncomputable def pred (w : ι → ℝ) (m : κ) : ℝ := ∑ j ∈ J, A m j * w j

/-- The loss. -/
noncomputable def loss (w : ι → ℝ) : ℝ := c * ∑ m ∈ M, (pred J A w m - T m) ^ 2

/-- Its gradient. -/
noncomputable def grad (w : ι → ℝ) (j : ι) : ℝ := 2 * c * ∑ m ∈ M, A m j * (pred J A w m - T m)

theorem pred_step (w v : ι → ℝ) (m : κ) : pred J A (fun j => w j + v j) m = pred J A w m + pred J A v m := by
  unfold pred
  rw [← Finset.sum_add_distrib]
  exact Finset.sum_congr rfl fun j _ => by ring

/-- Expansion of the loss. -/
theorem loss_add (w v : ι → ℝ) : loss J M A T c (fun j => w j + v j) = loss J M A T c w + ∑ j ∈ J, grad J M A T c w j * v j + c * ∑ m ∈ M, pred J A v m ^ 2 := by
  have e : ∑ j ∈ J, grad J M A T c w j * v j = c * ∑ m ∈ M, 2 * (pred J A w m - T m) * pred J A v m := by
    unfold grad
    calc ∑ j ∈ J, 2 * c * (∑ m ∈ M, A m j * (pred J A w m - T m)) * v j
        = ∑ j ∈ J, ∑ m ∈ M, 2 * c * (A m j * (pred J A w m - T m)) * v j := by
          refine Finset.sum_congr rfl fun j _ => ?_
          rw [Finset.mul_sum, Finset.sum_mul]
      _ = ∑ m ∈ M, ∑ j ∈ J, 2 * c * (A m j * (pred J A w m - T m)) * v j := Finset.sum_comm
      _ = _ := by
          rw [Finset.mul_sum]
          refine Finset.sum_congr rfl fun m _ => ?_
          have : c * (2 * (pred J A w m - T m) * pred J A v m) = ∑ j ∈ J, c * (2 * (pred J A w m - T m)) * (A m j * v j) := by
            rw [← Finset.mul_sum]
            show _ = c * (2 * (pred J A w m - T m)) * pred J A v m
            ring
          rw [this]
          exact Finset.sum_congr rfl fun j _ => by ring
  rw [e]
  unfold loss
  rw [← mul_add, ← mul_add, ← Finset.sum_add_distrib, ← Finset.sum_add_distrib]
  congr 1
  refine Finset.sum_congr rfl fun m _ => ?_
  rw [pred_step]
  ring

/-- A gradient step. -/
noncomputable def step (lr : ℝ) (w : ι → ℝ) (j : ι) : ℝ := w j - lr * grad J M A T c w j

/-- Squared length of a vector. -/
noncomputable def sqNorm (v : ι → ℝ) : ℝ := ∑ j ∈ J, v j ^ 2

theorem sqNorm_nonneg (v : ι → ℝ) : 0 ≤ sqNorm J v := Finset.sum_nonneg fun _ _ => sq_nonneg _

variable {J M A T c}

/-- One step decreases the loss when it is not too large. -/
theorem loss_step (hc : 0 ≤ c) {Q : ℝ} (hQ : ∀ v, ∑ m ∈ M, pred J A v m ^ 2 ≤ Q * sqNorm J v) (lr : ℝ) (w : ι → ℝ) :
    loss J M A T c (step J M A T c lr w) ≤ loss J M A T c w - lr * (1 - lr * (c * Q)) * sqNorm J (grad J M A T c w) := by
  have e : step J M A T c lr w = fun j => w j + (-lr * grad J M A T c w j) := by
    funext j
    unfold step
    ring
  rw [e, loss_add J M A T c w fun j => -lr * grad J M A T c w j]
  have e1 : ∑ j ∈ J, grad J M A T c w j * (-lr * grad J M A T c w j) = -lr * sqNorm J (grad J M A T c w) := by
    unfold sqNorm
    rw [Finset.mul_sum]
    exact Finset.sum_congr rfl fun j _ => by ring
  have e2 : sqNorm J (fun j => -lr * grad J M A T c w j) = lr ^ 2 * sqNorm J (grad J M A T c w) := by
    unfold sqNorm
    rw [Finset.mul_sum]
    exact Finset.sum_congr rfl fun j _ => by ring
  have h := mul_le_mul_of_nonneg_left (hQ fun j => -lr * grad J M A T c w j) hc
  rw [e2] at h
  rw [e1]
  nlinarith

/-- The loss lies above its tangents. -/
theorem loss_tangent (hc : 0 ≤ c) (w u : ι → ℝ) : loss J M A T c w + ∑ j ∈ J, grad J M A T c w j * (u j - w j) ≤ loss J M A T c u := by
  have e : u = fun j => w j + (u j - w j) := by funext j; ring
  have h := loss_add J M A T c w fun j => u j - w j
  rw [← e] at h
  have h2 : 0 ≤ c * ∑ m ∈ M, pred J A (fun j => u j - w j) m ^ 2 := mul_nonneg hc (Finset.sum_nonneg fun _ _ => sq_nonneg _)
  linarith

/-- Distance to any other point after one step. -/
theorem dist_step (hc : 0 ≤ c) {Q lr : ℝ} (hQ : ∀ v, ∑ m ∈ M, pred J A v m ^ 2 ≤ Q * sqNorm J v) (h0 : 0 ≤ lr) (h1 : lr * (c * Q) ≤ 1 / 2) (w u : ι → ℝ) :
    2 * lr * (loss J M A T c (step J M A T c lr w) - loss J M A T c u)
      ≤ sqNorm J (fun j => w j - u j) - sqNorm J (fun j => step J M A T c lr w j - u j) := by
  have a := loss_step (T := T) hc hQ lr w
  have b := loss_tangent (M := M) (A := A) (T := T) (J := J) hc w u
  have e : sqNorm J (fun j => step J M A T c lr w j - u j) = sqNorm J (fun j => w j - u j) + 2 * lr * ∑ j ∈ J, grad J M A T c w j * (u j - w j)
      + lr ^ 2 * sqNorm J (grad J M A T c w) := by
    unfold sqNorm step
    rw [Finset.mul_sum, Finset.mul_sum, ← Finset.sum_add_distrib, ← Finset.sum_add_distrib]
    exact Finset.sum_congr rfl fun j _ => by ring
  rw [e]
  have hg := sqNorm_nonneg J (grad J M A T c w)
  have hl : 2 * lr * loss J M A T c (step J M A T c lr w) ≤ 2 * lr * (loss J M A T c w - lr * (1 - lr * (c * Q)) * sqNorm J (grad J M A T c w)) :=
    mul_le_mul_of_nonneg_left a (by linarith)
  have hb := mul_le_mul_of_nonneg_left b (show (0 : ℝ) ≤ 2 * lr by linarith)
  have hk : lr ^ 2 * sqNorm J (grad J M A T c w) ≤ 2 * lr * (lr * (1 - lr * (c * Q)) * sqNorm J (grad J M A T c w)) := by
    have : 0 ≤ lr ^ 2 * sqNorm J (grad J M A T c w) * (1 - 2 * (lr * (c * Q))) := mul_nonneg (mul_nonneg (sq_nonneg _) hg) (by linarith)
    nlinarith
  nlinarith

/-- Many steps. -/
theorem rate (hc : 0 ≤ c) {Q lr : ℝ} (hQ : ∀ v, ∑ m ∈ M, pred J A v m ^ 2 ≤ Q * sqNorm J v) (h0 : 0 ≤ lr) (h1 : lr * (c * Q) ≤ 1 / 2)
    (w : ℕ → ι → ℝ) (hw : ∀ k, w (k + 1) = step J M A T c lr (w k)) (u : ι → ℝ) (k : ℕ) :
    2 * lr * k * (loss J M A T c (w k) - loss J M A T c u) ≤ sqNorm J (fun j => w 0 j - u j) - sqNorm J (fun j => w k j - u j) := by
  have mono : ∀ k, loss J M A T c (w (k + 1)) ≤ loss J M A T c (w k) := by
    intro k
    have a := loss_step (T := T) hc hQ lr (w k)
    rw [← hw] at a
    have hg := sqNorm_nonneg J (grad J M A T c (w k))
    have : 0 ≤ lr * (1 - lr * (c * Q)) * sqNorm J (grad J M A T c (w k)) := mul_nonneg (mul_nonneg h0 (by linarith)) hg
    linarith
  induction k with
  | zero => simp
  | succ k ih =>
    have d := dist_step (T := T) hc hQ h0 h1 (w k) u
    rw [← hw] at d
    have m := mul_le_mul_of_nonneg_left (mono k) (show (0 : ℝ) ≤ 2 * lr * k by positivity)
    push_cast
    nlinarith

end HOL.LeastSquares
