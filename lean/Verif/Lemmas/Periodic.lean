import Verif.Model.Utils
import Mathlib.Analysis.Normed.Group.AddCircle
import Mathlib.Tactic.FieldSimp

/-! # Closed form of `make_periodic` over the reals -/

namespace HOL
open TorchScalar

theorem makePeriodic_unfold (x p : ℝ) :
    makePeriodic x p =
      (if p < (x + p / 2) - 2 * p * ⌊(x + p / 2) / (2 * p)⌋
        then 2 * p - ((x + p / 2) - 2 * p * ⌊(x + p / 2) / (2 * p)⌋)
        else (x + p / 2) - 2 * p * ⌊(x + p / 2) / (2 * p)⌋) - p / 2 := by
  have e : (1 : ℝ) / ((2 : ℕ) : ℝ) * p = p / 2 := by push_cast; ring
  have e2 : ((2 : ℕ) : ℝ) * p = 2 * p := by push_cast; ring
  unfold makePeriodic
  simp only [ltB_real, remainder_real]
  change (if p < (x + (1 : ℝ) / ((2 : ℕ) : ℝ) * p)
        - ((2 : ℕ) : ℝ) * p * ⌊(x + (1 : ℝ) / ((2 : ℕ) : ℝ) * p) / (((2 : ℕ) : ℝ) * p)⌋
      then ((2 : ℕ) : ℝ) * p - ((x + (1 : ℝ) / ((2 : ℕ) : ℝ) * p)
        - ((2 : ℕ) : ℝ) * p * ⌊(x + (1 : ℝ) / ((2 : ℕ) : ℝ) * p) / (((2 : ℕ) : ℝ) * p)⌋)
      else (x + (1 : ℝ) / ((2 : ℕ) : ℝ) * p)
        - ((2 : ℕ) : ℝ) * p * ⌊(x + (1 : ℝ) / ((2 : ℕ) : ℝ) * p) / (((2 : ℕ) : ℝ) * p)⌋)
      - (1 : ℝ) / ((2 : ℕ) : ℝ) * p = _
  rw [e, e2]

/-- `make_periodic` is a scaled distance to the nearest integer. -/
theorem makePeriodic_eq {p : ℝ} (hp : 0 < p) (x : ℝ) :
    makePeriodic x p = 2 * p * ‖(((x + p / 2) / (2 * p) : ℝ) : UnitAddCircle)‖ - p / 2 := by
  rw [makePeriodic_unfold, UnitAddCircle.norm_eq, abs_sub_round_eq_min]
  set u := (x + p / 2) / (2 * p) with hu
  have hy : x + p / 2 = 2 * p * u := by rw [hu]; field_simp
  have hr : (x + p / 2) - 2 * p * ⌊u⌋ = 2 * p * Int.fract u := by
    rw [hy, Int.fract]; ring
  rw [hr]
  split
  · rename_i h
    have h1 : 1 - Int.fract u ≤ Int.fract u := by nlinarith
    rw [min_eq_right h1]; ring
  · rename_i h
    have h1 : Int.fract u ≤ 1 - Int.fract u := by nlinarith
    rw [min_eq_left h1]

theorem makePeriodic_add_two {p : ℝ} (hp : 0 < p) (x : ℝ) :
    makePeriodic (x + 2 * p) p = makePeriodic x p := by
  rw [makePeriodic_eq hp, makePeriodic_eq hp]
  have : (x + 2 * p + p / 2) / (2 * p) = (x + p / 2) / (2 * p) + 1 := by field_simp; ring
  rw [this, AddCircle.coe_add_period]

theorem makePeriodic_add_int {p : ℝ} (hp : 0 < p) (x : ℝ) (k : ℤ) :
    makePeriodic (x + k * (2 * p)) p = makePeriodic x p := by
  rw [makePeriodic_eq hp, makePeriodic_eq hp]
  have e : (x + k * (2 * p) + p / 2) / (2 * p) = (x + p / 2) / (2 * p) + k := by field_simp; ring
  rw [e, UnitAddCircle.norm_eq, UnitAddCircle.norm_eq, round_add_intCast]
  push_cast
  congr 3
  ring

theorem makePeriodic_mirror {p : ℝ} (hp : 0 < p) (x : ℝ) :
    makePeriodic (p - x) p = makePeriodic x p := by
  rw [makePeriodic_eq hp, makePeriodic_eq hp]
  have e : (p - x + p / 2) / (2 * p) = -((x + p / 2) / (2 * p)) + 1 := by field_simp; ring
  rw [e, AddCircle.coe_add_period, AddCircle.coe_neg, norm_neg]

theorem makePeriodic_mem {p : ℝ} (hp : 0 < p) (x : ℝ) :
    -(p / 2) ≤ makePeriodic x p ∧ makePeriodic x p ≤ p / 2 := by
  rw [makePeriodic_eq hp]
  have h1 := norm_nonneg (((x + p / 2) / (2 * p) : ℝ) : UnitAddCircle)
  have h2 : ‖(((x + p / 2) / (2 * p) : ℝ) : UnitAddCircle)‖ ≤ 1 / 2 := by
    have := AddCircle.norm_le_half_period (p := (1 : ℝ)) (x := (((x + p / 2) / (2 * p) : ℝ) : UnitAddCircle))
      one_ne_zero
    simpa using this
  constructor
  · have := mul_nonneg (by linarith : (0 : ℝ) ≤ 2 * p) h1
    linarith
  · have := mul_le_mul_of_nonneg_left h2 (by linarith : (0 : ℝ) ≤ 2 * p)
    linarith

theorem makePeriodic_id {p : ℝ} (hp : 0 < p) {x : ℝ} (h1 : -(p / 2) ≤ x) (h2 : x ≤ p / 2) :
    makePeriodic x p = x := by
  rw [makePeriodic_eq hp, UnitAddCircle.norm_eq, abs_sub_round_eq_min]
  have hu0 : 0 ≤ (x + p / 2) / (2 * p) := div_nonneg (by linarith) (by linarith)
  have hu1 : (x + p / 2) / (2 * p) ≤ 1 / 2 := by
    rw [div_le_iff₀ (by linarith)]; linarith
  have hf : Int.fract ((x + p / 2) / (2 * p)) = (x + p / 2) / (2 * p) := by
    rw [Int.fract_eq_self]; exact ⟨hu0, by linarith⟩
  rw [hf, min_eq_left (by linarith)]
  field_simp
  ring

theorem makePeriodic_continuous {p : ℝ} (hp : 0 < p) : Continuous fun x => makePeriodic x p := by
  have : (fun x => makePeriodic x p) =
      fun x => 2 * p * ‖(((x + p / 2) / (2 * p) : ℝ) : UnitAddCircle)‖ - p / 2 := by
    funext x; exact makePeriodic_eq hp x
  rw [this]
  have h : Continuous fun x : ℝ => (((x + p / 2) / (2 * p) : ℝ) : UnitAddCircle) :=
    (AddCircle.continuous_mk' 1).comp (by fun_prop)
  exact ((continuous_norm.comp h).const_mul _).sub continuous_const

theorem makePeriodic_lipschitz {p : ℝ} (hp : 0 < p) (x y : ℝ) :
    |makePeriodic x p - makePeriodic y p| ≤ |x - y| := by
  rw [makePeriodic_eq hp, makePeriodic_eq hp]
  have e : 2 * p * ‖(((x + p / 2) / (2 * p) : ℝ) : UnitAddCircle)‖ - p / 2
      - (2 * p * ‖(((y + p / 2) / (2 * p) : ℝ) : UnitAddCircle)‖ - p / 2)
      = 2 * p * (‖(((x + p / 2) / (2 * p) : ℝ) : UnitAddCircle)‖
        - ‖(((y + p / 2) / (2 * p) : ℝ) : UnitAddCircle)‖) := by ring
  rw [e, abs_mul, abs_of_pos (by linarith : (0 : ℝ) < 2 * p)]
  have h1 := abs_norm_sub_norm_le (((x + p / 2) / (2 * p) : ℝ) : UnitAddCircle)
    (((y + p / 2) / (2 * p) : ℝ) : UnitAddCircle)
  rw [← AddCircle.coe_sub] at h1
  have h2 : ‖(((x + p / 2) / (2 * p) - (y + p / 2) / (2 * p) : ℝ) : UnitAddCircle)‖
      ≤ |(x + p / 2) / (2 * p) - (y + p / 2) / (2 * p)| := by
    rw [UnitAddCircle.norm_eq]
    simpa using round_le ((x + p / 2) / (2 * p) - (y + p / 2) / (2 * p)) 0
  have h3 : (x + p / 2) / (2 * p) - (y + p / 2) / (2 * p) = (x - y) / (2 * p) := by
    field_simp; ring
  rw [h3, abs_div, abs_of_pos (by linarith : (0 : ℝ) < 2 * p)] at h2
  rw [h3] at h1
  calc 2 * p * _ ≤ 2 * p * (|x - y| / (2 * p)) :=
        mul_le_mul_of_nonneg_left (le_trans h1 h2) (by linarith)
    _ = |x - y| := by field_simp

end HOL
