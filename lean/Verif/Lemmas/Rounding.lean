import Verif.Spec.Rounding
import Mathlib.Tactic.Linarith
import Mathlib.Tactic.Positivity
import Mathlib.Tactic.GCongr
import Mathlib.Tactic.Ring
import Mathlib.Tactic.FieldSimp
import Mathlib.Analysis.SpecialFunctions.Trigonometric.Bounds

/-!
# Error bounds of composed operations

`Tracks f r`: in every arithmetic that is precise enough and whose range is large enough the computed value `f` is finite and differs from the exact value `r` by
at most a constant times the rounding unit. The constant does not depend on the arithmetic nor on the point `p` (the inputs).
-/

namespace HOL
open Spec TorchScalar

/-- An arithmetic together with its laws. -/
structure Arith where
  K : Type
  inst : TorchScalar K
  eps : ℝ
  M : ℝ
  R : @Rounding K inst eps M
  nonneg : 0 ≤ eps

instance (A : Arith) : TorchScalar A.K := A.inst

variable {P : Type 1} {A : P → Arith}

/-- The computed values `f` are finite and close to the exact, bounded values `r`. -/
def Tracks (f : ∀ p, (A p).K) (r : P → ℝ) : Prop :=
  ∃ C B M0 e0 : ℝ, 0 ≤ C ∧ 0 ≤ B ∧ 0 < e0 ∧ e0 ≤ 1 ∧ (∀ p, |r p| ≤ B) ∧
    ∀ p, (A p).eps ≤ e0 → M0 ≤ (A p).M → (A p).R.fin (f p) ∧ |(A p).R.val (f p) - r p| ≤ C * (A p).eps

/-- One operation `op` with exact counterpart `h` which is Lipschitz near the exact values. -/
theorem Tracks.of_rounds {f : ∀ p, (A p).K} {r y : ∀ p : P, ℝ} (C B M0 e0 : ℝ) (hC : 0 ≤ C) (hB : 0 ≤ B) (he : 0 < e0) (he1 : e0 ≤ 1) (hr : ∀ p, |r p| ≤ B)
    (h : ∀ p, (A p).eps ≤ e0 → M0 ≤ (A p).M → |y p - r p| ≤ C * (A p).eps ∧
      (|y p| ≤ (A p).M → Rounds (A p).R.fin (A p).R.val (A p).eps (y p) (f p))) : Tracks f r := by
  refine ⟨C + (1 + B + C), B, max M0 (B + C), e0, by linarith, hB, he, he1, hr, fun p h1 h2 => ?_⟩
  have h0 := (A p).nonneg
  obtain ⟨h3, h4⟩ := h p h1 ((le_max_left _ _).trans h2)
  have h5 : C * (A p).eps ≤ C := by nlinarith
  have h6 : |y p| ≤ B + C := by
    have : y p = (y p - r p) + r p := by ring
    rw [this]
    exact (abs_add_le _ _).trans (by linarith [hr p])
  obtain ⟨h7, h8⟩ := h4 (h6.trans ((le_max_right _ _).trans h2))
  refine ⟨h7, ?_⟩
  have : (A p).R.val (f p) - r p = ((A p).R.val (f p) - y p) + (y p - r p) := by ring
  rw [this]
  refine (abs_add_le _ _).trans ?_
  have h9 : (A p).eps * (1 + |y p|) ≤ (A p).eps * (1 + B + C) := by
    apply mul_le_mul_of_nonneg_left _ h0
    linarith
  nlinarith

/-- What a tracked value satisfies, with all constants enlarged to be shared with another one. -/
theorem Tracks.both {f g : ∀ p, (A p).K} {r s : P → ℝ} (hf : Tracks f r) (hg : Tracks g s) :
    ∃ C B M0 e0 : ℝ, 0 ≤ C ∧ 0 ≤ B ∧ 0 < e0 ∧ e0 ≤ 1 ∧ (∀ p, |r p| ≤ B) ∧ (∀ p, |s p| ≤ B) ∧
      ∀ p, (A p).eps ≤ e0 → M0 ≤ (A p).M → ((A p).R.fin (f p) ∧ |(A p).R.val (f p) - r p| ≤ C * (A p).eps) ∧
        ((A p).R.fin (g p) ∧ |(A p).R.val (g p) - s p| ≤ C * (A p).eps) := by
  obtain ⟨C, B, M0, e0, hC, hB, he, he1, hb, h⟩ := hf
  obtain ⟨C', B', M0', e0', hC', hB', he', he1', hb', h'⟩ := hg
  refine ⟨max C C', max B B', max M0 M0', min e0 e0', le_max_of_le_left hC, le_max_of_le_left hB, lt_min he he', (min_le_left _ _).trans he1,
    fun p => (hb p).trans (le_max_left _ _), fun p => (hb' p).trans (le_max_right _ _), fun p h1 h2 => ?_⟩
  obtain ⟨a1, a2⟩ := h p (h1.trans (min_le_left _ _)) ((le_max_left _ _).trans h2)
  obtain ⟨b1, b2⟩ := h' p (h1.trans (min_le_right _ _)) ((le_max_right _ _).trans h2)
  refine ⟨⟨a1, a2.trans ?_⟩, ⟨b1, b2.trans ?_⟩⟩
  · exact mul_le_mul_of_nonneg_right (le_max_left _ _) (A p).nonneg
  · exact mul_le_mul_of_nonneg_right (le_max_right _ _) (A p).nonneg

theorem Tracks.add {f g : ∀ p, (A p).K} {r s : P → ℝ} (hf : Tracks f r) (hg : Tracks g s) : Tracks (fun p => f p + g p) (fun p => r p + s p) := by
  obtain ⟨C, B, M0, e0, hC, hB, he, he1, hr, hs, h⟩ := hf.both hg
  refine Tracks.of_rounds (y := fun p => (A p).R.val (f p) + (A p).R.val (g p)) (2 * C) (2 * B) M0 e0 (by linarith) (by linarith) he he1
    (fun p => (abs_add_le _ _).trans (by linarith [hr p, hs p])) (fun p h1 h2 => ?_)
  obtain ⟨⟨a1, a2⟩, b1, b2⟩ := h p h1 h2
  refine ⟨?_, fun hM => (A p).R.add _ _ a1 b1 hM⟩
  have : (A p).R.val (f p) + (A p).R.val (g p) - (r p + s p) = ((A p).R.val (f p) - r p) + ((A p).R.val (g p) - s p) := by ring
  rw [this]
  exact (abs_add_le _ _).trans (by linarith)

theorem Tracks.sub {f g : ∀ p, (A p).K} {r s : P → ℝ} (hf : Tracks f r) (hg : Tracks g s) : Tracks (fun p => f p - g p) (fun p => r p - s p) := by
  obtain ⟨C, B, M0, e0, hC, hB, he, he1, hr, hs, h⟩ := hf.both hg
  refine Tracks.of_rounds (y := fun p => (A p).R.val (f p) - (A p).R.val (g p)) (2 * C) (2 * B) M0 e0 (by linarith) (by linarith) he he1
    (fun p => (abs_sub _ _).trans (by linarith [hr p, hs p])) (fun p h1 h2 => ?_)
  obtain ⟨⟨a1, a2⟩, b1, b2⟩ := h p h1 h2
  refine ⟨?_, fun hM => (A p).R.sub _ _ a1 b1 hM⟩
  have : (A p).R.val (f p) - (A p).R.val (g p) - (r p - s p) = ((A p).R.val (f p) - r p) - ((A p).R.val (g p) - s p) := by ring
  rw [this]
  exact (abs_sub _ _).trans (by linarith)

theorem Tracks.neg {f : ∀ p, (A p).K} {r : P → ℝ} (hf : Tracks f r) : Tracks (fun p => -f p) (fun p => -r p) := by
  obtain ⟨C, B, M0, e0, hC, hB, he, he1, hr, h⟩ := hf
  refine ⟨C, B, M0, e0, hC, hB, he, he1, fun p => by rw [abs_neg]; exact hr p, fun p h1 h2 => ?_⟩
  obtain ⟨a1, a2⟩ := h p h1 h2
  obtain ⟨b1, b2⟩ := (A p).R.neg _ a1
  refine ⟨b1, ?_⟩
  rw [b2, show -(A p).R.val (f p) - -r p = -((A p).R.val (f p) - r p) by ring, abs_neg]
  exact a2

theorem mul_close {a b r s B D : ℝ} (hr : |r| ≤ B) (hs : |s| ≤ B) (ha : |a - r| ≤ D) (hb : |b - s| ≤ D) : |a * b - r * s| ≤ D * (2 * B + D) := by
  have hD : 0 ≤ D := (abs_nonneg _).trans ha
  have hB : 0 ≤ B := (abs_nonneg _).trans hr
  have e : a * b - r * s = (a - r) * (b - s) + (a - r) * s + r * (b - s) := by ring
  rw [e]
  refine (abs_add_le _ _).trans ((add_le_add (abs_add_le _ _) le_rfl).trans ?_)
  rw [abs_mul, abs_mul, abs_mul]
  have h1 : |a - r| * |b - s| ≤ D * D := mul_le_mul ha hb (abs_nonneg _) hD
  have h2 : |a - r| * |s| ≤ D * B := mul_le_mul ha hs (abs_nonneg _) hD
  have h3 : |r| * |b - s| ≤ B * D := mul_le_mul hr hb (abs_nonneg _) hB
  linarith

theorem Tracks.mul {f g : ∀ p, (A p).K} {r s : P → ℝ} (hf : Tracks f r) (hg : Tracks g s) : Tracks (fun p => f p * g p) (fun p => r p * s p) := by
  obtain ⟨C, B, M0, e0, hC, hB, he, he1, hr, hs, h⟩ := hf.both hg
  refine Tracks.of_rounds (y := fun p => (A p).R.val (f p) * (A p).R.val (g p)) (C * (2 * B + C)) (B * B) M0 e0 (by positivity) (by positivity) he he1
    (fun p => by rw [abs_mul]; exact mul_le_mul (hr p) (hs p) (abs_nonneg _) hB) (fun p h1 h2 => ?_)
  obtain ⟨⟨a1, a2⟩, b1, b2⟩ := h p h1 h2
  refine ⟨?_, fun hM => (A p).R.mul _ _ a1 b1 hM⟩
  refine (mul_close (hr p) (hs p) a2 b2).trans ?_
  have h0 := (A p).nonneg
  have h5 : C * (A p).eps ≤ C := by nlinarith
  have : C * (A p).eps * (2 * B + C * (A p).eps) ≤ C * (A p).eps * (2 * B + C) := mul_le_mul_of_nonneg_left (by linarith) (by positivity)
  linarith

theorem Tracks.div {f g : ∀ p, (A p).K} {r s : P → ℝ} (hf : Tracks f r) (hg : Tracks g s) {c : ℝ} (hc : 0 < c) (hs0 : ∀ p, c ≤ |s p|) :
    Tracks (fun p => f p / g p) (fun p => r p / s p) := by
  obtain ⟨C, B, M0, e0, hC, hB, he, he1, hr, hs, h⟩ := hf.both hg
  have he2 : 0 < min e0 (c / (2 * (C + 1))) := lt_min he (by positivity)
  refine Tracks.of_rounds (y := fun p => (A p).R.val (f p) / (A p).R.val (g p)) (2 * C * B * 2 / (c * c)) (B / c) M0 (min e0 (c / (2 * (C + 1))))
    (by positivity) (by positivity) he2 ((min_le_left _ _).trans he1)
    (fun p => by rw [abs_div]; exact div_le_div₀ hB (hr p) hc (hs0 p)) (fun p h1 h2 => ?_)
  obtain ⟨⟨a1, a2⟩, b1, b2⟩ := h p (h1.trans (min_le_left _ _)) h2
  have h0 := (A p).nonneg
  have h3 : C * (A p).eps ≤ c / 2 := by
    have h4 := h1.trans (min_le_right _ _)
    have h5 : C * (A p).eps ≤ C * (c / (2 * (C + 1))) := mul_le_mul_of_nonneg_left h4 hC
    refine h5.trans ?_
    rw [mul_div_assoc', div_le_div_iff₀ (by positivity) (by norm_num)]
    nlinarith
  have h4 : c / 2 ≤ |(A p).R.val (g p)| := by
    have h6 := abs_sub_abs_le_abs_sub (s p) ((A p).R.val (g p))
    rw [abs_sub_comm] at h6
    linarith [hs0 p]
  have hg0 : (A p).R.val (g p) ≠ 0 := by
    intro hz
    rw [hz, abs_zero] at h4
    linarith
  have hs00 : s p ≠ 0 := by
    intro hz
    have := hs0 p
    rw [hz, abs_zero] at this
    linarith
  refine ⟨?_, fun hM => (A p).R.div _ _ a1 b1 hg0 hM⟩
  have e : (A p).R.val (f p) / (A p).R.val (g p) - r p / s p
      = (((A p).R.val (f p) - r p) * s p + r p * (s p - (A p).R.val (g p))) / ((A p).R.val (g p) * s p) := by
    field_simp
    ring
  rw [e, abs_div, abs_mul ((A p).R.val (g p))]
  have hnum : |((A p).R.val (f p) - r p) * s p + r p * (s p - (A p).R.val (g p))| ≤ 2 * C * B * (A p).eps := by
    refine (abs_add_le _ _).trans ?_
    rw [abs_mul, abs_mul, abs_sub_comm (s p)]
    have i1 : |(A p).R.val (f p) - r p| * |s p| ≤ C * (A p).eps * B := mul_le_mul a2 (hs p) (abs_nonneg _) (by positivity)
    have i2 : |r p| * |(A p).R.val (g p) - s p| ≤ B * (C * (A p).eps) := mul_le_mul (hr p) b2 (abs_nonneg _) hB
    linarith
  have hden : c / 2 * c ≤ |(A p).R.val (g p)| * |s p| := mul_le_mul h4 (hs0 p) hc.le (abs_nonneg _)
  refine (div_le_div₀ (by positivity) hnum (by positivity) hden).trans (le_of_eq ?_)
  field_simp

theorem Tracks.const_exact (x : ∀ p, (A p).K) (r : P → ℝ) {B : ℝ} (hr : ∀ p, |r p| ≤ B) (h : ∀ p, (A p).R.fin (x p) ∧ (A p).R.val (x p) = r p) : Tracks x r := by
  refine ⟨0, max B 0, 0, 1, le_rfl, le_max_right _ _, one_pos, le_rfl, fun p => (hr p).trans (le_max_left _ _), fun p _ _ => ⟨(h p).1, ?_⟩⟩
  rw [(h p).2]
  simp

theorem Tracks.one : Tracks (A := A) (fun p => (1 : (A p).K)) (fun _ => 1) :=
  Tracks.const_exact _ _ (B := 1) (fun _ => by simp) fun p => (A p).R.one

theorem Tracks.zero : Tracks (A := A) (fun p => (0 : (A p).K)) (fun _ => 0) :=
  Tracks.const_exact _ _ (B := 1) (fun _ => by simp) fun p => (A p).R.zero

theorem Tracks.nat (n : ℕ) : Tracks (A := A) (fun p => ((n : ℕ) : (A p).K)) (fun _ => (n : ℝ)) :=
  Tracks.of_rounds (y := fun _ => (n : ℝ)) 0 n 0 1 le_rfl (Nat.cast_nonneg _) one_pos le_rfl (fun _ => by simp) fun p _ _ =>
    ⟨by simp, fun hM => (A p).R.natCast n (by simpa using hM)⟩

theorem Tracks.int (z : P → ℤ) {N : ℝ} (hz : ∀ p, |(z p : ℝ)| ≤ N) : Tracks (A := A) (fun p => ((z p : ℤ) : (A p).K)) (fun p => (z p : ℝ)) :=
  Tracks.of_rounds (y := fun p => (z p : ℝ)) 0 (max N 0) 0 1 le_rfl (le_max_right _ _) one_pos le_rfl (fun p => (hz p).trans (le_max_left _ _)) fun p _ _ =>
    ⟨by simp, fun hM => (A p).R.intCast (z p) hM⟩

theorem Tracks.pi : Tracks (A := A) (fun p => (TorchScalar.pi : (A p).K)) (fun _ => Real.pi) :=
  Tracks.of_rounds (y := fun _ => Real.pi) 0 Real.pi 0 1 le_rfl Real.pi_pos.le one_pos le_rfl (fun _ => by rw [abs_of_pos Real.pi_pos]) fun p _ _ =>
    ⟨by simp, fun hM => (A p).R.pi (by rwa [abs_of_pos Real.pi_pos] at hM)⟩

theorem Tracks.val_le {f : ∀ p, (A p).K} {r : P → ℝ} (hf : Tracks f r) : ∃ C B M0 e0 : ℝ, 0 ≤ C ∧ 0 ≤ B ∧ 0 < e0 ∧ e0 ≤ 1 ∧ (∀ p, |r p| ≤ B) ∧
    ∀ p, (A p).eps ≤ e0 → M0 ≤ (A p).M → (A p).R.fin (f p) ∧ |(A p).R.val (f p) - r p| ≤ C * (A p).eps ∧ |(A p).R.val (f p)| ≤ (A p).M := by
  obtain ⟨C, B, M0, e0, hC, hB, he, he1, hr, h⟩ := hf
  refine ⟨C, B, max M0 (B + C), e0, hC, hB, he, he1, hr, fun p h1 h2 => ?_⟩
  obtain ⟨a1, a2⟩ := h p h1 ((le_max_left _ _).trans h2)
  refine ⟨a1, a2, le_trans ?_ ((le_max_right _ _).trans h2)⟩
  have h0 := (A p).nonneg
  have h5 : C * (A p).eps ≤ C := by nlinarith
  have e : (A p).R.val (f p) = ((A p).R.val (f p) - r p) + r p := by ring
  rw [e]
  exact (abs_add_le _ _).trans (by linarith [hr p])

theorem Tracks.cos {f : ∀ p, (A p).K} {r : P → ℝ} (hf : Tracks f r) : Tracks (fun p => TorchScalar.cos (f p)) (fun p => Real.cos (r p)) := by
  obtain ⟨C, B, M0, e0, hC, hB, he, he1, hr, h⟩ := hf.val_le
  refine Tracks.of_rounds (y := fun p => Real.cos ((A p).R.val (f p))) C 1 M0 e0 hC zero_le_one he he1 (fun p => Real.abs_cos_le_one _) fun p h1 h2 => ?_
  obtain ⟨a1, a2, a3⟩ := h p h1 h2
  exact ⟨(Real.abs_cos_sub_cos_le _ _).trans a2, fun _ => (A p).R.cos _ a1 a3⟩

theorem Tracks.sin {f : ∀ p, (A p).K} {r : P → ℝ} (hf : Tracks f r) : Tracks (fun p => TorchScalar.sin (f p)) (fun p => Real.sin (r p)) := by
  obtain ⟨C, B, M0, e0, hC, hB, he, he1, hr, h⟩ := hf.val_le
  refine Tracks.of_rounds (y := fun p => Real.sin ((A p).R.val (f p))) C 1 M0 e0 hC zero_le_one he he1 (fun p => Real.abs_sin_le_one _) fun p h1 h2 => ?_
  obtain ⟨a1, a2, a3⟩ := h p h1 h2
  exact ⟨(Real.abs_sin_sub_sin_le _ _).trans a2, fun _ => (A p).R.sin _ a1 a3⟩

theorem Tracks.congr {f g : ∀ p, (A p).K} {r s : P → ℝ} (hf : Tracks f r) (hfg : ∀ p, f p = g p) (hrs : ∀ p, r p = s p) : Tracks g s := by
  have e1 : f = g := funext hfg
  have e2 : r = s := funext hrs
  rw [← e1, ← e2]
  exact hf

/-- Replacing the exact value by a close one. -/
theorem Tracks.shift {f : ∀ p, (A p).K} {r s : P → ℝ} (hf : Tracks f r) {C' B' M0' e0' : ℝ} (hC' : 0 ≤ C') (he' : 0 < e0') (hs : ∀ p, |s p| ≤ B')
    (h' : ∀ p, (A p).eps ≤ e0' → M0' ≤ (A p).M → |r p - s p| ≤ C' * (A p).eps) : Tracks f s := by
  obtain ⟨C, B, M0, e0, hC, hB, he, he1, hr, h⟩ := hf
  refine ⟨C + C', max B' 0, max M0 M0', min e0 e0', by linarith, le_max_right _ _, lt_min he he', (min_le_left _ _).trans he1,
    fun p => (hs p).trans (le_max_left _ _), fun p h1 h2 => ?_⟩
  obtain ⟨a1, a2⟩ := h p (h1.trans (min_le_left _ _)) ((le_max_left _ _).trans h2)
  have a3 := h' p (h1.trans (min_le_right _ _)) ((le_max_right _ _).trans h2)
  refine ⟨a1, ?_⟩
  have e : (A p).R.val (f p) - s p = ((A p).R.val (f p) - r p) + (r p - s p) := by ring
  rw [e]
  exact (abs_add_le _ _).trans (by linarith)

/-! ## sums and products of lists -/

theorem one_add_pow_le {e : ℝ} (h0 : 0 ≤ e) (h1 : e ≤ 1) (n : ℕ) : (1 + e) ^ n - 1 ≤ (2 ^ n - 1) * e ∧ (1 + e) ^ n ≤ 2 ^ n := by
  induction n with
  | zero => simp
  | succ n ih =>
    obtain ⟨i1, i2⟩ := ih
    have i3 : (1 : ℝ) ≤ 2 ^ n := one_le_pow₀ (by norm_num)
    constructor
    · have : (1 + e) ^ (n + 1) - 1 = (1 + e) * ((1 + e) ^ n - 1) + e := by ring
      rw [this]
      have h2 : (1 + e) * ((1 + e) ^ n - 1) ≤ 2 * ((2 ^ n - 1) * e) := by
        refine mul_le_mul (by linarith) i1 ?_ (by norm_num)
        have : (1 : ℝ) ≤ (1 + e) ^ n := one_le_pow₀ (by linarith)
        linarith
      have h3 : (2 : ℝ) ^ (n + 1) = 2 * 2 ^ n := by ring
      rw [h3]
      linarith
    · rw [pow_succ, pow_succ]
      exact mul_le_mul i2 (by linarith) (by linarith) (by positivity)

/-- Shared constants for a list of tracked values. -/
theorem Tracks.all {α : Type} (l : List α) {f : α → ∀ p, (A p).K} {r : α → P → ℝ} (h : ∀ a ∈ l, Tracks (f a) (r a)) :
    ∃ C B M0 e0 : ℝ, 0 ≤ C ∧ 0 ≤ B ∧ 0 < e0 ∧ e0 ≤ 1 ∧ ∀ a ∈ l, (∀ p, |r a p| ≤ B) ∧
      ∀ p, (A p).eps ≤ e0 → M0 ≤ (A p).M → (A p).R.fin (f a p) ∧ |(A p).R.val (f a p) - r a p| ≤ C * (A p).eps := by
  induction l with
  | nil => exact ⟨0, 0, 0, 1, le_rfl, le_rfl, one_pos, le_rfl, by simp⟩
  | cons a l ih =>
    obtain ⟨C, B, M0, e0, hC, hB, he, he1, hl⟩ := ih fun b hb => h b (List.mem_cons_of_mem _ hb)
    obtain ⟨C', B', M0', e0', hC', hB', he', he1', hb', h'⟩ := h a List.mem_cons_self
    refine ⟨max C C', max B B', max M0 M0', min e0 e0', le_max_of_le_left hC, le_max_of_le_left hB, lt_min he he', (min_le_left _ _).trans he1, fun b hb => ?_⟩
    rcases List.mem_cons.1 hb with rfl | hb
    · refine ⟨fun p => (hb' p).trans (le_max_right _ _), fun p h1 h2 => ?_⟩
      obtain ⟨a1, a2⟩ := h' p (h1.trans (min_le_right _ _)) ((le_max_right _ _).trans h2)
      exact ⟨a1, a2.trans (mul_le_mul_of_nonneg_right (le_max_right _ _) (A p).nonneg)⟩
    · refine ⟨fun p => ((hl b hb).1 p).trans (le_max_left _ _), fun p h1 h2 => ?_⟩
      obtain ⟨a1, a2⟩ := (hl b hb).2 p (h1.trans (min_le_left _ _)) ((le_max_left _ _).trans h2)
      exact ⟨a1, a2.trans (mul_le_mul_of_nonneg_right (le_max_left _ _) (A p).nonneg)⟩

theorem sum_abs_le {α : Type} (l : List α) {v : α → ℝ} {D : ℝ} (h : ∀ a ∈ l, |v a| ≤ D) : (l.map fun a => |v a|).sum ≤ l.length * D := by
  induction l with
  | nil => simp
  | cons a l ih =>
    have h1 := h a List.mem_cons_self
    have h2 := ih fun b hb => h b (List.mem_cons_of_mem _ hb)
    simp only [List.map_cons, List.sum_cons, List.length_cons]
    push_cast
    linarith

theorem abs_sum_le_bound {α : Type} (l : List α) {v : α → ℝ} {D : ℝ} (h : ∀ a ∈ l, |v a| ≤ D) : |(l.map v).sum| ≤ l.length * D := by
  refine le_trans ?_ (sum_abs_le l h)
  clear h
  induction l with
  | nil => simp
  | cons a l ih =>
    simp only [List.map_cons, List.sum_cons]
    exact (abs_add_le _ _).trans (add_le_add le_rfl ih)

theorem sum_close {α : Type} (l : List α) {v w : α → ℝ} {D : ℝ} (h : ∀ a ∈ l, |v a - w a| ≤ D) : |(l.map v).sum - (l.map w).sum| ≤ l.length * D := by
  have e : (l.map v).sum - (l.map w).sum = (l.map fun a => v a - w a).sum := by
    clear h
    induction l with
    | nil => simp
    | cons a l ih =>
      simp only [List.map_cons, List.sum_cons]
      rw [← ih]
      ring
  rw [e]
  exact abs_sum_le_bound l h

theorem Tracks.sum {α : Type} (l : List α) {f : α → ∀ p, (A p).K} {r : α → P → ℝ} (h : ∀ a ∈ l, Tracks (f a) (r a)) :
    Tracks (fun p => sumL (l.map fun a => f a p)) (fun p => (l.map fun a => r a p).sum) := by
  obtain ⟨C, B, M0, e0, hC, hB, he, he1, hl⟩ := Tracks.all l h
  set n := l.length with hn
  have hS : 0 ≤ 1 + n * (B + C) := by positivity
  refine ⟨(2 ^ n - 1) * (1 + n * (B + C)) + n * C, n * B, max M0 (2 ^ n * (1 + n * (B + C))), e0, ?_, by positivity, he, he1,
    fun p => abs_sum_le_bound l fun a ha => (hl a ha).1 p, fun p h1 h2 => ?_⟩
  · have i3 : (1 : ℝ) ≤ 2 ^ n := one_le_pow₀ (by norm_num)
    have : 0 ≤ (2 ^ n - 1) * (1 + n * (B + C)) := mul_nonneg (by linarith) hS
    positivity
  have h0 := (A p).nonneg
  have he : (A p).eps ≤ 1 := h1.trans he1
  have h5 : C * (A p).eps ≤ C := by nlinarith
  have hv : ∀ a ∈ l, |(A p).R.val (f a p)| ≤ B + C := by
    intro a ha
    obtain ⟨a1, a2⟩ := (hl a ha).2 p h1 ((le_max_left _ _).trans h2)
    have e : (A p).R.val (f a p) = ((A p).R.val (f a p) - r a p) + r a p := by ring
    rw [e]
    exact (abs_add_le _ _).trans (by linarith [(hl a ha).1 p])
  obtain ⟨q1, q2⟩ := one_add_pow_le h0 he n
  have hsum : ((l.map fun a => f a p).map fun a => |(A p).R.val a|).sum ≤ n * (B + C) := by
    rw [List.map_map]
    exact sum_abs_le l hv
  have hsum0 : 0 ≤ ((l.map fun a => f a p).map fun a => |(A p).R.val a|).sum := by
    apply List.sum_nonneg
    intro x hx
    obtain ⟨a, -, rfl⟩ := List.mem_map.1 hx
    exact abs_nonneg _
  have key := (A p).R.sumL (l.map fun a => f a p) (fun a ha => by
      obtain ⟨b, hb, rfl⟩ := List.mem_map.1 ha
      exact ((hl b hb).2 p h1 ((le_max_left _ _).trans h2)).1)
    (by
      rw [List.length_map]
      refine le_trans ?_ ((le_max_right _ _).trans h2)
      exact mul_le_mul q2 (by linarith) (by linarith) (by positivity))
  rw [List.length_map] at key
  obtain ⟨k1, k2⟩ := key
  refine ⟨k1, ?_⟩
  have e : (A p).R.val (sumL (l.map fun a => f a p)) - (l.map fun a => r a p).sum
      = ((A p).R.val (sumL (l.map fun a => f a p)) - ((l.map fun a => f a p).map (A p).R.val).sum)
        + (((l.map fun a => f a p).map (A p).R.val).sum - (l.map fun a => r a p).sum) := by ring
  rw [e]
  refine (abs_add_le _ _).trans ?_
  have k3 : |((l.map fun a => f a p).map (A p).R.val).sum - (l.map fun a => r a p).sum| ≤ n * (C * (A p).eps) := by
    rw [List.map_map]
    exact sum_close l fun a ha => ((hl a ha).2 p h1 ((le_max_left _ _).trans h2)).2
  have k4 : ((1 + (A p).eps) ^ n - 1) * (1 + ((l.map fun a => f a p).map fun a => |(A p).R.val a|).sum) ≤ (2 ^ n - 1) * (A p).eps * (1 + n * (B + C)) := by
    refine mul_le_mul q1 (by linarith) (by linarith) ?_
    have i3 : (1 : ℝ) ≤ 2 ^ n := one_le_pow₀ (by norm_num)
    exact mul_nonneg (by linarith) h0
  calc _ ≤ (2 ^ n - 1) * (A p).eps * (1 + n * (B + C)) + n * (C * (A p).eps) := add_le_add (k2.trans k4) k3
    _ = _ := by ring

theorem prod_abs_le {α : Type} (l : List α) {v : α → ℝ} {D : ℝ} (h : ∀ a ∈ l, |v a| ≤ D) :
    0 ≤ (l.map fun a => 1 + |v a|).prod ∧ (l.map fun a => 1 + |v a|).prod ≤ (1 + D) ^ l.length := by
  induction l with
  | nil => simp
  | cons a l ih =>
    have h1 := h a List.mem_cons_self
    obtain ⟨h2, h3⟩ := ih fun b hb => h b (List.mem_cons_of_mem _ hb)
    simp only [List.map_cons, List.prod_cons, List.length_cons]
    have h4 := abs_nonneg (v a)
    have hD : 0 ≤ D := h4.trans h1
    refine ⟨by positivity, ?_⟩
    rw [pow_succ, mul_comm]
    exact mul_le_mul h3 (by linarith) (by positivity) (by positivity)

theorem abs_prod_le {α : Type} (l : List α) {v : α → ℝ} {D : ℝ} (h : ∀ a ∈ l, |v a| ≤ D) : |(l.map v).prod| ≤ (1 + D) ^ l.length := by
  refine le_trans ?_ (prod_abs_le l h).2
  clear h
  induction l with
  | nil => simp
  | cons a l ih =>
    simp only [List.map_cons, List.prod_cons, abs_mul]
    refine mul_le_mul (by linarith [abs_nonneg (v a)]) ih (abs_nonneg _) ?_
    have := abs_nonneg (v a)
    linarith

/-- Products of close factors are close: linear in the distance `d ≤ D`. -/
theorem prod_close {α : Type} (l : List α) {B C : ℝ} (hB : 0 ≤ B) (hC : 0 ≤ C) : ∃ E : ℝ, 0 ≤ E ∧ ∀ (v w : α → ℝ) (e : ℝ), 0 ≤ e → e ≤ 1 →
    (∀ a ∈ l, |w a| ≤ B ∧ |v a - w a| ≤ C * e) → |(l.map v).prod - (l.map w).prod| ≤ E * e := by
  induction l with
  | nil => exact ⟨0, le_rfl, by simp⟩
  | cons a l ih =>
    obtain ⟨E, hE, h⟩ := ih
    refine ⟨C * (1 + (B + C)) ^ l.length + B * E, by positivity, fun v w e he he1 hvw => ?_⟩
    obtain ⟨h1, h2⟩ := hvw a List.mem_cons_self
    have h3 := h v w e he he1 fun b hb => hvw b (List.mem_cons_of_mem _ hb)
    have hCe : C * e ≤ C := by nlinarith
    have h4 : |(l.map v).prod| ≤ (1 + (B + C)) ^ l.length := by
      apply abs_prod_le
      intro b hb
      obtain ⟨i1, i2⟩ := hvw b (List.mem_cons_of_mem _ hb)
      have e' : v b = (v b - w b) + w b := by ring
      rw [e']
      exact (abs_add_le _ _).trans (by linarith)
    simp only [List.map_cons, List.prod_cons]
    have e' : v a * (l.map v).prod - w a * (l.map w).prod = (v a - w a) * (l.map v).prod + w a * ((l.map v).prod - (l.map w).prod) := by ring
    rw [e']
    refine (abs_add_le _ _).trans ?_
    rw [abs_mul, abs_mul]
    have i1 : |v a - w a| * |(l.map v).prod| ≤ C * e * (1 + (B + C)) ^ l.length := mul_le_mul h2 h4 (abs_nonneg _) (by positivity)
    have i2 : |w a| * |(l.map v).prod - (l.map w).prod| ≤ B * (E * e) := mul_le_mul h1 h3 (abs_nonneg _) hB
    linarith

theorem Tracks.prod {α : Type} (l : List α) {f : α → ∀ p, (A p).K} {r : α → P → ℝ} (h : ∀ a ∈ l, Tracks (f a) (r a)) :
    Tracks (fun p => prodL (l.map fun a => f a p)) (fun p => (l.map fun a => r a p).prod) := by
  obtain ⟨C, B, M0, e0, hC, hB, he, he1, hl⟩ := Tracks.all l h
  obtain ⟨E, hE, hclose⟩ := prod_close l hB hC
  set n := l.length with hn
  have i3 : (1 : ℝ) ≤ 2 ^ n := one_le_pow₀ (by norm_num)
  refine ⟨(2 ^ n - 1) * (1 + (B + C)) ^ n + E, (1 + B) ^ n, max M0 (2 ^ n * (1 + (B + C)) ^ n), e0, ?_, by positivity, he, he1,
    fun p => abs_prod_le l fun a ha => (hl a ha).1 p, fun p h1 h2 => ?_⟩
  · have : 0 ≤ (2 ^ n - 1) * (1 + (B + C)) ^ n := mul_nonneg (by linarith) (by positivity)
    linarith
  have h0 := (A p).nonneg
  have he : (A p).eps ≤ 1 := h1.trans he1
  have h5 : C * (A p).eps ≤ C := by nlinarith
  have hv : ∀ a ∈ l, |(A p).R.val (f a p)| ≤ B + C := by
    intro a ha
    obtain ⟨a1, a2⟩ := (hl a ha).2 p h1 ((le_max_left _ _).trans h2)
    have e : (A p).R.val (f a p) = ((A p).R.val (f a p) - r a p) + r a p := by ring
    rw [e]
    exact (abs_add_le _ _).trans (by linarith [(hl a ha).1 p])
  obtain ⟨q1, q2⟩ := one_add_pow_le h0 he n
  have hprod : 0 ≤ ((l.map fun a => f a p).map fun a => 1 + |(A p).R.val a|).prod ∧
      ((l.map fun a => f a p).map fun a => 1 + |(A p).R.val a|).prod ≤ (1 + (B + C)) ^ n := by
    rw [List.map_map]
    exact prod_abs_le l hv
  have key := (A p).R.prodL (l.map fun a => f a p) (fun a ha => by
      obtain ⟨b, hb, rfl⟩ := List.mem_map.1 ha
      exact ((hl b hb).2 p h1 ((le_max_left _ _).trans h2)).1)
    (by
      rw [List.length_map]
      refine le_trans ?_ ((le_max_right _ _).trans h2)
      exact mul_le_mul q2 hprod.2 hprod.1 (by positivity))
  rw [List.length_map] at key
  obtain ⟨k1, k2⟩ := key
  refine ⟨k1, ?_⟩
  have e : (A p).R.val (prodL (l.map fun a => f a p)) - (l.map fun a => r a p).prod
      = ((A p).R.val (prodL (l.map fun a => f a p)) - ((l.map fun a => f a p).map (A p).R.val).prod)
        + (((l.map fun a => f a p).map (A p).R.val).prod - (l.map fun a => r a p).prod) := by ring
  rw [e]
  refine (abs_add_le _ _).trans ?_
  have k3 : |((l.map fun a => f a p).map (A p).R.val).prod - (l.map fun a => r a p).prod| ≤ E * (A p).eps := by
    rw [List.map_map]
    exact hclose _ _ _ h0 he fun a ha => ⟨(hl a ha).1 p, ((hl a ha).2 p h1 ((le_max_left _ _).trans h2)).2⟩
  have k4 : ((1 + (A p).eps) ^ n - 1) * ((l.map fun a => f a p).map fun a => 1 + |(A p).R.val a|).prod ≤ (2 ^ n - 1) * (A p).eps * (1 + (B + C)) ^ n := by
    refine mul_le_mul q1 hprod.2 hprod.1 ?_
    exact mul_nonneg (by linarith) h0
  calc _ ≤ (2 ^ n - 1) * (A p).eps * (1 + (B + C)) ^ n + E * (A p).eps := add_le_add (k2.trans k4) k3
    _ = _ := by ring

end HOL
