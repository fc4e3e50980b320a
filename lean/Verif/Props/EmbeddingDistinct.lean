import Verif.Props.Embedding
import Mathlib.Analysis.Real.Pi.Irrational
import Mathlib.NumberTheory.Real.Irrational
import Mathlib.Analysis.SpecialFunctions.Trigonometric.Angle
import Mathlib.Analysis.SpecialFunctions.Trigonometric.Bounds

/-! # C129: which positions `ClassicSinusoidalEmbedding` tells apart -/

namespace HOL
open TorchScalar

/-- Frequency `k` of the embedding of dimension `2 h`. -/
noncomputable def sinFreq (h k : ℕ) : ℝ := (10000 : ℝ) ^ (-(k : ℝ) / ((h : ℝ) - 1))

theorem sinFreq_zero (h : ℕ) : sinFreq h 0 = 1 := by
  unfold sinFreq
  simp

theorem sinFreq_last {h : ℕ} (hh : 2 ≤ h) : sinFreq h (h - 1) = 1 / 10000 := by
  unfold sinFreq
  have h1 : ((h - 1 : ℕ) : ℝ) = (h : ℝ) - 1 := by rw [Nat.cast_sub (by omega), Nat.cast_one]
  have h2 : (h : ℝ) - 1 ≠ 0 := by
    have : (2 : ℝ) ≤ h := by exact_mod_cast hh
    linarith
  rw [h1, neg_div, div_self h2, Real.rpow_neg (by norm_num), Real.rpow_one]
  norm_num

theorem sinFreq_pos (h k : ℕ) : 0 < sinFreq h k := Real.rpow_pos_of_pos (by norm_num) _

theorem sinFreq_le {h : ℕ} (hh : 2 ≤ h) (k : ℕ) : sinFreq h k ≤ 1 := by
  refine Real.rpow_le_one_of_one_le_of_nonpos (by norm_num) ?_
  have : (2 : ℝ) ≤ h := by exact_mod_cast hh
  refine div_nonpos_of_nonpos_of_nonneg ?_ (by linarith)
  rw [neg_nonpos]
  exact Nat.cast_nonneg k

/-- If `h - 1` divides 4 the frequencies are powers of ten. -/
theorem sinFreq_tenth {h q k : ℕ} (hh : 2 ≤ h) (hq : (h - 1) * q = 4) : sinFreq h k = (1 / 10) ^ (q * k) := by
  unfold sinFreq
  have h2 : (h : ℝ) - 1 ≠ 0 := by
    have : (2 : ℝ) ≤ h := by exact_mod_cast hh
    linarith
  have h3 : ((h : ℝ) - 1) * q = 4 := by
    have : (((h - 1) * q : ℕ) : ℝ) = 4 := by rw [hq]; norm_num
    rw [Nat.cast_mul, Nat.cast_sub (by omega), Nat.cast_one] at this
    exact this
  have h4 : (10000 : ℝ) = 10 ^ (4 : ℝ) := by norm_num
  rw [h4, ← Real.rpow_mul (by norm_num), ← h3, show ((h : ℝ) - 1) * q * (-(k : ℝ) / ((h : ℝ) - 1)) = -((q * k : ℕ) : ℝ) by push_cast; field_simp, Real.rpow_neg (by norm_num), Real.rpow_natCast,
    one_div, inv_pow]

/-- If `h - 1` does not divide 4 the second frequency is irrational. -/
theorem sinFreq_irrational {h : ℕ} (hh : 2 ≤ h) (hd : ¬ (h - 1) ∣ 4) : Irrational (sinFreq h 1) := by
  have h2 : (h : ℝ) - 1 ≠ 0 := by
    have : (2 : ℝ) ≤ h := by exact_mod_cast hh
    linarith
  have hinv : (sinFreq h 1)⁻¹ ^ (h - 1) = ((10000 : ℤ) : ℝ) := by
    unfold sinFreq
    rw [← Real.rpow_neg (by norm_num), ← Real.rpow_natCast, ← Real.rpow_mul (by norm_num), Nat.cast_sub (by omega), Nat.cast_one]
    rw [show -(-1 / ((h : ℝ) - 1)) * ((h : ℝ) - 1) = 1 by field_simp, Real.rpow_one]
    norm_num
  have : Fact (Nat.Prime 2) := ⟨Nat.prime_two⟩
  have hm : multiplicity ((2 : ℕ) : ℤ) (10000 : ℤ) = 4 := multiplicity_eq_of_dvd_of_not_dvd (by norm_num) (by norm_num)
  have := irrational_nrt_of_n_not_dvd_multiplicity (h - 1) (m := 10000) (by norm_num) 2 hinv (by
    rw [hm]
    exact fun h0 => hd (Nat.dvd_of_mod_eq_zero h0))
  exact irrational_inv_iff.1 this

/-- Equal angles. -/
theorem sin_cos_eq_iff (a b : ℝ) : (Real.sin a = Real.sin b ∧ Real.cos a = Real.cos b) ↔ ∃ n : ℤ, a - b = 2 * Real.pi * n := by
  rw [← Real.Angle.angle_eq_iff_two_pi_dvd_sub]
  constructor
  · rintro ⟨h1, h2⟩
    exact Real.Angle.cos_sin_inj h2 h1
  · intro h
    have h1 := congrArg Real.Angle.sin h
    have h2 := congrArg Real.Angle.cos h
    rw [Real.Angle.sin_coe, Real.Angle.sin_coe] at h1
    rw [Real.Angle.cos_coe, Real.Angle.cos_coe] at h2
    exact ⟨h1, h2⟩

/-- What all frequencies see of a difference of positions. -/
theorem sinFreq_same {h : ℕ} (hh : 2 ≤ h) (d : ℝ) : (∀ k < h, ∃ n : ℤ, d * sinFreq h k = 2 * Real.pi * n) ↔ if (h - 1) ∣ 4 then ∃ n : ℤ, d = 20000 * Real.pi * n else d = 0 := by
  by_cases hd : (h - 1) ∣ 4
  · rw [if_pos hd]
    obtain ⟨q, hq⟩ := hd
    constructor
    · intro hall
      obtain ⟨n, hn⟩ := hall (h - 1) (by omega)
      rw [sinFreq_last hh] at hn
      exact ⟨n, by linarith⟩
    · rintro ⟨n, rfl⟩ k hk
      rw [sinFreq_tenth hh hq.symm]
      have hle : q * k ≤ 4 := by
        calc q * k ≤ q * (h - 1) := Nat.mul_le_mul_left _ (by omega)
          _ = 4 := by rw [mul_comm]; exact hq.symm
      refine ⟨10 ^ (4 - q * k) * n, ?_⟩
      obtain ⟨e, he⟩ : ∃ e, e = q * k := ⟨_, rfl⟩
      rw [← he] at hle ⊢
      interval_cases e <;> (push_cast; ring)
  · rw [if_neg hd]
    constructor
    · intro hall
      have h1 : 1 < h := by omega
      obtain ⟨a, ha⟩ := hall 0 (by omega)
      obtain ⟨b, hb⟩ := hall 1 h1
      rw [sinFreq_zero, mul_one] at ha
      by_cases h0 : a = 0
      · rw [ha, h0]
        simp
      · exfalso
        rw [ha] at hb
        have hpi : (2 * Real.pi) ≠ 0 := by positivity
        have h3 : (a : ℝ) * sinFreq h 1 = b := by
          apply mul_left_cancel₀ hpi
          linarith
        have h4 : sinFreq h 1 = ((b / a : ℚ) : ℝ) := by
          have : (a : ℝ) ≠ 0 := by exact_mod_cast h0
          push_cast
          rw [eq_div_iff this, mul_comm]
          exact h3
        exact sinFreq_irrational hh hd ⟨_, h4.symm⟩
    · rintro rfl k _
      exact ⟨0, by simp⟩

/-- **C129.** Two positions get the same embedding of dimension `2 h` exactly if they are equal, or `h - 1` divides 4 (dimensions 4, 6 and 10) and they differ by an integer multiple of `20000 π`. -/
theorem C129_same (h : ℕ) (hh : 2 ≤ h) (x : Tensor ℝ) (hx : x.shape ≠ []) : ∃ out, sinusoidalForward (2 * h) x = .ok out ∧
    ∀ idx idx', InShape x.shape idx → InShape x.shape idx' →
      ((∀ j < 2 * h, out.get (idx ++ [j]) = out.get (idx' ++ [j])) ↔ if (h - 1) ∣ 4 then ∃ n : ℤ, x.get idx - x.get idx' = 20000 * Real.pi * n else x.get idx = x.get idx') := by
  obtain ⟨out, a1, -, a3⟩ := C42_values h hh x hx
  refine ⟨out, a1, fun idx idx' hi hi' => ?_⟩
  have key : (∀ j < 2 * h, out.get (idx ++ [j]) = out.get (idx' ++ [j])) ↔ ∀ k < h, ∃ n : ℤ, (x.get idx - x.get idx') * sinFreq h k = 2 * Real.pi * n := by
    constructor
    · intro hall k hk
      have e1 := hall k (by omega)
      have e2 := hall (h + k) (by omega)
      rw [(a3 idx hi k hk).1, (a3 idx' hi' k hk).1] at e1
      rw [(a3 idx hi k hk).2, (a3 idx' hi' k hk).2] at e2
      obtain ⟨n, hn⟩ := (sin_cos_eq_iff _ _).1 ⟨e1, e2⟩
      exact ⟨n, by rw [← hn, sub_mul]; rfl⟩
    · intro hall j hj
      have hk : ∀ k < h, out.get (idx ++ [k]) = out.get (idx' ++ [k]) ∧ out.get (idx ++ [h + k]) = out.get (idx' ++ [h + k]) := by
        intro k hk
        obtain ⟨n, hn⟩ := hall k hk
        rw [(a3 idx hi k hk).1, (a3 idx' hi' k hk).1, (a3 idx hi k hk).2, (a3 idx' hi' k hk).2]
        exact (sin_cos_eq_iff _ _).2 ⟨n, by rw [← hn, sub_mul]; rfl⟩
      by_cases hj' : j < h
      · exact (hk j hj').1
      · have := (hk (j - h) (by omega)).2
        rw [show h + (j - h) = j by omega] at this
        exact this
  rw [key, sinFreq_same hh]
  by_cases hd : (h - 1) ∣ 4
  · rw [if_pos hd, if_pos hd]
  · rw [if_neg hd, if_neg hd, sub_eq_zero]

/-- **C129 (integer positions).** Positions that differ by a rational number other than zero, such as the indices of a sequence, get different embeddings in every dimension. -/
theorem C129_integers (h : ℕ) (hh : 2 ≤ h) (x : Tensor ℝ) (hx : x.shape ≠ []) : ∃ out, sinusoidalForward (2 * h) x = .ok out ∧
    ∀ idx idx', InShape x.shape idx → InShape x.shape idx' → ∀ r : ℚ, r ≠ 0 → x.get idx - x.get idx' = r → ∃ j < 2 * h, out.get (idx ++ [j]) ≠ out.get (idx' ++ [j]) := by
  obtain ⟨out, a1, a2⟩ := C129_same h hh x hx
  refine ⟨out, a1, fun idx idx' hi hi' r hr hd => ?_⟩
  by_contra hc
  push Not at hc
  have h0 : (r : ℝ) ≠ 0 := by exact_mod_cast hr
  have := (a2 idx idx' hi hi').1 hc
  by_cases h4 : (h - 1) ∣ 4
  · rw [if_pos h4, hd] at this
    obtain ⟨n, hn⟩ := this
    have hn0 : (n : ℝ) ≠ 0 := by
      rintro h1
      rw [h1, mul_zero] at hn
      exact h0 hn
    refine irrational_pi ⟨r / (20000 * n), ?_⟩
    push_cast
    rw [hn]
    field_simp
  · rw [if_neg h4, ← sub_eq_zero, hd] at this
    exact h0 this

/-- **C129 (distances).** The squared distance of two embeddings is at most `h` times the squared difference of the positions; it is at least the square of `2 / π` times the difference for positions at most `π` apart, and at least the square of
`1 / (5000 π)` times the difference for positions at most `10000 π` apart. -/
theorem C129_distance (h : ℕ) (hh : 2 ≤ h) (x : Tensor ℝ) (hx : x.shape ≠ []) : ∃ out, sinusoidalForward (2 * h) x = .ok out ∧
    ∀ idx idx', InShape x.shape idx → InShape x.shape idx' →
      let d := |x.get idx - x.get idx'|
      let D := ∑ j ∈ Finset.range (2 * h), (out.get (idx ++ [j]) - out.get (idx' ++ [j])) ^ 2
      D ≤ h * d ^ 2 ∧ (d ≤ Real.pi → (2 / Real.pi * d) ^ 2 ≤ D) ∧ (d ≤ 10000 * Real.pi → (d / (5000 * Real.pi)) ^ 2 ≤ D) := by
  obtain ⟨out, a1, -, a3⟩ := C42_values h hh x hx
  refine ⟨out, a1, fun idx idx' hi hi' => ?_⟩
  intro d D
  have hD : D = ∑ k ∈ Finset.range h, (2 * Real.sin (d * sinFreq h k / 2)) ^ 2 := by
    show ∑ j ∈ Finset.range (2 * h), _ = _
    rw [two_mul, Finset.sum_range_add, ← Finset.sum_add_distrib]
    refine Finset.sum_congr rfl fun k hk => ?_
    have hk := Finset.mem_range.1 hk
    rw [(a3 idx hi k hk).1, (a3 idx' hi' k hk).1, (a3 idx hi k hk).2, (a3 idx' hi' k hk).2]
    have habs : Real.sin (d * sinFreq h k / 2) ^ 2 = Real.sin ((x.get idx - x.get idx') * sinFreq h k / 2) ^ 2 := by
      show Real.sin (|x.get idx - x.get idx'| * sinFreq h k / 2) ^ 2 = _
      rcases abs_choice (x.get idx - x.get idx') with h1 | h1
      · rw [h1]
      · rw [h1, show -(x.get idx - x.get idx') * sinFreq h k / 2 = -((x.get idx - x.get idx') * sinFreq h k / 2) by ring, Real.sin_neg, neg_sq]
    rw [mul_pow, habs]
    show (Real.sin (x.get idx * sinFreq h k) - Real.sin (x.get idx' * sinFreq h k)) ^ 2 + (Real.cos (x.get idx * sinFreq h k) - Real.cos (x.get idx' * sinFreq h k)) ^ 2 = _
    obtain ⟨a, ha⟩ : ∃ a, a = x.get idx * sinFreq h k := ⟨_, rfl⟩
    obtain ⟨b, hb⟩ : ∃ b, b = x.get idx' * sinFreq h k := ⟨_, rfl⟩
    rw [show (x.get idx - x.get idx') * sinFreq h k / 2 = (a - b) / 2 by rw [ha, hb]; ring, ← ha, ← hb]
    have h1 : Real.cos (a - b) = 1 - 2 * Real.sin ((a - b) / 2) ^ 2 := by
      have := Real.cos_two_mul ((a - b) / 2)
      rw [show 2 * ((a - b) / 2) = a - b by ring] at this
      have := Real.sin_sq_add_cos_sq ((a - b) / 2)
      linarith
    have h2 := Real.cos_sub a b
    have h3 := Real.sin_sq_add_cos_sq a
    have h4 := Real.sin_sq_add_cos_sq b
    nlinarith
  have hd : 0 ≤ d := abs_nonneg _
  have hpi := Real.pi_pos
  have low : ∀ k < h, d * sinFreq h k ≤ Real.pi → (2 / Real.pi * (d * sinFreq h k)) ^ 2 ≤ D := by
    intro k hk hle
    have hnn : 0 ≤ d * sinFreq h k := mul_nonneg hd (sinFreq_pos h k).le
    have hs : 2 / Real.pi * (d * sinFreq h k / 2) ≤ Real.sin (d * sinFreq h k / 2) := Real.mul_le_sin (by linarith) (by linarith)
    rw [hD]
    refine le_trans ?_ (Finset.single_le_sum (f := fun k => (2 * Real.sin (d * sinFreq h k / 2)) ^ 2) (fun _ _ => sq_nonneg _) (Finset.mem_range.2 hk))
    refine pow_le_pow_left₀ (by positivity) ?_ 2
    linarith
  refine ⟨?_, fun hle => ?_, fun hle => ?_⟩
  · rw [hD]
    calc ∑ k ∈ Finset.range h, (2 * Real.sin (d * sinFreq h k / 2)) ^ 2 ≤ ∑ _k ∈ Finset.range h, d ^ 2 := by
          refine Finset.sum_le_sum fun k _ => ?_
          have h1 : |Real.sin (d * sinFreq h k / 2)| ≤ |d * sinFreq h k / 2| := Real.abs_sin_le_abs
          have h2 : 0 ≤ d * sinFreq h k / 2 := by
            have := mul_nonneg hd (sinFreq_pos h k).le
            linarith
          rw [abs_of_nonneg h2] at h1
          have h3 : d * sinFreq h k ≤ d := mul_le_of_le_one_right hd (sinFreq_le hh k)
          rw [← sq_abs, abs_mul, abs_of_pos (by norm_num : (0 : ℝ) < 2)]
          refine pow_le_pow_left₀ (by positivity) ?_ 2
          linarith
      _ = h * d ^ 2 := by rw [Finset.sum_const, Finset.card_range, nsmul_eq_mul]
  · have := low 0 (by omega) (by rw [sinFreq_zero, mul_one]; exact hle)
    rw [sinFreq_zero, mul_one] at this
    exact this
  · have := low (h - 1) (by omega) (by rw [sinFreq_last hh]; linarith)
    rw [sinFreq_last hh] at this
    rw [show d / (5000 * Real.pi) = 2 / Real.pi * (d * (1 / 10000)) by field_simp; ring]
    exact this

/-! ## examples -/

/-- Dimension 4: positions 0 and `20000 π` get the same embedding. -/
example : ∃ out, sinusoidalForward (2 * 2) (Tensor.tab1 2 fun i => (i : ℝ) * (20000 * Real.pi)) = .ok out ∧ ∀ j < 2 * 2, out.get [0, j] = out.get [1, j] := by
  obtain ⟨out, a1, a2⟩ := C129_same 2 le_rfl (Tensor.tab1 2 fun i => (i : ℝ) * (20000 * Real.pi)) (by simp)
  refine ⟨out, a1, (a2 [0] [1] (by simp [InShape]) (by simp [InShape])).2 ?_⟩
  rw [if_pos (by norm_num)]
  refine ⟨-1, ?_⟩
  rw [Tensor.get_tab1 (by norm_num), Tensor.get_tab1 (by norm_num)]
  push_cast
  ring

/-- Dimension 8: they do not. -/
example : ∃ out, sinusoidalForward (2 * 4) (Tensor.tab1 2 fun i => (i : ℝ) * (20000 * Real.pi)) = .ok out ∧ ¬ ∀ j < 2 * 4, out.get [0, j] = out.get [1, j] := by
  obtain ⟨out, a1, a2⟩ := C129_same 4 (by norm_num) (Tensor.tab1 2 fun i => (i : ℝ) * (20000 * Real.pi)) (by simp)
  refine ⟨out, a1, fun hc => ?_⟩
  have := (a2 [0] [1] (by simp [InShape]) (by simp [InShape])).1 hc
  rw [if_neg (by norm_num), Tensor.get_tab1 (by norm_num), Tensor.get_tab1 (by norm_num)] at this
  have := Real.pi_pos
  push_cast at *
  linarith

/-- The positions of a sequence of three. -/
example : ∃ out, sinusoidalForward (2 * 2) (Tensor.tab1 3 fun i => (i : ℝ)) = .ok out ∧ ∃ j < 2 * 2, out.get [0, j] ≠ out.get [2, j] := by
  obtain ⟨out, a1, a2⟩ := C129_integers 2 le_rfl (Tensor.tab1 3 fun i => (i : ℝ)) (by simp)
  refine ⟨out, a1, a2 [0] [2] (by simp [InShape]) (by simp [InShape]) (-2) (by norm_num) ?_⟩
  rw [Tensor.get_tab1 (by norm_num), Tensor.get_tab1 (by norm_num)]
  norm_num

/-- Neighbours are at least `2 / π` apart. -/
example : ∃ out, sinusoidalForward (2 * 2) (Tensor.tab1 3 fun i => (i : ℝ)) = .ok out ∧
    (2 / Real.pi) ^ 2 ≤ ∑ j ∈ Finset.range (2 * 2), (out.get [1, j] - out.get [2, j]) ^ 2 := by
  obtain ⟨out, a1, a2⟩ := C129_distance 2 le_rfl (Tensor.tab1 3 fun i => (i : ℝ)) (by simp)
  refine ⟨out, a1, ?_⟩
  obtain ⟨-, h2, -⟩ := a2 [1] [2] (by simp [InShape]) (by simp [InShape])
  have e : |(Tensor.tab1 3 fun i => (i : ℝ)).get [1] - (Tensor.tab1 3 fun i => (i : ℝ)).get [2]| = 1 := by
    rw [Tensor.get_tab1 (by norm_num), Tensor.get_tab1 (by norm_num)]
    norm_num
  rw [e] at h2
  have := h2 (by linarith [Real.two_le_pi])
  rw [mul_one] at this
  exact this

end HOL
