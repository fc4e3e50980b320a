import Verif.Lemmas.Layers
import Verif.Lemmas.Fourier
import Mathlib.Analysis.SpecialFunctions.Integrals.Basic

/-! # C43, C44: the Fourier layer -/

namespace HOL
open TorchScalar Spec

/-- **C43.** `FourierSeries(n, in, out, length)` constructs (its other options are ignored), and with any weights its
output is the sum over the inputs of the Fourier series with period `length` whose coefficients are
the weights of the link: the constant `1/2`, then sine and cosine of increasing frequency. -/
theorem C43_fourier_layer (n I O : ℕ) (hn : 1 ≤ n) (length : ℝ) (rand : ℕ → ℕ → ℝ) (wm : ℝ) (p : Option ℝ) :
    ∃ L, fourierSeriesInit n I O length rand wm p = .ok L ∧ L.w.shape = [O, I, n] ∧
      ∀ w : Tensor ℝ, w.shape = [O, I, n] →
        Computes ({ L with w := w } : FnLayer ℝ).forward I O
          fun o r => ∑ i ∈ Finset.range I, fourierSum n length (fun j => w.get [o, i, j]) (r i) := by
  refine ⟨_, rfl, rfl, ?_⟩
  intro w hw B x hx hwf
  have hid : (x.map (periodize none)) = x := by
    unfold Tensor.map
    have : (periodize none : ℝ → ℝ) = id := rfl
    rw [this, List.map_id]
  have hf : ({ poly := fourierSeriesFlat n length, inFeatures := I, outFeatures := O, periodicity := none
               w := w } : FnLayer ℝ).forward x
      = .ok (Tensor.tab2 B O fun b o => sumL ((List.range n).flatMap fun p => (List.range I).map fun q =>
            (BasisFn.fourier length).call (x.get [b, q]) p * w.get [o, q, p])) := by
    unfold FnLayer.forward
    rw [hid]
    exact interpolate_flat hn _ hx hw
  refine ⟨_, hf, rfl, Tensor.wf_tabulate _ _, ?_⟩
  intro b hb o ho
  rw [Tensor.get_tab2 hb ho, sumL_flatMap_range, Finset.sum_comm]
  refine Finset.sum_congr rfl fun i _ => ?_
  unfold fourierSum
  refine Finset.sum_congr rfl fun j _ => ?_
  show fourierCall length (x.get [b, i]) j * _ = _
  rw [fourierCall_eq, mul_comm]

/-- **C43 (period).** The Fourier series is unchanged when its argument moves by a whole number of periods. -/
theorem C43_periodic (n : ℕ) (L : ℝ) (hL : L ≠ 0) (c : ℕ → ℝ) (x : ℝ) (k : ℤ) :
    fourierSum n L c (x + k * L) = fourierSum n L c x := by
  unfold fourierSum
  exact Finset.sum_congr rfl fun j _ => by rw [fourierTerm_add L hL]

/-- **C43 (layer period).** Moving one input of one sample by a whole number of periods does not change the output
of the layer. -/
theorem C43_layer_periodic (n I O : ℕ) (hn : 1 ≤ n) (length : ℝ) (hl : length ≠ 0) (rand : ℕ → ℕ → ℝ)
    (L : FnLayer ℝ) (hL : fourierSeriesInit n I O length rand 1 none = .ok L) (B : ℕ) (x y : ℕ → ℕ → ℝ)
    (k : ℕ → ℕ → ℤ) (hy : ∀ b i, y b i = x b i + k b i * length) :
    ∃ out, L.forward (Tensor.tab2 B I x) = .ok out ∧ L.forward (Tensor.tab2 B I y) = .ok out := by
  obtain ⟨L', h1, h2, h3⟩ := C43_fourier_layer n I O hn length rand 1 none
  rw [hL] at h1
  cases h1
  have hc := h3 L.w h2
  obtain ⟨o1, a1, a2, a3, a4⟩ := hc B (Tensor.tab2 B I x) rfl (Tensor.wf_tab2 _ _ _)
  obtain ⟨o2, b1, b2, b3, b4⟩ := hc B (Tensor.tab2 B I y) rfl (Tensor.wf_tab2 _ _ _)
  refine ⟨o1, a1, ?_⟩
  rw [show L.forward (Tensor.tab2 B I y) = .ok o2 from b1]
  congr 1
  apply Tensor.ext_get b3 a3 (b2.trans a2.symm)
  intro idx hidx
  rw [b2] at hidx
  obtain ⟨b, o, rfl, hb, ho⟩ := inShape2_exists hidx
  rw [a4 b hb o ho, b4 b hb o ho]
  refine Finset.sum_congr rfl fun i hi => ?_
  have hi' := Finset.mem_range.1 hi
  simp only
  rw [Tensor.get_tab2 hb hi', Tensor.get_tab2 hb hi', hy, C43_periodic n length hl]

/-- A layer with three basis functions. -/
example : ∃ L, fourierSeriesInit 3 2 1 (2 : ℝ) (fun _ _ => 1 / 2) 5 (some 7) = .ok L ∧ L.w.shape = [1, 2, 3] := by
  obtain ⟨L, h1, h2, _⟩ := C43_fourier_layer 3 2 1 (by norm_num) 2 (fun _ _ => 1 / 2) 5 (some 7)
  exact ⟨L, h1, h2⟩

example : fourierSum 3 2 (fun _ => 1) (1 / 3 + (5 : ℤ) * 2) = fourierSum 3 2 (fun _ => 1) (1 / 3) :=
  C43_periodic 3 2 (by norm_num) _ _ 5

example (L : FnLayer ℝ) (hL : fourierSeriesInit 3 1 1 2 (fun _ _ => 1 / 2) 1 none = .ok L) :
    ∃ out, L.forward (Tensor.tab2 1 1 fun _ _ => 0) = .ok out ∧
      L.forward (Tensor.tab2 1 1 fun _ _ => 6) = .ok out :=
  C43_layer_periodic 3 1 1 (by norm_num) 2 (by norm_num) _ L hL 1 (fun _ _ => 0) (fun _ _ => 6) (fun _ _ => 3)
    (fun _ _ => by norm_num)

/-! ## C44 -/

theorem integral_cos_period (L a : ℝ) (hL : L ≠ 0) (k : ℤ) (hk : k ≠ 0) :
    ∫ x in a..a + L, Real.cos (2 * Real.pi * k * (x / L)) = 0 := by
  have hk' : (k : ℝ) ≠ 0 := by exact_mod_cast hk
  have hc : 2 * Real.pi * k / L ≠ 0 := by
    have := Real.pi_ne_zero
    positivity
  have e : ∀ x : ℝ, 2 * Real.pi * k * (x / L) = 2 * Real.pi * k / L * x := fun x => by ring
  simp only [e]
  rw [intervalIntegral.integral_comp_mul_left (fun y => Real.cos y) hc, integral_cos]
  have h2 : 2 * Real.pi * k / L * (a + L) = 2 * Real.pi * k / L * a + k * (2 * Real.pi) := by
    field_simp
  rw [h2, Real.sin_add_int_mul_two_pi]
  simp

theorem integral_sin_period (L a : ℝ) (hL : L ≠ 0) (k : ℤ) :
    ∫ x in a..a + L, Real.sin (2 * Real.pi * k * (x / L)) = 0 := by
  by_cases hk : k = 0
  · subst hk; simp
  have hk' : (k : ℝ) ≠ 0 := by exact_mod_cast hk
  have hc : 2 * Real.pi * k / L ≠ 0 := by
    have := Real.pi_ne_zero
    positivity
  have e : ∀ x : ℝ, 2 * Real.pi * k * (x / L) = 2 * Real.pi * k / L * x := fun x => by ring
  simp only [e]
  rw [intervalIntegral.integral_comp_mul_left (fun y => Real.sin y) hc, integral_sin]
  have h2 : 2 * Real.pi * k / L * (a + L) = 2 * Real.pi * k / L * a + k * (2 * Real.pi) := by
    field_simp
  rw [h2, Real.cos_add_int_mul_two_pi]
  simp

theorem intInt (f : ℝ → ℝ) (hf : Continuous f) (a b : ℝ) : IntervalIntegrable f MeasureTheory.volume a b :=
  hf.intervalIntegrable a b

/-- `cos` times `cos`. -/
theorem integral_cos_cos (L a : ℝ) (hL : L ≠ 0) (m n : ℤ) (h1 : m + n ≠ 0) :
    ∫ x in a..a + L, Real.cos (2 * Real.pi * m * (x / L)) * Real.cos (2 * Real.pi * n * (x / L))
      = if m = n then L / 2 else 0 := by
  have e : ∀ x : ℝ, Real.cos (2 * Real.pi * m * (x / L)) * Real.cos (2 * Real.pi * n * (x / L))
      = 1 / 2 * (Real.cos (2 * Real.pi * (m - n : ℤ) * (x / L)) + Real.cos (2 * Real.pi * (m + n : ℤ) * (x / L))) := by
    intro x
    have h3 : 2 * Real.pi * ((m - n : ℤ) : ℝ) * (x / L) = 2 * Real.pi * m * (x / L) - 2 * Real.pi * n * (x / L) := by
      push_cast; ring
    have h4 : 2 * Real.pi * ((m + n : ℤ) : ℝ) * (x / L) = 2 * Real.pi * m * (x / L) + 2 * Real.pi * n * (x / L) := by
      push_cast; ring
    rw [h3, h4, Real.cos_sub, Real.cos_add]; ring
  simp only [e]
  rw [intervalIntegral.integral_const_mul, intervalIntegral.integral_add (intInt _ (by fun_prop) _ _)
    (intInt _ (by fun_prop) _ _), integral_cos_period L a hL (m + n) h1]
  split
  · rename_i h; subst h
    simp; ring
  · rename_i h
    rw [integral_cos_period L a hL (m - n) (sub_ne_zero.2 h)]; ring

/-- `sin` times `sin`. -/
theorem integral_sin_sin (L a : ℝ) (hL : L ≠ 0) (m n : ℤ) (h1 : m + n ≠ 0) :
    ∫ x in a..a + L, Real.sin (2 * Real.pi * m * (x / L)) * Real.sin (2 * Real.pi * n * (x / L))
      = if m = n then L / 2 else 0 := by
  have e : ∀ x : ℝ, Real.sin (2 * Real.pi * m * (x / L)) * Real.sin (2 * Real.pi * n * (x / L))
      = 1 / 2 * (Real.cos (2 * Real.pi * (m - n : ℤ) * (x / L)) - Real.cos (2 * Real.pi * (m + n : ℤ) * (x / L))) := by
    intro x
    have h3 : 2 * Real.pi * ((m - n : ℤ) : ℝ) * (x / L) = 2 * Real.pi * m * (x / L) - 2 * Real.pi * n * (x / L) := by
      push_cast; ring
    have h4 : 2 * Real.pi * ((m + n : ℤ) : ℝ) * (x / L) = 2 * Real.pi * m * (x / L) + 2 * Real.pi * n * (x / L) := by
      push_cast; ring
    rw [h3, h4, Real.cos_sub, Real.cos_add]; ring
  simp only [e]
  rw [intervalIntegral.integral_const_mul, intervalIntegral.integral_sub (intInt _ (by fun_prop) _ _)
    (intInt _ (by fun_prop) _ _), integral_cos_period L a hL (m + n) h1]
  split
  · rename_i h; subst h
    simp; ring
  · rename_i h
    rw [integral_cos_period L a hL (m - n) (sub_ne_zero.2 h)]; ring

/-- `sin` times `cos`. -/
theorem integral_sin_cos' (L a : ℝ) (hL : L ≠ 0) (m n : ℤ) :
    ∫ x in a..a + L, Real.sin (2 * Real.pi * m * (x / L)) * Real.cos (2 * Real.pi * n * (x / L)) = 0 := by
  have e : ∀ x : ℝ, Real.sin (2 * Real.pi * m * (x / L)) * Real.cos (2 * Real.pi * n * (x / L))
      = 1 / 2 * (Real.sin (2 * Real.pi * (m + n : ℤ) * (x / L)) + Real.sin (2 * Real.pi * (m - n : ℤ) * (x / L))) := by
    intro x
    have h3 : 2 * Real.pi * ((m - n : ℤ) : ℝ) * (x / L) = 2 * Real.pi * m * (x / L) - 2 * Real.pi * n * (x / L) := by
      push_cast; ring
    have h4 : 2 * Real.pi * ((m + n : ℤ) : ℝ) * (x / L) = 2 * Real.pi * m * (x / L) + 2 * Real.pi * n * (x / L) := by
      push_cast; ring
    rw [h3, h4, Real.sin_sub, Real.sin_add]; ring
  simp only [e]
  rw [intervalIntegral.integral_const_mul, intervalIntegral.integral_add (intInt _ (by fun_prop) _ _)
    (intInt _ (by fun_prop) _ _), integral_sin_period L a hL, integral_sin_period L a hL]
  ring

/-- **C44.** The functions computed by `FourierBasis(length)` are orthogonal over every period: the inner product of
two different ones is zero, the square norms are `length / 4` for the constant and `length / 2` for the others. -/
theorem C44_orthogonal (L a : ℝ) (hL : L ≠ 0) (i j : ℕ) :
    ∫ x in a..a + L, fourierCall L x i * fourierCall L x j
      = if i = j then (if i = 0 then L / 4 else L / 2) else 0 := by
  simp only [fourierCall_eq]
  have hs : ∀ k : ℕ, ∫ x in a..a + L, fourierTerm L (k + 1) x = 0 := by
    intro k
    simp only [fourierTerm]
    split
    · exact_mod_cast integral_sin_period L a hL ((k / 2 + 1 : ℕ) : ℤ)
    · exact_mod_cast integral_cos_period L a hL ((k / 2 + 1 : ℕ) : ℤ) (by positivity)
  rcases i with _ | i <;> rcases j with _ | j
  · simp [fourierTerm]; ring
  · rw [if_neg (by omega)]
    simp only [fourierTerm.eq_1]
    rw [intervalIntegral.integral_const_mul, hs, mul_zero]
  · rw [if_neg (by omega)]
    simp only [fourierTerm.eq_1]
    rw [intervalIntegral.integral_mul_const, hs, zero_mul]
  · have hpos : ((i / 2 + 1 : ℕ) : ℤ) + ((j / 2 + 1 : ℕ) : ℤ) ≠ 0 := by positivity
    rw [if_neg (show i + 1 ≠ 0 by omega)]
    simp only [fourierTerm]
    by_cases hi : i % 2 = 0 <;> by_cases hj : j % 2 = 0
    · simp only [if_pos hi, if_pos hj]
      have := integral_sin_sin L a hL _ _ hpos
      simp only [Int.cast_natCast] at this
      rw [this]
      congr 1
      rw [eq_iff_iff]
      constructor
      · intro h; have : i / 2 + 1 = j / 2 + 1 := by exact_mod_cast h
        omega
      · intro h; have : i = j := by omega
        rw [this]
    · simp only [if_pos hi, if_neg hj]
      have := integral_sin_cos' L a hL ((i / 2 + 1 : ℕ) : ℤ) ((j / 2 + 1 : ℕ) : ℤ)
      simp only [Int.cast_natCast] at this
      rw [this, if_neg (by intro h; have : i = j := by omega
                           subst this; exact hj hi)]
    · simp only [if_neg hi, if_pos hj]
      have := integral_sin_cos' L a hL ((j / 2 + 1 : ℕ) : ℤ) ((i / 2 + 1 : ℕ) : ℤ)
      simp only [Int.cast_natCast] at this
      rw [if_neg (by intro h; have : i = j := by omega
                     subst this; exact hi hj)]
      rw [← this]
      exact intervalIntegral.integral_congr fun x _ => mul_comm _ _
    · simp only [if_neg hi, if_neg hj]
      have := integral_cos_cos L a hL _ _ hpos
      simp only [Int.cast_natCast] at this
      rw [this]
      congr 1
      rw [eq_iff_iff]
      constructor
      · intro h; have : i / 2 + 1 = j / 2 + 1 := by exact_mod_cast h
        omega
      · intro h; have : i = j := by omega
        rw [this]

example : ∫ x in (-1 : ℝ)..-1 + 2, fourierCall 2 x 3 * fourierCall 2 x 4 = 0 := by
  rw [C44_orthogonal 2 (-1) (by norm_num)]; norm_num

end HOL
