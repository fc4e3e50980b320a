import Verif.Spec.Chebyshev
import Verif.Props.Stability

/-! # Lemmas on values of links between nodes and outside the interval -/

namespace HOL
open TorchScalar Polynomial Spec

theorem cardinal_length {n j : ℕ} {length : ℝ} (hl : 0 < length) (hj : j < n) (x : ℝ) : (getLagrangeBasis n length).call x j = cardinal n j (2 / length * x) := by
  rw [basis_call_eq hj]
  unfold cardinal Lagrange.basis
  rw [Polynomial.eval_prod, Polynomial.eval_prod]
  refine Finset.prod_congr rfl fun i hi => ?_
  obtain ⟨hij, hi⟩ := Finset.mem_erase.1 hi
  have hne : node n j - node n i ≠ 0 := sub_ne_zero.2 fun e => hij ((node_injOn n (by simpa using hj) (by simpa using hi) e).symm)
  unfold Lagrange.basisDivisor
  rw [eval_mul, eval_C, eval_sub, eval_X, eval_C, eval_mul, eval_C, eval_sub, eval_X, eval_C]
  have : length / 2 * node n j - length / 2 * node n i = length / 2 * (node n j - node n i) := by ring
  rw [this]
  field_simp

/-- Up to three nodes the squares add up to at most 1. -/
theorem cardinal_sq_one {n : ℕ} (hn : n ≤ 3) {t : ℝ} (ht : |t| ≤ 1) : ∑ j ∈ Finset.range n, cardinal n j t ^ 2 ≤ 1 := by
  obtain ⟨h1, h2⟩ := abs_le.1 ht
  obtain rfl | rfl | rfl | rfl : n = 0 ∨ n = 1 ∨ n = 2 ∨ n = 3 := by omega
  · simp
  · simp [cardinal, Lagrange.basis]
  · have a0 : node 2 0 = -1 := node_zero (by norm_num)
    have a1 : node 2 1 = 1 := node_last (n := 2) (by norm_num)
    rw [Finset.sum_range_succ, Finset.sum_range_one, cardinal_prod (by norm_num), cardinal_prod (by norm_num)]
    simp [a0, a1]
    have : ((t - 1) / (-1 - 1)) ^ 2 + ((t + 1) / (1 + 1)) ^ 2 = (1 + t ^ 2) / 2 := by ring
    rw [this]
    nlinarith
  · have a0 : node 3 0 = -1 := node_zero (by norm_num)
    have a2 : node 3 2 = 1 := node_last (n := 3) (by norm_num)
    have a1 : node 3 1 = 0 := by
      unfold node
      rw [if_neg (by norm_num)]
      have : Real.pi * ((1 : ℕ) : ℝ) / (((3 : ℕ) : ℝ) - 1) = Real.pi / 2 := by norm_num
      rw [this, Real.cos_pi_div_two, neg_zero]
    rw [Finset.sum_range_succ, Finset.sum_range_succ, Finset.sum_range_one, cardinal_prod (by norm_num), cardinal_prod (by norm_num), cardinal_prod (by norm_num)]
    have i1 : Finset.Ico (0 + 1) 3 = {1, 2} := by decide
    have i2 : Finset.Ico (1 + 1) 3 = {2} := by decide
    have i3 : Finset.Ico (2 + 1) 3 = ∅ := by decide
    rw [i1, i2, i3, Finset.prod_pair (by norm_num), Finset.prod_singleton, Finset.prod_empty, Finset.prod_range_zero, Finset.prod_range_one, Finset.prod_range_succ, Finset.prod_range_one, a0, a1, a2]
    have hu : t ^ 2 * (1 - t ^ 2) ≥ 0 := mul_nonneg (sq_nonneg _) (by nlinarith)
    have e : (1 * ((t - 0) / (-1 - 0) * ((t - 1) / (-1 - 1)))) ^ 2 + ((t - -1) / (0 - -1) * ((t - 1) / (0 - 1))) ^ 2 +
        ((t - -1) / (1 - -1) * ((t - 0) / (1 - 0)) * 1) ^ 2 = 1 - 3 / 2 * (t ^ 2 * (1 - t ^ 2)) := by ring
    rw [e]
    linarith

theorem cardinal_sqBound (n : ℕ) {t : ℝ} (ht : |t| ≤ 1) : ∑ j ∈ Finset.range n, cardinal n j t ^ 2 ≤ sqBound n := by
  unfold sqBound
  split
  · rename_i h
    exact cardinal_sq_one h ht
  · exact cardinal_sq n ht

/-- Difference of two links inside the interval. -/
theorem linkFn_l2 {L L' : PwLayer ℝ} (h : L.WF) (hs : SameSizes L L') (hl : L.length = 2) (o i : ℕ) {t : ℝ} (ht : |periodize L.periodicity t| ≤ 1) :
    (L'.linkFn o i t - L.linkFn o i t) ^ 2 ≤ 2 * ∑ r ∈ Finset.range (PwLayer.wSize L.cls L.n L.segments), (L'.w.get [o, i, r] - L.w.get [o, i, r]) ^ 2 := by
  rw [L.linkFn_periodic, L'.linkFn_periodic, hs.periodicity]
  set u := periodize L.periodicity t
  obtain ⟨h1, h2⟩ := abs_le.1 ht
  obtain ⟨s, hact⟩ := isActive_exists h.seg_pos u
  obtain ⟨-, -, b3, b4⟩ := isActive_bounds hact h1 h2
  have fst : L'.stride = L.stride := by unfold PwLayer.stride; rw [hs.cls, hs.n]
  have e1 := L.noPeriod.linkFn_isPiecewise h.seg_pos hl rfl o i s u hact
  have e2 := L'.noPeriod.linkFn_isPiecewise (by show 0 < L'.segments; rw [hs.segments]; exact h.seg_pos) (hs.length.trans hl) rfl o i s u (by show IsActive L'.segments s u; rw [hs.segments]; exact hact)
  have e2' : L'.noPeriod.linkFn o i u = (linkPoly L.n fun k => L'.w.get [o, i, s * L.stride + k]).eval (localCoord L.segments s u) := by
    rw [e2]
    show (linkPoly L'.n fun k => L'.w.get [o, i, s * L'.stride + k]).eval (localCoord L'.segments s u) = _
    rw [hs.n, fst, hs.segments]
  rw [e2', e1]
  show ((linkPoly L.n fun k => L'.w.get [o, i, s * L.stride + k]).eval (localCoord L.segments s u) - (linkPoly L.n fun k => L.w.get [o, i, s * L.stride + k]).eval (localCoord L.segments s u)) ^ 2 ≤ _
  rw [linkPoly_sub_eval]
  refine (Finset.sum_mul_sq_le_sq_mul_sq _ _ _).trans ?_
  have hsq := cardinal_sq L.n (abs_le.2 ⟨b3, b4⟩)
  have hsub : ∑ k ∈ Finset.range L.n, (L'.w.get [o, i, s * L.stride + k] - L.w.get [o, i, s * L.stride + k]) ^ 2
      ≤ ∑ r ∈ Finset.range (PwLayer.wSize L.cls L.n L.segments), (L'.w.get [o, i, r] - L.w.get [o, i, r]) ^ 2 := by
    have hinj : Set.InjOn (fun k => s * L.stride + k) (Finset.range L.n : Set ℕ) := fun a _ b _ hab => by simpa using hab
    rw [← Finset.sum_image (f := fun r => (L'.w.get [o, i, r] - L.w.get [o, i, r]) ^ 2) hinj]
    refine Finset.sum_le_sum_of_subset_of_nonneg ?_ fun _ _ _ => sq_nonneg _
    intro r hr
    obtain ⟨k, hk, rfl⟩ := Finset.mem_image.1 hr
    exact Finset.mem_range.2 (L.widx_lt h.n_pos hact.1 (Finset.mem_range.1 hk))
  have h0 : 0 ≤ ∑ k ∈ Finset.range L.n, (L'.w.get [o, i, s * L.stride + k] - L.w.get [o, i, s * L.stride + k]) ^ 2 := Finset.sum_nonneg fun _ _ => sq_nonneg _
  have h00 : 0 ≤ ∑ k ∈ Finset.range L.n, cardinal L.n k (localCoord L.segments s u) ^ 2 := Finset.sum_nonneg fun _ _ => sq_nonneg _
  calc _ ≤ (∑ k ∈ Finset.range L.n, (L'.w.get [o, i, s * L.stride + k] - L.w.get [o, i, s * L.stride + k]) ^ 2) * 2 := mul_le_mul_of_nonneg_left hsq h0
    _ ≤ _ := by linarith

/-- Beyond an end the last or first segment is active, and the local coordinate is the scaled distance. -/
theorem outside_active {S : ℕ} (hS : 0 < S) {x : ℝ} (hx : 1 ≤ |x|) : ∃ s, IsActive S s x ∧ |localCoord S s x| = 1 + S * (|x| - 1) ∧
    (1 ≤ x → s = S - 1 ∧ localCoord S s x = 1 + S * (|x| - 1)) := by
  have hSr : (0 : ℝ) < S := by exact_mod_cast hS
  rcases le_abs.1 hx with h | h
  · have habs : |x| = x := abs_of_pos (by linarith)
    have e : localCoord S (S - 1) x = 1 + S * (|x| - 1) := by
      unfold localCoord
      rw [habs, Nat.cast_sub hS]
      push_cast
      ring
    refine ⟨S - 1, ⟨by omega, Or.inr ?_, Or.inl (by omega)⟩, ?_, fun _ => ⟨rfl, e⟩⟩
    · have := segLeft_mono (S := S) (show S - 1 ≤ S by omega)
      rw [segLeft_last hS] at this
      linarith
    · rw [e, abs_of_pos (by nlinarith)]
  · have habs : |x| = -x := abs_of_neg (by linarith)
    have e : localCoord S 0 x = -(1 + S * (|x| - 1)) := by
      unfold localCoord
      rw [habs]
      push_cast
      ring
    refine ⟨0, ⟨hS, Or.inl rfl, ?_⟩, ?_, fun h1 => by linarith⟩
    · rcases Nat.eq_or_lt_of_le (show 1 ≤ S by omega) with h1 | h1
      · exact Or.inl h1
      · right
        have : (0 : ℝ) < 2 / S := by positivity
        unfold segLeft
        push_cast
        rw [mul_one]
        linarith
    · rw [e, abs_neg, abs_of_pos (by nlinarith)]

theorem cheb_even (N : ℕ) {t u : ℝ} (h : |t| = u) : |(Chebyshev.T ℝ (N : ℤ)).eval t| = |(Chebyshev.T ℝ (N : ℤ)).eval u| := by
  rcases abs_eq (le_of_le_of_eq (abs_nonneg t) h) |>.1 h with rfl | rfl
  · rfl
  · rw [Chebyshev.T_eval_neg, abs_mul]
    have : |(((N : ℤ).negOnePow : ℤ) : ℝ)| = 1 := by
      rcases Int.even_or_odd (N : ℤ) with h | h
      · rw [Int.negOnePow_even _ h]; simp
      · rw [Int.negOnePow_odd _ h]; simp
    rw [this, one_mul]

theorem chebGrowth_pos (n : ℕ) {S : ℕ} {x : ℝ} (hx : 1 ≤ |x|) : 1 ≤ chebGrowth n S x := by
  refine Chebyshev.one_le_eval_T_real _ ?_
  have : (0 : ℝ) ≤ S := Nat.cast_nonneg S
  nlinarith

/-- Links outside the interval. -/
theorem linkFn_outside {L : PwLayer ℝ} (h : L.WF) (hl : L.length = 2) (hp : L.periodicity = none) (o i : ℕ) {W : ℝ}
    (hw : ∀ r < PwLayer.wSize L.cls L.n L.segments, |L.w.get [o, i, r]| ≤ W) {x : ℝ} (hx : 1 ≤ |x|) : |L.linkFn o i x| ≤ W * chebGrowth L.n L.segments x := by
  obtain ⟨s, hact, hloc, -⟩ := outside_active h.seg_pos hx
  have hW : 0 ≤ W := (abs_nonneg _).trans (hw _ (L.widx_lt h.n_pos hact.1 h.n_pos))
  have hSr : (0 : ℝ) ≤ L.segments := Nat.cast_nonneg _
  rw [L.linkFn_isPiecewise h.seg_pos hl hp o i s x hact, linkPoly_cardinal]
  refine (Finset.abs_sum_le_sum_abs _ _).trans ?_
  calc ∑ k ∈ Finset.range L.n, |L.w.get [o, i, s * L.stride + k] * cardinal L.n k (localCoord L.segments s x)|
      ≤ ∑ k ∈ Finset.range L.n, W * |cardinal L.n k (localCoord L.segments s x)| := Finset.sum_le_sum fun k hk => by
        rw [abs_mul]
        exact mul_le_mul_of_nonneg_right (hw _ (L.widx_lt h.n_pos hact.1 (Finset.mem_range.1 hk))) (abs_nonneg _)
    _ = W * chebGrowth L.n L.segments x := by
        rw [← Finset.mul_sum, cardinal_abs h.n_pos (by rw [hloc]; nlinarith), cheb_even _ hloc]
        congr 1
        exact abs_of_nonneg (zero_le_one.trans (chebGrowth_pos L.n hx))

theorem linkFn_outside_alternating {L : PwLayer ℝ} (h : L.WF) (hl : L.length = 2) (hp : L.periodicity = none) (o i : ℕ) {W : ℝ}
    (hw : ∀ r < PwLayer.wSize L.cls L.n L.segments, L.w.get [o, i, r] = W * (-1) ^ (PwLayer.wSize L.cls L.n L.segments - 1 - r)) {x : ℝ} (hx : 1 ≤ x) :
    L.linkFn o i x = W * chebGrowth L.n L.segments x := by
  obtain ⟨s, hact, -, hright⟩ := outside_active h.seg_pos (le_abs.2 (Or.inl hx))
  obtain ⟨hs, hloc⟩ := hright hx
  rw [L.linkFn_isPiecewise h.seg_pos hl hp o i s x hact, linkPoly_cardinal, hloc]
  unfold chebGrowth
  rw [cheb_expand (n := L.n) (by have := h.n_pos; omega), Finset.mul_sum]
  refine Finset.sum_congr rfl fun k hk => ?_
  have hk := Finset.mem_range.1 hk
  beta_reduce
  rw [hw _ (L.widx_lt h.n_pos hact.1 hk), cheb_top h.n_pos hk, mul_assoc]
  congr 3
  have hn := h.n_pos
  have hS := h.seg_pos
  unfold PwLayer.stride PwLayer.wSize
  subst hs
  obtain ⟨m, hm⟩ : ∃ m, L.n = m + 1 := ⟨L.n - 1, by omega⟩
  obtain ⟨q, hq⟩ : ∃ q, L.segments = q + 1 := ⟨L.segments - 1, by omega⟩
  rw [hm, hq]
  simp only [Nat.add_sub_cancel]
  split
  · have : m * (q + 1) = q * m + m := by ring
    omega
  · have : (m + 1) * (q + 1) = q * (m + 1) + (m + 1) := by ring
    omega

theorem cheb_mono {N : ℤ} (hN : N ≠ 0) {a b : ℝ} (ha : 1 ≤ a) (hab : a < b) : (Chebyshev.T ℝ N).eval a < (Chebyshev.T ℝ N).eval b := by
  rw [← Real.cosh_arcosh ha, ← Real.cosh_arcosh (ha.trans hab.le), Chebyshev.T_real_cosh, Chebyshev.T_real_cosh, Real.cosh_lt_cosh, abs_mul, abs_mul]
  refine mul_lt_mul_of_pos_left ?_ (abs_pos.2 (by exact_mod_cast hN))
  rw [← Real.cosh_lt_cosh, Real.cosh_arcosh ha, Real.cosh_arcosh (ha.trans hab.le)]
  exact hab

end HOL
