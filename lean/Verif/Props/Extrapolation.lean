import Verif.Lemmas.Extrapolation

/-! # C106: how large outputs get between the nodes, and outside the interval -/

namespace HOL
open TorchScalar Polynomial Spec

/-- **C106 (between the nodes).** On the interval the squares of the `n` basis functions add up to at most 2 (to at most 1 for up to three nodes), whatever `n` is. -/
theorem C106_basis_squares {n : ℕ} (length : ℝ) (hl : 0 < length) {x : ℝ} (hx : |x| ≤ length / 2) :
    ∑ j ∈ Finset.range n, (getLagrangeBasis n length).call x j ^ 2 ≤ 2 ∧
    (n ≤ 3 → ∑ j ∈ Finset.range n, (getLagrangeBasis n length).call x j ^ 2 ≤ 1) := by
  have e : ∀ j ∈ Finset.range n, (getLagrangeBasis n length).call x j ^ 2 = cardinal n j (2 / length * x) ^ 2 := by
    intro j hj
    rw [cardinal_length hl (Finset.mem_range.1 hj)]
  have ht : |2 / length * x| ≤ 1 := by
    rw [abs_mul, abs_of_pos (by positivity), div_mul_eq_mul_div, div_le_one hl]
    linarith
  rw [Finset.sum_congr rfl e]
  exact ⟨cardinal_sq n ht, fun h => cardinal_sq_one h ht⟩

/-- **C106 (inside).** Two sum layers that differ in their weights only: at inputs in `[-1, 1]` (or any inputs, if the layers wrap with a period of at most 2) every output differs by at most `√(2 · in_features)` times the
Euclidean norm of the difference of the weights of this output, for every `n` and every number of segments. -/
theorem C106_inside (L L' : PwLayer ℝ) (h : L.WF) (h' : L'.WF) (hs : SameSizes L L') (hc : L.cls = .continuous ∨ L.cls = .discontinuous) (hl : L.length = 2)
    {B : ℕ} {x : Tensor ℝ} (hx : x.shape = [B, L.inFeatures]) (hwf : x.WF) (hr : ∀ b < B, ∀ i < L.inFeatures, |periodize L.periodicity (x.get [b, i])| ≤ 1) :
    ∃ out out', L.forward x = .ok out ∧ L'.forward x = .ok out' ∧ ∀ b < B, ∀ o < L.outFeatures,
      |out'.get [b, o] - out.get [b, o]| ≤ √(2 * L.inFeatures *
        ∑ i ∈ Finset.range L.inFeatures, ∑ r ∈ Finset.range (PwLayer.wSize L.cls L.n L.segments), (L'.w.get [o, i, r] - L.w.get [o, i, r]) ^ 2) := by
  refine ⟨_, _, L.forward_sum h hc hx hwf, L'.forward_sum h' (by rw [hs.cls]; exact hc) (by rw [hs.inF]; exact hx) hwf, fun b hb o ho => ?_⟩
  rw [Tensor.get_tab2 hb ho, Tensor.get_tab2 hb (by rw [hs.outF]; exact ho), hs.inF, ← Finset.sum_sub_distrib]
  apply Real.abs_le_sqrt
  have h1 := sq_sum_le_card_mul_sum_sq (s := Finset.range L.inFeatures) (f := fun i => L'.linkFn o i (x.get [b, i]) - L.linkFn o i (x.get [b, i]))
  rw [Finset.card_range] at h1
  have h2 : ∑ i ∈ Finset.range L.inFeatures, (L'.linkFn o i (x.get [b, i]) - L.linkFn o i (x.get [b, i])) ^ 2
      ≤ 2 * ∑ i ∈ Finset.range L.inFeatures, ∑ r ∈ Finset.range (PwLayer.wSize L.cls L.n L.segments), (L'.w.get [o, i, r] - L.w.get [o, i, r]) ^ 2 := by
    rw [Finset.mul_sum]
    exact Finset.sum_le_sum fun i hi => linkFn_l2 h hs hl o i (hr b hb i (Finset.mem_range.1 hi))
  have hI : (0 : ℝ) ≤ L.inFeatures := Nat.cast_nonneg _
  nlinarith [mul_le_mul_of_nonneg_left h2 hI]

/-- **C106 (outside).** A sum layer without periodicity whose weights are at most `W` in absolute value: at inputs with all `|x_i| ≥ 1` every output is at most `W` times the sum of the Chebyshev polynomials of degree
`n - 1` at `1 + segments (|x_i| - 1)`. -/
theorem C106_outside (L : PwLayer ℝ) (h : L.WF) (hc : L.cls = .continuous ∨ L.cls = .discontinuous) (hl : L.length = 2) (hp : L.periodicity = none) {W : ℝ}
    (hW : ∀ o < L.outFeatures, ∀ i < L.inFeatures, ∀ r < PwLayer.wSize L.cls L.n L.segments, |L.w.get [o, i, r]| ≤ W)
    {B : ℕ} {x : Tensor ℝ} (hx : x.shape = [B, L.inFeatures]) (hwf : x.WF) (hr : ∀ b < B, ∀ i < L.inFeatures, 1 ≤ |x.get [b, i]|) :
    ∃ out, L.forward x = .ok out ∧ ∀ b < B, ∀ o < L.outFeatures,
      |out.get [b, o]| ≤ W * ∑ i ∈ Finset.range L.inFeatures, chebGrowth L.n L.segments (x.get [b, i]) := by
  refine ⟨_, L.forward_sum h hc hx hwf, fun b hb o ho => ?_⟩
  rw [Tensor.get_tab2 hb ho, Finset.mul_sum]
  refine (Finset.abs_sum_le_sum_abs _ _).trans (Finset.sum_le_sum fun i hi => ?_)
  exact linkFn_outside h hl hp o i (hW o ho i (Finset.mem_range.1 hi)) (hr b hb i (Finset.mem_range.1 hi))

/-- **C106 (the worst weights).** The bound is attained: with weights that alternate between `W` and `-W` every output at inputs `x_i ≥ 1` is exactly `W` times this sum. -/
theorem C106_outside_attained (L : PwLayer ℝ) (h : L.WF) (hc : L.cls = .continuous ∨ L.cls = .discontinuous) (hl : L.length = 2) (hp : L.periodicity = none) {W : ℝ}
    (hW : ∀ o < L.outFeatures, ∀ i < L.inFeatures, ∀ r < PwLayer.wSize L.cls L.n L.segments,
      L.w.get [o, i, r] = W * (-1) ^ (PwLayer.wSize L.cls L.n L.segments - 1 - r))
    {B : ℕ} {x : Tensor ℝ} (hx : x.shape = [B, L.inFeatures]) (hwf : x.WF) (hr : ∀ b < B, ∀ i < L.inFeatures, 1 ≤ x.get [b, i]) :
    ∃ out, L.forward x = .ok out ∧ ∀ b < B, ∀ o < L.outFeatures,
      out.get [b, o] = W * ∑ i ∈ Finset.range L.inFeatures, chebGrowth L.n L.segments (x.get [b, i]) := by
  refine ⟨_, L.forward_sum h hc hx hwf, fun b hb o ho => ?_⟩
  rw [Tensor.get_tab2 hb ho, Finset.mul_sum]
  refine Finset.sum_congr rfl fun i hi => ?_
  exact linkFn_outside_alternating h hl hp o i (hW o ho i (Finset.mem_range.1 hi)) (hr b hb i (Finset.mem_range.1 hi))

/-- **C106 (growth).** Beyond the ends this worst case is more than 1 and grows with the distance and with the number of segments (for two or more nodes); with one node it is 1 everywhere, with two nodes `1 + S (|x| - 1)`. -/
theorem C106_growth {n S : ℕ} (hn : 2 ≤ n) (hS : 0 < S) {x : ℝ} (hx : 1 < |x|) :
    1 < chebGrowth n S x ∧ (∀ S' > S, chebGrowth n S x < chebGrowth n S' x) ∧ (∀ y : ℝ, |x| < |y| → chebGrowth n S x < chebGrowth n S y) ∧
    (∀ z : ℝ, chebGrowth 1 S z = 1) ∧ ∀ z : ℝ, chebGrowth 2 S z = 1 + S * (|z| - 1) := by
  have hSr : (0 : ℝ) < S := by exact_mod_cast hS
  have hN : ((n - 1 : ℕ) : ℤ) ≠ 0 := by omega
  have hx' : 1 < 1 + S * (|x| - 1) := by nlinarith
  refine ⟨Chebyshev.one_lt_eval_T_real hN hx', fun S' hS' => ?_, fun y hy => ?_, fun z => ?_, fun z => ?_⟩
  · have : (S : ℝ) < S' := by exact_mod_cast hS'
    exact cheb_mono hN hx'.le (by nlinarith)
  · exact cheb_mono hN hx'.le (by nlinarith)
  · unfold chebGrowth; simp
  · unfold chebGrowth; simp

/-- **C106 (polynomial layers).** The same for `Polynomial` layers, whose one segment is `[-length/2, length/2]`: outside of it every output is at most `W` times the sum of the Chebyshev polynomials of degree `n - 1` at
`2 |x_i| / length`. -/
theorem C106_polynomial (L : FnLayer ℝ) {n : ℕ} (hn : 0 < n) {length : ℝ} (hl : 0 < length) (hpoly : L.poly = lagrangePolyFlat n length)
    (hw : L.w.shape = [L.outFeatures, L.inFeatures, n]) (hp : L.periodicity = none) {W : ℝ}
    (hW : ∀ o < L.outFeatures, ∀ i < L.inFeatures, ∀ k < n, |L.w.get [o, i, k]| ≤ W)
    {B : ℕ} {x : Tensor ℝ} (hx : x.shape = [B, L.inFeatures]) (hwf : x.WF) (hr : ∀ b < B, ∀ i < L.inFeatures, length / 2 ≤ |x.get [b, i]|) :
    ∃ out, L.forward x = .ok out ∧ ∀ b < B, ∀ o < L.outFeatures,
      |out.get [b, o]| ≤ W * ∑ i ∈ Finset.range L.inFeatures, (Chebyshev.T ℝ ((n - 1 : ℕ) : ℤ)).eval (2 * |x.get [b, i]| / length) := by
  refine ⟨_, L.forward_lagrange hn length hpoly hw hx hwf, fun b hb o ho => ?_⟩
  rw [Tensor.get_tab2 hb ho, Finset.mul_sum]
  refine (Finset.abs_sum_le_sum_abs _ _).trans (Finset.sum_le_sum fun i hi => ?_)
  have hi := Finset.mem_range.1 hi
  have hW0 : 0 ≤ W := (abs_nonneg _).trans (hW o ho i hi 0 hn)
  rw [hp]
  show |(Lagrange.interpolate (Finset.range n) (fun j => length / 2 * node n j) fun k => L.w.get [o, i, k]).eval (x.get [b, i])| ≤ _
  rw [← sum_basis_call]
  set y := x.get [b, i]
  have hy : 1 ≤ |2 / length * y| := by
    rw [abs_mul, abs_of_pos (by positivity), div_mul_eq_mul_div, le_div_iff₀ hl]
    have : length / 2 ≤ |y| := hr b hb i hi
    linarith
  have hy2 : |2 / length * y| = 2 * |y| / length := by
    rw [abs_mul, abs_of_pos (by positivity), div_mul_eq_mul_div]
  refine (Finset.abs_sum_le_sum_abs _ _).trans ?_
  calc ∑ k ∈ Finset.range n, |(getLagrangeBasis n length).call y k * L.w.get [o, i, k]|
      ≤ ∑ k ∈ Finset.range n, W * |cardinal n k (2 / length * y)| := Finset.sum_le_sum fun k hk => by
        have hk := Finset.mem_range.1 hk
        rw [cardinal_length hl hk, abs_mul, mul_comm]
        exact mul_le_mul_of_nonneg_right (hW o ho i hi k hk) (abs_nonneg _)
    _ = W * (Chebyshev.T ℝ ((n - 1 : ℕ) : ℤ)).eval (2 * |y| / length) := by
        rw [← Finset.mul_sum, cardinal_abs hn hy, cheb_even _ hy2, abs_of_nonneg]
        exact zero_le_one.trans (Chebyshev.one_le_eval_T_real _ (by rw [← hy2]; exact hy))

/-- The layer of one input and one output whose weights alternate between 1 and -1, ending with 1. -/
noncomputable def alternatingLayer (n S : ℕ) : PwLayer ℝ where
  cls := .continuous
  n := n
  segments := S
  inFeatures := 1
  outFeatures := 1
  length := 2
  periodicity := none
  w := Tensor.tab3 1 1 (PwLayer.wSize .continuous n S) fun _ _ r => (-1) ^ (PwLayer.wSize .continuous n S - 1 - r)

theorem alternatingLayer_wf {n S : ℕ} (hn : 0 < n) (hS : 0 < S) : (alternatingLayer n S).WF :=
  ⟨hn, hS, one_pos, one_pos, rfl, Tensor.wf_tabulate _ _⟩

theorem growth_example : chebGrowth 5 10 1.2 = 577 := by
  have e : (1 : ℝ) + (10 : ℕ) * (|1.2| - 1) = 3 := by
    rw [abs_of_pos (by norm_num)]; norm_num
  unfold chebGrowth
  rw [e]
  show (Chebyshev.T ℝ 4).eval 3 = 577
  rw [show (4 : ℤ) = 2 + 2 by norm_num, Chebyshev.T_add_two, show (2 + 1 : ℤ) = 1 + 2 by norm_num, Chebyshev.T_add_two, show (1 + 1 : ℤ) = 2 by norm_num, Chebyshev.T_two]
  simp
  norm_num

/-- Five nodes and ten segments: at `x = 1.2` weights of 1 and -1 give the output 577, and no weights between -1 and 1 give more. -/
example : (∃ out, (alternatingLayer 5 10).forward (Tensor.tab2 1 1 fun _ _ => 1.2) = .ok out ∧ out.get [0, 0] = 577) ∧
    ∀ v : ℕ → ℝ, (∀ r, |v r| ≤ 1) → ∃ out, ({ alternatingLayer 5 10 with w := Tensor.tab3 1 1 41 fun _ _ r => v r } : PwLayer ℝ).forward
      (Tensor.tab2 1 1 fun _ _ => 1.2) = .ok out ∧ |out.get [0, 0]| ≤ 577 := by
  have hxw : (Tensor.tab2 1 1 fun _ _ => (1.2 : ℝ)).WF := Tensor.wf_tabulate _ _
  have hg : ∀ b < 1, ∀ i < 1, (Tensor.tab2 1 1 fun _ _ => (1.2 : ℝ)).get [b, i] = 1.2 := fun b hb i hi => Tensor.get_tab2 hb hi
  constructor
  · obtain ⟨out, e, h⟩ := C106_outside_attained (alternatingLayer 5 10) (alternatingLayer_wf (by norm_num) (by norm_num)) (Or.inl rfl) rfl rfl (W := 1)
      (fun o ho i hi r hr => by rw [one_mul]; exact Tensor.get_tab3 ho hi hr) (B := 1) rfl hxw (fun b hb i hi => by rw [hg b hb i hi]; norm_num)
    refine ⟨out, e, ?_⟩
    rw [h 0 one_pos 0 one_pos, one_mul]
    show ∑ i ∈ Finset.range 1, chebGrowth 5 10 ((Tensor.tab2 1 1 fun _ _ => (1.2 : ℝ)).get [0, i]) = 577
    rw [Finset.sum_range_one, hg 0 one_pos 0 one_pos, growth_example]
  · intro v hv
    obtain ⟨out, e, h⟩ := C106_outside ({ alternatingLayer 5 10 with w := Tensor.tab3 1 1 41 fun _ _ r => v r } : PwLayer ℝ)
      ⟨by norm_num [alternatingLayer], by norm_num [alternatingLayer], one_pos, one_pos, rfl, Tensor.wf_tabulate _ _⟩ (Or.inl rfl) rfl rfl (W := 1)
      (fun o ho i hi r hr => by
        show |(Tensor.tab3 1 1 41 fun _ _ r => v r).get [o, i, r]| ≤ 1
        have e := Tensor.get_tab3 (f := fun _ _ r => v r) (show o < 1 from ho) (show i < 1 from hi) (show r < 41 from hr)
        rw [e]; exact hv r) (B := 1) rfl hxw (fun b hb i hi => by rw [hg b hb i hi]; norm_num)
    refine ⟨out, e, ?_⟩
    have h := h 0 one_pos 0 one_pos
    rw [one_mul] at h
    refine h.trans_eq ?_
    show ∑ i ∈ Finset.range 1, chebGrowth 5 10 ((Tensor.tab2 1 1 fun _ _ => (1.2 : ℝ)).get [0, i]) = 577
    rw [Finset.sum_range_one, hg 0 one_pos 0 one_pos, growth_example]

/-- Ten nodes: a quarter of the way from the centre. -/
example : ∑ j ∈ Finset.range 10, (getLagrangeBasis 10 (2 : ℝ)).call 0.25 j ^ 2 ≤ 2 :=
  (C106_basis_squares 2 two_pos (by rw [abs_of_pos] <;> norm_num)).1

end HOL
