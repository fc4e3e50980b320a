import Verif.Lemmas.Norm

/-! # C36 - C39: normalizations -/

namespace HOL
open TorchScalar

/-- **C36.** `max_abs_normalization(x, eps, dim)` with `eps > 0`, for a tensor of any rank and every slice along
`dim`: values lie in `(-1, 1)`, signs and order are kept, and if the largest magnitude of the slice was `M` it
becomes `M / (M + eps)`. -/
theorem C36_max_abs (x : Tensor ℝ) (eps : ℝ) (heps : 0 < eps) (dim : ℕ) (hwf : x.WF)
    (hd : dim < x.shape.length) (hs : 0 < x.shape.getD dim 0) :
    ∃ out, maxAbsNormalization x eps dim = .ok out ∧ out.shape = x.shape ∧
      ∀ idx, InShape x.shape idx →
        |out.get idx| < 1 ∧ (0 < out.get idx ↔ 0 < x.get idx) ∧ (out.get idx = 0 ↔ x.get idx = 0) ∧
        (∀ q < x.shape.getD dim 0, ∀ r < x.shape.getD dim 0,
          (out.get (idx.set dim q) ≤ out.get (idx.set dim r) ↔ x.get (idx.set dim q) ≤ x.get (idx.set dim r))) ∧
        ∃ M, IsGreatest {v | ∃ q < x.shape.getD dim 0, v = |x.get (idx.set dim q)|} M ∧
          IsGreatest {v | ∃ q < x.shape.getD dim 0, v = |out.get (idx.set dim q)|} (M / (M + eps)) := by
  refine ⟨_, maxAbsNormalization_eq x eps hwf hd hs, rfl, ?_⟩
  intro idx hidx
  set M := maxL ((slice x dim idx).map TorchScalar.abs) with hM
  have hMg : IsGreatest {v | ∃ q < x.shape.getD dim 0, v = |x.get (idx.set dim q)|} M := by
    have := isGreatest_map_range hs fun q => |x.get (idx.set dim q)|
    rw [hM]
    unfold slice
    rw [List.map_map]
    exact this
  have hM0 : 0 ≤ M := by
    obtain ⟨q, _, e⟩ := hMg.1
    rw [e]; exact abs_nonneg _
  have hpos : 0 < M + eps := by linarith
  have hget : ∀ q < x.shape.getD dim 0, (Tensor.tabulate x.shape fun idx =>
      x.get idx / (maxL ((slice x dim idx).map TorchScalar.abs) + eps)).get (idx.set dim q)
      = x.get (idx.set dim q) / (M + eps) := by
    intro q hq
    rw [Tensor.get_tabulate (inShape_set hidx hq), slice_set]
  have hself : idx.set dim (idx.getD dim 0) = idx := set_getD_self idx dim
  have hq0 : idx.getD dim 0 < x.shape.getD dim 0 := getD_lt_of_inShape hidx hd
  have hget0 := hget _ hq0
  rw [hself] at hget0
  have habs : |x.get idx| ≤ M := hMg.2 ⟨idx.getD dim 0, hq0, by rw [hself]⟩
  refine ⟨?_, ?_, ?_, ?_, M, hMg, ?_, ?_⟩
  · rw [hget0, abs_div, abs_of_pos hpos, div_lt_one hpos]
    linarith
  · rw [hget0]
    exact div_pos_iff_of_pos_right hpos
  · rw [hget0, div_eq_zero_iff]
    constructor
    · rintro (h | h)
      · exact h
      · exact absurd h hpos.ne'
    · exact Or.inl
  · intro q hq r hr
    rw [hget q hq, hget r hr]
    exact div_le_div_iff_of_pos_right hpos
  · obtain ⟨q, hq, e⟩ := hMg.1
    refine ⟨q, hq, ?_⟩
    rw [hget q hq, abs_div, abs_of_pos hpos, ← e]
  · rintro v ⟨q, hq, rfl⟩
    rw [hget q hq, abs_div, abs_of_pos hpos]
    exact div_le_div_of_nonneg_right (hMg.2 ⟨q, hq, rfl⟩) hpos.le

/-- **C36 (scale).** With `eps = 0` multiplying the input by a positive number does not change the result, on every
slice that is not identically zero (a zero slice gives 0/0). -/
theorem C36_max_abs_scale_invariant (x : Tensor ℝ) (c : ℝ) (hc : 0 < c) (dim : ℕ) (hwf : x.WF)
    (hd : dim < x.shape.length) (hs : 0 < x.shape.getD dim 0) :
    ∃ out out', maxAbsNormalization x 0 dim = .ok out ∧
      maxAbsNormalization (x.map fun v => c * v) 0 dim = .ok out' ∧
      ∀ idx, InShape x.shape idx → (∃ q < x.shape.getD dim 0, x.get (idx.set dim q) ≠ 0) →
        out'.get idx = out.get idx := by
  refine ⟨_, _, maxAbsNormalization_eq x 0 hwf hd hs,
    maxAbsNormalization_eq (x.map fun v => c * v) 0 (Tensor.wf_map hwf _) hd hs, ?_⟩
  intro idx hidx ⟨q0, hq0, hne⟩
  rw [Tensor.get_tabulate hidx, Tensor.get_tabulate (s := (x.map fun v => c * v).shape) hidx,
    Tensor.get_map hwf hidx, slice_map x _ hwf hidx, List.map_map]
  have h1 := isGreatest_map_range hs fun q => |x.get (idx.set dim q)|
  have h2 := isGreatest_map_range hs fun q => |c * x.get (idx.set dim q)|
  set M := maxL ((List.range (x.shape.getD dim 0)).map fun q => |x.get (idx.set dim q)|) with hM
  have e1 : maxL ((slice x dim idx).map TorchScalar.abs) = M := by
    rw [hM]; unfold slice; rw [List.map_map]; rfl
  have e2 : maxL ((slice x dim idx).map (TorchScalar.abs ∘ fun v => c * v)) = c * M := by
    have e3 : maxL ((slice x dim idx).map (TorchScalar.abs ∘ fun v => c * v))
        = maxL ((List.range (x.shape.getD dim 0)).map fun q => |c * x.get (idx.set dim q)|) := by
      unfold slice; rw [List.map_map]; rfl
    rw [e3]
    refine h2.unique ⟨?_, ?_⟩
    · obtain ⟨q, hq, e⟩ := h1.1
      exact ⟨q, hq, by rw [abs_mul, abs_of_pos hc, ← e]⟩
    · rintro v ⟨q, hq, rfl⟩
      rw [abs_mul, abs_of_pos hc]
      exact mul_le_mul_of_nonneg_left (h1.2 ⟨q, hq, rfl⟩) hc.le
  have hMpos : 0 < M := lt_of_lt_of_le (abs_pos.2 hne) (h1.2 ⟨q0, hq0, rfl⟩)
  rw [e1, e2]
  show c * x.get idx / (c * M + 0) = x.get idx / (M + 0)
  rw [add_zero, add_zero, mul_div_mul_left _ _ hc.ne']

/-- A `[2, 2]` batch meeting the hypotheses. -/
example : ∃ out, maxAbsNormalization (Tensor.tab2 2 2 fun b i => (b : ℝ) - 3 * i) 1 1 = .ok out ∧
    |out.get [1, 1]| < 1 ∧ (0 < out.get [1, 0]) := by
  obtain ⟨out, h1, _, h2⟩ := C36_max_abs (Tensor.tab2 2 2 fun b i => (b : ℝ) - 3 * i) 1 one_pos 1
    (Tensor.wf_tab2 _ _ _) (by simp) (by simp)
  refine ⟨out, h1, (h2 [1, 1] (by simp [InShape])).1, (h2 [1, 0] (by simp [InShape])).2.1.2 ?_⟩
  rw [Tensor.get_tab2 (by norm_num) (by norm_num)]; norm_num

example : ∃ out out', maxAbsNormalization (Tensor.tab2 1 2 fun _ i => (i : ℝ)) 0 1 = .ok out ∧
    maxAbsNormalization ((Tensor.tab2 1 2 fun _ i => (i : ℝ)).map fun v => 7 * v) 0 1 = .ok out' ∧
    out'.get [0, 1] = out.get [0, 1] := by
  obtain ⟨o, o', h1, h2, h3⟩ := C36_max_abs_scale_invariant (Tensor.tab2 1 2 fun _ i => (i : ℝ)) 7 (by norm_num) 1
    (Tensor.wf_tab2 _ _ _) (by simp) (by simp)
  refine ⟨o, o', h1, h2, h3 [0, 1] (by simp [InShape]) ⟨1, by simp, ?_⟩⟩
  show (Tensor.tab2 1 2 fun _ i => (i : ℝ)).get [0, 1] ≠ 0
  rw [Tensor.get_tab2 (by norm_num) (by norm_num)]; norm_num

/-- **C37.** `max_center_normalization(x, eps, dim)` with `eps > 0`: on every slice along `dim` with maximum
`M` and minimum `m` values lie in `(-1, 1)`, order is kept, and the maximum and minimum become
`h / (h + eps)` and `-h / (h + eps)` with `h = (M - m) / 2`. -/
theorem C37_max_center (x : Tensor ℝ) (eps : ℝ) (heps : 0 < eps) (dim : ℕ)
    (hd : dim < x.shape.length) (hs : 0 < x.shape.getD dim 0) :
    ∃ out, maxCenterNormalization x eps dim = .ok out ∧ out.shape = x.shape ∧
      ∀ idx, InShape x.shape idx →
        |out.get idx| < 1 ∧
        (∀ q < x.shape.getD dim 0, ∀ r < x.shape.getD dim 0,
          (out.get (idx.set dim q) ≤ out.get (idx.set dim r) ↔ x.get (idx.set dim q) ≤ x.get (idx.set dim r))) ∧
        ∃ M m, IsGreatest {v | ∃ q < x.shape.getD dim 0, v = x.get (idx.set dim q)} M ∧
          IsLeast {v | ∃ q < x.shape.getD dim 0, v = x.get (idx.set dim q)} m ∧
          IsGreatest {v | ∃ q < x.shape.getD dim 0, v = out.get (idx.set dim q)}
            ((M - m) / 2 / ((M - m) / 2 + eps)) ∧
          IsLeast {v | ∃ q < x.shape.getD dim 0, v = out.get (idx.set dim q)}
            (-((M - m) / 2 / ((M - m) / 2 + eps))) := by
  refine ⟨_, maxCenterNormalization_eq x eps hd hs, rfl, ?_⟩
  intro idx hidx
  have h1 := isGreatest_map_range hs fun q => x.get (idx.set dim q)
  have h2 := isLeast_map_range hs fun q => x.get (idx.set dim q)
  change IsGreatest _ (maxL (slice x dim idx)) at h1
  change IsLeast _ (minL (slice x dim idx)) at h2
  have hget : ∀ q < x.shape.getD dim 0, (Tensor.tabulate x.shape fun idx =>
      (x.get idx - 1 / ((2 : ℕ) : ℝ) * (maxL (slice x dim idx) + minL (slice x dim idx)))
        / (maxL (slice x dim idx)
            - 1 / ((2 : ℕ) : ℝ) * (maxL (slice x dim idx) + minL (slice x dim idx)) + eps)).get (idx.set dim q)
      = (x.get (idx.set dim q) - (maxL (slice x dim idx) + minL (slice x dim idx)) / 2)
          / ((maxL (slice x dim idx) - minL (slice x dim idx)) / 2 + eps) := by
    intro q hq
    rw [Tensor.get_tabulate (inShape_set hidx hq), slice_set]
    push_cast
    congr 1 <;> ring
  set M := maxL (slice x dim idx)
  set m := minL (slice x dim idx)
  have hmM : m ≤ M := h2.2 h1.1
  have hpos : 0 < (M - m) / 2 + eps := by linarith
  have hself : idx.set dim (idx.getD dim 0) = idx := set_getD_self idx dim
  have hq0 : idx.getD dim 0 < x.shape.getD dim 0 := getD_lt_of_inShape hidx hd
  have hget0 := hget _ hq0
  rw [hself] at hget0
  have hle : x.get idx ≤ M := h1.2 ⟨idx.getD dim 0, hq0, by rw [hself]⟩
  have hge : m ≤ x.get idx := h2.2 ⟨idx.getD dim 0, hq0, by rw [hself]⟩
  refine ⟨?_, ?_, M, m, h1, h2, ⟨?_, ?_⟩, ⟨?_, ?_⟩⟩
  · refine lt_of_eq_of_lt (congrArg _ hget0) ?_
    rw [abs_div, abs_of_pos hpos, div_lt_one hpos, abs_lt]
    constructor <;> linarith
  · intro q hq r hr
    have a := hget q hq
    have b := hget r hr
    refine Iff.trans (Iff.of_eq (congrArg₂ (· ≤ ·) a b)) ?_
    rw [div_le_div_iff_of_pos_right hpos]
    constructor <;> intro h <;> linarith
  · obtain ⟨q, hq, e⟩ := h1.1
    refine ⟨q, hq, ?_⟩
    refine Eq.trans ?_ (hget q hq).symm
    rw [← e]; congr 1; ring
  · rintro v ⟨q, hq, rfl⟩
    refine le_of_eq_of_le (hget q hq) ?_
    apply div_le_div_of_nonneg_right _ hpos.le
    have := h1.2 ⟨q, hq, rfl⟩
    linarith
  · obtain ⟨q, hq, e⟩ := h2.1
    refine ⟨q, hq, ?_⟩
    refine Eq.trans ?_ (hget q hq).symm
    rw [← e, ← neg_div]; congr 1; ring
  · rintro v ⟨q, hq, rfl⟩
    refine le_of_le_of_eq ?_ (hget q hq).symm
    rw [← neg_div]
    apply div_le_div_of_nonneg_right _ hpos.le
    have := h2.2 ⟨q, hq, rfl⟩
    linarith

/-- **C37 (shift).** Adding a constant to the input does not change the result (any `eps`). -/
theorem C37_max_center_shift_invariant (x : Tensor ℝ) (eps c : ℝ) (dim : ℕ) (hwf : x.WF)
    (hd : dim < x.shape.length) (hs : 0 < x.shape.getD dim 0) :
    maxCenterNormalization (x.map fun v => v + c) eps dim = maxCenterNormalization x eps dim := by
  rw [maxCenterNormalization_eq x eps hd hs,
    maxCenterNormalization_eq (x.map fun v => v + c) eps hd hs]
  congr 1
  apply tabulate_congr
  intro idx hidx
  change InShape x.shape idx at hidx
  rw [Tensor.get_map hwf hidx, slice_map x _ hwf hidx]
  have h1 := isGreatest_map_range hs fun q => x.get (idx.set dim q)
  have h2 := isLeast_map_range hs fun q => x.get (idx.set dim q)
  have h1' := isGreatest_map_range hs fun q => x.get (idx.set dim q) + c
  have h2' := isLeast_map_range hs fun q => x.get (idx.set dim q) + c
  have e1 : maxL ((slice x dim idx).map fun v => v + c) = maxL (slice x dim idx) + c := by
    unfold slice
    rw [List.map_map]
    refine h1'.unique ⟨?_, ?_⟩
    · obtain ⟨q, hq, e⟩ := h1.1
      exact ⟨q, hq, by rw [← e]⟩
    · rintro v ⟨q, hq, rfl⟩
      have := h1.2 ⟨q, hq, rfl⟩
      linarith
  have e2 : minL ((slice x dim idx).map fun v => v + c) = minL (slice x dim idx) + c := by
    unfold slice
    rw [List.map_map]
    refine h2'.unique ⟨?_, ?_⟩
    · obtain ⟨q, hq, e⟩ := h2.1
      exact ⟨q, hq, by rw [← e]⟩
    · rintro v ⟨q, hq, rfl⟩
      have := h2.2 ⟨q, hq, rfl⟩
      linarith
  rw [e1, e2]
  push_cast
  congr 1 <;> ring

example : ∃ out, maxCenterNormalization (Tensor.tab2 2 2 fun b i => (b : ℝ) - 3 * i) 1 1 = .ok out ∧
    |out.get [1, 1]| < 1 := by
  obtain ⟨out, h1, _, h2⟩ := C37_max_center (Tensor.tab2 2 2 fun b i => (b : ℝ) - 3 * i) 1 one_pos 1
    (by simp) (by simp)
  exact ⟨out, h1, (h2 [1, 1] (by simp [InShape])).1⟩

example : maxCenterNormalization ((Tensor.tab2 2 2 fun b i => (b : ℝ) - 3 * i).map fun v => v + 5) 1 1
    = maxCenterNormalization (Tensor.tab2 2 2 fun b i => (b : ℝ) - 3 * i) 1 1 :=
  C37_max_center_shift_invariant _ 1 5 1 (Tensor.wf_tab2 _ _ _) (by simp) (by simp)

/-- **C38.** `l2_normalization(x, eps)` with `eps > 0` multiplies every slice along axis 1 by one positive number,
and turns Euclidean norm `r` into `r / (r + eps) < 1`. -/
theorem C38_l2 (x : Tensor ℝ) (eps : ℝ) (heps : 0 < eps) (hd : 1 < x.shape.length)
    (hs : 0 < x.shape.getD 1 0) :
    ∃ out, l2Normalization x eps = .ok out ∧ out.shape = x.shape ∧
      ∀ idx, InShape x.shape idx →
        (∃ c > 0, ∀ q < x.shape.getD 1 0, out.get (idx.set 1 q) = c * x.get (idx.set 1 q)) ∧
        √(∑ q ∈ Finset.range (x.shape.getD 1 0), out.get (idx.set 1 q) ^ 2)
          = √(∑ q ∈ Finset.range (x.shape.getD 1 0), x.get (idx.set 1 q) ^ 2)
            / (√(∑ q ∈ Finset.range (x.shape.getD 1 0), x.get (idx.set 1 q) ^ 2) + eps) ∧
        √(∑ q ∈ Finset.range (x.shape.getD 1 0), out.get (idx.set 1 q) ^ 2) < 1 := by
  refine ⟨_, l2Normalization_eq x eps hd hs, rfl, ?_⟩
  intro idx hidx
  set r := √(∑ q ∈ Finset.range (x.shape.getD 1 0), x.get (idx.set 1 q) ^ 2) with hr
  have hr0 : 0 ≤ r := Real.sqrt_nonneg _
  have hpos : 0 < r + eps := by linarith
  have hnorm : TorchScalar.sqrt (sumL ((slice x 1 idx).map fun a => a * a)) = r := by
    unfold slice
    rw [List.map_map, sqrt_real, hr]
    congr 1
    refine (sumL_range _ _).trans (Finset.sum_congr rfl fun q _ => ?_)
    simp only [Function.comp]; ring
  have hget : ∀ q < x.shape.getD 1 0, (Tensor.tabulate x.shape fun idx =>
      x.get idx / (TorchScalar.sqrt (sumL ((slice x 1 idx).map fun a => a * a)) + eps)).get (idx.set 1 q)
      = 1 / (r + eps) * x.get (idx.set 1 q) := by
    intro q hq
    rw [Tensor.get_tabulate (inShape_set hidx hq), slice_set, hnorm]
    ring
  have hsum : √(∑ q ∈ Finset.range (x.shape.getD 1 0), ((Tensor.tabulate x.shape fun idx =>
      x.get idx / (TorchScalar.sqrt (sumL ((slice x 1 idx).map fun a => a * a)) + eps)).get
        (idx.set 1 q)) ^ 2) = r / (r + eps) := by
    have : ∑ q ∈ Finset.range (x.shape.getD 1 0), ((Tensor.tabulate x.shape fun idx =>
      x.get idx / (TorchScalar.sqrt (sumL ((slice x 1 idx).map fun a => a * a)) + eps)).get
        (idx.set 1 q)) ^ 2
        = (1 / (r + eps)) ^ 2 * ∑ q ∈ Finset.range (x.shape.getD 1 0), x.get (idx.set 1 q) ^ 2 := by
      rw [Finset.mul_sum]
      refine Finset.sum_congr rfl fun q hq => ?_
      rw [hget q (Finset.mem_range.1 hq)]; ring
    rw [this, Real.sqrt_mul (by positivity), Real.sqrt_sq (by positivity), ← hr]
    ring
  refine ⟨⟨1 / (r + eps), by positivity, hget⟩, hsum, ?_⟩
  rw [hsum, div_lt_one hpos]; linarith

example : ∃ out, l2Normalization (Tensor.tab2 1 2 fun _ i => 3 + (i : ℝ)) 5 = .ok out ∧
    √(∑ q ∈ Finset.range 2, out.get ([0, 0].set 1 q) ^ 2) < 1 := by
  obtain ⟨out, h1, _, h2⟩ := C38_l2 (Tensor.tab2 1 2 fun _ i => 3 + (i : ℝ)) 5 (by norm_num) (by simp) (by simp)
  exact ⟨out, h1, (h2 [0, 0] (by simp [InShape])).2.2⟩

/-! ## C39 -/

/-- **C39 (nd).** `max_abs_normalization_nd` keeps the shape and divides every sample by the largest magnitude of
all its entries (plus `eps`). -/
theorem C39_max_abs_nd (x : Tensor ℝ) (eps : ℝ) (s0 : ℕ) (ss : List ℕ) (hx : x.shape = s0 :: ss)
    (hwf : x.WF) (h0 : 0 < s0) (hss : 0 < numel ss) :
    ∃ out, maxAbsNormalizationND x eps = .ok out ∧ out.shape = x.shape ∧
      ∀ b < s0, ∃ M, IsGreatest {v | ∃ rest, InShape ss rest ∧ v = |x.get (b :: rest)|} M ∧
        ∀ rest, InShape ss rest → out.get (b :: rest) = x.get (b :: rest) / (M + eps) := by
  have hwf' : (x.reshape [s0, numel ss]).WF := Tensor.wf_reshape hwf (by rw [hx]; simp [numel])
  have hkey := maxAbsNormalization_eq (x.reshape [s0, numel ss]) eps (dim := 1) hwf' (by simp)
    (by simpa using hss)
  have hnd : maxAbsNormalizationND x eps = .ok ((Tensor.tabulate [s0, numel ss] fun idx =>
      (x.reshape [s0, numel ss]).get idx
        / (maxL ((slice (x.reshape [s0, numel ss]) 1 idx).map TorchScalar.abs) + eps)).reshape x.shape) := by
    unfold maxAbsNormalizationND
    rw [flattenRows_ok x hx h0]
    unfold maxAbsNormalization at hkey
    cases hm : maxAbs (x.reshape [s0, numel ss]) 1 with
    | error e => rw [hm] at hkey; exact absurd hkey (by simp [bind, Except.bind])
    | ok m =>
      rw [hm] at hkey
      have : zipDim (fun a c => a / (c + eps)) (x.reshape [s0, numel ss]) m 1 = _ := Except.ok.inj hkey
      show Except.bind (maxAbs (x.reshape [s0, numel ss]) 1) _ = _
      rw [hm]
      show Except.ok _ = _
      rw [this]
      rfl
  refine ⟨_, hnd, rfl, ?_⟩
  intro b hb
  have h1 := isGreatest_map_range hss fun r => |x.get (b :: unravel ss r)|
  refine ⟨maxL ((List.range (numel ss)).map fun r => |x.get (b :: unravel ss r)|), ⟨?_, ?_⟩, ?_⟩
  · obtain ⟨q, hq, e⟩ := h1.1
    exact ⟨unravel ss q, inShape_unravel hq, e⟩
  · rintro v ⟨rest, hrest, rfl⟩
    exact h1.2 ⟨ravel ss rest, ravel_lt hrest, by rw [unravel_ravel hrest]⟩
  · intro rest hrest
    rw [hx, get_unflatten _ (by rfl), Tensor.get_tabulate (inShape2.2 ⟨hb, ravel_lt hrest⟩),
      get_flatten x hx, slice_flatten x hx, List.map_map]
    rfl

/-- **C39 (nd, centred).** `max_center_normalization_nd` keeps the shape and centres and scales every sample by the
largest and smallest of all its entries. -/
theorem C39_max_center_nd (x : Tensor ℝ) (eps : ℝ) (s0 : ℕ) (ss : List ℕ) (hx : x.shape = s0 :: ss)
    (h0 : 0 < s0) (hss : 0 < numel ss) :
    ∃ out, maxCenterNormalizationND x eps = .ok out ∧ out.shape = x.shape ∧
      ∀ b < s0, ∃ M m, IsGreatest {v | ∃ rest, InShape ss rest ∧ v = x.get (b :: rest)} M ∧
        IsLeast {v | ∃ rest, InShape ss rest ∧ v = x.get (b :: rest)} m ∧
        ∀ rest, InShape ss rest →
          out.get (b :: rest) = (x.get (b :: rest) - (M + m) / 2) / ((M - m) / 2 + eps) := by
  have hkey := maxCenterNormalization_eq (x.reshape [s0, numel ss]) eps (dim := 1) (by simp)
    (by simpa using hss)
  unfold maxCenterNormalizationND
  rw [flattenRows_ok x hx h0]
  simp only [bind, Except.bind, hkey]
  refine ⟨_, rfl, rfl, ?_⟩
  intro b hb
  have h1 := isGreatest_map_range hss fun r => x.get (b :: unravel ss r)
  have h2 := isLeast_map_range hss fun r => x.get (b :: unravel ss r)
  refine ⟨maxL ((List.range (numel ss)).map fun r => x.get (b :: unravel ss r)),
    minL ((List.range (numel ss)).map fun r => x.get (b :: unravel ss r)), ⟨?_, ?_⟩, ⟨?_, ?_⟩, ?_⟩
  · obtain ⟨q, hq, e⟩ := h1.1
    exact ⟨unravel ss q, inShape_unravel hq, e⟩
  · rintro v ⟨rest, hrest, rfl⟩
    exact h1.2 ⟨ravel ss rest, ravel_lt hrest, by rw [unravel_ravel hrest]⟩
  · obtain ⟨q, hq, e⟩ := h2.1
    exact ⟨unravel ss q, inShape_unravel hq, e⟩
  · rintro v ⟨rest, hrest, rfl⟩
    exact h2.2 ⟨ravel ss rest, ravel_lt hrest, by rw [unravel_ravel hrest]⟩
  · intro rest hrest
    rw [hx, get_unflatten _ (by rfl),
      Tensor.get_tabulate (s := (x.reshape [s0, numel ss]).shape) (inShape2.2 ⟨hb, ravel_lt hrest⟩),
      get_flatten x hx, slice_flatten x hx]
    push_cast
    congr 1 <;> ring

/-- **C39 (last).** In every arithmetic: the last-axis variants normalize along the last axis, and the result on a
slice depends only on that slice, whatever the rest of the tensor. -/
theorem C39_last_axis {K : Type} [TorchScalar K] (x y : Tensor K) (eps : K) (hx : x.WF) (hy : y.WF)
    (hsh : y.shape = x.shape) (h0 : 0 < x.shape.length) (hs : 0 < x.shape.getD (x.shape.length - 1) 0) :
    ∃ a a' c c', maxAbsNormalizationLast x eps = .ok a ∧ maxAbsNormalizationLast y eps = .ok a' ∧
      maxCenterNormalizationLast x eps = .ok c ∧ maxCenterNormalizationLast y eps = .ok c' ∧
      a.shape = x.shape ∧ c.shape = x.shape ∧
      ∀ idx, InShape x.shape idx →
        (∀ q < x.shape.getD (x.shape.length - 1) 0,
          y.get (idx.set (x.shape.length - 1) q) = x.get (idx.set (x.shape.length - 1) q)) →
        a'.get idx = a.get idx ∧ c'.get idx = c.get idx := by
  have hd : x.shape.length - 1 < x.shape.length := by omega
  unfold maxAbsNormalizationLast maxCenterNormalizationLast
  refine ⟨_, _, _, _, maxAbsNormalization_eq x eps hx hd hs,
    maxAbsNormalization_eq y eps hy (by rw [hsh]; exact hd) (by rw [hsh]; exact hs),
    maxCenterNormalization_eq x eps hd hs,
    maxCenterNormalization_eq y eps (by rw [hsh]; exact hd) (by rw [hsh]; exact hs), rfl, rfl, ?_⟩
  intro idx hidx h
  have hsl : slice y (y.shape.length - 1) idx = slice x (x.shape.length - 1) idx := by
    unfold slice
    rw [hsh]
    exact List.map_congr_left fun q hq => h q (List.mem_range.1 hq)
  have hge : y.get idx = x.get idx := by
    have := h _ (getD_lt_of_inShape hidx hd)
    rwa [set_getD_self] at this
  have hidy : InShape y.shape idx := by rw [hsh]; exact hidx
  constructor
  · rw [Tensor.get_tabulate hidy, Tensor.get_tabulate hidx, hsl, hge]
  · rw [Tensor.get_tabulate hidy, Tensor.get_tabulate hidx, hsl, hge]

example : ∃ out, maxAbsNormalizationND (Tensor.tab3 2 2 2 fun b i j => (b : ℝ) + i + j) 1 = .ok out ∧
    out.shape = [2, 2, 2] := by
  obtain ⟨out, h1, h2, _⟩ := C39_max_abs_nd (Tensor.tab3 2 2 2 fun b i j => (b : ℝ) + i + j) 1 2 [2, 2] rfl
    (Tensor.wf_tab3 _ _ _ _) (by norm_num) (by simp [numel])
  exact ⟨out, h1, h2⟩

example : ∃ out, maxCenterNormalizationND (Tensor.tab3 2 2 2 fun b i j => (b : ℝ) + i + j) 1 = .ok out ∧
    out.shape = [2, 2, 2] := by
  obtain ⟨out, h1, h2, _⟩ := C39_max_center_nd (Tensor.tab3 2 2 2 fun b i j => (b : ℝ) + i + j) 1 2 [2, 2] rfl
    (by norm_num) (by simp [numel])
  exact ⟨out, h1, h2⟩

/-- Two tensors that agree on their first row. -/
example : ∃ a a', maxAbsNormalizationLast (Tensor.tab2 2 2 fun b i => (b : ℝ) + i) 1 = .ok a ∧
    maxAbsNormalizationLast (Tensor.tab2 2 2 fun b i => (7 * b : ℝ) + i) 1 = .ok a' ∧
    a'.get [0, 1] = a.get [0, 1] := by
  obtain ⟨a, a', _, _, h1, h2, _, _, _, _, h⟩ := C39_last_axis (Tensor.tab2 2 2 fun b i => (b : ℝ) + i)
    (Tensor.tab2 2 2 fun b i => (7 * b : ℝ) + i) 1 (Tensor.wf_tab2 _ _ _) (Tensor.wf_tab2 _ _ _) rfl
    (by simp) (by simp)
  refine ⟨a, a', h1, h2, (h [0, 1] (by simp [InShape]) ?_).1⟩
  intro q hq
  have hq' : q < 2 := by simpa using hq
  show (Tensor.tab2 2 2 fun b i => (7 * b : ℝ) + i).get [0, q] = (Tensor.tab2 2 2 fun b i => (b : ℝ) + i).get [0, q]
  rw [Tensor.get_tab2 (by norm_num) hq', Tensor.get_tab2 (by norm_num) hq']
  norm_num

end HOL
