import Verif.Props.Approx

/-! # C85: layers with two nodes per segment: bounds, slopes and monotonicity -/

namespace HOL
open Polynomial Spec

theorem linkPoly_two_eval (u : ℕ → ℝ) (t : ℝ) : (linkPoly 2 u).eval t = u 0 + (u 1 - u 0) * ((t + 1) / 2) := by
  have n0 : node 2 0 = -1 := node_zero le_rfl
  have n1 : node 2 1 = 1 := node_last (n := 2) le_rfl
  have e : linkPoly 2 u = linkPoly 2 (fun j => (Polynomial.C ((u 1 - u 0) / 2) * X + Polynomial.C ((u 0 + u 1) / 2)).eval (node 2 j)) := by
    apply linkPoly_congr
    intro j hj
    have : j = 0 ∨ j = 1 := by omega
    rcases this with rfl | rfl
    · rw [n0]; simp only [eval_add, eval_mul, eval_C, eval_X]; ring
    · rw [n1]; simp only [eval_add, eval_mul, eval_C, eval_X]; ring
  rw [e, linkPoly_eq_of_degree_lt]
  · simp only [eval_add, eval_mul, eval_C, eval_X]; ring
  · exact lt_of_le_of_lt (b := (1 : WithBot ℕ)) degree_linear_le (by norm_num)

/-- Rises from 0 to 1 on segment `s`; the first and the last continue outside `[-1, 1]`. -/
noncomputable def ramp (S s : ℕ) (x : ℝ) : ℝ :=
  S / 2 * ((if s + 1 = S then (if s = 0 then x else max x (segLeft S s)) else min (if s = 0 then x else max x (segLeft S s)) (segLeft S (s + 1))) - segLeft S s)

theorem ramp_mono (S s : ℕ) : Monotone (ramp S s) := by
  intro x y h
  unfold ramp
  have h1 : (if s = 0 then x else max x (segLeft S s)) ≤ (if s = 0 then y else max y (segLeft S s)) := by
    split
    · exact h
    · exact max_le_max h le_rfl
  gcongr
  split
  · exact h1
  · exact min_le_min h1 le_rfl

theorem segLeft_succ (S s : ℕ) : segLeft S (s + 1) = segLeft S s + 2 / S := by unfold segLeft; push_cast; ring

theorem ramp_active {S s : ℕ} {x : ℝ} (hs : IsActive S s x) (t : ℕ) (ht : t < S) :
    ramp S t x = if t < s then 1 else if t = s then (localCoord S s x + 1) / 2 else 0 := by
  obtain ⟨hlt, hl, hr⟩ := hs
  have hS : 0 < S := by omega
  have hSr : (S : ℝ) ≠ 0 := by positivity
  have h2S : (0 : ℝ) < 2 / S := by positivity
  unfold ramp
  rcases lt_trichotomy t s with h | h | h
  · rw [if_pos h, if_neg (by omega)]
    have hx : segLeft S s ≤ x := by
      rcases hl with e | e
      · omega
      · exact e
    have h1 : segLeft S (t + 1) ≤ x := (segLeft_mono (by omega)).trans hx
    have h2 : segLeft S t ≤ x := (segLeft_mono (by omega)).trans hx
    have : (if t = 0 then x else max x (segLeft S t)) = x := by
      split
      · rfl
      · exact max_eq_left h2
    rw [this, min_eq_right h1, segLeft_succ]
    field_simp
    ring
  · subst h
    rw [if_neg (lt_irrefl _), if_pos rfl]
    have h1 : (if t = 0 then x else max x (segLeft S t)) = x := by
      split
      · rfl
      · rcases hl with e | e
        · omega
        · exact max_eq_left e
    have h2 : (if t + 1 = S then x else min x (segLeft S (t + 1))) = x := by
      split
      · rfl
      · rcases hr with e | e
        · omega
        · exact min_eq_left e.le
    rw [h1, h2]
    unfold localCoord segLeft
    field_simp
    ring
  · rw [if_neg (by omega : ¬ t < s), if_neg (by omega : ¬ t = s)]
    simp only [if_neg (by omega : ¬ t = 0)]
    have hx : x ≤ segLeft S t := by
      rcases hr with e | e
      · omega
      · exact e.le.trans (segLeft_mono (by omega))
    rw [max_eq_right hx]
    have : min (segLeft S t) (segLeft S (t + 1)) = segLeft S t := min_eq_left (segLeft_mono (by omega))
    rw [this]
    simp

/-- A continuous piecewise linear link as a sum of ramps. -/
theorem link_as_ramps {S : ℕ} (hS : 0 < S) {v : ℕ → ℝ} {f : ℝ → ℝ} (hf : IsPiecewisePoly 2 S 1 v f) (x : ℝ) :
    f x = v 0 + ∑ t ∈ Finset.range S, (v (t + 1) - v t) * ramp S t x := by
  obtain ⟨s, hs⟩ := isActive_exists hS x
  rw [hf s x hs, linkPoly_two_eval]
  have hsub : Finset.range (s + 1) ⊆ Finset.range S := Finset.range_subset_range.2 hs.1
  rw [← Finset.sum_subset hsub (fun t ht hts => by
    have h1 := Finset.mem_range.1 ht
    have h2 : ¬ t < s + 1 := fun h => hts (Finset.mem_range.2 h)
    rw [ramp_active hs t h1, if_neg (by omega), if_neg (by omega), mul_zero])]
  rw [Finset.sum_range_succ, ramp_active hs s hs.1, if_neg (lt_irrefl _), if_pos rfl]
  have : ∑ t ∈ Finset.range s, (v (t + 1) - v t) * ramp S t x = v s - v 0 := by
    rw [← Finset.sum_range_sub]
    apply Finset.sum_congr rfl
    intro t ht
    have h := Finset.mem_range.1 ht
    rw [ramp_active hs t (h.trans hs.1), if_pos h, mul_one]
  rw [this]
  simp only [mul_one, add_zero]
  ring

/-- The ramps add up to a straight line. -/
theorem sum_ramp {S : ℕ} (hS : 0 < S) (x : ℝ) : ∑ t ∈ Finset.range S, ramp S t x = S / 2 * (x + 1) := by
  have h : IsPiecewisePoly 2 S 1 (fun q => (q : ℝ)) fun x => S / 2 * (x + 1) := by
    intro s y _
    rw [linkPoly_two_eval]
    unfold localCoord
    push_cast
    ring
  have := link_as_ramps hS h x
  simp only [Nat.cast_zero, zero_add, Nat.cast_add, Nat.cast_one] at this
  rw [this]
  apply Finset.sum_congr rfl
  intro t _
  ring

/-- Slopes of a link between bounds of the increments of its weights. -/
theorem link_slopes {S : ℕ} (hS : 0 < S) {v : ℕ → ℝ} {f : ℝ → ℝ} (hf : IsPiecewisePoly 2 S 1 v f) {m M : ℝ} (hv : ∀ t < S, m ≤ v (t + 1) - v t ∧ v (t + 1) - v t ≤ M)
    {x y : ℝ} (h : x ≤ y) : m * (S / 2 * (y - x)) ≤ f y - f x ∧ f y - f x ≤ M * (S / 2 * (y - x)) := by
  have e : f y - f x = ∑ t ∈ Finset.range S, (v (t + 1) - v t) * (ramp S t y - ramp S t x) := by
    rw [link_as_ramps hS hf y, link_as_ramps hS hf x, add_sub_add_left_eq_sub, ← Finset.sum_sub_distrib]
    exact Finset.sum_congr rfl fun t _ => by ring
  have e2 : (S : ℝ) / 2 * (y - x) = ∑ t ∈ Finset.range S, (ramp S t y - ramp S t x) := by
    rw [Finset.sum_sub_distrib, sum_ramp hS, sum_ramp hS]; ring
  rw [e, e2, Finset.mul_sum, Finset.mul_sum]
  constructor <;> apply Finset.sum_le_sum <;> intro t ht <;> have h0 : 0 ≤ ramp S t y - ramp S t x := sub_nonneg.2 (ramp_mono S t h)
  · exact mul_le_mul_of_nonneg_right (hv t (Finset.mem_range.1 ht)).1 h0
  · exact mul_le_mul_of_nonneg_right (hv t (Finset.mem_range.1 ht)).2 h0

/-- **C85 (hull).** With two nodes per segment every output at inputs in `[-1, 1]` lies between the sum of the lower and the sum of the upper bounds of the weights of its links (in particular
between the sums of the smallest and of the largest weights), for continuous and discontinuous layers. -/
theorem C85_hull (L : PwLayer ℝ) (h : L.WF) (hc : L.cls = .continuous ∨ L.cls = .discontinuous) (hl : L.length = 2) (hp : L.periodicity = none) (hn : L.n = 2)
    (lo hi : ℕ → ℕ → ℝ) (hw : ∀ o < L.outFeatures, ∀ i < L.inFeatures, ∀ q < PwLayer.wSize L.cls L.n L.segments, lo o i ≤ L.w.get [o, i, q] ∧ L.w.get [o, i, q] ≤ hi o i)
    {B : ℕ} {x : Tensor ℝ} (hx : x.shape = [B, L.inFeatures]) (hwf : x.WF) (hr : InRange x B L.inFeatures) :
    ∃ out, L.forward x = .ok out ∧ ∀ b < B, ∀ o < L.outFeatures,
      ∑ i ∈ Finset.range L.inFeatures, lo o i ≤ out.get [b, o] ∧ out.get [b, o] ≤ ∑ i ∈ Finset.range L.inFeatures, hi o i := by
  refine ⟨_, L.forward_sum h hc hx hwf, ?_⟩
  intro b hb o ho
  rw [Tensor.get_tab2 hb ho]
  have key : ∀ i ∈ Finset.range L.inFeatures, lo o i ≤ L.linkFn o i (x.get [b, i]) ∧ L.linkFn o i (x.get [b, i]) ≤ hi o i := by
    intro i hi'
    have hi'' := Finset.mem_range.1 hi'
    obtain ⟨h1, h2⟩ := hr b hb i hi''
    obtain ⟨s, hs⟩ := isActive_exists h.seg_pos (x.get [b, i])
    obtain ⟨-, -, b3, b4⟩ := isActive_bounds hs h1 h2
    rw [L.linkFn_isPiecewise h.seg_pos hl hp o i s _ hs, hn, linkPoly_two_eval]
    have hq : ∀ k < 2, s * L.stride + k < PwLayer.wSize L.cls L.n L.segments := by
      intro k hk
      have hs1 := hs.1
      rcases hc with hc | hc
      · simp only [PwLayer.stride, PwLayer.wSize, hc, PwClass.shared, if_true, hn]
        omega
      · simp only [PwLayer.stride, PwLayer.wSize, hc, PwClass.shared, hn]
        simp only [Bool.false_eq_true, if_false]
        omega
    have w0 := hw o ho i hi'' _ (hq 0 (by norm_num))
    have w1 := hw o ho i hi'' _ (hq 1 (by norm_num))
    set t := (localCoord L.segments s (x.get [b, i]) + 1) / 2 with ht
    have t0 : 0 ≤ t := by rw [ht]; linarith
    have t1 : t ≤ 1 := by rw [ht]; linarith
    beta_reduce
    constructor <;> nlinarith
  exact ⟨Finset.sum_le_sum fun i hi => (key i hi).1, Finset.sum_le_sum fun i hi => (key i hi).2⟩

/-- **C85 (slopes).** With two nodes per segment, if the increments between successive weights of every link lie in `[m, M]`, then raising the inputs of a continuous layer changes an output
by between `m` and `M` times `segments / 2` times the rise, summed over the inputs: these are the slopes of the layer, also outside `[-1, 1]`. -/
theorem C85_slopes (L : PwLayer ℝ) (h : L.WF) (hc : L.cls = .continuous) (hl : L.length = 2) (hp : L.periodicity = none) (hn : L.n = 2)
    (m M : ℕ → ℕ → ℝ) (hw : ∀ o < L.outFeatures, ∀ i < L.inFeatures, ∀ q < L.segments,
      m o i ≤ L.w.get [o, i, q + 1] - L.w.get [o, i, q] ∧ L.w.get [o, i, q + 1] - L.w.get [o, i, q] ≤ M o i)
    {B : ℕ} {x y : Tensor ℝ} (hx : x.shape = [B, L.inFeatures]) (hwx : x.WF) (hy : y.shape = [B, L.inFeatures]) (hwy : y.WF)
    (hxy : ∀ b < B, ∀ i < L.inFeatures, x.get [b, i] ≤ y.get [b, i]) :
    ∃ ox oy, L.forward x = .ok ox ∧ L.forward y = .ok oy ∧ ∀ b < B, ∀ o < L.outFeatures,
      ∑ i ∈ Finset.range L.inFeatures, m o i * (L.segments / 2 * (y.get [b, i] - x.get [b, i])) ≤ oy.get [b, o] - ox.get [b, o] ∧
      oy.get [b, o] - ox.get [b, o] ≤ ∑ i ∈ Finset.range L.inFeatures, M o i * (L.segments / 2 * (y.get [b, i] - x.get [b, i])) := by
  refine ⟨_, _, L.forward_sum h (Or.inl hc) hx hwx, L.forward_sum h (Or.inl hc) hy hwy, ?_⟩
  intro b hb o ho
  rw [Tensor.get_tab2 hb ho, Tensor.get_tab2 hb ho, ← Finset.sum_sub_distrib]
  have hlink : ∀ i, IsPiecewisePoly 2 L.segments 1 (fun q => L.w.get [o, i, q]) (L.linkFn o i) := by
    intro i
    have := L.linkFn_isPiecewise h.seg_pos hl hp o i
    have hs : L.stride = 1 := by simp [PwLayer.stride, hc, PwClass.shared, hn]
    rwa [hn, hs] at this
  constructor <;> apply Finset.sum_le_sum <;> intro i hi <;> have hi' := Finset.mem_range.1 hi
  · exact (link_slopes h.seg_pos (hlink i) (fun t ht => hw o ho i hi' t ht) (hxy b hb i hi')).1
  · exact (link_slopes h.seg_pos (hlink i) (fun t ht => hw o ho i hi' t ht) (hxy b hb i hi')).2

/-- **C85 (monotone).** A continuous layer with two nodes per segment is monotone in all its inputs exactly if the weights of every link never decrease. -/
theorem C85_monotone (L : PwLayer ℝ) (h : L.WF) (hc : L.cls = .continuous) (hl : L.length = 2) (hp : L.periodicity = none) (hn : L.n = 2) :
    (∀ (x y ox oy : Tensor ℝ), x.shape = [1, L.inFeatures] → x.WF → y.shape = [1, L.inFeatures] → y.WF → (∀ i < L.inFeatures, x.get [0, i] ≤ y.get [0, i]) →
      L.forward x = .ok ox → L.forward y = .ok oy → ∀ o < L.outFeatures, ox.get [0, o] ≤ oy.get [0, o]) ↔
    ∀ o < L.outFeatures, ∀ i < L.inFeatures, ∀ q < L.segments, L.w.get [o, i, q] ≤ L.w.get [o, i, q + 1] := by
  have hSr : (0 : ℝ) < L.segments := by exact_mod_cast h.seg_pos
  have hlink : ∀ o i, IsPiecewisePoly 2 L.segments 1 (fun q => L.w.get [o, i, q]) (L.linkFn o i) := by
    intro o i
    have := L.linkFn_isPiecewise h.seg_pos hl hp o i
    have hs : L.stride = 1 := by simp [PwLayer.stride, hc, PwClass.shared, hn]
    rwa [hn, hs] at this
  constructor
  · intro hm o ho i hi q hq
    -- change input `i` only, from one node to the next
    let x : ℝ → Tensor ℝ := fun a => Tensor.tab2 1 L.inFeatures fun _ j => if j = i then a else 0
    have hget : ∀ a, ∀ j < L.inFeatures, (x a).get [0, j] = if j = i then a else 0 := fun a j hj => Tensor.get_tab2 (by norm_num) hj
    have hfw : ∀ a, L.forward (x a) = .ok _ := fun a => L.forward_sum h (Or.inl hc) (B := 1) rfl (Tensor.wf_tabulate _ _)
    have hle : segLeft L.segments q ≤ segLeft L.segments (q + 1) := segLeft_mono (by omega)
    have := hm (x (segLeft L.segments q)) (x (segLeft L.segments (q + 1))) _ _ rfl (Tensor.wf_tabulate _ _) rfl (Tensor.wf_tabulate _ _)
      (fun j hj => by
        rw [hget _ j hj, hget _ j hj]
        split
        · exact hle
        · exact le_rfl) (hfw _) (hfw _) o ho
    rw [Tensor.get_tab2 (by norm_num) ho, Tensor.get_tab2 (by norm_num) ho] at this
    have hval : ∀ k < 2, L.linkFn o i (segLeft L.segments q + (node 2 k + 1) / L.segments) = L.w.get [o, i, q * 1 + k] :=
      fun k hk => isPiecewise_at_node le_rfl (hlink o i) hq hk
    have h0 := hval 0 (by norm_num)
    have h1 := hval 1 (by norm_num)
    rw [node_zero le_rfl] at h0
    rw [show (1 : ℕ) = 2 - 1 from rfl, node_last le_rfl] at h1
    have e0 : segLeft L.segments q + (-1 + 1) / (L.segments : ℝ) = segLeft L.segments q := by simp
    have e1 : segLeft L.segments q + (1 + 1) / (L.segments : ℝ) = segLeft L.segments (q + 1) := by rw [segLeft_succ]; norm_num
    rw [e0] at h0
    rw [e1] at h1
    have hdiff : ∀ a, ∑ j ∈ Finset.range L.inFeatures, L.linkFn o j ((x a).get [0, j])
        = L.linkFn o i a + ∑ j ∈ (Finset.range L.inFeatures).erase i, L.linkFn o j 0 := by
      intro a
      rw [← Finset.add_sum_erase _ _ (Finset.mem_range.2 hi), hget a i hi, if_pos rfl]
      congr 1
      apply Finset.sum_congr rfl
      intro j hj
      rw [hget a j (Finset.mem_range.1 (Finset.mem_of_mem_erase hj)), if_neg (Finset.ne_of_mem_erase hj)]
    rw [hdiff, hdiff, h0, h1] at this
    have := le_of_add_le_add_right this
    simpa using this
  · intro hw x y ox oy hx hwx hy hwy hxy hox hoy o ho
    rw [L.forward_sum h (Or.inl hc) hx hwx, Except.ok.injEq] at hox
    rw [L.forward_sum h (Or.inl hc) hy hwy, Except.ok.injEq] at hoy
    rw [← hox, ← hoy, Tensor.get_tab2 (by norm_num) ho, Tensor.get_tab2 (by norm_num) ho]
    apply Finset.sum_le_sum
    intro i hi
    have hi' := Finset.mem_range.1 hi
    rw [link_as_ramps h.seg_pos (hlink o i), link_as_ramps h.seg_pos (hlink o i)]
    refine add_le_add le_rfl (Finset.sum_le_sum fun t ht => ?_)
    exact mul_le_mul_of_nonneg_left (ramp_mono _ _ (hxy i hi')) (sub_nonneg.2 (hw o ho i hi' t (Finset.mem_range.1 ht)))

/-- One input, three nodes, one segment, weights 1, 1, 0. -/
noncomputable def exOver : PwLayer ℝ :=
  { cls := .continuous, n := 3, segments := 1, inFeatures := 1, outFeatures := 1, length := 2, periodicity := none, w := ⟨[1, 1, 3], [1, 1, 0]⟩ }

theorem exOver_wf : exOver.WF := ⟨by norm_num [exOver], by norm_num [exOver], by norm_num [exOver], by norm_num [exOver], rfl, rfl⟩

/-- **C85 (overshoot).** With three nodes this fails: a layer with weights between 0 and 1, which never increase, has the value 9/8 at `-1/2` and 1 at `-1`. -/
theorem C85_overshoot : ∃ out, exOver.forward ⟨[2, 1], [-1 / 2, -1]⟩ = .ok out ∧ out.get [0, 0] = 9 / 8 ∧ out.get [1, 0] = 1 := by
  refine ⟨_, exOver.forward_sum exOver_wf (Or.inl rfl) (B := 2) rfl rfl, ?_⟩
  have hpoly : ∀ x : ℝ, -1 ≤ x → x < 1 → exOver.linkFn 0 0 x = 1 - x / 2 - x ^ 2 / 2 := by
    intro x h1 h2
    have hact : IsActive 1 0 x := ⟨by norm_num, Or.inl rfl, Or.inl rfl⟩
    rw [exOver.linkFn_isPiecewise exOver_wf.seg_pos rfl rfl 0 0 0 x hact]
    have hloc : localCoord exOver.segments 0 x = x := by
      show localCoord 1 0 x = x
      unfold localCoord; push_cast; ring
    rw [hloc]
    show (linkPoly 3 fun k => exOver.w.get [0, 0, 0 * exOver.stride + k]).eval x = _
    have n0 : node 3 0 = -1 := node_zero (by norm_num)
    have n2 : node 3 2 = 1 := node_last (n := 3) (by norm_num)
    have n1 : node 3 1 = 0 := by
      have := node_antisymm (n := 3) (j := 1) (by norm_num)
      norm_num at this
      linarith
    have e : linkPoly 3 (fun k => exOver.w.get [0, 0, 0 * exOver.stride + k])
        = linkPoly 3 (fun j => (Polynomial.C (-1 / 2 : ℝ) * X ^ 2 + Polynomial.C (-1 / 2 : ℝ) * X + Polynomial.C 1).eval (node 3 j)) := by
      apply linkPoly_congr
      intro j hj
      have : j = 0 ∨ j = 1 ∨ j = 2 := by omega
      rcases this with rfl | rfl | rfl
      · rw [n0]; norm_num [exOver, Tensor.get, ravel, numel]
      · rw [n1]; norm_num [exOver, Tensor.get, ravel, numel]
      · rw [n2]; norm_num [exOver, Tensor.get, ravel, numel]
    rw [e, linkPoly_eq_of_degree_lt]
    · simp only [eval_add, eval_mul, eval_C, eval_X, eval_pow]; ring
    · exact lt_of_le_of_lt (b := (2 : WithBot ℕ)) degree_quadratic_le (by norm_num)
  constructor
  · rw [Tensor.get_tab2 (by norm_num) (by norm_num [exOver])]
    show ∑ i ∈ Finset.range 1, _ = _
    rw [Finset.sum_range_one]
    have : (⟨[2, 1], [-1 / 2, -1]⟩ : Tensor ℝ).get [0, 0] = -1 / 2 := by norm_num [Tensor.get, ravel, numel]
    rw [this, hpoly _ (by norm_num) (by norm_num)]
    norm_num
  · rw [Tensor.get_tab2 (by norm_num) (by norm_num [exOver])]
    show ∑ i ∈ Finset.range 1, _ = _
    rw [Finset.sum_range_one]
    have : (⟨[2, 1], [-1 / 2, -1]⟩ : Tensor ℝ).get [1, 0] = -1 := by norm_num [Tensor.get, ravel, numel]
    rw [this, hpoly _ (by norm_num) (by norm_num)]
    norm_num

/-- A layer with two nodes and three segments, weights 0, 1, 3, 4. -/
noncomputable def exTwoNodes : PwLayer ℝ :=
  { cls := .continuous, n := 2, segments := 3, inFeatures := 1, outFeatures := 1, length := 2, periodicity := none, w := ⟨[1, 1, 4], [0, 1, 3, 4]⟩ }

theorem exTwoNodes_wf : exTwoNodes.WF := ⟨by norm_num [exTwoNodes], by norm_num [exTwoNodes], by norm_num [exTwoNodes], by norm_num [exTwoNodes], rfl, rfl⟩

/-- It maps `[-1, 1]` into `[0, 4]`, and it is monotone. -/
example : (∃ out, exTwoNodes.forward ⟨[2, 1], [1 / 2, -1 / 3]⟩ = .ok out ∧ ∀ b < 2, 0 ≤ out.get [b, 0] ∧ out.get [b, 0] ≤ 4) ∧
    ∀ (x y ox oy : Tensor ℝ), x.shape = [1, 1] → x.WF → y.shape = [1, 1] → y.WF → (∀ i < 1, x.get [0, i] ≤ y.get [0, i]) →
      exTwoNodes.forward x = .ok ox → exTwoNodes.forward y = .ok oy → ∀ o < 1, ox.get [0, o] ≤ oy.get [0, o] := by
  have hw : ∀ q < 4, (0 : ℝ) ≤ exTwoNodes.w.get [0, 0, q] ∧ exTwoNodes.w.get [0, 0, q] ≤ 4 := by
    intro q hq
    have : q = 0 ∨ q = 1 ∨ q = 2 ∨ q = 3 := by omega
    rcases this with rfl | rfl | rfl | rfl <;> norm_num [exTwoNodes, Tensor.get, ravel, numel]
  constructor
  · obtain ⟨out, h1, h2⟩ := C85_hull exTwoNodes exTwoNodes_wf (Or.inl rfl) rfl rfl rfl (fun _ _ => 0) (fun _ _ => 4)
      (fun o ho i hi q hq => by
        have : o = 0 := Nat.lt_one_iff.1 ho
        have : i = 0 := Nat.lt_one_iff.1 hi
        subst_vars
        exact hw q hq) (B := 2) (x := ⟨[2, 1], [1 / 2, -1 / 3]⟩) rfl rfl
      (fun b hb i hi => by
        have hi : i = 0 := Nat.lt_one_iff.1 hi
        have : b = 0 ∨ b = 1 := by omega
        rcases this with rfl | rfl <;> subst hi <;> norm_num [Tensor.get, ravel, numel])
    refine ⟨out, h1, fun b hb => ?_⟩
    have := h2 b hb 0 (by norm_num [exTwoNodes])
    simpa [exTwoNodes] using this
  · exact (C85_monotone exTwoNodes exTwoNodes_wf rfl rfl rfl rfl).2 fun o ho i hi q hq => by
      have ho : o = 0 := Nat.lt_one_iff.1 ho
      have hi : i = 0 := Nat.lt_one_iff.1 hi
      change q < 3 at hq
      have : q = 0 ∨ q = 1 ∨ q = 2 := by omega
      subst ho hi
      rcases this with rfl | rfl | rfl <;> norm_num [exTwoNodes, Tensor.get, ravel, numel]

end HOL
