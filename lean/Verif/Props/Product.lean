import Verif.Model.Product
import Verif.Spec.Product
import Verif.Props.Forward
import Mathlib.Algebra.BigOperators.Ring.Finset

/-! # C32 (product units) and C14 for the `Product` layer -/

namespace HOL
open TorchScalar Spec

/-- `∏ (1 + f) - 1` with a multiple of the linear part added. -/
theorem productUnit_eq (lin : ℝ) (I : ℕ) (f : ℕ → ℝ) :
    productUnit lin I f = ∏ i ∈ Finset.range I, (1 + f i) - 1 + (lin - 1) * ∑ i ∈ Finset.range I, f i := by
  classical
  have h1 : ∏ i ∈ Finset.range I, (1 + f i) = ∑ s ∈ (Finset.range I).powerset, ∏ i ∈ s, f i :=
    Finset.prod_one_add _
  have h2 : ∑ i ∈ Finset.range I, f i
      = ∑ s ∈ (Finset.range I).powerset, if s.card = 1 then ∏ i ∈ s, f i else 0 := by
    rw [← Finset.sum_filter, ← Finset.powersetCard_eq_filter, Finset.powersetCard_one, Finset.sum_map]
    simp
  have h3 : (1 : ℝ) = ∑ s ∈ (Finset.range I).powerset, if s = ∅ then 1 else 0 := by
    rw [Finset.sum_ite_eq']; simp
  have h4 : ∀ a c : ℝ, a - 1 + c = a - (∑ s ∈ (Finset.range I).powerset, if s = ∅ then 1 else 0) + c := by
    intro a c; rw [← h3]
  rw [h1, h2, h4, Finset.mul_sum, ← Finset.sum_sub_distrib, ← Finset.sum_add_distrib]
  unfold productUnit
  apply Finset.sum_congr rfl
  intro s _
  by_cases h : s = ∅
  · subst h; simp
  · rw [if_neg h, if_neg h]
    split <;> ring

/-- The forward pass entry by entry, in every arithmetic. -/
theorem ProductLayer.forward_eq {K : Type} [TorchScalar K] (L : ProductLayer K) (bias : Tensor K)
    (hbias : L.bias = some bias) (hw : L.weight.shape = [L.outFeatures, L.inFeatures])
    {B : ℕ} {x : Tensor K} (hx : x.shape = [B, L.inFeatures]) (hwf : x.WF) :
    L.forward x = .ok (Tensor.tab2 B L.outFeatures fun b o =>
      prodL ((List.range L.inFeatures).map fun q =>
        periodize L.periodicity (x.get [b, q]) * L.weight.get [o, q] + 1)
      - (1 - L.alpha) * sumL ((List.range L.inFeatures).map fun q =>
        periodize L.periodicity (x.get [b, q]) * L.weight.get [o, q]) - 1 + bias.get [o]) := by
  unfold ProductLayer.forward einsumOuter
  simp only [Tensor.shape_map, hx, hw, bcast_self, hbias]
  show Except.ok _ = _
  congr 1
  apply tab2_congr
  intro b hb o ho
  rw [Tensor.get_tab2 hb ho, Tensor.get_tab2 hb ho]
  have e1 : ∀ q < L.inFeatures, (x.map (periodize L.periodicity)).get [b, bidx L.inFeatures q]
      = periodize L.periodicity (x.get [b, q]) := by
    intro q hq
    rw [bidx_of_lt hq, Tensor.get_map hwf (by rw [hx]; exact inShape2.2 ⟨hb, hq⟩)]
  congr 3
  · congr 1
    apply map_range_congr
    intro q hq
    rw [Tensor.get_map (Tensor.wf_tab3 _ _ _ _) (by exact inShape3.2 ⟨hb, hq, ho⟩),
      Tensor.get_tab3 hb hq ho, e1 q hq, bidx_of_lt hq]
  · congr 2
    apply map_range_congr
    intro q hq
    rw [Tensor.get_tab3 hb hq ho, e1 q hq, bidx_of_lt hq]

/-- **C32 (Product).** The `Product` layer computes the bias plus the sum of all products of its
weighted inputs, the linear part weighted by `alpha`: kept for `alpha = 1`, absent for `alpha = 0`. -/
theorem C32_product_layer (L : ProductLayer ℝ) (bias : Tensor ℝ) (hbias : L.bias = some bias)
    (hw : L.weight.shape = [L.outFeatures, L.inFeatures]) (hp : L.periodicity = none) :
    Computes L.forward L.inFeatures L.outFeatures fun o r =>
      bias.get [o] + productUnit L.alpha L.inFeatures fun i => L.weight.get [o, i] * r i := by
  intro B x hx hwf
  refine ⟨_, L.forward_eq bias hbias hw hx hwf, rfl, Tensor.wf_tabulate _ _, ?_⟩
  intro b hb o ho
  rw [Tensor.get_tab2 hb ho, prodL_range, sumL_range]
  beta_reduce
  rw [productUnit_eq, hp]
  have e1 : ∏ i ∈ Finset.range L.inFeatures, (periodize none (x.get [b, i]) * L.weight.get [o, i] + 1)
      = ∏ i ∈ Finset.range L.inFeatures, (1 + L.weight.get [o, i] * x.get [b, i]) :=
    Finset.prod_congr rfl fun i _ => by simp only [periodize]; ring
  have e2 : ∑ i ∈ Finset.range L.inFeatures, (periodize none (x.get [b, i]) * L.weight.get [o, i])
      = ∑ i ∈ Finset.range L.inFeatures, (L.weight.get [o, i] * x.get [b, i]) :=
    Finset.sum_congr rfl fun i _ => by simp only [periodize]; ring
  rw [e1, e2]
  ring

/-- **C32 (bias).** Built with `bias=False` the layer raises `TypeError` in `forward`, in every arithmetic. -/
theorem C32_product_without_bias_raises {K : Type} [TorchScalar K] (L : ProductLayer K)
    (hbias : L.bias = none) (hw : L.weight.shape = [L.outFeatures, L.inFeatures])
    {B : ℕ} {x : Tensor K} (hx : x.shape = [B, L.inFeatures]) :
    L.forward x = .error .typeError := by
  unfold ProductLayer.forward einsumOuter
  simp only [Tensor.shape_map, hx, hw, bcast_self, hbias]
  rfl

/-- **C32 (piecewise product layers).** The layers `continuous_prod` and `discontinuous_prod` compute all products
of their link values, each with weight one. -/
theorem C32_piecewise_product_layer (L : PwLayer ℝ) (h : L.WF)
    (hc : L.cls = .continuousProd ∨ L.cls = .discontinuousProd)
    (hl : L.length = 2) (hp : L.periodicity = none) :
    ∃ f : ℕ → ℕ → ℝ → ℝ,
      (∀ o i, IsPiecewisePoly L.n L.segments (if L.cls = .continuousProd then L.n - 1 else L.n)
        (fun q => L.w.get [o, i, q]) (f o i)) ∧
      Computes L.forward L.inFeatures L.outFeatures
        fun o r => productUnit 1 L.inFeatures fun i => f o i (r i) := by
  refine ⟨L.linkFn, ?_, ?_⟩
  · intro o i
    have := L.linkFn_isPiecewise h.seg_pos hl hp o i
    have hs : L.stride = if L.cls = .continuousProd then L.n - 1 else L.n := by
      rcases hc with hc | hc <;> simp [PwLayer.stride, hc, PwClass.shared]
    rwa [hs] at this
  · refine (L.computes h).congr ?_
    intro o _ r
    rw [productUnit_eq]
    rcases hc with hc | hc <;> rw [hc] <;> simp [PwClass.combine]

/-- **C32 (interpolation classes).** `LagrangePolyFlatProd(n, length, alpha)` weights the linear part of the
product by `2 - alpha`: `alpha = 0` doubles the linear part instead of removing it. -/
theorem C32_interpolation_alpha (n I O B : ℕ) (hn : 1 ≤ n) (length alpha : ℝ) (x w : Tensor ℝ)
    (hx : x.shape = [B, I]) (hw : w.shape = [O, I, n]) :
    ∃ out, (lagrangePolyFlatProd n length alpha).interpolate x w = .ok out ∧ out.shape = [B, O] ∧
      ∀ b < B, ∀ o < O, out.get [b, o] = productUnit (2 - alpha) I fun i =>
        (Lagrange.interpolate (Finset.range n) (fun j => length / 2 * node n j)
          fun k => w.get [o, i, k]).eval (x.get [b, i]) := by
  refine ⟨_, interpolate_flatProd hn _ alpha hx hw, rfl, ?_⟩
  intro b hb o ho
  rw [Tensor.get_tab2 hb ho, prodL_range, sumL_range, productUnit_eq]
  have e : ∀ i, sumL ((List.range n).map fun p =>
      (getLagrangeBasis n length).call (x.get [b, i]) p * w.get [o, i, p])
      = (Lagrange.interpolate (Finset.range n) (fun j => length / 2 * node n j)
          fun k => w.get [o, i, k]).eval (x.get [b, i]) := by
    intro i
    rw [sumL_range]
    exact sum_basis_call n length _ _
  simp only [e]
  ring

/-- **C32 (PolynomialProd).** The layer `polynomial_prod` cannot be constructed: its interpolation class has no
`num_basis`. -/
theorem C32_polynomial_prod_raises {K : Type} [TorchScalar K] (n I O : ℕ) (length : K)
    (rand : ℕ → ℕ → K) (wm : K) (p : Option K) :
    polynomialProdInit n I O length rand wm p = .error .attributeError := rfl

/-- **C14 (Product).** The output row of a sample is the output on that sample alone. -/
theorem C14_batch_independence_product {K : Type} [TorchScalar K] (L : ProductLayer K) (bias : Tensor K)
    (hbias : L.bias = some bias) (hw : L.weight.shape = [L.outFeatures, L.inFeatures])
    {B : ℕ} {x : Tensor K} (hx : x.shape = [B, L.inFeatures]) (hwf : x.WF) {b : ℕ} (hb : b < B) :
    ∃ out out1, L.forward x = .ok out ∧ L.forward (row x L.inFeatures b) = .ok out1 ∧
      ∀ o < L.outFeatures, out.get [b, o] = out1.get [0, o] := by
  refine ⟨_, _, L.forward_eq bias hbias hw hx hwf,
    L.forward_eq (x := row x L.inFeatures b) (B := 1) bias hbias hw rfl (Tensor.wf_tabulate _ _), ?_⟩
  intro o ho
  have hrow : ∀ i < L.inFeatures, (row x L.inFeatures b).get [0, i] = x.get [b, i] := by
    intro i hi
    exact Tensor.get_tab2 (by norm_num) hi
  rw [Tensor.get_tab2 hb ho, Tensor.get_tab2 (by norm_num) ho]
  refine congrArg₂ (fun u v => prodL u - (1 - L.alpha) * sumL v - 1 + bias.get [o]) ?_ ?_ <;>
    (apply map_range_congr; intro q hq; rw [hrow q hq])

/-- A layer with two inputs and `alpha = 0`: only the product of the inputs is left. -/
noncomputable def exProduct : ProductLayer ℝ :=
  { inFeatures := 2, outFeatures := 1, alpha := 0, periodicity := none
    weight := Tensor.tab2 1 2 fun _ _ => 1, bias := some (Tensor.tab1 1 fun _ => 3) }

example : ∃ out, exProduct.forward (Tensor.tab2 1 2 fun _ i => 5 + i) = .ok out ∧ out.get [0, 0] = 33 := by
  obtain ⟨out, h1, _, _, h2⟩ := C32_product_layer exProduct _ rfl rfl rfl 1
    (Tensor.tab2 1 2 fun _ i => 5 + i) rfl (Tensor.wf_tabulate _ _)
  refine ⟨out, h1, ?_⟩
  rw [h2 0 (by norm_num) 0 (by simp [exProduct])]
  beta_reduce
  rw [productUnit_eq]
  simp only [exProduct, Finset.prod_range_succ, Finset.sum_range_succ, Finset.prod_range_zero,
    Finset.sum_range_zero]
  rw [Tensor.get_tab1 (by norm_num), Tensor.get_tab2 (by norm_num) (by norm_num),
    Tensor.get_tab2 (by norm_num) (by norm_num), Tensor.get_tab2 (by norm_num) (by norm_num),
    Tensor.get_tab2 (by norm_num) (by norm_num)]
  norm_num

example : ({ exProduct with bias := none } : ProductLayer ℝ).forward (Tensor.tab2 3 2 fun _ _ => 0)
    = .error .typeError :=
  C32_product_without_bias_raises _ rfl rfl rfl

example (x : Tensor ℝ) (hx : x.shape = [3, 2]) (hwf : x.WF) :
    ∃ out out1, exProduct.forward x = .ok out ∧ exProduct.forward (row x 2 1) = .ok out1 ∧
      ∀ o < 1, out.get [1, o] = out1.get [0, o] :=
  C14_batch_independence_product exProduct _ rfl rfl hx hwf (by norm_num)

/-- A product layer meeting the hypotheses. -/
example : ∃ f : ℕ → ℕ → ℝ → ℝ,
    Computes (PwLayer.init .continuousProd 3 2 1 4 2 (fun _ _ => 1 / 2) 1 none).forward 2 1
      fun o r => productUnit 1 2 fun i => f o i (r i) := by
  obtain ⟨f, _, h⟩ := C32_piecewise_product_layer
    (PwLayer.init .continuousProd 3 2 1 4 2 (fun _ _ => 1 / 2) 1 none)
    (PwLayer.init_wf _ (by norm_num) (by norm_num) (by norm_num) (by norm_num) _ _ _ _)
    (Or.inl rfl) rfl rfl
  exact ⟨f, h⟩

/-- With one input, one node and `alpha = 0` the class returns twice the weight. -/
example : ∃ out, (lagrangePolyFlatProd 1 (2 : ℝ) 0).interpolate (Tensor.tab2 1 1 fun _ _ => 0)
    (Tensor.tab3 1 1 1 fun _ _ _ => 7) = .ok out ∧ out.get [0, 0] = 14 := by
  obtain ⟨out, h1, _, h2⟩ := C32_interpolation_alpha 1 1 1 1 le_rfl 2 0 (Tensor.tab2 1 1 fun _ _ => 0)
    (Tensor.tab3 1 1 1 fun _ _ _ => 7) rfl rfl
  refine ⟨out, h1, ?_⟩
  rw [h2 0 (by norm_num) 0 (by norm_num), productUnit_eq]
  simp only [Finset.prod_range_succ, Finset.sum_range_succ, Finset.prod_range_zero, Finset.sum_range_zero]
  rw [Finset.range_one, Lagrange.interpolate_singleton, Polynomial.eval_C,
    Tensor.get_tab3 (by norm_num) (by norm_num) (by norm_num)]
  norm_num

end HOL
