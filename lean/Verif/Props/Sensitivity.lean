import Verif.Lemmas.Slope
import Verif.Lemmas.Universal
import Verif.Props.Stability
import Verif.Props.Extrapolation
import Verif.Props.Backward
import Verif.Props.Network
import Verif.Props.NetworkExamples
import Verif.Lemmas.InputGradient

/-! # C110: how much outputs change when inputs change -/

namespace HOL
open TorchScalar Polynomial Spec

/-- Bound of the slope of a link with `n` nodes, `S` segments and weights between -1 and 1. -/
noncomputable def slopeBound (n S : ℕ) : ℝ := √(2 * n) * ((n : ℝ) - 1) ^ 2 * S

theorem slopeBound_nonneg (n S : ℕ) : 0 ≤ slopeBound n S := by unfold slopeBound; positivity

/-- Two points of the same segment. -/
theorem piece_lipschitz {n S stride : ℕ} (hn : 0 < n) {v : ℕ → ℝ} {W : ℝ} {s : ℕ} (hv : ∀ k < n, |v (s * stride + k)| ≤ W) {x y : ℝ}
    (hx : |localCoord S s x| ≤ 1) (hy : |localCoord S s y| ≤ 1) :
    |(linkPoly n fun k => v (s * stride + k)).eval (localCoord S s y) - (linkPoly n fun k => v (s * stride + k)).eval (localCoord S s x)| ≤ slopeBound n S * W * |y - x| := by
  have h := link_lipschitz hn (v := fun k => v (s * stride + k)) hv hx hy
  have e : localCoord S s y - localCoord S s x = S * (y - x) := by unfold localCoord; ring
  rw [e, abs_mul, abs_of_nonneg (Nat.cast_nonneg S : (0 : ℝ) ≤ S)] at h
  refine h.trans_eq ?_
  unfold slopeBound
  ring

/-- In a continuous piecewise polynomial a segment describes its right end too. -/
theorem piece_closed {n S : ℕ} (hn : 0 < n) (hS : 0 < S) {v : ℕ → ℝ} {f : ℝ → ℝ} (hf : IsPiecewisePoly n S (n - 1) v f) {s : ℕ} (hs : s < S) {x : ℝ}
    (h1 : segLeft S s ≤ x) (h2 : x ≤ segLeft S (s + 1)) : f x = (linkPoly n fun k => v (s * (n - 1) + k)).eval (localCoord S s x) := by
  rcases h2.lt_or_eq with h | rfl
  · exact hf s x ⟨hs, Or.inr h1, Or.inr h⟩
  · rcases Nat.lt_or_ge (s + 1) S with h | h
    · rw [hf (s + 1) _ ⟨h, Or.inr le_rfl, Or.inr (segLeft_strictMono hS (by omega))⟩, localCoord_left hS, localCoord_right hS]
      rcases Nat.lt_or_ge n 2 with h' | h'
      · obtain rfl : n = 1 := by omega
        rw [linkPoly_one_eval, linkPoly_one_eval]
        simp
      · rw [← node_zero h', linkPoly_eval_node hn, ← node_last h', linkPoly_eval_node (by omega)]
        congr 1
        rw [Nat.add_mul, Nat.one_mul, Nat.add_zero]
    · exact hf s _ ⟨hs, Or.inr h1, Or.inl (by omega)⟩

/-- Continuous piecewise polynomials on `[-1, 1]`. -/
theorem pieces_lipschitz {n S : ℕ} (hn : 0 < n) (hS : 0 < S) {v : ℕ → ℝ} {f : ℝ → ℝ} (hf : IsPiecewisePoly n S (n - 1) v f) {W : ℝ}
    (hv : ∀ s < S, ∀ k < n, |v (s * (n - 1) + k)| ≤ W) {x y : ℝ} (hx : |x| ≤ 1) (hy : |y| ≤ 1) : |f y - f x| ≤ slopeBound n S * W * |y - x| := by
  have hSr : (0 : ℝ) < S := by exact_mod_cast hS
  have hloc : ∀ s t, segLeft S s ≤ t → t ≤ segLeft S (s + 1) → |localCoord S s t| ≤ 1 := by
    intro s t h1 h2
    have e1 := localCoord_left hS s
    have e2 := localCoord_right hS s
    have m : ∀ a b : ℝ, a ≤ b → localCoord S s a ≤ localCoord S s b := fun a b hab => by
      unfold localCoord
      have := mul_le_mul_of_nonneg_left hab hSr.le
      linarith
    exact abs_le.2 ⟨by rw [← e1]; exact m _ _ h1, by rw [← e2]; exact m _ _ h2⟩
  have key : ∀ m ≤ S, ∀ x y, -1 ≤ x → x ≤ y → y ≤ segLeft S m → |f y - f x| ≤ slopeBound n S * W * (y - x) := by
    intro m
    induction m with
    | zero =>
      intro _ x y h1 h2 h3
      rw [segLeft_zero] at h3
      obtain rfl : x = y := by linarith
      simp
    | succ m ih =>
      intro hm x y h1 h2 h3
      have seg : ∀ a b, segLeft S m ≤ a → a ≤ b → b ≤ segLeft S (m + 1) → |f b - f a| ≤ slopeBound n S * W * (b - a) := by
        intro a b g1 g2 g3
        rw [piece_closed hn hS hf (show m < S by omega) g1 (g2.trans g3), piece_closed hn hS hf (show m < S by omega) (g1.trans g2) g3]
        have := piece_lipschitz (S := S) hn (hv m (by omega)) (hloc m a g1 (g2.trans g3)) (hloc m b (g1.trans g2) g3)
        rwa [abs_of_nonneg (sub_nonneg.2 g2)] at this
      rcases le_total y (segLeft S m) with g | g
      · exact ih (by omega) x y h1 h2 g
      · rcases le_total (segLeft S m) x with g' | g'
        · exact seg x y g' h2 h3
        · have a := ih (by omega) x (segLeft S m) h1 g' le_rfl
          have b := seg (segLeft S m) y le_rfl g h3
          have c : f y - f x = (f y - f (segLeft S m)) + (f (segLeft S m) - f x) := by ring
          rw [c]
          refine (abs_add_le _ _).trans ((add_le_add b a).trans_eq ?_)
          ring
  obtain ⟨x1, x2⟩ := abs_le.1 hx
  obtain ⟨y1, y2⟩ := abs_le.1 hy
  have last := segLeft_last hS
  rcases le_total x y with h | h
  · rw [abs_of_nonneg (sub_nonneg.2 h)]
    exact key S le_rfl x y x1 h (by linarith)
  · rw [abs_sub_comm, abs_sub_comm y x, abs_of_nonneg (sub_nonneg.2 h)]
    exact key S le_rfl y x y1 h (by linarith)

/-- The link of a continuous layer, with or without periodicity, where the (wrapped) inputs are in the interval. -/
theorem PwLayer.linkFn_lipschitz (L : PwLayer ℝ) (h : L.WF) (hc : L.cls = .continuous) (hl : L.length = 2) (hp : ∀ p, L.periodicity = some p → 0 < p) {o i : ℕ} {W : ℝ}
    (hw : ∀ r < PwLayer.wSize L.cls L.n L.segments, |L.w.get [o, i, r]| ≤ W) {x y : ℝ} (hx : |periodize L.periodicity x| ≤ 1) (hy : |periodize L.periodicity y| ≤ 1) :
    |L.linkFn o i y - L.linkFn o i x| ≤ slopeBound L.n L.segments * W * |y - x| := by
  rw [L.linkFn_periodic, L.linkFn_periodic]
  have hst : L.noPeriod.stride = L.n - 1 := by
    show L.stride = _
    unfold PwLayer.stride
    rw [hc]
    rfl
  have hf := L.noPeriod.linkFn_isPiecewise h.seg_pos hl rfl o i
  rw [hst] at hf
  change IsPiecewisePoly L.n L.segments (L.n - 1) (fun q => L.w.get [o, i, q]) _ at hf
  have hW : 0 ≤ W := (abs_nonneg _).trans (hw 0 (by
    have := L.widx_lt (s := 0) (k := 0) h.n_pos h.seg_pos h.n_pos
    simpa using this))
  refine (pieces_lipschitz h.n_pos h.seg_pos hf (W := W) (fun s hs k hk => ?_) hx hy).trans ?_
  · have e : L.stride = L.n - 1 := hst
    have := L.widx_lt h.n_pos hs hk
    rw [e] at this
    exact hw _ this
  · refine mul_le_mul_of_nonneg_left ?_ (mul_nonneg (slopeBound_nonneg _ _) hW)
    cases hq : L.periodicity with
    | none => exact le_rfl
    | some p => exact makePeriodic_lipschitz (hp p hq) y x

/-- **C110 (layers).** Outputs of a continuous layer at two inputs in `[-1, 1]` differ by at most `√(2 n) (n - 1)^2 segments` times the sum over the inputs of their difference times a bound of the
weights of the link. -/
theorem C110_layer (L : PwLayer ℝ) (h : L.WF) (hc : L.cls = .continuous) (hl : L.length = 2) (hp : L.periodicity = none) (W : ℕ → ℕ → ℝ)
    (hw : ∀ o < L.outFeatures, ∀ i < L.inFeatures, ∀ r < PwLayer.wSize L.cls L.n L.segments, |L.w.get [o, i, r]| ≤ W o i)
    {B : ℕ} {x y : Tensor ℝ} (hx : x.shape = [B, L.inFeatures]) (hwx : x.WF) (hrx : InRange x B L.inFeatures)
    (hy : y.shape = [B, L.inFeatures]) (hwy : y.WF) (hry : InRange y B L.inFeatures) :
    ∃ ox oy, L.forward x = .ok ox ∧ L.forward y = .ok oy ∧ ∀ b < B, ∀ o < L.outFeatures,
      |oy.get [b, o] - ox.get [b, o]| ≤ √(2 * L.n) * ((L.n : ℝ) - 1) ^ 2 * L.segments * ∑ i ∈ Finset.range L.inFeatures, W o i * |y.get [b, i] - x.get [b, i]| := by
  refine ⟨_, _, L.forward_sum h (Or.inl hc) hx hwx, L.forward_sum h (Or.inl hc) hy hwy, fun b hb o ho => ?_⟩
  rw [Tensor.get_tab2 hb ho, Tensor.get_tab2 hb ho, ← Finset.sum_sub_distrib, Finset.mul_sum]
  refine (Finset.abs_sum_le_sum_abs _ _).trans (Finset.sum_le_sum fun i hi => ?_)
  have hi' := Finset.mem_range.1 hi
  have := L.linkFn_lipschitz h hc hl (by rw [hp]; intro p hq; cases hq) (hw o ho i hi') (x := x.get [b, i]) (y := y.get [b, i])
    (by rw [hp]; exact abs_le.2 (hrx b hb i hi')) (by rw [hp]; exact abs_le.2 (hry b hb i hi'))
  refine this.trans_eq ?_
  unfold slopeBound
  ring

/-- **C110 (periodic layers).** With a periodicity of at most 2 the same holds for all inputs. -/
theorem C110_periodic (L : PwLayer ℝ) (h : L.WF) (hc : L.cls = .continuous) (hl : L.length = 2) {p : ℝ} (hp : L.periodicity = some p) (hp0 : 0 < p) (hp2 : p ≤ 2) (W : ℕ → ℕ → ℝ)
    (hw : ∀ o < L.outFeatures, ∀ i < L.inFeatures, ∀ r < PwLayer.wSize L.cls L.n L.segments, |L.w.get [o, i, r]| ≤ W o i)
    {B : ℕ} {x y : Tensor ℝ} (hx : x.shape = [B, L.inFeatures]) (hwx : x.WF) (hy : y.shape = [B, L.inFeatures]) (hwy : y.WF) :
    ∃ ox oy, L.forward x = .ok ox ∧ L.forward y = .ok oy ∧ ∀ b < B, ∀ o < L.outFeatures,
      |oy.get [b, o] - ox.get [b, o]| ≤ √(2 * L.n) * ((L.n : ℝ) - 1) ^ 2 * L.segments * ∑ i ∈ Finset.range L.inFeatures, W o i * |y.get [b, i] - x.get [b, i]| := by
  refine ⟨_, _, L.forward_sum h (Or.inl hc) hx hwx, L.forward_sum h (Or.inl hc) hy hwy, fun b hb o ho => ?_⟩
  rw [Tensor.get_tab2 hb ho, Tensor.get_tab2 hb ho, ← Finset.sum_sub_distrib, Finset.mul_sum]
  refine (Finset.abs_sum_le_sum_abs _ _).trans (Finset.sum_le_sum fun i hi => ?_)
  have hi' := Finset.mem_range.1 hi
  have hin : ∀ t, |periodize L.periodicity t| ≤ 1 := fun t => by
    rw [hp]
    obtain ⟨a, b⟩ := makePeriodic_mem hp0 t
    exact abs_le.2 ⟨by show -1 ≤ makePeriodic t p; linarith, by show makePeriodic t p ≤ 1; linarith⟩
  have := L.linkFn_lipschitz h hc hl (by rw [hp]; intro q hq; cases hq; exact hp0) (hw o ho i hi') (hin (x.get [b, i])) (hin (y.get [b, i]))
  refine this.trans_eq ?_
  unfold slopeBound
  ring

/-- **C110 (within segments).** Continuous and discontinuous layers: the bound holds for inputs that lie in the same segments. -/
theorem C110_same_segments (L : PwLayer ℝ) (h : L.WF) (hc : L.cls = .continuous ∨ L.cls = .discontinuous) (hl : L.length = 2) (hp : L.periodicity = none) (W : ℕ → ℕ → ℝ)
    (hw : ∀ o < L.outFeatures, ∀ i < L.inFeatures, ∀ r < PwLayer.wSize L.cls L.n L.segments, |L.w.get [o, i, r]| ≤ W o i)
    {B : ℕ} {x y : Tensor ℝ} (hx : x.shape = [B, L.inFeatures]) (hwx : x.WF) (hrx : InRange x B L.inFeatures)
    (hy : y.shape = [B, L.inFeatures]) (hwy : y.WF) (hry : InRange y B L.inFeatures)
    (hseg : ∀ b < B, ∀ i < L.inFeatures, ∃ s, IsActive L.segments s (x.get [b, i]) ∧ IsActive L.segments s (y.get [b, i])) :
    ∃ ox oy, L.forward x = .ok ox ∧ L.forward y = .ok oy ∧ ∀ b < B, ∀ o < L.outFeatures,
      |oy.get [b, o] - ox.get [b, o]| ≤ √(2 * L.n) * ((L.n : ℝ) - 1) ^ 2 * L.segments * ∑ i ∈ Finset.range L.inFeatures, W o i * |y.get [b, i] - x.get [b, i]| := by
  refine ⟨_, _, L.forward_sum h hc hx hwx, L.forward_sum h hc hy hwy, fun b hb o ho => ?_⟩
  rw [Tensor.get_tab2 hb ho, Tensor.get_tab2 hb ho, ← Finset.sum_sub_distrib, Finset.mul_sum]
  refine (Finset.abs_sum_le_sum_abs _ _).trans (Finset.sum_le_sum fun i hi => ?_)
  have hi' := Finset.mem_range.1 hi
  obtain ⟨s, sx, sy⟩ := hseg b hb i hi'
  obtain ⟨-, -, a3, a4⟩ := isActive_bounds sx (hrx b hb i hi').1 (hrx b hb i hi').2
  obtain ⟨-, -, b3, b4⟩ := isActive_bounds sy (hry b hb i hi').1 (hry b hb i hi').2
  rw [L.linkFn_isPiecewise h.seg_pos hl hp o i s _ sx, L.linkFn_isPiecewise h.seg_pos hl hp o i s _ sy]
  have := piece_lipschitz (S := L.segments) (stride := L.stride) (v := fun q => L.w.get [o, i, q]) h.n_pos (W := W o i) (s := s)
    (fun k hk => hw o ho i hi' _ (L.widx_lt h.n_pos sx.1 hk)) (abs_le.2 ⟨a3, a4⟩) (abs_le.2 ⟨b3, b4⟩)
  refine this.trans_eq ?_
  unfold slopeBound
  ring

/-- Weights of a continuous layer that make the last segment a Chebyshev polynomial. -/
theorem alternating_last {n S : ℕ} (hn : 0 < n) (hS : 0 < S) {t : ℝ} (ht : IsActive S (S - 1) t) :
    (alternatingLayer n S).linkFn 0 0 t = (Chebyshev.T ℝ ((n - 1 : ℕ) : ℤ)).eval (localCoord S (S - 1) t) := by
  have e := (alternatingLayer n S).linkFn_isPiecewise hS rfl rfl 0 0 (S - 1) t ht
  change (alternatingLayer n S).linkFn 0 0 t = (linkPoly n fun k => (alternatingLayer n S).w.get [0, 0, (S - 1) * (n - 1) + k]).eval (localCoord S (S - 1) t) at e
  have hd : (Chebyshev.T ℝ ((n - 1 : ℕ) : ℤ)).degree < n := by
    rw [Chebyshev.degree_T, Int.natAbs_natCast]
    exact_mod_cast (by omega : n - 1 < n)
  rw [e, ← linkPoly_eq_of_degree_lt hd]
  congr 1
  unfold linkPoly
  refine Lagrange.interpolate_eq_of_values_eq_on _ _ fun k hk => ?_
  have hk' := Finset.mem_range.1 hk
  rw [cheb_top hn hk']
  have hsz : PwLayer.wSize .continuous n S = (n - 1) * S + 1 := rfl
  have hm : (S - 1) * (n - 1) + (n - 1) = (n - 1) * S := by
    obtain ⟨q, rfl⟩ : ∃ q, S = q + 1 := ⟨S - 1, by omega⟩
    rw [Nat.add_sub_cancel]
    ring
  show (Tensor.tab3 1 1 (PwLayer.wSize .continuous n S) fun _ _ r => (-1 : ℝ) ^ (PwLayer.wSize .continuous n S - 1 - r)).get [0, 0, (S - 1) * (n - 1) + k] = _
  rw [Tensor.get_tab3 one_pos one_pos (by rw [hsz]; omega)]
  congr 1
  rw [hsz]
  omega

/-- **C110 (growth).** The bound cannot be improved to less than `(n - 1)^2 segments`: weights 1 and -1 give slopes as close to that as wanted, next to the end of the interval. -/
theorem C110_growth {n S : ℕ} (hn : 0 < n) (hS : 0 < S) {c : ℝ} (hc : c < ((n : ℝ) - 1) ^ 2 * S) :
    (∀ r < PwLayer.wSize .continuous n S, |(alternatingLayer n S).w.get [0, 0, r]| ≤ 1) ∧ ∃ t, -1 ≤ t ∧ t < 1 ∧ ∃ ot o1, (alternatingLayer n S).forward (Tensor.tab2 1 1 fun _ _ => t) = .ok ot ∧
      (alternatingLayer n S).forward (Tensor.tab2 1 1 fun _ _ => 1) = .ok o1 ∧ c * (1 - t) < o1.get [0, 0] - ot.get [0, 0] := by
  refine ⟨fun r hr => ?_, ?_⟩
  · show |(Tensor.tab3 1 1 (PwLayer.wSize .continuous n S) fun _ _ r => (-1 : ℝ) ^ (PwLayer.wSize .continuous n S - 1 - r)).get [0, 0, r]| ≤ 1
    rw [Tensor.get_tab3 one_pos one_pos hr, abs_neg_one_pow]
  have hd1 : HasDerivAt (fun t => (Chebyshev.T ℝ ((n - 1 : ℕ) : ℤ)).eval (localCoord S (S - 1) t)) (((n : ℝ) - 1) ^ 2 * S) 1 := by
    have e1 : localCoord S (S - 1) 1 = 1 := by
      have := localCoord_right hS (S - 1)
      rwa [Nat.sub_add_cancel hS, segLeft_last hS] at this
    have h1 := (Polynomial.hasDerivAt (Chebyshev.T ℝ ((n - 1 : ℕ) : ℤ)) (localCoord S (S - 1) 1)).comp (1 : ℝ) (PwLayer.localCoord_hasDeriv S (S - 1) 1)
    have ec : ((n - 1 : ℕ) : ℝ) = (n : ℝ) - 1 := by rw [Nat.cast_sub hn, Nat.cast_one]
    rw [e1, chebD_one, ec] at h1
    exact h1
  have hev := (hasDerivAt_iff_tendsto_slope.1 hd1).eventually (lt_mem_nhds hc)
  have hlt : segLeft S (S - 1) < 1 := by
    have := segLeft_strictMono hS (show S - 1 < S by omega)
    rwa [segLeft_last hS] at this
  have hev' : ∀ᶠ t in nhdsWithin (1 : ℝ) (Set.Iio 1), c < slope (fun t => (Chebyshev.T ℝ ((n - 1 : ℕ) : ℤ)).eval (localCoord S (S - 1) t)) 1 t :=
    hev.filter_mono (nhdsWithin_mono _ fun t ht => ne_of_lt ht)
  obtain ⟨t, ht, h1, h2⟩ := (hev'.and (Ioo_mem_nhdsLT hlt)).exists
  have hlo : -1 ≤ segLeft S (S - 1) := by
    have := segLeft_mono (S := S) (Nat.zero_le (S - 1))
    rwa [segLeft_zero] at this
  have hfw : ∀ u : ℝ, IsActive S (S - 1) u → ∃ out, (alternatingLayer n S).forward (Tensor.tab2 1 1 fun _ _ => u) = .ok out ∧
      out.get [0, 0] = (Chebyshev.T ℝ ((n - 1 : ℕ) : ℤ)).eval (localCoord S (S - 1) u) := by
    intro u hu
    refine ⟨_, (alternatingLayer n S).forward_sum (B := 1) (alternatingLayer_wf hn hS) (Or.inl rfl) rfl (Tensor.wf_tabulate _ _), ?_⟩
    rw [Tensor.get_tab2 one_pos (by show 0 < 1; norm_num)]
    show ∑ i ∈ Finset.range 1, (alternatingLayer n S).linkFn 0 i ((Tensor.tab2 1 1 fun _ _ => u).get [0, i]) = _
    rw [Finset.sum_range_one, Tensor.get_tab2 one_pos one_pos, alternating_last hn hS hu]
  obtain ⟨ot, e1, e2⟩ := hfw t ⟨by omega, Or.inr h1.le, Or.inl (by omega)⟩
  obtain ⟨o1, f1, f2⟩ := hfw 1 ⟨by omega, Or.inr hlt.le, Or.inl (by omega)⟩
  refine ⟨t, by linarith, h2, ot, o1, e1, f1, ?_⟩
  rw [e2, f2]
  rw [slope_def_field, ← neg_div_neg_eq, lt_div_iff₀ (by linarith)] at ht
  linarith

/-- One input, one output, two constant segments with the values -1 and 1. -/
noncomputable def unitJump : PwLayer ℝ where
  cls := .discontinuous
  n := 1
  segments := 2
  inFeatures := 1
  outFeatures := 1
  length := 2
  periodicity := none
  w := Tensor.tab3 1 1 2 fun _ _ r => if r = 0 then -1 else 1

theorem unitJump_wf : unitJump.WF := ⟨one_pos, two_pos, one_pos, one_pos, rfl, Tensor.wf_tabulate _ _⟩

theorem unitJump_forward {t : ℝ} {s : ℕ} (hs : IsActive 2 s t) :
    ∃ out, unitJump.forward (Tensor.tab2 1 1 fun _ _ => t) = .ok out ∧ out.get [0, 0] = if s = 0 then -1 else 1 := by
  refine ⟨_, unitJump.forward_sum (B := 1) unitJump_wf (Or.inr rfl) rfl (Tensor.wf_tabulate _ _), ?_⟩
  rw [Tensor.get_tab2 one_pos (by show 0 < 1; norm_num)]
  show ∑ i ∈ Finset.range 1, unitJump.linkFn 0 i ((Tensor.tab2 1 1 fun _ _ => t).get [0, i]) = _
  have e := unitJump.linkFn_isPiecewise (by show 0 < 2; norm_num) rfl rfl 0 0 s t hs
  change unitJump.linkFn 0 0 t = (linkPoly 1 fun k => (Tensor.tab3 1 1 2 fun _ _ r => if r = 0 then (-1 : ℝ) else 1).get [0, 0, s * 1 + k]).eval (localCoord 2 s t) at e
  rw [Finset.sum_range_one, Tensor.get_tab2 one_pos one_pos, e, linkPoly_one_eval, Tensor.get_tab3 one_pos one_pos (by have := hs.1; omega)]
  simp

/-- **C110 (discontinuous layers).** Across segments there is no such bound for discontinuous layers, however small their weights compared to it. -/
theorem C110_discontinuous (C : ℝ) : ∃ s t, -1 ≤ s ∧ s < t ∧ t ≤ 1 ∧ ∃ os ot, unitJump.forward (Tensor.tab2 1 1 fun _ _ => s) = .ok os ∧
    unitJump.forward (Tensor.tab2 1 1 fun _ _ => t) = .ok ot ∧ C * (t - s) < ot.get [0, 0] - os.get [0, 0] := by
  have hpos : (0 : ℝ) < 1 / (1 + |C|) := by positivity
  have hle : 1 / (1 + |C|) ≤ 1 := by
    rw [div_le_one (by positivity)]
    have := abs_nonneg C
    linarith
  have e1 : segLeft 2 1 = 0 := by unfold segLeft; norm_num
  obtain ⟨os, f1, f2⟩ := unitJump_forward (t := -(1 / (1 + |C|))) (s := 0) ⟨by norm_num, Or.inl rfl, Or.inr (by rw [e1]; linarith)⟩
  obtain ⟨ot, g1, g2⟩ := unitJump_forward (t := 0) (s := 1) ⟨by norm_num, Or.inr (by rw [e1]), Or.inl rfl⟩
  refine ⟨-(1 / (1 + |C|)), 0, by linarith, by linarith, by norm_num, os, ot, f1, g1, ?_⟩
  rw [f2, g2, if_pos rfl, if_neg one_ne_zero]
  have h1 : C * (1 / (1 + |C|)) ≤ 1 := by
    rw [mul_one_div, div_le_one (by positivity)]
    have := le_abs_self C
    linarith
  linarith

/-! ## Networks -/

/-- `f` takes matrices with `I` columns to matrices with `O` columns, and changing the entries of a row by at most `δ` changes the entries of the row of the result by at most `C δ`. -/
def Spec.Steady (f : Fwd ℝ) (I O : ℕ) (C : ℝ) : Prop :=
  ∀ (B : ℕ) (x y : Tensor ℝ), x.shape = [B, I] → x.WF → y.shape = [B, I] → y.WF →
    ∃ u v, f x = .ok u ∧ f y = .ok v ∧ (u.shape = [B, O] ∧ u.WF) ∧ (v.shape = [B, O] ∧ v.WF) ∧
      ∀ b < B, ∀ δ, (∀ i < I, |y.get [b, i] - x.get [b, i]| ≤ δ) → ∀ o < O, |v.get [b, o] - u.get [b, o]| ≤ C * δ

theorem Spec.Steady.comp {f g : Fwd ℝ} {I M O : ℕ} {C D : ℝ} (hf : Steady f I M C) (hg : Steady g M O D) : Steady (fun x => f x >>= g) I O (D * C) := by
  intro B x y hx hwx hy hwy
  obtain ⟨u, v, e1, e2, hu, hv, h1⟩ := hf B x y hx hwx hy hwy
  obtain ⟨u', v', e3, e4, hu', hv', h2⟩ := hg B u v hu.1 hu.2 hv.1 hv.2
  refine ⟨u', v', by beta_reduce; rw [e1]; exact e3, by beta_reduce; rw [e2]; exact e4, hu', hv', fun b hb δ hδ o ho => ?_⟩
  rw [mul_assoc]
  exact h2 b hb (C * δ) (h1 b hb δ hδ) o ho

/-- Layers applied one after the other, each with its constant; the last argument is the product of the constants. -/
inductive Spec.SteadyChain : List (Fwd ℝ) → ℕ → ℕ → ℝ → Prop
  | nil (I : ℕ) : SteadyChain [] I I 1
  | cons {f : Fwd ℝ} {fs : List (Fwd ℝ)} {I M O : ℕ} {C D : ℝ} : Steady f I M C → SteadyChain fs M O D → SteadyChain (f :: fs) I O (D * C)

/-- **C110 (sequences).** The constant of layers applied one after the other is the product of their constants. -/
theorem C110_sequential {fs : List (Fwd ℝ)} {I O : ℕ} {C : ℝ} (h : SteadyChain fs I O C) : Steady (seqForward fs) I O C := by
  induction h with
  | nil I =>
    intro B x y hx hwx hy hwy
    refine ⟨x, y, rfl, rfl, ⟨hx, hwx⟩, ⟨hy, hwy⟩, fun b hb δ hδ o ho => ?_⟩
    rw [one_mul]
    exact hδ o ho
  | cons hf _ ih => exact hf.comp ih

theorem Spec.SteadyChain.append {fs gs : List (Fwd ℝ)} {I M O : ℕ} {C D : ℝ} (h : SteadyChain fs I M C) (h' : SteadyChain gs M O D) : SteadyChain (fs ++ gs) I O (D * C) := by
  induction h with
  | nil I => rw [mul_one]; exact h'
  | cons hf _ ih =>
    rw [← mul_assoc]
    exact .cons hf (ih h')

/-- A continuous layer of periodicity at most 2 and weights at most `W`. -/
theorem Spec.steady_periodic (L : PwLayer ℝ) (h : L.WF) (hc : L.cls = .continuous) (hl : L.length = 2) {p : ℝ} (hp : L.periodicity = some p) (hp0 : 0 < p) (hp2 : p ≤ 2) {W : ℝ}
    (hw : ∀ o < L.outFeatures, ∀ i < L.inFeatures, ∀ r < PwLayer.wSize L.cls L.n L.segments, |L.w.get [o, i, r]| ≤ W) :
    Steady L.forward L.inFeatures L.outFeatures (L.inFeatures * (slopeBound L.n L.segments * W)) := by
  intro B x y hx hwx hy hwy
  obtain ⟨u, v, e1, e2, hle⟩ := C110_periodic L h hc hl hp hp0 hp2 (fun _ _ => W) hw hx hwx hy hwy
  have s1 := L.forward_sum h (Or.inl hc) hx hwx
  have s2 := L.forward_sum h (Or.inl hc) hy hwy
  refine ⟨u, v, e1, e2, ?_, ?_, fun b hb δ hδ o ho => (hle b hb o ho).trans ?_⟩
  · rw [e1] at s1; cases s1; exact ⟨rfl, Tensor.wf_tabulate _ _⟩
  · rw [e2] at s2; cases s2; exact ⟨rfl, Tensor.wf_tabulate _ _⟩
  have hW : 0 ≤ W := (abs_nonneg _).trans (hw o ho 0 h.in_pos 0 (by
    have := L.widx_lt (s := 0) (k := 0) h.n_pos h.seg_pos h.n_pos
    simpa using this))
  have hs : ∑ i ∈ Finset.range L.inFeatures, W * |y.get [b, i] - x.get [b, i]| ≤ L.inFeatures * (W * δ) := by
    calc _ ≤ ∑ _i ∈ Finset.range L.inFeatures, W * δ := Finset.sum_le_sum fun i hi => mul_le_mul_of_nonneg_left (hδ i (Finset.mem_range.1 hi)) hW
      _ = _ := by rw [Finset.sum_const, Finset.card_range, nsmul_eq_mul]
  refine (mul_le_mul_of_nonneg_left hs (slopeBound_nonneg L.n L.segments)).trans_eq ?_
  ring

/-- `relu` has the constant 1. -/
theorem Spec.steady_relu (I : ℕ) : Steady (fun x => .ok (reluT x)) I I 1 := by
  intro B x y hx hwx hy hwy
  have hg : ∀ z : Tensor ℝ, z.shape = [B, I] → z.WF → ∀ b < B, ∀ i < I, (reluT z).get [b, i] = max (z.get [b, i]) 0 := by
    intro z hz hwz b hb i hi
    unfold reluT
    rw [Tensor.get_map hwz (by rw [hz]; exact inShape2.2 ⟨hb, hi⟩)]
    show (if decide (z.get [b, i] < (0 : ℝ)) = true then 0 else z.get [b, i]) = _
    by_cases h : z.get [b, i] < 0
    · rw [if_pos (decide_eq_true h), max_eq_right h.le]
    · rw [if_neg (by simpa using h), max_eq_left (not_lt.1 h)]
  refine ⟨_, _, rfl, rfl, ⟨hx, Tensor.wf_map hwx _⟩, ⟨hy, Tensor.wf_map hwy _⟩, fun b hb δ hδ o ho => ?_⟩
  rw [hg x hx hwx b hb o ho, hg y hy hwy b hb o ho, one_mul]
  exact (abs_max_sub_max_le_abs _ _ _).trans (hδ o ho)

/-- A linear layer with weights at most `W`. -/
theorem Spec.steady_linear {w b : Tensor ℝ} {I O : ℕ} (hw : w.shape = [O, I]) {W : ℝ} (hW : ∀ o < O, ∀ i < I, |w.get [o, i]| ≤ W) : Steady (linearForward w b) I O (I * W) := by
  have hf : ∀ (B : ℕ) (x : Tensor ℝ), x.shape = [B, I] → linearForward w b x = .ok (Tensor.tab2 B O fun s r => (∑ q ∈ Finset.range I, x.get [s, q] * w.get [r, q]) + b.get [r]) := by
    intro B x hx
    unfold linearForward
    simp only [hx, hw, if_true, sumL_range]
  intro B x y hx hwx hy hwy
  refine ⟨_, _, hf B x hx, hf B y hy, ⟨rfl, Tensor.wf_tabulate _ _⟩, ⟨rfl, Tensor.wf_tabulate _ _⟩, fun s hs δ hδ o ho => ?_⟩
  rw [Tensor.get_tab2 hs ho, Tensor.get_tab2 hs ho, add_sub_add_right_eq_sub, ← Finset.sum_sub_distrib, mul_assoc]
  refine (Finset.abs_sum_le_sum_abs _ _).trans ?_
  calc _ ≤ ∑ _q ∈ Finset.range I, W * δ := Finset.sum_le_sum fun q hq => by
        have hq' := Finset.mem_range.1 hq
        rw [← sub_mul, abs_mul, mul_comm]
        have h1 := hW o ho q hq'
        exact mul_le_mul h1 (hδ q hq') (abs_nonneg _) ((abs_nonneg _).trans h1)
    _ = _ := by rw [Finset.sum_const, Finset.card_range, nsmul_eq_mul]

/-- **C110 (networks).** A `HighOrderMLP` of continuous layers with a periodicity of at most 2, without normalization and dropout, with a nonlinearity that does not enlarge differences or none: when
all weights are at most `W`, changing every input by at most `δ` changes every output by at most `δ` times the product of the constants of the layers, for all inputs. -/
theorem C110_network (rng : Rng ℝ) {c : MLPArgs ℝ} {q : Orders} (hq : c.HasOrders q) (hk : fcTable.lookup c.layerType = some (.leaf (.pw .continuous)))
    (hki : fcTable.lookup (orStr c.layerTypeIn c.layerType) = some (.leaf (.pw .continuous))) {p : ℝ} (hp : c.periodicity = some p) (hp0 : 0 < p) (hp2 : p ≤ 2)
    (hnorm : c.normalization = none) (hdrop : c.dropout ≤ 0) (hres : c.resnet = false) {h0 : Heap ℝ} (hord : h0.Ordered) {nl : Fwd ℝ}
    (hnl : ∀ j ∈ c.nonLinearity, h0[j]? = some (.other nl)) (hst : c.nonLinearity.isSome → Steady nl c.hiddenWidth c.hiddenWidth 1) :
    ∃ (net : ℕ) (h1 : Heap ℝ) (inp out : ℕ) (hid : ℕ → ℕ), mlpInit rng c h0 = .ok (net, h1) ∧ ∀ h : Heap ℝ, h1.Later h → h.Ordered → ∀ W : ℝ,
      (∀ j ∈ inp :: out :: (List.range c.hiddenLayers).map hid, ∃ L : PwLayer ℝ, h[j]? = some (.pw L) ∧
        ∀ o < L.outFeatures, ∀ i < L.inFeatures, ∀ r < PwLayer.wSize L.cls L.n L.segments, |L.w.get [o, i, r]| ≤ W) →
      Steady (h.forward net) c.inWidth c.outWidth
        ((c.hiddenWidth * (slopeBound q.nOut q.sOut * W)) * (c.hiddenWidth * (slopeBound q.nHidden q.sHidden * W)) ^ c.hiddenLayers * (c.inWidth * (slopeBound q.nIn q.sIn * W))) := by
  obtain ⟨p1, p2, p3, p4, p5, p6⟩ := hq.pos
  obtain ⟨w1, w2, w3⟩ := hq.widths
  have hI : Usable (.leaf (.pw .continuous)) c.inputArgs := ⟨_, _, hq.nIn, hq.sIn, p1, p4, w1, w2⟩
  have hH : Usable (.leaf (.pw .continuous)) c.hiddenArgs := ⟨_, _, hq.nHidden, hq.sHidden, p2, p5, w2, w2⟩
  have hO : Usable (.leaf (.pw .continuous)) c.outputArgs := ⟨_, _, hq.nOut, hq.sOut, p3, p6, w2, w3⟩
  obtain ⟨net, h1, e1, -, -, inp, out, hid, -, hall⟩ := C57_structure rng hk hki hI hH hO hord hnl
  refine ⟨net, h1, inp, out, hid, e1, fun h hl ho W hW => ?_⟩
  obtain ⟨l1, l2, l3, l4, -⟩ := hall h hl ho
  rw [l4 hres]
  have lay : ∀ (a : FcArgs ℝ) (n s j : ℕ), Usable (.leaf (.pw .continuous)) a → a.n = .int n → a.segments = some (.int s) → a.periodicity = some p → IsLayer (.leaf (.pw .continuous)) a h j →
      j ∈ inp :: out :: (List.range c.hiddenLayers).map hid → Steady (h.forward j) a.inFeatures a.outFeatures (a.inFeatures * (slopeBound n s * W)) := by
    intro a n s j hu hn hs hpa hlay hj
    obtain ⟨L, m1, m2, m3, m4, m5, m6, m7, m8, m9⟩ := IsLayer.pwLayer' hu hlay
    obtain ⟨L', f1, f2⟩ := hW j hj
    rw [m1] at f1
    cases f1
    have en : L.n = n := by rw [hn] at m5; injection m5 with h; exact h.symm
    have es : L.segments = s := by rw [hs] at m6; injection m6 with h; injection h with h; exact h.symm
    have := steady_periodic L m2 m3 (by rw [m4]; norm_num) (by rw [m9]; exact hpa) hp0 hp2 f2
    rw [en, es, m7, m8] at this
    rw [Heap.forward_eq ho m1]
    exact this
  have hpre : SteadyChain (preFns c nl) c.hiddenWidth c.hiddenWidth 1 := by
    have hd : TorchScalar.ltB 0 c.dropout = false := decide_eq_false (not_lt.2 hdrop)
    unfold preFns
    rw [hnorm, hd]
    cases hn : c.nonLinearity with
    | none => exact .nil _
    | some j =>
      have := SteadyChain.cons (hst (by rw [hn]; rfl)) (.nil c.hiddenWidth)
      rw [mul_one] at this
      exact this
  have sIn := lay c.inputArgs _ _ inp hI hq.nIn hq.sIn hp l1 (by simp)
  have sOut := lay c.outputArgs _ _ out hO hq.nOut hq.sOut hp l3 (by simp)
  have sHid : ∀ i < c.hiddenLayers, Steady (h.forward (hid i)) c.hiddenWidth c.hiddenWidth (c.hiddenWidth * (slopeBound q.nHidden q.sHidden * W)) := fun i hi =>
    lay c.hiddenArgs _ _ (hid i) hH hq.nHidden hq.sHidden hp (l2 i hi) (by simp; exact Or.inr (Or.inr ⟨i, hi, rfl⟩))
  apply C110_sequential
  refine .cons sIn ?_
  have hmid : ∀ k ≤ c.hiddenLayers, SteadyChain (((List.range k).map fun i => h.forward (hid i)).flatMap fun l => preFns c nl ++ [l]) c.hiddenWidth c.hiddenWidth
      ((c.hiddenWidth * (slopeBound q.nHidden q.sHidden * W)) ^ k) := by
    intro k
    induction k with
    | zero => intro _; exact .nil _
    | succ k ih =>
      intro hk
      rw [List.range_succ, List.map_append, List.flatMap_append]
      have e := hpre.append (.cons (sHid k hk) (.nil _))
      rw [one_mul, mul_one] at e
      have := (ih (by omega)).append (gs := [h.forward (hid k)].flatMap fun l => preFns c nl ++ [l]) (by rw [List.flatMap_singleton]; exact e)
      rw [pow_succ, mul_comm]
      exact this
  rw [List.flatMap_append]
  have e := hpre.append (.cons sOut (.nil _))
  rw [one_mul, mul_one] at e
  exact (hmid c.hiddenLayers le_rfl).append (gs := [h.forward out].flatMap fun l => preFns c nl ++ [l]) (by rw [List.flatMap_singleton]; exact e)

/-- Three nodes and ten segments, one input: with weights between -1 and 1 an output changes by at most 98 times the change of the input. -/
example (v : ℕ → ℝ) (hv : ∀ r, |v r| ≤ 1) {s t : ℝ} (hs : |s| ≤ 1) (ht : |t| ≤ 1) :
    let L : PwLayer ℝ := { alternatingLayer 3 10 with w := Tensor.tab3 1 1 21 fun _ _ r => v r }
    ∃ os ot, L.forward (Tensor.tab2 1 1 fun _ _ => s) = .ok os ∧ L.forward (Tensor.tab2 1 1 fun _ _ => t) = .ok ot ∧ |ot.get [0, 0] - os.get [0, 0]| ≤ 98 * |t - s| := by
  intro L
  have hg : ∀ (u : ℝ), ∀ b < 1, ∀ i < 1, (Tensor.tab2 1 1 fun _ _ => u).get [b, i] = u := fun u b hb i hi => Tensor.get_tab2 hb hi
  obtain ⟨os, ot, e1, e2, hle⟩ := C110_layer L ⟨by norm_num [L, alternatingLayer], by norm_num [L, alternatingLayer], one_pos, one_pos, rfl, Tensor.wf_tabulate _ _⟩ rfl rfl rfl
    (fun _ _ => 1) (fun o ho i hi r hr => by
      have e := Tensor.get_tab3 (f := fun _ _ r => v r) (show o < 1 from ho) (show i < 1 from hi) (show r < 21 from hr)
      show |(Tensor.tab3 1 1 21 fun _ _ r => v r).get [o, i, r]| ≤ 1
      rw [e]; exact hv r) (B := 1) (x := Tensor.tab2 1 1 fun _ _ => s) rfl (Tensor.wf_tabulate _ _) (fun b hb i hi => by rw [hg s b hb i hi]; exact abs_le.1 hs)
    (y := Tensor.tab2 1 1 fun _ _ => t) rfl (Tensor.wf_tabulate _ _) (fun b hb i hi => by rw [hg t b hb i hi]; exact abs_le.1 ht)
  refine ⟨os, ot, e1, e2, (hle 0 one_pos 0 one_pos).trans ?_⟩
  show √(2 * ((3 : ℕ) : ℝ)) * (((3 : ℕ) : ℝ) - 1) ^ 2 * ((10 : ℕ) : ℝ) * ∑ i ∈ Finset.range 1, 1 * |(Tensor.tab2 1 1 fun _ _ => t).get [0, i] - (Tensor.tab2 1 1 fun _ _ => s).get [0, i]| ≤ _
  rw [Finset.sum_range_one, hg t 0 one_pos 0 one_pos, hg s 0 one_pos 0 one_pos, one_mul]
  refine mul_le_mul_of_nonneg_right ?_ (abs_nonneg _)
  have : √(2 * ((3 : ℕ) : ℝ)) ≤ 2.45 := by
    rw [Real.sqrt_le_left (by norm_num)]
    norm_num
  generalize √(2 * ((3 : ℕ) : ℝ)) = m at this ⊢
  push_cast
  linarith

/-- Weights 1 and -1 with three nodes and ten segments reach every slope below 40. -/
example : ∃ t, -1 ≤ t ∧ t < 1 ∧ ∃ ot o1, (alternatingLayer 3 10).forward (Tensor.tab2 1 1 fun _ _ => t) = .ok ot ∧
    (alternatingLayer 3 10).forward (Tensor.tab2 1 1 fun _ _ => 1) = .ok o1 ∧ 39.9 * (1 - t) < o1.get [0, 0] - ot.get [0, 0] :=
  (C110_growth (n := 3) (S := 10) (by norm_num) (by norm_num) (by norm_num)).2

/-- Two inputs, two hidden layers of width three, two nodes and one segment everywhere, periodicity 2: with weights between -1 and 1 the output changes by at most 864 times the largest change of an
input. -/
example (rng : Rng ℝ) : ∃ (net : ℕ) (h1 : Heap ℝ) (inp out : ℕ) (hid : ℕ → ℕ), mlpInit rng { exNet "continuous" 2 1 with periodicity := some 2 } [] = .ok (net, h1) ∧
    ∀ h : Heap ℝ, h1.Later h → h.Ordered →
      (∀ j ∈ inp :: out :: (List.range 2).map hid, ∃ L : PwLayer ℝ, h[j]? = some (.pw L) ∧
        ∀ o < L.outFeatures, ∀ i < L.inFeatures, ∀ r < PwLayer.wSize L.cls L.n L.segments, |L.w.get [o, i, r]| ≤ 1) → Steady (h.forward net) 2 1 864 := by
  obtain ⟨net, h1, inp, out, hid, e1, hall⟩ := C110_network rng (c := { exNet "continuous" 2 1 with periodicity := some 2 }) (q := ⟨2, 1, 2, 1, 2, 1⟩) (p := 2) (nl := noFwd)
    ⟨rfl, rfl, rfl, rfl, rfl, rfl, by norm_num, by simp [exNet]⟩ (by rfl) (by rfl) rfl (by norm_num) le_rfl rfl le_rfl rfl ordered_nil (by intro j hj; cases hj) (by intro h; cases h)
  refine ⟨net, h1, inp, out, hid, e1, fun h hl ho hW => ?_⟩
  have := hall h hl ho 1 hW
  have e : slopeBound 2 1 = 2 := by
    unfold slopeBound
    rw [show (2 : ℝ) * ((2 : ℕ) : ℝ) = 2 ^ 2 by norm_num, Real.sqrt_sq (by norm_num)]
    norm_num
  have e2 : (((3 : ℕ) : ℝ) * (slopeBound 2 1 * 1)) * (((3 : ℕ) : ℝ) * (slopeBound 2 1 * 1)) ^ 2 * (((2 : ℕ) : ℝ) * (slopeBound 2 1 * 1)) = 864 := by
    rw [e]; norm_num
  rw [← e2]
  exact this

end HOL
