import Verif.Lemmas.Approx
import Verif.Props.Forward
import Mathlib.Topology.UniformSpace.HeineCantor
import Mathlib.Topology.MetricSpace.Pseudo.Lemmas
import Mathlib.Analysis.Calculus.Deriv.Pow

/-! # C84: piecewise layers approximate smooth functions with order `n`, and continuous functions uniformly -/

namespace HOL
open Polynomial Spec

namespace Spec

/-- Position of node `k` of segment `s`. -/
noncomputable def nodePos (n S s k : ℕ) : ℝ := segLeft S s + (node n k + 1) / S

/-- The weights of the layer are the values of the functions `f o i` at the positions of the nodes. -/
def Samples (L : PwLayer ℝ) (f : ℕ → ℕ → ℝ → ℝ) : Prop :=
  ∀ o < L.outFeatures, ∀ i < L.inFeatures, ∀ s < L.segments, ∀ k < L.n,
    L.w.get [o, i, s * (if L.cls.shared then L.n - 1 else L.n) + k] = f o i (nodePos L.n L.segments s k)

/-- All entries lie in `[-1, 1]`. -/
def InRange (x : Tensor ℝ) (B I : ℕ) : Prop := ∀ b < B, ∀ i < I, -1 ≤ x.get [b, i] ∧ x.get [b, i] ≤ 1

end Spec

theorem localCoord_at_nodePos {n S s k : ℕ} (hS : 0 < S) : localCoord S s (nodePos n S s k) = node n k := by
  have : (S : ℝ) ≠ 0 := by positivity
  unfold localCoord nodePos segLeft
  field_simp
  ring

/-- The active segment contains `x` if `x` is in `[-1, 1]`. -/
theorem isActive_bounds {S s : ℕ} {x : ℝ} (hs : IsActive S s x) (h1 : -1 ≤ x) (h2 : x ≤ 1) :
    segLeft S s ≤ x ∧ x ≤ segLeft S (s + 1) ∧ -1 ≤ localCoord S s x ∧ localCoord S s x ≤ 1 := by
  obtain ⟨hlt, hl, hr⟩ := hs
  have hS : (0 : ℝ) < S := by exact_mod_cast (by omega : 0 < S)
  have a : segLeft S s ≤ x := by
    rcases hl with rfl | h
    · unfold segLeft; simpa using h1
    · exact h
  have b : x ≤ segLeft S (s + 1) := by
    rcases hr with h | h
    · rw [h]; unfold segLeft
      rw [mul_div_assoc, div_self hS.ne']; linarith
    · exact h.le
  refine ⟨a, b, ?_, ?_⟩
  · rw [← localCoord_left (S := S) (by omega) s]
    unfold localCoord
    have := mul_le_mul_of_nonneg_left a hS.le
    linarith
  · rw [← localCoord_right (S := S) (by omega) s]
    unfold localCoord
    have := mul_le_mul_of_nonneg_left b hS.le
    linarith

theorem segLeft_bounds {S s : ℕ} (hs : s ≤ S) (hS : 0 < S) : -1 ≤ segLeft S s ∧ segLeft S s ≤ 1 := by
  have hSr : (0 : ℝ) < S := by exact_mod_cast hS
  have h : (s : ℝ) ≤ S := by exact_mod_cast hs
  unfold segLeft
  constructor
  · have : 0 ≤ 2 * (s : ℝ) / S := by positivity
    linarith
  · have : 2 * (s : ℝ) / S ≤ 2 := by rw [div_le_iff₀ hSr]; linarith
    linarith

theorem nodePos_bounds {n S s k : ℕ} (hS : 0 < S) : segLeft S s ≤ nodePos n S s k ∧ nodePos n S s k ≤ segLeft S (s + 1) := by
  have hSr : (0 : ℝ) < S := by exact_mod_cast hS
  have h := node_mem n k
  unfold nodePos
  constructor
  · have : 0 ≤ (node n k + 1) / S := div_nonneg (by linarith) hSr.le
    linarith
  · have : (node n k + 1) / S ≤ 2 / S := by gcongr; linarith
    have e : segLeft S (s + 1) = segLeft S s + 2 / S := by unfold segLeft; push_cast; ring
    rw [e]; linarith

/-- Error of one link. -/
theorem link_error {n S stride : ℕ} (hn : 0 < n) {v : ℕ → ℝ} {g f : ℝ → ℝ} (hg : IsPiecewisePoly n S stride v g)
    (hv : ∀ s < S, ∀ k < n, v (s * stride + k) = f (nodePos n S s k)) (hf : ContDiff ℝ n f) {C : ℝ} (hC : ∀ t, -1 ≤ t → t ≤ 1 → |iteratedDeriv n f t| ≤ C)
    (hS : 0 < S) {x : ℝ} (h1 : -1 ≤ x) (h2 : x ≤ 1) : |g x - f x| ≤ C * (4 / ((n.factorial : ℝ) * (2 * S) ^ n)) := by
  obtain ⟨s, hs⟩ := isActive_exists hS x
  have hSr : (0 : ℝ) < S := by exact_mod_cast hS
  obtain ⟨b1, b2, b3, b4⟩ := isActive_bounds hs h1 h2
  have hC0 : 0 ≤ C := (abs_nonneg _).trans (hC x h1 h2)
  -- the affine change of variable as a polynomial
  set A : ℝ[X] := Polynomial.C (S : ℝ) * (X + 1) - Polynomial.C (2 * s + 1 : ℝ) with hA
  have hAe : ∀ t, A.eval t = localCoord S s t := by
    intro t
    simp only [hA, eval_sub, eval_mul, eval_add, eval_C, eval_X, eval_one, localCoord]
    ring
  set P : ℝ[X] := (linkPoly n fun k => v (s * stride + k)).comp A with hP
  have hPe : ∀ t, P.eval t = (linkPoly n fun k => v (s * stride + k)).eval (localCoord S s t) := by
    intro t; rw [hP, eval_comp, hAe]
  have hAd : A.natDegree ≤ 1 := by
    have e : A = Polynomial.C (S : ℝ) * X + Polynomial.C ((S : ℝ) - (2 * s + 1)) := by
      rw [hA, C_sub, mul_add, mul_one]; ring
    rw [e]
    exact natDegree_linear_le
  have hPd : P.degree < n := by
    have h0 := linkPoly_degree_lt n fun k => v (s * stride + k)
    have h3 : (linkPoly n fun k => v (s * stride + k)).natDegree < n := by
      by_cases e : (linkPoly n fun k => v (s * stride + k)) = 0
      · rw [e, natDegree_zero]; exact hn
      · exact (natDegree_lt_iff_degree_lt e).2 h0
    have h4 : P.natDegree < n := by
      have := natDegree_comp_le (p := linkPoly n fun k => v (s * stride + k)) (q := A)
      rw [← hP] at this
      have h5 : (linkPoly n fun k => v (s * stride + k)).natDegree * A.natDegree ≤ (linkPoly n fun k => v (s * stride + k)).natDegree * 1 :=
        Nat.mul_le_mul_left _ hAd
      omega
    by_cases e : P = 0
    · rw [e, degree_zero]; exact WithBot.bot_lt_coe _
    · exact (natDegree_lt_iff_degree_lt e).1 h4
  have hinj : Set.InjOn (nodePos n S s) (Finset.range n : Set ℕ) := by
    intro i hi j hj e
    apply node_injOn n hi hj
    rw [← localCoord_at_nodePos (s := s) hS, ← localCoord_at_nodePos (n := n) (k := j) (s := s) hS, e]
  have hend1 := segLeft_bounds (le_of_lt hs.1) hS
  have hend2 := segLeft_bounds (Nat.succ_le_of_lt hs.1) hS
  have key := interpolation_error f hf (nodePos n S s) hinj P hPd
    (fun k hk => by rw [hPe, localCoord_at_nodePos hS, linkPoly_eval_node hk, hv s hs.1 k hk])
    (a := segLeft S s) (b := segLeft S (s + 1)) (C := C) (x := x) (fun k _ => nodePos_bounds hS) ⟨b1, b2⟩
    (fun t ht1 ht2 => hC t (hend1.1.trans ht1) (ht2.trans hend2.2))
  have hprod : |∏ k ∈ Finset.range n, (x - nodePos n S s k)| ≤ 4 / (2 * S) ^ n := by
    have e : ∀ k ∈ Finset.range n, x - nodePos n S s k = (localCoord S s x - node n k) / S := by
      intro k _
      unfold nodePos localCoord segLeft
      field_simp
      ring
    rw [Finset.prod_congr rfl e, Finset.prod_div_distrib, Finset.prod_const, Finset.card_range, abs_div, abs_of_pos (pow_pos hSr n), mul_pow, ← div_div]
    gcongr
    exact node_product_le hn b3 b4
  rw [hg s x hs, ← hPe, abs_sub_comm]
  refine key.trans ?_
  calc C / (n.factorial : ℝ) * |∏ k ∈ Finset.range n, (x - nodePos n S s k)| ≤ C / (n.factorial : ℝ) * (4 / (2 * S) ^ n) := by gcongr
    _ = C * (4 / ((n.factorial : ℝ) * (2 * S) ^ n)) := by field_simp

/-- The links of a sum layer with sampled weights. -/
theorem samples_link {L : PwLayer ℝ} {f : ℕ → ℕ → ℝ → ℝ} (hw : Samples L f) {o i : ℕ} (ho : o < L.outFeatures) (hi : i < L.inFeatures) :
    ∀ s < L.segments, ∀ k < L.n, L.w.get [o, i, s * L.stride + k] = f o i (nodePos L.n L.segments s k) := fun s hs k hk => hw o ho i hi s hs k hk

/-- **C84 (order).** If the weights of a continuous or discontinuous layer are the values of `n` times continuously differentiable functions at its nodes, then for inputs in `[-1, 1]` every
output differs from the sum of the functions by at most `4 / (n! (2 segments)^n)` times the sum of bounds of their `n`-th derivatives. So doubling the number of segments divides the bound
by `2^n`. -/
theorem C84_order (L : PwLayer ℝ) (h : L.WF) (hc : L.cls = .continuous ∨ L.cls = .discontinuous) (hl : L.length = 2) (hp : L.periodicity = none)
    (f : ℕ → ℕ → ℝ → ℝ) (hf : ∀ o i, ContDiff ℝ L.n (f o i)) (C : ℕ → ℕ → ℝ) (hC : ∀ o i t, -1 ≤ t → t ≤ 1 → |iteratedDeriv L.n (f o i) t| ≤ C o i)
    (hw : Samples L f) {B : ℕ} {x : Tensor ℝ} (hx : x.shape = [B, L.inFeatures]) (hwf : x.WF) (hr : InRange x B L.inFeatures) :
    ∃ out, L.forward x = .ok out ∧ out.shape = [B, L.outFeatures] ∧ ∀ b < B, ∀ o < L.outFeatures,
      |out.get [b, o] - ∑ i ∈ Finset.range L.inFeatures, f o i (x.get [b, i])|
        ≤ (∑ i ∈ Finset.range L.inFeatures, C o i) * (4 / ((L.n.factorial : ℝ) * (2 * L.segments) ^ L.n)) := by
  refine ⟨_, L.forward_sum h hc hx hwf, rfl, ?_⟩
  intro b hb o ho
  rw [Tensor.get_tab2 hb ho, ← Finset.sum_sub_distrib, Finset.sum_mul]
  refine (Finset.abs_sum_le_sum_abs _ _).trans (Finset.sum_le_sum ?_)
  intro i hi
  have hi' := Finset.mem_range.1 hi
  exact link_error h.n_pos (L.linkFn_isPiecewise h.seg_pos hl hp o i) (samples_link hw ho hi') (hf o i) (hC o i) h.seg_pos (hr b hb i hi').1 (hr b hb i hi').2

/-- **C84 (weights).** Such weights exist, for continuous layers with at least two nodes per segment and for all discontinuous ones: at a boundary both segments ask for the same value. -/
theorem C84_sampled_weights (L : PwLayer ℝ) (h : L.WF) (hn : L.cls.shared = true → 2 ≤ L.n) (f : ℕ → ℕ → ℝ → ℝ) :
    ∃ w : Tensor ℝ, ({ L with w := w } : PwLayer ℝ).WF ∧ Samples { L with w := w } f := by
  have hS := h.seg_pos
  have hSr : (L.segments : ℝ) ≠ 0 := by
    have : (0 : ℝ) < L.segments := by exact_mod_cast hS
    exact this.ne'
  set d : ℕ := if L.cls.shared then L.n - 1 else L.n with hd
  have hd0 : 0 < d := by
    rw [hd]
    split
    · rename_i hsh; have := hn hsh; omega
    · exact h.n_pos
  refine ⟨Tensor.tab3 L.outFeatures L.inFeatures (PwLayer.wSize L.cls L.n L.segments) fun o i q => f o i (nodePos L.n L.segments (q / d) (q % d)),
    ⟨h.n_pos, h.seg_pos, h.in_pos, h.out_pos, rfl, Tensor.wf_tabulate _ _⟩, ?_⟩
  intro o ho i hi s hs k hk
  change k < L.n at hk
  change s < L.segments at hs
  show (Tensor.tab3 _ _ _ _).get [o, i, s * d + k] = f o i (nodePos L.n L.segments s k)
  have hq : s * d + k < PwLayer.wSize L.cls L.n L.segments := by
    unfold PwLayer.wSize
    by_cases hsh : L.cls.shared = true
    · rw [if_pos hsh]
      rw [if_pos hsh] at hd
      have : (s + 1) * d ≤ L.segments * d := Nat.mul_le_mul_right _ hs
      rw [Nat.add_mul, Nat.one_mul] at this
      rw [← hd, Nat.mul_comm d]
      omega
    · rw [if_neg hsh]
      rw [if_neg hsh] at hd
      have : (s + 1) * d ≤ L.segments * d := Nat.mul_le_mul_right _ hs
      rw [Nat.add_mul, Nat.one_mul] at this
      rw [← hd, Nat.mul_comm d]
      omega
  rw [Tensor.get_tab3 ho hi hq]
  rcases Nat.lt_or_ge k d with hkd | hkd
  · rw [Nat.add_comm, Nat.add_mul_div_right _ _ hd0, Nat.add_mul_mod_self_right, Nat.div_eq_of_lt hkd, Nat.mod_eq_of_lt hkd, Nat.zero_add]
  · have hsh : L.cls.shared = true := by
      by_contra hsh
      rw [if_neg hsh] at hd
      omega
    have h2 := hn hsh
    rw [if_pos hsh] at hd
    have hkd' : k = L.n - 1 := by omega
    have e : s * d + k = 0 + (s + 1) * d := by rw [hkd', ← hd]; ring
    rw [e, Nat.add_mul_div_right _ _ hd0, Nat.add_mul_mod_self_right, Nat.zero_div, Nat.zero_mod, Nat.zero_add, hkd']
    congr 1
    unfold nodePos segLeft
    rw [node_zero h2, node_last h2]
    push_cast
    field_simp
    ring

/-- A bound of the sum of the absolute values of the basis polynomials. -/
theorem exists_lebesgue (n : ℕ) : ∃ Λ : ℝ, 0 < Λ ∧ ∀ t, -1 ≤ t → t ≤ 1 → ∑ k ∈ Finset.range n, |(Lagrange.basis (Finset.range n) (node n) k).eval t| ≤ Λ := by
  have hcont : Continuous fun t => ∑ k ∈ Finset.range n, |(Lagrange.basis (Finset.range n) (node n) k).eval t| := by
    apply continuous_finsetSum
    intro k _
    exact (Polynomial.continuous _).abs
  obtain ⟨C, hC⟩ := (isCompact_Icc (a := (-1 : ℝ)) (b := 1)).exists_bound_of_continuousOn hcont.continuousOn
  refine ⟨|C| + 1, by positivity, fun t h1 h2 => ?_⟩
  have := hC t ⟨h1, h2⟩
  rw [Real.norm_eq_abs] at this
  have h3 := le_abs_self (∑ k ∈ Finset.range n, |(Lagrange.basis (Finset.range n) (node n) k).eval t|)
  have h4 := le_abs_self C
  linarith

/-- **C84 (convergence).** Functions that are only continuous on `[-1, 1]` are approximated uniformly: for every `ε > 0` all layers with enough segments and sampled weights differ by less than
`ε` from the sum of the functions, at all inputs in `[-1, 1]`. -/
theorem C84_convergence (n I O : ℕ) (hn : 0 < n) (f : ℕ → ℕ → ℝ → ℝ) (hf : ∀ o i, ContinuousOn (f o i) (Set.Icc (-1) 1)) (ε : ℝ) (hε : 0 < ε) :
    ∃ S₀, ∀ L : PwLayer ℝ, L.WF → (L.cls = .continuous ∨ L.cls = .discontinuous) → L.length = 2 → L.periodicity = none → L.n = n → L.inFeatures = I → L.outFeatures = O →
      S₀ ≤ L.segments → Samples L f → ∀ (B : ℕ) (x : Tensor ℝ), x.shape = [B, I] → x.WF → InRange x B I →
      ∃ out, L.forward x = .ok out ∧ out.shape = [B, O] ∧ ∀ b < B, ∀ o < O, |out.get [b, o] - ∑ i ∈ Finset.range I, f o i (x.get [b, i])| < ε := by
  obtain ⟨Λ, hΛ, hleb⟩ := exists_lebesgue n
  have hIr : (0 : ℝ) < I + 1 := by positivity
  set δ' : ℝ := ε / (Λ * (I + 1)) with hδ'
  have hδ'0 : 0 < δ' := by positivity
  have huc : ∀ o i, ∃ δ > 0, ∀ x ∈ Set.Icc (-1 : ℝ) 1, ∀ y ∈ Set.Icc (-1 : ℝ) 1, |x - y| < δ → |f o i x - f o i y| < δ' := by
    intro o i
    have := (isCompact_Icc (a := (-1 : ℝ)) (b := 1)).uniformContinuousOn_of_continuous (hf o i)
    rw [Metric.uniformContinuousOn_iff] at this
    obtain ⟨δ, hδ, h⟩ := this δ' hδ'0
    exact ⟨δ, hδ, fun x hx y hy hxy => h x hx y hy hxy⟩
  choose δ hδ0 hδ using huc
  -- one number of segments for all links
  have hS : ∀ o i, ∃ N : ℕ, 2 / δ o i < N := fun o i => exists_nat_gt _
  choose N hN using hS
  refine ⟨∑ o ∈ Finset.range O, ∑ i ∈ Finset.range I, N o i, ?_⟩
  intro L h hc hl hp hLn hLI hLO hLS hw B x hx hwf hr
  subst hLn hLI hLO
  refine ⟨_, L.forward_sum h hc hx hwf, rfl, ?_⟩
  intro b hb o ho
  rw [Tensor.get_tab2 hb ho, ← Finset.sum_sub_distrib]
  have hSr : (0 : ℝ) < L.segments := by exact_mod_cast h.seg_pos
  have hlink : ∀ i ∈ Finset.range L.inFeatures, |L.linkFn o i (x.get [b, i]) - f o i (x.get [b, i])| ≤ Λ * δ' := by
    intro i hi
    have hi' := Finset.mem_range.1 hi
    obtain ⟨h1, h2⟩ := hr b hb i hi'
    set y := x.get [b, i] with hy
    obtain ⟨s, hs⟩ := isActive_exists h.seg_pos y
    obtain ⟨b1, b2, b3, b4⟩ := isActive_bounds hs h1 h2
    have hNS : N o i ≤ L.segments := by
      refine le_trans ?_ hLS
      refine le_trans ?_ (Finset.single_le_sum (f := fun o => ∑ i ∈ Finset.range L.inFeatures, N o i) (fun _ _ => Nat.zero_le _) (Finset.mem_range.2 ho))
      exact Finset.single_le_sum (f := fun i => N o i) (fun _ _ => Nat.zero_le _) hi
    have hh : 2 / (L.segments : ℝ) < δ o i := by
      have h3 : (N o i : ℝ) ≤ L.segments := by exact_mod_cast hNS
      have h4 := (hN o i).trans_le h3
      rw [div_lt_iff₀ (hδ0 o i)] at h4
      rw [div_lt_iff₀ hSr]
      linarith
    have hstep : segLeft L.segments (s + 1) = segLeft L.segments s + 2 / L.segments := by unfold segLeft; push_cast; ring
    rw [L.linkFn_isPiecewise h.seg_pos hl hp o i s y hs]
    unfold linkPoly
    rw [Lagrange.interpolate_apply, eval_finsetSum]
    have hsum : ∑ k ∈ Finset.range L.n, (Lagrange.basis (Finset.range L.n) (node L.n) k).eval (localCoord L.segments s y) = 1 := by
      rw [← eval_finsetSum, Lagrange.sum_basis (node_injOn L.n) ⟨0, Finset.mem_range.2 h.n_pos⟩, eval_one]
    have e : f o i y = ∑ k ∈ Finset.range L.n, f o i y * (Lagrange.basis (Finset.range L.n) (node L.n) k).eval (localCoord L.segments s y) := by
      rw [← Finset.mul_sum, hsum, mul_one]
    rw [e, ← Finset.sum_sub_distrib]
    refine (Finset.abs_sum_le_sum_abs _ _).trans ?_
    refine le_trans (Finset.sum_le_sum (g := fun k => |(Lagrange.basis (Finset.range L.n) (node L.n) k).eval (localCoord L.segments s y)| * δ') ?_) ?_
    · intro k hk
      rw [eval_mul, eval_C, ← sub_mul, abs_mul, mul_comm]
      gcongr
      beta_reduce
      rw [samples_link hw ho hi' s hs.1 k (Finset.mem_range.1 hk)]
      have hb := nodePos_bounds (n := L.n) (s := s) (k := k) h.seg_pos
      have e1 := segLeft_bounds (le_of_lt hs.1) h.seg_pos
      have e2 := segLeft_bounds (Nat.succ_le_of_lt hs.1) h.seg_pos
      refine (hδ o i _ ⟨e1.1.trans hb.1, hb.2.trans e2.2⟩ _ ⟨h1, h2⟩ ?_).le
      rw [abs_lt]
      constructor <;> linarith [hb.1, hb.2]
    · rw [← Finset.sum_mul]
      gcongr
      exact hleb _ b3 b4
  refine lt_of_le_of_lt ((Finset.abs_sum_le_sum_abs _ _).trans (Finset.sum_le_sum hlink)) ?_
  rw [Finset.sum_const, Finset.card_range, nsmul_eq_mul, hδ']
  have e : (L.inFeatures : ℝ) * (Λ * (ε / (Λ * (L.inFeatures + 1)))) = ε * (L.inFeatures / (L.inFeatures + 1)) := by field_simp
  rw [e]
  have : (L.inFeatures : ℝ) / (L.inFeatures + 1) < 1 := by rw [div_lt_one hIr]; linarith
  calc ε * (L.inFeatures / (L.inFeatures + 1)) < ε * 1 := by gcongr
    _ = ε := mul_one ε

/-- **C84 (sharp).** The constant cannot be improved: with two nodes per segment and weights sampled from `x²`, whose second derivative is 2, the error in the middle of every segment is exactly
`2 * 4 / (2! (2 segments)²)`. -/
theorem C84_sharp (L : PwLayer ℝ) (h : L.WF) (hc : L.cls = .continuous ∨ L.cls = .discontinuous) (hl : L.length = 2) (hp : L.periodicity = none) (hn : L.n = 2) (hI : L.inFeatures = 1)
    (hw : Samples L fun _ _ t => t ^ 2) {s : ℕ} (hs : s < L.segments) :
    ∃ out, L.forward (Tensor.tab2 1 1 fun _ _ => segLeft L.segments s + 1 / L.segments) = .ok out ∧ ∀ o < L.outFeatures,
      |out.get [0, o] - (segLeft L.segments s + 1 / L.segments) ^ 2| = 2 * (4 / ((Nat.factorial 2 : ℝ) * (2 * L.segments) ^ 2)) := by
  have hSr : (0 : ℝ) < L.segments := by exact_mod_cast h.seg_pos
  set y : ℝ := segLeft L.segments s + 1 / L.segments with hy
  have hact : IsActive L.segments s y := by
    refine ⟨hs, Or.inr ?_, Or.inr ?_⟩
    · rw [hy]; have : 0 < 1 / (L.segments : ℝ) := by positivity
      linarith
    · have e : segLeft L.segments (s + 1) = segLeft L.segments s + 2 / L.segments := by unfold segLeft; push_cast; ring
      rw [hy, e]
      have : 1 / (L.segments : ℝ) < 2 / L.segments := by gcongr; norm_num
      linarith
  refine ⟨_, L.forward_sum h hc (B := 1) (by rw [hI]; rfl) (Tensor.wf_tabulate _ _), ?_⟩
  intro o ho
  rw [Tensor.get_tab2 (by norm_num) ho, hI, Finset.sum_range_one, Tensor.get_tab2 (by norm_num) (by norm_num), L.linkFn_isPiecewise h.seg_pos hl hp o 0 s y hact]
  have hloc : localCoord L.segments s y = 0 := by
    rw [hy]; unfold localCoord segLeft; field_simp; ring
  have hv : ∀ k < 2, L.w.get [o, 0, s * L.stride + k] = (nodePos 2 L.segments s k) ^ 2 := by
    intro k hk
    have := samples_link hw ho (i := 0) (by omega) s hs k (by omega)
    rw [hn] at this
    exact this
  have n0 : node 2 0 = -1 := node_zero le_rfl
  have n1 : node 2 1 = 1 := node_last (n := 2) le_rfl
  have hline : linkPoly 2 (fun k => L.w.get [o, 0, s * L.stride + k])
      = linkPoly 2 (fun j => (Polynomial.C ((L.w.get [o, 0, s * L.stride + 0] + L.w.get [o, 0, s * L.stride + 1]) / 2)
          + Polynomial.C ((L.w.get [o, 0, s * L.stride + 1] - L.w.get [o, 0, s * L.stride + 0]) / 2) * X).eval (node 2 j)) := by
    apply linkPoly_congr
    intro j hj
    have : j = 0 ∨ j = 1 := by omega
    rcases this with rfl | rfl
    · rw [n0]; simp only [eval_add, eval_mul, eval_C, eval_X]; ring
    · rw [n1]; simp only [eval_add, eval_mul, eval_C, eval_X]; ring
  rw [hn, hline, linkPoly_eq_of_degree_lt, hloc, hv 0 (by norm_num), hv 1 (by norm_num)]
  · simp only [eval_add, eval_mul, eval_C, eval_X, mul_zero, add_zero]
    unfold nodePos
    rw [n0, n1, hy]
    have e : ((segLeft L.segments s + (-1 + 1) / (L.segments : ℝ)) ^ 2 + (segLeft L.segments s + (1 + 1) / L.segments) ^ 2) / 2 - (segLeft L.segments s + 1 / L.segments) ^ 2
        = 1 / (L.segments : ℝ) ^ 2 := by
      field_simp
      ring
    rw [e, abs_of_pos (by positivity)]
    norm_num
    field_simp
    ring
  · refine lt_of_le_of_lt (b := (1 : WithBot ℕ)) ?_ (by norm_num)
    rw [add_comm]
    exact degree_linear_le

/-- The hypotheses hold: with `x ↦ x³` sampled on three nodes and four segments, for inputs in `[-1, 1]` the error is at most `2 * 6 * 4 / (3! 8³) = 1/64`. -/
example : ∃ w : Tensor ℝ, ∀ x : Tensor ℝ, x.shape = [5, 2] → x.WF → InRange x 5 2 →
    ∃ out, ({ exC with w := w } : PwLayer ℝ).forward x = .ok out ∧ ∀ b < 5, |out.get [b, 0] - (x.get [b, 0] ^ 3 + x.get [b, 1] ^ 3)| ≤ 1 / 64 := by
  obtain ⟨w, hw, hs⟩ := C84_sampled_weights exC exC_wf (fun _ => by show 2 ≤ 3; norm_num) fun _ _ t => t ^ 3
  refine ⟨w, fun x hx hwf hr => ?_⟩
  have hd : ∀ t : ℝ, iteratedDeriv 3 (fun t : ℝ => t ^ 3) t = 6 := by
    intro t
    have := congrFun (iteratedDeriv_poly (X ^ 3) 3) t
    simp only [eval_pow, eval_X] at this
    rw [this]
    norm_num [Function.iterate_succ, derivative_X_pow]
  obtain ⟨out, h1, -, h2⟩ := C84_order { exC with w := w } hw (Or.inl rfl) rfl rfl (fun _ _ t => t ^ 3) (fun _ _ => contDiff_id.pow 3) (fun _ _ => 6)
    (fun _ _ t _ _ => by show |iteratedDeriv 3 (fun t : ℝ => t ^ 3) t| ≤ 6; rw [hd]; norm_num) hs (B := 5) (x := x) hx hwf hr
  refine ⟨out, h1, fun b hb => ?_⟩
  have := h2 b hb 0 (by show 0 < 1; norm_num)
  change |out.get [b, 0] - ∑ i ∈ Finset.range 2, x.get [b, i] ^ 3| ≤ (∑ i ∈ Finset.range 2, (6 : ℝ)) * (4 / ((Nat.factorial 3 : ℝ) * (2 * ((4 : ℕ) : ℝ)) ^ 3)) at this
  rw [Finset.sum_range_succ, Finset.sum_range_one] at this
  refine this.trans ?_
  norm_num [Finset.sum_range_succ, Nat.factorial]

end HOL
