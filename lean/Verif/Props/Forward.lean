import Verif.Lemmas.Layers
import Mathlib.Topology.Order.Basic

/-! # C06 - C16, C19: forward passes of polynomial and piecewise layers -/

namespace HOL
open TorchScalar Polynomial Spec

/-! ## C06 -/

/-- **C06.** `Polynomial(n, in, out, length)` constructs, and with any weights its output is the
sum over the inputs of the polynomials of degree `< n` through the weights of the links. -/
theorem C06_polynomial_layer (n I O : ℕ) (hn : 1 ≤ n) (length : ℝ) (hl : length ≠ 0)
    (rand : ℕ → ℕ → ℝ) (wm : ℝ) :
    ∃ L, polynomialInit n I O length rand wm none = .ok L ∧ L.w.shape = [O, I, n] ∧
      ∀ w : Tensor ℝ, w.shape = [O, I, n] →
        ∃ P : ℕ → ℕ → ℝ[X],
          (∀ o i, (P o i).degree < n ∧ ∀ j < n, (P o i).eval (length / 2 * node n j) = w.get [o, i, j]) ∧
          Computes ({ L with w := w } : FnLayer ℝ).forward I O
            fun o r => ∑ i ∈ Finset.range I, (P o i).eval (r i) := by
  unfold polynomialInit FnLayer.init
  rw [lagrangePolyFlat_numBasis hn]
  refine ⟨_, rfl, rfl, ?_⟩
  intro w hw
  have hinj := scaled_injOn n hl
  refine ⟨fun o i => Lagrange.interpolate (Finset.range n) (fun j => length / 2 * node n j)
          fun k => w.get [o, i, k], ?_, ?_⟩
  · intro o i
    constructor
    · simpa using Lagrange.degree_interpolate_lt (fun k => w.get [o, i, k]) hinj
    · intro j hj
      exact Lagrange.eval_interpolate_at_node _ hinj (Finset.mem_range.2 hj)
  · intro B x hx hwf
    refine ⟨_, FnLayer.forward_lagrange _ hn length rfl hw hx hwf, rfl, Tensor.wf_tabulate _ _, ?_⟩
    intro b hb o ho
    rw [Tensor.get_tab2 hb ho]
    rfl

/-- The hypotheses are met by a cubic layer with two inputs. -/
example : ∃ L, polynomialInit 4 2 3 (2 : ℝ) (fun _ _ => 1 / 2) 1 none = .ok L ∧ L.w.shape = [3, 2, 4] := by
  obtain ⟨L, h1, h2, _⟩ := C06_polynomial_layer 4 2 3 (by norm_num) 2 (by norm_num) (fun _ _ => 1 / 2) 1
  exact ⟨L, h1, h2⟩

/-! ## C07 -/

/-- **C07 (range).** The segment is always a valid one, in every arithmetic. -/
theorem C07_segment_in_range {K : Type} [TorchScalar K] (L : PwLayer K) (hS : 0 < L.segments) (x : K) :
    0 ≤ L.whichSegment x ∧ L.whichSegment x ≤ (L.segments : ℤ) - 1 :=
  ⟨L.segIndex_nonneg hS _, L.segIndex_le _⟩

/-- **C07.** Over the reals, for `length = 2`: the segment of `x ∈ [-1, 1)` is the one whose half open
interval contains `x` and no other interval contains it; `x ≥ 1` goes to the last and `x < -1` to the first. -/
theorem C07_segment_correct (L : PwLayer ℝ) (hS : 0 < L.segments) (hl : L.length = 2)
    (hp : L.periodicity = none) (x : ℝ) :
    (-1 ≤ x → x < 1 → ∃ s : ℕ, L.whichSegment x = s ∧
      -1 + 2 * (s : ℝ) / L.segments ≤ x ∧ x < -1 + 2 * ((s : ℝ) + 1) / L.segments ∧
      ∀ t : ℕ, -1 + 2 * (t : ℝ) / L.segments ≤ x → x < -1 + 2 * ((t : ℝ) + 1) / L.segments → t = s) ∧
    (1 ≤ x → L.whichSegment x = (L.segments : ℤ) - 1) ∧
    (x < -1 → L.whichSegment x = 0) := by
  have hSr : (0 : ℝ) < L.segments := by exact_mod_cast hS
  have hact := L.isActive_seg hS hl x
  rw [hp] at hact
  change IsActive L.segments (L.seg x) x at hact
  have hw := L.whichSegment_eq_seg hS x
  have hlast : segLeft L.segments L.segments = 1 := by
    unfold segLeft; field_simp; norm_num
  have hzero : segLeft L.segments 0 = -1 := by simp [segLeft]
  have huniq : ∀ s t : ℕ, segLeft L.segments s ≤ x → x < segLeft L.segments (s + 1) →
      segLeft L.segments t ≤ x → x < segLeft L.segments (t + 1) → t = s := by
    intro s t h1 h2 h3 h4
    by_contra hne
    rcases Nat.lt_or_ge t s with h | h
    · have := segLeft_mono (S := L.segments) (show t + 1 ≤ s by omega)
      linarith
    · have := segLeft_mono (S := L.segments) (show s + 1 ≤ t by omega)
      linarith
  refine ⟨?_, ?_, ?_⟩
  · intro h1 h2
    have hleft : segLeft L.segments (L.seg x) ≤ x := by
      rcases hact.2.1 with h | h
      · rw [h, hzero]; exact h1
      · exact h
    have hright : x < segLeft L.segments (L.seg x + 1) := by
      rcases hact.2.2 with h | h
      · rw [h, hlast]; exact h2
      · exact h
    refine ⟨L.seg x, hw, by simpa [segLeft] using hleft, by simpa [segLeft] using hright, ?_⟩
    intro t h3 h4
    exact huniq _ t hleft hright (by simpa [segLeft] using h3) (by simpa [segLeft] using h4)
  · intro h1
    rcases hact.2.2 with h | h
    · rw [hw]; omega
    · have := segLeft_mono (S := L.segments) (show L.seg x + 1 ≤ L.segments by have := hact.1; omega)
      linarith
  · intro h1
    rcases hact.2.1 with h | h
    · rw [hw, h]; rfl
    · have := segLeft_mono (S := L.segments) (Nat.zero_le (L.seg x))
      linarith

/-- Four segments: `0.6` is in the last one, `-3` in the first. -/
example (L : PwLayer ℝ) (h : L.segments = 4) (hl : L.length = 2) (hp : L.periodicity = none) :
    L.whichSegment (3 / 5) = 3 ∧ L.whichSegment (-3) = 0 := by
  obtain ⟨h1, _, _⟩ := C07_segment_correct L (by omega) hl hp (3 / 5)
  obtain ⟨s, e, _, _, hu⟩ := h1 (by norm_num) (by norm_num)
  refine ⟨?_, (C07_segment_correct L (by omega) hl hp (-3)).2.2 (by norm_num)⟩
  have := hu 3 (by rw [h]; norm_num) (by rw [h]; norm_num)
  rw [e, ← this]; rfl

/-! ## C08 -/

/-- **C08.** For every arithmetic, every input and every batch: each weight position used for
segment `which_segment(x)` is inside the weight tensor, and `forward` does not raise. -/
theorem C08_no_index_error {K : Type} [TorchScalar K] (L : PwLayer K) (h : L.WF) :
    (∀ (x : K) (k : ℕ), k < L.n →
      0 ≤ L.whichSegment x * (if L.cls.shared then (L.n : ℤ) - 1 else L.n) + k ∧
      L.whichSegment x * (if L.cls.shared then (L.n : ℤ) - 1 else L.n) + k
        < (L.w.shape.getD 2 0 : ℕ)) ∧
    ∀ (B : ℕ) (x : Tensor K), x.shape = [B, L.inFeatures] → x.WF →
      ∃ out, L.forward x = .ok out ∧ out.shape = [B, L.outFeatures] := by
  constructor
  · intro x k hk
    have h1 := L.whichSegment_eq_seg h.seg_pos x
    have h2 := L.widx_lt h.n_pos (L.seg_lt h.seg_pos x) hk
    have hn := h.n_pos
    have hst : (if L.cls.shared then (L.n : ℤ) - 1 else L.n) = (L.stride : ℤ) := by
      unfold PwLayer.stride; split <;> omega
    rw [h1, hst, h.w_shape]
    simp only [List.getD_cons_zero, List.getD_cons_succ]
    exact ⟨by positivity, by exact_mod_cast h2⟩
  · intro B x hx hwf
    rw [L.forward_eq h hx hwf]
    unfold PwLayer.poly PwLayer.activeW
    cases L.cls
    · exact ⟨_, interpolate_batch h.n_pos _ _ _, rfl⟩
    · exact ⟨_, interpolate_batchProd h.n_pos _ _ _ _, rfl⟩
    · exact ⟨_, interpolate_batch h.n_pos _ _ _, rfl⟩
    · exact ⟨_, interpolate_batchProd h.n_pos _ _ _ _, rfl⟩

/-- Every constructed layer meets the hypothesis, for every class, order and number of segments. -/
example {K : Type} [TorchScalar K] (cls : PwClass) (length : K) (rand : ℕ → ℕ → K) :
    (PwLayer.init cls 3 2 5 7 length rand 1 none).WF :=
  PwLayer.init_wf cls (by norm_num) (by norm_num) (by norm_num) (by norm_num) _ _ _ _

/-! ## C09, C10, C11, C12 -/

/-- **C09.** A continuous piecewise layer maps each row to the sum over the inputs of piecewise
polynomials, segment `s` of link `(o, i)` being the polynomial of degree `< n` through the weights
`s (n-1), ..., s (n-1) + n - 1` at the nodes of the segment. -/
theorem C09_piecewise_layer (L : PwLayer ℝ) (h : L.WF) (hc : L.cls = .continuous)
    (hl : L.length = 2) (hp : L.periodicity = none) :
    ∃ f : ℕ → ℕ → ℝ → ℝ,
      (∀ o i, IsPiecewisePoly L.n L.segments (L.n - 1) (fun q => L.w.get [o, i, q]) (f o i)) ∧
      Computes L.forward L.inFeatures L.outFeatures
        fun o r => ∑ i ∈ Finset.range L.inFeatures, f o i (r i) := by
  refine ⟨L.linkFn, ?_, ?_⟩
  · intro o i
    have := L.linkFn_isPiecewise h.seg_pos hl hp o i
    have hs : L.stride = L.n - 1 := by simp [PwLayer.stride, hc, PwClass.shared]
    rwa [hs] at this
  · have := L.computes h
    rw [hc] at this
    exact this

/-- **C09 (no gap).** The specification determines the value at every real number. -/
theorem C09_spec_total (n S stride : ℕ) (hS : 0 < S) (v : ℕ → ℝ) : ∃! f : ℝ → ℝ, IsPiecewisePoly n S stride v f := by
  classical
  refine ⟨fun x => (linkPoly n fun k => v ((Classical.choose (isActive_exists hS x)) * stride + k)).eval
    (localCoord S (Classical.choose (isActive_exists hS x)) x), ?_, ?_⟩
  · intro s x hs
    have := isActive_unique (Classical.choose_spec (isActive_exists hS x)) hs
    simp only [this]
  · intro g hg
    funext x
    exact hg _ x (Classical.choose_spec (isActive_exists hS x))

/-- A layer meeting the hypotheses of C09 - C12. -/
noncomputable def exC : PwLayer ℝ := PwLayer.init .continuous 3 2 1 4 2 (fun _ _ => 1 / 2) 1 none

theorem exC_wf : exC.WF :=
  PwLayer.init_wf _ (by norm_num) (by norm_num) (by norm_num) (by norm_num) _ _ _ _

example : ∃ f : ℕ → ℕ → ℝ → ℝ, Computes exC.forward 2 1
    fun o r => ∑ i ∈ Finset.range 2, f o i (r i) := by
  obtain ⟨f, _, h⟩ := C09_piecewise_layer exC exC_wf rfl rfl rfl
  exact ⟨f, h⟩

/-- **C10.** At inputs that are node positions (`x_global` of the basis nodes) the output is the sum of the
corresponding weights, in particular a single link returns its weight. -/
theorem C10_weights_are_values (L : PwLayer ℝ) (h : L.WF) (hc : L.cls = .continuous)
    (hl : L.length = 2) (hp : L.periodicity = none) (hn : 2 ≤ L.n)
    {B : ℕ} {x : Tensor ℝ} (hx : x.shape = [B, L.inFeatures]) (hwf : x.WF)
    {b : ℕ} (hb : b < B) (s k : ℕ → ℕ) (hs : ∀ i < L.inFeatures, s i < L.segments)
    (hk : ∀ i < L.inFeatures, k i < L.n)
    (hnode : ∀ i < L.inFeatures, x.get [b, i]
      = L.xGlobal ((chebyshevLobatto L.n : Tensor ℝ).get [k i]) (s i)) :
    ∃ out, L.forward x = .ok out ∧ ∀ o < L.outFeatures,
      out.get [b, o] = ∑ i ∈ Finset.range L.inFeatures, L.w.get [o, i, s i * (L.n - 1) + k i] := by
  obtain ⟨f, hf, hcomp⟩ := C09_piecewise_layer L h hc hl hp
  obtain ⟨out, h1, _, _, h4⟩ := hcomp B x hx hwf
  refine ⟨out, h1, ?_⟩
  intro o ho
  rw [h4 b hb o ho]
  apply Finset.sum_congr rfl
  intro i hi
  have hi' := Finset.mem_range.1 hi
  show f o i (x.get [b, i]) = _
  rw [hnode i hi', L.xGlobal_real hl, chebyshev_get (hk i hi')]
  exact isPiecewise_at_node hn (hf o i) (hs i hi') (hk i hi')

/-- A node position of the example layer: the shared end of segments 1 and 2 is the origin. -/
example : exC.xGlobal ((chebyshevLobatto 3 : Tensor ℝ).get [2]) 1 = 0 ∧
    exC.xGlobal ((chebyshevLobatto 3 : Tensor ℝ).get [0]) 2 = 0 := by
  have hs : (exC.segments : ℝ) = 4 := by norm_num [exC, PwLayer.init]
  constructor
  · rw [show (1 : ℤ) = ((1 : ℕ) : ℤ) from rfl, exC.xGlobal_real rfl, chebyshev_get (by norm_num),
      show (2 : ℕ) = 3 - 1 from rfl, node_last (by norm_num), hs]
    simp only [segLeft, hs]
    norm_num
  · rw [show (2 : ℤ) = ((2 : ℕ) : ℤ) from rfl, exC.xGlobal_real rfl, chebyshev_get (by norm_num),
      node_zero (by norm_num), hs]
    simp only [segLeft, hs]
    norm_num

theorem continuous_periodize {p : Option ℝ} (hp : ∀ q ∈ p, 0 < q) : Continuous (periodize p) := by
  cases p with
  | none => exact continuous_id
  | some q => exact makePeriodic_continuous (hp q rfl)

/-- **C11.** Every output of a continuous piecewise layer (sum or product, with or without
periodicity) is a continuous function of the whole input row. -/
theorem C11_continuous (L : PwLayer ℝ) (h : L.WF) (hc : L.cls = .continuous ∨ L.cls = .continuousProd)
    (hl : L.length = 2) (hp : ∀ q ∈ L.periodicity, 0 < q) :
    ComputesContinuous L.forward L.inFeatures L.outFeatures := by
  refine .of_local (L.computes h) ?_ fun o _ r r' hr => PwClass.combine_congr _ fun i hi => by rw [hr i hi]
  have hlink : ∀ o i, Continuous (L.linkFn o i) := by
    intro o i
    have hs : L.noPeriod.stride = L.n - 1 := by
      rcases hc with hc | hc <;> simp [PwLayer.stride, PwLayer.noPeriod, hc, PwClass.shared]
    have h1 := L.noPeriod.linkFn_isPiecewise h.seg_pos hl rfl o i
    rw [hs] at h1
    have h2 : Continuous (L.noPeriod.linkFn o i) :=
      continuous_of_isPiecewise (n := L.n) h.n_pos h.seg_pos h1
    exact h2.comp (continuous_periodize hp)
  intro o _
  have hsum : Continuous fun r : ℕ → ℝ => ∑ i ∈ Finset.range L.inFeatures, L.linkFn o i (r i) :=
    continuous_finsetSum _ fun i _ => (hlink o i).comp (continuous_apply i)
  have hprod : Continuous fun r : ℕ → ℝ =>
      ∏ i ∈ Finset.range L.inFeatures, (1 + L.linkFn o i (r i)) - 1 :=
    (continuous_finsetProd _ fun i _ =>
      continuous_const.add ((hlink o i).comp (continuous_apply i))).sub continuous_const
  rcases hc with hc | hc <;> rw [hc]
  · exact hsum
  · exact hprod

example : ComputesContinuous exC.forward 2 1 :=
  C11_continuous exC exC_wf (Or.inl rfl) rfl (by intro q hq; simp [exC, PwLayer.init] at hq)

/-- **C12.** Left of the second segment (in particular everywhere left of `-1`) a link is one polynomial,
the one through the first `n` weights; right of the last boundary it is the polynomial through the last
`n` weights. -/
theorem C12_extrapolation (L : PwLayer ℝ) (h : L.WF)
    (hc : L.cls = .continuous ∨ L.cls = .discontinuous)
    (hl : L.length = 2) (hp : L.periodicity = none) :
    ∃ f : ℕ → ℕ → ℝ → ℝ, ∃ P Q : ℕ → ℕ → ℝ[X],
      Computes L.forward L.inFeatures L.outFeatures
        (fun o r => ∑ i ∈ Finset.range L.inFeatures, f o i (r i)) ∧
      ∀ o i, (P o i).degree < L.n ∧ (Q o i).degree < L.n ∧
        (∀ j < L.n, (P o i).eval (-1 + (node L.n j + 1) / L.segments) = L.w.get [o, i, j]) ∧
        (∀ j < L.n, (Q o i).eval (1 + (node L.n j - 1) / L.segments)
          = L.w.get [o, i, PwLayer.wSize L.cls L.n L.segments - L.n + j]) ∧
        (∀ x : ℝ, x < -1 + 2 / (L.segments : ℝ) → f o i x = (P o i).eval x) ∧
        (∀ x : ℝ, 1 - 2 / (L.segments : ℝ) ≤ x → f o i x = (Q o i).eval x) := by
  have hS := h.seg_pos
  have hSr : (0 : ℝ) < L.segments := by exact_mod_cast hS
  have hcast : ((L.segments - 1 : ℕ) : ℝ) = L.segments - 1 := by
    rw [Nat.cast_sub (by omega)]; simp
  -- the affine change of variable as a polynomial
  let A : ℕ → ℝ[X] := fun s => C (L.segments : ℝ) * (X + C 1) - C (2 * (s : ℝ)) - C 1
  have hA : ∀ s x, (A s).eval x = localCoord L.segments s x := by
    intro s x; simp [A, localCoord]
  have hAdeg : ∀ s, (A s).natDegree ≤ 1 := by
    intro s
    refine (natDegree_sub_le _ _).trans ?_
    simp only [natDegree_C, max_le_iff]
    refine ⟨(natDegree_sub_le _ _).trans ?_, by norm_num⟩
    simp only [natDegree_C, max_le_iff]
    refine ⟨(natDegree_C_mul_le _ _).trans ?_, by norm_num⟩
    exact (natDegree_add_le _ _).trans (by simp)
  have hcompdeg : ∀ (R : ℝ[X]) s, R.degree < L.n → (R.comp (A s)).degree < L.n := by
    intro R s hR
    by_cases h0 : R.comp (A s) = 0
    · rw [h0, degree_zero]; exact WithBot.bot_lt_coe _
    · have hR0 : R ≠ 0 := by rintro rfl; simp at h0
      rw [degree_eq_natDegree h0]
      rw [degree_eq_natDegree hR0] at hR
      have h1 : R.natDegree < L.n := by exact_mod_cast hR
      have h2 : (R.comp (A s)).natDegree ≤ R.natDegree * 1 :=
        natDegree_comp_le.trans (Nat.mul_le_mul_left _ (hAdeg s))
      exact_mod_cast lt_of_le_of_lt (by simpa using h2) h1
  refine ⟨L.linkFn,
    fun o i => (linkPoly L.n fun k => L.w.get [o, i, 0 * L.stride + k]).comp (A 0),
    fun o i => (linkPoly L.n fun k => L.w.get [o, i, (L.segments - 1) * L.stride + k]).comp
      (A (L.segments - 1)), ?_, ?_⟩
  · have := L.computes h
    rcases hc with hc | hc <;> rw [hc] at this <;> exact this
  · intro o i
    have hpw := L.linkFn_isPiecewise hS hl hp o i
    refine ⟨hcompdeg _ _ (linkPoly_degree_lt _ _), hcompdeg _ _ (linkPoly_degree_lt _ _), ?_, ?_, ?_, ?_⟩
    · intro j hj
      rw [eval_comp, hA]
      have : localCoord L.segments 0 (-1 + (node L.n j + 1) / L.segments) = node L.n j := by
        unfold localCoord; push_cast; field_simp; ring
      rw [this, linkPoly_eval_node hj]
      simp
    · intro j hj
      rw [eval_comp, hA]
      have : localCoord L.segments (L.segments - 1) (1 + (node L.n j - 1) / L.segments)
          = node L.n j := by
        unfold localCoord; rw [hcast]; field_simp; ring
      rw [this, linkPoly_eval_node hj]
      have hn := h.n_pos
      have e : (L.segments - 1) * L.stride + j
          = PwLayer.wSize L.cls L.n L.segments - L.n + j := by
        obtain ⟨S, hS'⟩ : ∃ S, L.segments = S + 1 := ⟨L.segments - 1, by omega⟩
        obtain ⟨m, hm⟩ : ∃ m, L.n = m + 1 := ⟨L.n - 1, by omega⟩
        unfold PwLayer.stride PwLayer.wSize
        rw [hS', hm]
        rcases hc with hc | hc <;> rw [hc] <;> simp only [PwClass.shared, Bool.false_eq_true, if_true, if_false,
          Nat.add_sub_cancel]
        · have : m * (S + 1) + 1 = S * m + (m + 1) := by ring
          omega
        · have : (m + 1) * (S + 1) = S * (m + 1) + (m + 1) := by ring
          omega
      simp only [e]
    · intro x hx
      have hact : IsActive L.segments 0 x := by
        refine ⟨hS, Or.inl rfl, Or.inr ?_⟩
        unfold segLeft; push_cast; simpa using hx
      rw [hpw 0 x hact, eval_comp, hA]
    · intro x hx
      have hact : IsActive L.segments (L.segments - 1) x := by
        refine ⟨by omega, Or.inr ?_, Or.inl (by omega)⟩
        unfold segLeft; rw [hcast]
        have : -1 + 2 * ((L.segments : ℝ) - 1) / L.segments = 1 - 2 / L.segments := by
          field_simp; ring
        rw [this]; exact hx
      rw [hpw _ x hact, eval_comp, hA]

example : ∃ f : ℕ → ℕ → ℝ → ℝ, ∃ P Q : ℕ → ℕ → ℝ[X],
    Computes exC.forward 2 1 (fun o r => ∑ i ∈ Finset.range 2, f o i (r i)) ∧
      f 0 1 (-100) = (P 0 1).eval (-100) ∧ f 0 1 100 = (Q 0 1).eval 100 := by
  obtain ⟨f, P, Q, h1, h2⟩ := C12_extrapolation exC exC_wf (Or.inl rfl) rfl rfl
  refine ⟨f, P, Q, h1, (h2 0 1).2.2.2.2.1 _ ?_, (h2 0 1).2.2.2.2.2 _ ?_⟩ <;>
    norm_num [exC, PwLayer.init]

/-! ## C13, C14, C15 -/

/-- **C13.** In every arithmetic: if two weight tensors agree on the `n` weights of the segment containing each
input of the batch, the outputs are equal. -/
theorem C13_locality {K : Type} [TorchScalar K] (L : PwLayer K) (h : L.WF) (w' : Tensor K)
    (hws : w'.shape = L.w.shape) (hww : w'.WF) {B : ℕ} {x : Tensor K}
    (hx : x.shape = [B, L.inFeatures]) (hwf : x.WF)
    (hagree : ∀ b < B, ∀ i < L.inFeatures, ∀ o < L.outFeatures, ∀ k < L.n, ∀ q : ℕ,
      (q : ℤ) = L.whichSegment (x.get [b, i]) * (if L.cls.shared then (L.n : ℤ) - 1 else L.n) + k →
      w'.get [o, i, q] = L.w.get [o, i, q]) :
    ({ L with w := w' } : PwLayer K).forward x = L.forward x := by
  rw [L.forward_eq h hx hwf]
  refine (PwLayer.forward_eq (L.withW w') (h.withW hws hww) hx hwf).trans ?_
  have hn := h.n_pos
  have hst : (if L.cls.shared then (L.n : ℤ) - 1 else L.n) = (L.stride : ℤ) := by
    unfold PwLayer.stride; split <;> omega
  have e : (L.withW w').activeW B x = L.activeW B x := by
    unfold PwLayer.activeW
    apply tab4_congr
    intro b hb i hi o ho k hk
    apply hagree b hb i hi o ho k hk
    rw [hst, L.whichSegment_eq_seg h.seg_pos]
    push_cast
    rfl
  rw [e]
  rfl

/-- Changing a weight of the last segment of the example layer does not matter for an input in the first. -/
example (v : ℝ) : ({ exC with w := exC.w.set [0, 1, 8] v } : PwLayer ℝ).forward
      (Tensor.tab2 1 2 fun _ _ => -9 / 10) = exC.forward (Tensor.tab2 1 2 fun _ _ => -9 / 10) := by
  have hin : InShape exC.w.shape [0, 1, 8] := by
    rw [exC_wf.w_shape]; simp [InShape, exC, PwLayer.init, PwLayer.wSize, PwClass.shared]
  refine C13_locality exC exC_wf (exC.w.set [0, 1, 8] v) rfl (Tensor.wf_set exC_wf.w_wf _ _) rfl (Tensor.wf_tabulate _ _) ?_
  intro b hb i hi o ho k hk q hq
  rw [Tensor.get_tab2 (b := 2) hb hi] at hq
  have hseg : exC.whichSegment (-9 / 10) = 0 := by
    obtain ⟨h1, _, _⟩ := C07_segment_correct exC (by norm_num [exC, PwLayer.init]) rfl rfl (-9 / 10)
    obtain ⟨s, e, _, _, hu⟩ := h1 (by norm_num) (by norm_num)
    have := hu 0 (by norm_num [exC, PwLayer.init]) (by norm_num [exC, PwLayer.init])
    rw [e, ← this]; rfl
  rw [hseg] at hq
  have hk3 : k < 3 := hk
  have hq' : q = k := by simpa using hq
  have hin2 : InShape exC.w.shape [o, i, q] := by
    rw [exC_wf.w_shape]
    refine inShape3.2 ⟨ho, hi, ?_⟩
    simp [exC, PwLayer.init, PwLayer.wSize, PwClass.shared]; omega
  apply Tensor.get_set_ne hin hin2
  simp; omega

/-- Row `b` of a batch as a batch of one. -/
def row {K : Type} [Zero K] (x : Tensor K) (I b : ℕ) : Tensor K := Tensor.tab2 1 I fun _ i => x.get [b, i]

/-- **C14.** In every arithmetic: the output row of a sample is the output of the layer on that sample
alone, for the four piecewise classes. -/
theorem C14_batch_independence {K : Type} [TorchScalar K] (L : PwLayer K) (h : L.WF) {B : ℕ}
    {x : Tensor K} (hx : x.shape = [B, L.inFeatures]) (hwf : x.WF) {b : ℕ} (hb : b < B) :
    ∃ out out1, L.forward x = .ok out ∧ L.forward (row x L.inFeatures b) = .ok out1 ∧
      ∀ o < L.outFeatures, out.get [b, o] = out1.get [0, o] := by
  rw [L.forward_eq h hx hwf,
    L.forward_eq (x := row x L.inFeatures b) (B := 1) h rfl (Tensor.wf_tabulate _ _)]
  have hrow : ∀ i < L.inFeatures, (row x L.inFeatures b).get [0, i] = x.get [b, i] := by
    intro i hi
    exact Tensor.get_tab2 (by norm_num) hi
  unfold PwLayer.poly PwLayer.activeW
  cases L.cls
  all_goals first
    | refine ⟨_, _, interpolate_batch h.n_pos _ _ _, interpolate_batch h.n_pos _ _ _, ?_⟩
    | refine ⟨_, _, interpolate_batchProd h.n_pos _ _ _ _, interpolate_batchProd h.n_pos _ _ _ _, ?_⟩
  all_goals
    intro o ho
    rw [Tensor.get_tab2 hb ho, Tensor.get_tab2 (by norm_num) ho]
  · congr 1
    apply flatMap_range_congr
    intro p _ q hq
    rw [hrow q hq]
  · refine congrArg₂ (fun u v => prodL u - 1 + (1 - 1) * sumL v) ?_ ?_ <;>
      (apply map_range_congr; intro q hq; rw [hrow q hq])
  · congr 1
    apply flatMap_range_congr
    intro p _ q hq
    rw [hrow q hq]
  · refine congrArg₂ (fun u v => prodL u - 1 + (1 - 1) * sumL v) ?_ ?_ <;>
      (apply map_range_congr; intro q hq; rw [hrow q hq])

/-- **C14 (Polynomial).** The same for the single segment layers. -/
theorem C14_batch_independence_polynomial {K : Type} [TorchScalar K] (L : FnLayer K) {n : ℕ}
    (hn : 0 < n) (basis : BasisFn K) (hp : L.poly = ⟨.flat, n, basis⟩)
    (hw : L.w.shape = [L.outFeatures, L.inFeatures, n]) {B : ℕ} {x : Tensor K}
    (hx : x.shape = [B, L.inFeatures]) (hwf : x.WF) {b : ℕ} (hb : b < B) :
    ∃ out out1, L.forward x = .ok out ∧ L.forward (row x L.inFeatures b) = .ok out1 ∧
      ∀ o < L.outFeatures, out.get [b, o] = out1.get [0, o] := by
  unfold FnLayer.forward
  rw [hp]
  refine ⟨_, _, interpolate_flat (x := x.map _) hn basis hx hw,
    interpolate_flat (x := (row x L.inFeatures b).map _) hn basis rfl hw, ?_⟩
  intro o ho
  rw [Tensor.get_tab2 hb ho, Tensor.get_tab2 (by norm_num) ho]
  congr 1
  apply flatMap_range_congr
  intro p _ q hq
  have e : ((row x L.inFeatures b).map (periodize L.periodicity)).get [0, q]
      = periodize L.periodicity (x.get [b, q]) := by
    rw [Tensor.get_map (t := row x L.inFeatures b) (Tensor.wf_tabulate _ _)
      (inShape2.2 ⟨by norm_num, hq⟩)]
    congr 1
    exact Tensor.get_tab2 (by norm_num) hq
  rw [Tensor.get_map hwf (by rw [hx]; exact inShape2.2 ⟨hb, hq⟩), e]

example : ∃ out out1, exC.forward (Tensor.tab2 3 2 fun b i => (b : ℝ) - i) = .ok out ∧
    exC.forward (row (Tensor.tab2 3 2 fun b i => (b : ℝ) - i) 2 1) = .ok out1 ∧
    ∀ o < 1, out.get [1, o] = out1.get [0, o] :=
  C14_batch_independence exC exC_wf rfl (Tensor.wf_tabulate _ _) (by norm_num)

/-- **C15.** Linearity in the weights of the sum layers. -/
theorem C15_linear_in_weights (L : PwLayer ℝ) (h : L.WF)
    (hc : L.cls = .continuous ∨ L.cls = .discontinuous) (w1 w2 w3 : Tensor ℝ) (a c : ℝ)
    (hs1 : w1.shape = L.w.shape) (hs2 : w2.shape = L.w.shape) (hs3 : w3.shape = L.w.shape)
    (hw1 : w1.WF) (hw2 : w2.WF) (hw3 : w3.WF)
    (hlin : ∀ idx, InShape L.w.shape idx → w3.get idx = a * w1.get idx + c * w2.get idx)
    {B : ℕ} {x : Tensor ℝ} (hx : x.shape = [B, L.inFeatures]) (hwf : x.WF) :
    ∃ o1 o2 o3, ({ L with w := w1 } : PwLayer ℝ).forward x = .ok o1 ∧
      ({ L with w := w2 } : PwLayer ℝ).forward x = .ok o2 ∧
      ({ L with w := w3 } : PwLayer ℝ).forward x = .ok o3 ∧
      ∀ b < B, ∀ o < L.outFeatures, o3.get [b, o] = a * o1.get [b, o] + c * o2.get [b, o] := by
  refine ⟨_, _, _, (L.withW w1).forward_sum (h.withW hs1 hw1) hc hx hwf,
    (L.withW w2).forward_sum (h.withW hs2 hw2) hc hx hwf,
    (L.withW w3).forward_sum (h.withW hs3 hw3) hc hx hwf, ?_⟩
  intro b hb o ho
  rw [Tensor.get_tab2 (b := (L.withW w3).outFeatures) hb ho,
    Tensor.get_tab2 (b := (L.withW w1).outFeatures) hb ho,
    Tensor.get_tab2 (b := (L.withW w2).outFeatures) hb ho, Finset.mul_sum, Finset.mul_sum]
  refine Eq.trans ?_ Finset.sum_add_distrib
  apply Finset.sum_congr rfl
  intro i hi
  set v := x.get [b, i]
  have hcongr : linkPoly L.n (fun k => w3.get [o, i, L.seg v * L.stride + k])
      = linkPoly L.n (a • (fun k => w1.get [o, i, L.seg v * L.stride + k])
        + c • fun k => w2.get [o, i, L.seg v * L.stride + k]) := by
    apply linkPoly_congr
    intro k hk
    simp only [Pi.add_apply, Pi.smul_apply, smul_eq_mul]
    apply hlin
    rw [h.w_shape]
    exact inShape3.2 ⟨ho, Finset.mem_range.1 hi, L.widx_lt h.n_pos (L.seg_lt h.seg_pos v) hk⟩
  show (linkPoly L.n fun k => w3.get [o, i, L.seg v * L.stride + k]).eval (L.xIn v) = _
  rw [hcongr]
  unfold linkPoly
  rw [map_add, map_smul, map_smul, eval_add, eval_smul, eval_smul, smul_eq_mul, smul_eq_mul]
  rfl

example : ∃ o1 o2 o3, ({ exC with w := exC.w } : PwLayer ℝ).forward (Tensor.tab2 1 2 fun _ _ => 0) = .ok o1 ∧
      ({ exC with w := exC.w } : PwLayer ℝ).forward (Tensor.tab2 1 2 fun _ _ => 0) = .ok o2 ∧
      ({ exC with w := exC.w.map fun v => 2 * v + 3 * v } : PwLayer ℝ).forward
        (Tensor.tab2 1 2 fun _ _ => 0) = .ok o3 ∧
      ∀ b < 1, ∀ o < 1, o3.get [b, o] = 2 * o1.get [b, o] + 3 * o2.get [b, o] :=
  C15_linear_in_weights exC exC_wf (Or.inl rfl) exC.w exC.w
    (exC.w.map fun v => 2 * v + 3 * v) 2 3 rfl rfl rfl exC_wf.w_wf exC_wf.w_wf
    (by have := exC_wf.w_wf; simp only [Tensor.WF, Tensor.map] at *; simpa using this)
    (fun idx h => Tensor.get_map exC_wf.w_wf h) rfl (Tensor.wf_tabulate _ _)

/-! ## C16 -/

/-- **C16.** The discontinuous layer: segment `s` of a link uses its own weights
`s n, ..., s n + n - 1`, which no other segment uses. -/
theorem C16_discontinuous_layer (L : PwLayer ℝ) (h : L.WF) (hc : L.cls = .discontinuous)
    (hl : L.length = 2) (hp : L.periodicity = none) :
    ∃ f : ℕ → ℕ → ℝ → ℝ,
      (∀ o i, IsPiecewisePoly L.n L.segments L.n (fun q => L.w.get [o, i, q]) (f o i)) ∧
      (Computes L.forward L.inFeatures L.outFeatures
        fun o r => ∑ i ∈ Finset.range L.inFeatures, f o i (r i)) ∧
      (∀ s t k j, k < L.n → j < L.n → s * L.n + k = t * L.n + j → s = t) := by
  refine ⟨L.linkFn, ?_, ?_, ?_⟩
  · intro o i
    have := L.linkFn_isPiecewise h.seg_pos hl hp o i
    have hs : L.stride = L.n := by simp [PwLayer.stride, hc, PwClass.shared]
    rwa [hs] at this
  · have := L.computes h
    rw [hc] at this
    exact this
  · intro s t k j hk hj e
    have h1 : (s * L.n + k) / L.n = s := by
      rw [Nat.mul_comm, Nat.mul_add_div h.n_pos, Nat.div_eq_of_lt hk, Nat.add_zero]
    have h2 : (t * L.n + j) / L.n = t := by
      rw [Nat.mul_comm, Nat.mul_add_div h.n_pos, Nat.div_eq_of_lt hj, Nat.add_zero]
    rw [← h1, ← h2, e]

/-- **C16 (jumps).** At an interior boundary a link of the discontinuous layer has the first weight of the
right segment as value and the last weight of the left segment as limit from the left. -/
theorem C16_one_sided_limits (n S : ℕ) (hn : 2 ≤ n) (v : ℕ → ℝ) (f : ℝ → ℝ)
    (hf : IsPiecewisePoly n S n v f) (s : ℕ) (hs : s + 1 < S) :
    f (segLeft S (s + 1)) = v ((s + 1) * n) ∧
      Filter.Tendsto f (nhdsWithin (segLeft S (s + 1)) (Set.Iio (segLeft S (s + 1))))
        (nhds (v (s * n + (n - 1)))) := by
  have hS : 0 < S := by omega
  constructor
  · have hact : IsActive S (s + 1) (segLeft S (s + 1)) :=
      ⟨hs, Or.inr le_rfl, Or.inr (segLeft_strictMono hS (by omega))⟩
    rw [hf _ _ hact, localCoord_left hS, ← node_zero hn, linkPoly_eval_node (by omega)]
    simp
  · let g : ℝ → ℝ := fun x => (linkPoly n fun k => v (s * n + k)).eval (localCoord S s x)
    have hg : Continuous g := (Polynomial.continuous _).comp (continuous_localCoord S s)
    have hgv : g (segLeft S (s + 1)) = v (s * n + (n - 1)) := by
      show (linkPoly n fun k => v (s * n + k)).eval (localCoord S s _) = _
      rw [localCoord_right hS, ← node_last hn, linkPoly_eval_node (by omega)]
    have h1 : Filter.Tendsto g (nhdsWithin (segLeft S (s + 1)) (Set.Iio (segLeft S (s + 1))))
        (nhds (v (s * n + (n - 1)))) := by
      rw [← hgv]
      exact (hg.tendsto _).mono_left nhdsWithin_le_nhds
    refine h1.congr' ?_
    have hlt : segLeft S s < segLeft S (s + 1) := segLeft_strictMono hS (by omega)
    have hmem : Set.Ioo (segLeft S s) (segLeft S (s + 1)) ∈
        nhdsWithin (segLeft S (s + 1)) (Set.Iio (segLeft S (s + 1))) := Ioo_mem_nhdsLT hlt
    filter_upwards [hmem] with x hx
    exact (hf s x ⟨by omega, Or.inr hx.1.le, Or.inr hx.2⟩).symm

/-- A discontinuous layer meeting the hypotheses. -/
noncomputable def exD : PwLayer ℝ := PwLayer.init .discontinuous 3 2 1 4 2 (fun _ _ => 1 / 2) 1 none

theorem exD_wf : exD.WF :=
  PwLayer.init_wf _ (by norm_num) (by norm_num) (by norm_num) (by norm_num) _ _ _ _

example : ∃ f : ℕ → ℕ → ℝ → ℝ, (Computes exD.forward 2 1
    fun o r => ∑ i ∈ Finset.range 2, f o i (r i)) ∧ f 0 1 (segLeft 4 2) = exD.w.get [0, 1, 6] := by
  obtain ⟨f, h1, h2, _⟩ := C16_discontinuous_layer exD exD_wf rfl rfl rfl
  exact ⟨f, h2, (C16_one_sided_limits 3 4 (by norm_num) _ _ (h1 0 1) 1 (by norm_num)).1⟩

/-! ## C19 -/

/-- **C19.** Right after construction every link is constant: for all random draws in `[0, 1)` the output of the
sum layers does not depend on the input and lies in `[0, weight_magnitude)`. -/
theorem C19_constant_initialization (cls : PwClass) (hc : cls = .continuous ∨ cls = .discontinuous)
    (n I O S : ℕ) (hn : 0 < n) (hI : 0 < I) (hO : 0 < O) (hS : 0 < S) (length : ℝ) (rand : ℕ → ℕ → ℝ)
    (hr : ∀ o i, 0 ≤ rand o i ∧ rand o i < 1) (wm : ℝ) (hwm : 0 < wm) (p : Option ℝ) :
    ∃ c : ℕ → ℝ, (∀ o, 0 ≤ c o ∧ c o < wm) ∧
      Computes (PwLayer.init cls n I O S length rand wm p).forward I O fun o _ => c o := by
  refine ⟨fun o => ∑ i ∈ Finset.range I, rand o i * wm / I, ?_, ?_⟩
  · intro o
    have hIr : (0 : ℝ) < I := by exact_mod_cast hI
    constructor
    · apply Finset.sum_nonneg
      intro i _
      have := (hr o i).1
      positivity
    · calc ∑ i ∈ Finset.range I, rand o i * wm / I < ∑ i ∈ Finset.range I, wm / I := by
            apply Finset.sum_lt_sum_of_nonempty (Finset.nonempty_range_iff.2 (by omega))
            intro i _
            apply div_lt_div_of_pos_right _ hIr
            have := (hr o i).2
            nlinarith
        _ = wm := by simp; field_simp
  · have h := PwLayer.init_wf cls hn hI hO hS length rand wm p
    set L := PwLayer.init cls n I O S length rand wm p with hL
    have h1 := L.computes h
    have hcc : L.cls = cls := rfl
    refine Computes.congr h1 ?_
    intro o ho r
    have hlink : ∀ i < I, L.linkFn o i (r i) = rand o i * wm / I := by
      intro i hi
      unfold PwLayer.linkFn
      have e : (linkPoly L.n fun k => L.w.get [o, i, L.seg (r i) * L.stride + k])
          = linkPoly L.n (fun j => (C (rand o i * wm / I) : ℝ[X]).eval (node L.n j)) := by
        apply linkPoly_congr
        intro k hk
        rw [eval_C]
        show (constantRandomInit rand O I (PwLayer.wSize cls n S) wm).get _ = _
        unfold constantRandomInit
        exact Tensor.get_tab3 ho hi (L.widx_lt h.n_pos (L.seg_lt h.seg_pos _) hk)
      rw [e, linkPoly_eq_of_degree_lt, eval_C]
      exact lt_of_le_of_lt degree_C_le (by exact_mod_cast hn)
    rw [hcc]
    rcases hc with hc | hc <;> rw [hc] <;>
      exact Finset.sum_congr rfl fun i hi => hlink i (Finset.mem_range.1 hi)

example : ∃ c : ℕ → ℝ, (∀ o, 0 ≤ c o ∧ c o < 5) ∧
    Computes (PwLayer.init .discontinuous 3 2 1 4 2 (fun _ _ => 1 / 2) 5 none).forward 2 1 fun o _ => c o :=
  C19_constant_initialization .discontinuous (Or.inr rfl) 3 2 1 4 (by norm_num) (by norm_num)
    (by norm_num) (by norm_num) 2 _ (fun _ _ => by norm_num) 5 (by norm_num) none

end HOL
