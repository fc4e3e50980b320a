import Verif.Props.Forward
import Verif.Props.RefinementLimits
import Verif.Lemmas.Length

/-!
# C70: the `length` argument of the piecewise layers

`Piecewise` and `PiecewiseDiscontinuous` take the length of their domain as an argument (PolynomialLayers.py:196-257,
584-619). The segments do divide `[-length/2, length/2]`, but `_eta` and the nodes belong to length 2.
-/

namespace HOL
open TorchScalar Polynomial Spec

/-- **C70 (what is computed).** A piecewise layer of any class and any positive length selects the segment of `v` by
dividing `[-length/2, length/2]` in equal parts (`2 v / length` in `[-1, 1]`), but evaluates the polynomial of that segment
at the local coordinate of the segments of `[-1, 1]`, scaled by `length/2`. -/
theorem C70_function (L : PwLayer ℝ) (h : L.WF) (hl : 0 < L.length) (hp : L.periodicity = none) :
    ∃ f : ℕ → ℕ → ℝ → ℝ,
      (∀ o i s v, IsActive L.segments s (2 * v / L.length) →
        f o i v = (linkPoly L.n fun k => L.w.get [o, i, s * L.stride + k]).eval
          (L.length / 2 * localCoord L.segments s v)) ∧
      Computes L.forward L.inFeatures L.outFeatures
        fun o r => L.cls.combine L.inFeatures fun i => f o i (r i) := by
  refine ⟨L.linkFn, ?_, L.computes h⟩
  intro o i s v hs
  rw [L.linkFn_any h.seg_pos hp, isActive_unique (L.isActive_seg_any h.seg_pos hl hp v) hs]

/-- **C70 (the nodes of one segment).** A continuous layer of one segment takes its weights at the Chebyshev nodes
multiplied by `2 / length`: a longer domain squeezes the nodes instead of spreading them. -/
theorem C70_one_segment (L : PwLayer ℝ) (h : L.WF) (hc : L.cls = .continuous) (hS : L.segments = 1) (hl : 0 < L.length)
    (hp : L.periodicity = none) :
    ∃ f : ℕ → ℕ → ℝ → ℝ,
      (∀ o i, ∀ k < L.n, f o i (2 / L.length * node L.n k) = L.w.get [o, i, k]) ∧
      Computes L.forward L.inFeatures L.outFeatures fun o r => ∑ i ∈ Finset.range L.inFeatures, f o i (r i) := by
  refine ⟨L.linkFn, ?_, ?_⟩
  · intro o i k hk
    have hact := L.isActive_seg_any h.seg_pos hl hp (2 / L.length * node L.n k)
    have hs : L.seg (2 / L.length * node L.n k) = 0 := by
      have := hact.1
      rw [hS] at this
      omega
    rw [L.linkFn_any h.seg_pos hp, hs, hS]
    have e : L.length / 2 * localCoord 1 0 (2 / L.length * node L.n k) = node L.n k := by
      unfold localCoord
      push_cast
      field_simp
      ring
    rw [e, linkPoly_eval_node hk]
    simp
  · have := L.computes h
    simpa [hc, PwClass.combine] using this

/-- One link of the given length. -/
noncomputable def oneLinkLength (n S : ℕ) (ℓ : ℝ) (v : ℕ → ℝ) : PwLayer ℝ :=
  { oneLink .continuous n S none v with length := ℓ }

theorem oneLinkLength_wf {n S : ℕ} (hn : 0 < n) (hS : 0 < S) (ℓ : ℝ) (v : ℕ → ℝ) : (oneLinkLength n S ℓ v).WF :=
  ⟨hn, hS, by show 0 < 1; norm_num, by show 0 < 1; norm_num, rfl, Tensor.wf_tabulate _ _⟩

/-- The value of a continuous function that a layer with one link computes. -/
theorem linkFn_eq_of_computes {L : PwLayer ℝ} (h : L.WF) (hc : L.cls = .continuous) (hI : L.inFeatures = 1)
    (hO : L.outFeatures = 1) {F : ℕ → (Fin 1 → ℝ) → ℝ}
    (hF : Computes L.forward 1 1 fun o r => F o fun i => r i) (v : ℝ) : F 0 (fun _ => v) = L.linkFn 0 0 v := by
  obtain ⟨out, h1, h2⟩ := forward_single h hc hI hO v
  obtain ⟨out', h3, -, -, h4⟩ := hF 1 (single v) rfl (Tensor.wf_tabulate _ _)
  rw [h1] at h3
  cases h3
  have := h4 0 (by omega) 0 (by omega)
  rw [h2] at this
  rw [this]
  congr 1
  funext i
  have : (i : ℕ) = 0 := by omega
  rw [this]
  exact (single_get v).symm

/-- **C70 (the domain cannot be changed).** For every length other than 2 and any number of segments and nodes from
two on, some weights make the continuous layer discontinuous: it jumps where its first two segments meet. -/
theorem C70_discontinuous (n S : ℕ) (ℓ : ℝ) (hn : 2 ≤ n) (hS : 2 ≤ S) (hl : 0 < ℓ) (h2 : ℓ ≠ 2) :
    ∃ L : PwLayer ℝ, L.WF ∧ L.cls = .continuous ∧ L.n = n ∧ L.segments = S ∧ L.length = ℓ ∧
      L.periodicity = none ∧ L.inFeatures = 1 ∧ L.outFeatures = 1 ∧ ¬ ComputesContinuous L.forward 1 1 := by
  classical
  set v : ℕ → ℝ := fun r => if r < n - 1 then 0 else (1 + node n (r - (n - 1))) / 2 with hv
  set L := oneLinkLength n S ℓ v with hL
  have hwf : L.WF := oneLinkLength_wf (by omega) (by omega) ℓ v
  refine ⟨L, hwf, rfl, rfl, rfl, rfl, rfl, rfl, rfl, ?_⟩
  rintro ⟨F, hcont, hF⟩
  have hlink := linkFn_eq_of_computes hwf rfl rfl rfl hF
  have hSr : (2 : ℝ) ≤ S := by exact_mod_cast hS
  have hS0 : (0 : ℝ) < S := by linarith
  set x1 : ℝ := ℓ / 2 * segLeft S 1 with hx1
  have hscale : ∀ x : ℝ, 2 * x / L.length < segLeft S 1 ↔ x < x1 := by
    intro x
    show 2 * x / ℓ < _ ↔ _
    rw [div_lt_iff₀ hl, hx1]
    constructor <;> intro h <;> linarith
  have hw : ∀ r < (n - 1) * S + 1, L.w.get [0, 0, r] = v r := fun r hr => Tensor.get_tab3 (by omega) (by omega) hr
  have hstride : L.stride = n - 1 := rfl
  -- left of the knot the function is zero
  have hleft : ∀ x < x1, L.linkFn 0 0 x = 0 := by
    intro x hx
    have hact := L.isActive_seg_any hwf.seg_pos hl rfl x
    have hs : L.seg x = 0 := by
      refine isActive_unique hact ⟨hwf.seg_pos, Or.inl rfl, Or.inr ?_⟩
      exact (hscale x).2 hx
    rw [L.linkFn_any hwf.seg_pos rfl, hs]
    have e : linkPoly L.n (fun k => L.w.get [0, 0, 0 * L.stride + k]) = linkPoly n fun k => (0 : ℝ[X]).eval (node n k) := by
      show linkPoly n _ = _
      apply linkPoly_congr
      intro k hk
      have : n ≤ (n - 1) * S + 1 := by
        have := Nat.mul_le_mul_left (n - 1) (show 1 ≤ S by omega)
        omega
      rw [Nat.zero_mul, Nat.zero_add, hw k (by omega), eval_zero, hv]
      by_cases hk' : k < n - 1
      · simp only [hk', if_true]
      · have : k - (n - 1) = 0 := by omega
        simp only [hk', if_false, this, node_zero hn]
        norm_num
    rw [e, linkPoly_eq_of_degree_lt (by simp), eval_zero]
  -- at the knot it is not
  have hright : L.linkFn 0 0 x1 ≠ 0 := by
    have hact := L.isActive_seg_any hwf.seg_pos hl rfl x1
    have hs : L.seg x1 = 1 := by
      refine isActive_unique hact ⟨by show 1 < S; omega, Or.inr ?_, ?_⟩
      · exact not_lt.1 (mt (hscale x1).1 (lt_irrefl _))
      · have e : 2 * x1 / L.length = segLeft S 1 := by
          show 2 * x1 / ℓ = _
          rw [hx1]; field_simp
        rcases Nat.eq_or_lt_of_le hS with h | h
        · exact Or.inl (by show 1 + 1 = S; omega)
        · right
          rw [e]
          exact segLeft_strictMono (by omega) (by omega)
    rw [L.linkFn_any hwf.seg_pos rfl, hs]
    have e : linkPoly L.n (fun k => L.w.get [0, 0, 1 * L.stride + k])
        = linkPoly n fun k => (C (1 / 2) * X + C (1 / 2) : ℝ[X]).eval (node n k) := by
      show linkPoly n _ = _
      apply linkPoly_congr
      intro k hk
      have : (n - 1) + n ≤ (n - 1) * S + 1 := by
        have := Nat.mul_le_mul_left (n - 1) hS
        omega
      rw [hstride, Nat.one_mul, hw _ (by omega), hv]
      have h1 : ¬ n - 1 + k < n - 1 := by omega
      have h2 : n - 1 + k - (n - 1) = k := by omega
      simp only [h1, if_false, h2, eval_add, eval_mul, eval_C, eval_X]
      ring
    rw [e, linkPoly_eq_of_degree_lt (lt_of_le_of_lt degree_linear_le (by exact_mod_cast hn))]
    show eval (ℓ / 2 * localCoord S 1 x1) (C (1 / 2) * X + C (1 / 2)) ≠ 0
    have e2 : eval (ℓ / 2 * localCoord S 1 x1) (C (1 / 2) * X + C (1 / 2) : ℝ[X])
        = (ℓ / 2 - 1) * (ℓ / 2 * (2 - S) - 1) / 2 := by
      simp only [eval_add, eval_mul, eval_C, eval_X]
      rw [hx1]
      unfold localCoord segLeft
      push_cast
      field_simp
      ring
    rw [e2]
    have h3 : ℓ / 2 - 1 ≠ 0 := fun h => h2 (by linarith)
    have h4 : ℓ / 2 * (2 - S) - 1 ≠ 0 := by
      have : ℓ / 2 * (2 - S) ≤ 0 := mul_nonpos_of_nonneg_of_nonpos (by linarith) (by linarith)
      linarith
    exact div_ne_zero (mul_ne_zero h3 h4) (by norm_num)
  -- a continuous function cannot do both
  have hg : Continuous fun x : ℝ => F 0 fun _ => x := (hcont 0).comp (continuous_pi fun _ => continuous_id)
  have hzero : (fun x : ℝ => F 0 fun _ => x) x1 = 0 := by
    have hcl : IsClosed {x : ℝ | F 0 (fun _ => x) = 0} := isClosed_eq hg continuous_const
    have hsub : Set.Iio x1 ⊆ {x : ℝ | F 0 (fun _ => x) = 0} := fun x hx => by
      show F 0 (fun _ => x) = 0
      rw [hlink]; exact hleft x hx
    have hc := hcl.closure_subset_iff.2 hsub
    rw [closure_Iio] at hc
    exact hc (Set.mem_Iic.2 le_rfl)
  exact hright (by rw [← hlink]; exact hzero)

/-- **C70.** With two or more nodes and segments, `length` keeps the continuous layers continuous for all weights only if it has its default value 2. -/
theorem C70_continuous_iff (n S : ℕ) (ℓ : ℝ) (hn : 2 ≤ n) (hS : 2 ≤ S) (hl : 0 < ℓ) :
    (∀ L : PwLayer ℝ, L.WF → L.cls = .continuous → L.n = n → L.segments = S → L.length = ℓ → L.periodicity = none →
      ComputesContinuous L.forward L.inFeatures L.outFeatures) ↔ ℓ = 2 := by
  constructor
  · intro h
    by_contra h2
    obtain ⟨L, h1, h3, h4, h5, h6, h7, h8, h9, h10⟩ := C70_discontinuous n S ℓ hn hS hl h2
    have := h L h1 h3 h4 h5 h6 h7
    rw [h8, h9] at this
    exact h10 this
  · rintro rfl L h1 h3 - - h6 h7
    exact C11_continuous L h1 (Or.inl h3) h6 (by simp [h7])

/-- The documented example, length 4, with three nodes and two segments. -/
example : ∃ L : PwLayer ℝ, L.WF ∧ L.cls = .continuous ∧ L.n = 3 ∧ L.segments = 2 ∧ L.length = 4 ∧
    L.periodicity = none ∧ L.inFeatures = 1 ∧ L.outFeatures = 1 ∧ ¬ ComputesContinuous L.forward 1 1 :=
  C70_discontinuous 3 2 4 (by norm_num) (by norm_num) (by norm_num) (by norm_num)

/-- A layer of length 4 with one segment and the weights 5, 7 is 7 at 1/2 and not at the end 2 of its domain. -/
example : ∃ f : ℝ → ℝ, f (1 / 2) = 7 ∧
    Computes (oneLinkLength 2 1 4 fun r => if r = 0 then 5 else 7).forward 1 1 fun _ r => f (r 0) := by
  have hwf : (oneLinkLength 2 1 4 fun r => if r = 0 then 5 else 7).WF := oneLinkLength_wf (by norm_num) (by norm_num) _ _
  obtain ⟨f, h1, h2⟩ := C70_one_segment _ hwf rfl rfl (by show (0 : ℝ) < 4; norm_num) rfl
  refine ⟨f 0 0, ?_, ?_⟩
  · have h := h1 0 0 1 (by show 1 < 2; norm_num)
    have e : (2 : ℝ) / 4 * node 2 1 = 1 / 2 := by rw [node_last (le_refl 2)]; norm_num
    have h' : f 0 0 (2 / 4 * node 2 1) = _ := h
    rw [e] at h'
    rw [h']
    refine (Tensor.get_tab3 (by omega) (by omega) (by show 1 < 2; norm_num)).trans ?_
    norm_num
  · refine Computes.congr h2 fun o ho r => ?_
    have : o = 0 := by
      have : o < 1 := ho
      omega
    subst this
    exact Finset.sum_range_one _

end HOL
