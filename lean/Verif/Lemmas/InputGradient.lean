import Verif.Model.InputGradient
import Verif.Lemmas.Length
import Verif.Lemmas.Periodic
import Mathlib.Analysis.Calculus.Deriv.Prod
import Mathlib.Analysis.Calculus.Deriv.Comp
import Mathlib.Analysis.Calculus.Deriv.Mul
import Mathlib.Analysis.Calculus.Deriv.Add
import Mathlib.Analysis.Calculus.Deriv.Polynomial
import Mathlib.Analysis.SpecialFunctions.Trigonometric.Deriv
import Mathlib.Analysis.Calculus.FDeriv.Pi
import Mathlib.Analysis.Calculus.FDeriv.Comp

/-! # Derivatives of bases, of the periodic wrap and of links -/

namespace HOL
open TorchScalar Spec Filter Topology

/-! ## bases -/

theorem prodL_erase (n m : ℕ) (f : ℕ → ℝ) : prodL (((List.range n).filter (· ≠ m)).map f) = ∏ q ∈ (Finset.range n).erase m, f q := by
  rw [prodL_real, Finset.prod_eq_multiset_prod, ← Finset.filter_ne']
  rfl

theorem lagrange_dcall (b : LagrangeBasis ℝ) (x : ℝ) (j : ℕ) : HasDerivAt (fun x => b.call x j) (b.dcall x j) x := by
  have h : ∀ m ∈ Finset.range b.n, HasDerivAt (fun x : ℝ => if m ≠ j then (x - b.X.get [m]) / b.denominators.get [j, m] else 1)
      (if m ≠ j then 1 / b.denominators.get [j, m] else 0) x := by
    intro m _
    by_cases e : m ≠ j
    · simp only [if_pos e]
      exact ((hasDerivAt_id x).sub_const _).div_const _
    · simp only [if_neg e]
      exact hasDerivAt_const _ _
  have key := HasDerivAt.fun_finsetProd h
  have e1 : (fun x => b.call x j) = fun x => ∏ m ∈ Finset.range b.n, if m ≠ j then (x - b.X.get [m]) / b.denominators.get [j, m] else 1 := by
    funext y
    unfold LagrangeBasis.call
    rw [prodL_range]
  have e2 : b.dcall x j = ∑ m ∈ Finset.range b.n, (∏ q ∈ (Finset.range b.n).erase m, if q ≠ j then (x - b.X.get [q]) / b.denominators.get [j, q] else 1)
      • (if m ≠ j then 1 / b.denominators.get [j, m] else 0) := by
    unfold LagrangeBasis.dcall
    rw [sumL_range]
    apply Finset.sum_congr rfl
    intro m _
    rw [prodL_erase, smul_eq_mul]
  rw [e1, e2]
  exact key

theorem fourier_dcall (length x : ℝ) (j : ℕ) : HasDerivAt (fun x => fourierCall length x j) (fourierDcall length x j) x := by
  unfold fourierCall fourierDcall
  by_cases hj : j = 0
  · simp only [if_pos hj]
    have := ((hasDerivAt_id x).const_mul (0 : ℝ)).const_add (1 / ((2 : ℕ) : ℝ))
    simpa using this
  · simp only [if_neg hj, cos_real, sin_real, pi_real]
    have hlin : HasDerivAt (fun x : ℝ => ((2 : ℕ) : ℝ) * Real.pi * (((j + 1) / 2 : ℕ) : ℝ) * x / length)
        (((2 : ℕ) : ℝ) * Real.pi * (((j + 1) / 2 : ℕ) : ℝ) * 1 / length) x :=
      ((hasDerivAt_id x).const_mul _).div_const _
    by_cases h2 : j % 2 = 0
    · simp only [if_pos h2]
      convert hlin.cos using 1
      ring
    · simp only [if_neg h2]
      convert hlin.sin using 1
      ring

/-- The backward pass of a basis function is its derivative. -/
theorem basis_dcall (b : BasisFn ℝ) (x : ℝ) (j : ℕ) : HasDerivAt (fun x => b.call x j) (b.dcall x j) x := by
  cases b with
  | lagrange b => exact lagrange_dcall b x j
  | lagrange1 => exact hasDerivAt_const _ _
  | fourier length => exact fourier_dcall length x j

/-- The derivative of a link polynomial. -/
theorem sum_dcall_two (n : ℕ) (x : ℝ) (v : ℕ → ℝ) :
    ∑ p ∈ Finset.range n, (getLagrangeBasis n ((2 : ℕ) : ℝ)).dcall x p * v p = (linkPoly n v).derivative.eval x := by
  have h1 : HasDerivAt (fun x => ∑ p ∈ Finset.range n, (getLagrangeBasis n ((2 : ℕ) : ℝ)).call x p * v p)
      (∑ p ∈ Finset.range n, (getLagrangeBasis n ((2 : ℕ) : ℝ)).dcall x p * v p) x :=
    HasDerivAt.fun_sum fun p _ => (basis_dcall _ x p).mul_const _
  have h2 : (fun x => ∑ p ∈ Finset.range n, (getLagrangeBasis n ((2 : ℕ) : ℝ)).call x p * v p) = fun x => (linkPoly n v).eval x := by
    funext y
    exact sum_basis_call_two n y v
  rw [h2] at h1
  exact h1.unique ((linkPoly n v).hasDerivAt x)

/-! ## segments near a point -/

/-- To the right of any point the segment stays the same for a while. -/
theorem isActive_right {S s : ℕ} {x : ℝ} (h : IsActive S s x) : ∀ᶠ y in 𝓝[≥] x, IsActive S s y := by
  obtain ⟨h1, h2, h3⟩ := h
  have hy : ∀ᶠ y in 𝓝[≥] x, x ≤ y := eventually_mem_nhdsWithin
  rcases h3 with h3 | h3
  · filter_upwards [hy] with y hy
    exact ⟨h1, h2.imp id fun h => h.trans hy, Or.inl h3⟩
  · filter_upwards [hy, eventually_nhdsWithin_of_eventually_nhds (eventually_lt_nhds h3)] with y hy hy'
    exact ⟨h1, h2.imp id fun h => h.trans hy, Or.inr hy'⟩

/-- Away from the inner boundaries the segment stays the same near a point. -/
theorem isActive_near {S s : ℕ} {x : ℝ} (h : IsActive S s x) (hb : ∀ q, 0 < q → q < S → x ≠ segLeft S q) : ∀ᶠ y in 𝓝 x, IsActive S s y := by
  obtain ⟨h1, h2, h3⟩ := h
  have e2 : ∀ᶠ y in 𝓝 x, s = 0 ∨ segLeft S s ≤ y := by
    rcases Nat.eq_zero_or_pos s with h0 | h0
    · exact Eventually.of_forall fun _ => Or.inl h0
    · have h2' : segLeft S s < x := lt_of_le_of_ne (h2.resolve_left (by omega)) (hb s h0 h1).symm
      filter_upwards [eventually_gt_nhds h2'] with y hy
      exact Or.inr hy.le
  have e3 : ∀ᶠ y in 𝓝 x, s + 1 = S ∨ y < segLeft S (s + 1) := by
    rcases h3 with h3 | h3
    · exact Eventually.of_forall fun _ => Or.inl h3
    · filter_upwards [eventually_lt_nhds h3] with y hy
      exact Or.inr hy
  filter_upwards [e2, e3] with y h2 h3
  exact ⟨h1, h2, h3⟩

/-! ## the periodic wrap -/

theorem makePeriodicGrad_real (x p : ℝ) : makePeriodicGrad x p = if p < (x + p / 2) - 2 * p * ⌊(x + p / 2) / (2 * p)⌋ then -1 else 1 := by
  have e : (1 : ℝ) / ((2 : ℕ) : ℝ) * p = p / 2 := by push_cast; ring
  have e2 : ((2 : ℕ) : ℝ) * p = 2 * p := by push_cast; ring
  unfold makePeriodicGrad
  simp only [ltB_real, remainder_real]
  change (if p < (x + (1 : ℝ) / ((2 : ℕ) : ℝ) * p)
        - ((2 : ℕ) : ℝ) * p * ⌊(x + (1 : ℝ) / ((2 : ℕ) : ℝ) * p) / (((2 : ℕ) : ℝ) * p)⌋ then (-1 : ℝ) else 1) = _
  rw [e, e2]

/-- Away from the turning points the wrap has the derivative of the backward pass. -/
theorem makePeriodic_deriv {p : ℝ} (hp : 0 < p) {x : ℝ} (hx : ∀ k : ℤ, x ≠ p / 2 + k * p) : HasDerivAt (fun x => makePeriodic x p) (makePeriodicGrad x p) x := by
  set u := (x + p / 2) / (2 * p) with hu
  have hxu : x + p / 2 = 2 * p * u := by rw [hu]; field_simp
  have hne : u ≠ ⌊u⌋ := by
    intro e
    refine hx (2 * ⌊u⌋ - 1) ?_
    rw [e] at hxu
    push_cast
    linarith
  have hlow : (⌊u⌋ : ℝ) < u := lt_of_le_of_ne (Int.floor_le u) hne.symm
  have hfloor : ∀ᶠ y in 𝓝 x, ⌊(y + p / 2) / (2 * p)⌋ = ⌊u⌋ := by
    have hcont : ContinuousAt (fun y => (y + p / 2) / (2 * p)) x := by fun_prop
    filter_upwards [hcont.eventually (eventually_gt_nhds hlow), hcont.eventually (eventually_lt_nhds (Int.lt_floor_add_one u))] with y h1 h2
    exact Int.floor_eq_iff.2 ⟨h1.le, h2⟩
  rw [makePeriodicGrad_real, ← hu]
  by_cases hc : p < x + p / 2 - 2 * p * ⌊u⌋
  · rw [if_pos hc]
    have hev : (fun y => makePeriodic y p) =ᶠ[𝓝 x] fun y => 2 * p - (y + p / 2 - 2 * p * ⌊u⌋) - p / 2 := by
      have h3 : ∀ᶠ y in 𝓝 x, p < y + p / 2 - 2 * p * ⌊u⌋ :=
        (show ContinuousAt (fun y : ℝ => y + p / 2 - 2 * p * ⌊u⌋) x by fun_prop).eventually (eventually_gt_nhds hc)
      filter_upwards [hfloor, h3] with y h1 h2
      rw [makePeriodic_unfold, h1, if_pos h2]
    refine HasDerivAt.congr_of_eventuallyEq ?_ hev
    have := ((((hasDerivAt_id x).add_const (p / 2)).sub_const (2 * p * (⌊u⌋ : ℝ))).const_sub (2 * p)).sub_const (p / 2)
    exact this
  · rw [if_neg hc]
    have hlt : x + p / 2 - 2 * p * ⌊u⌋ < p := by
      refine lt_of_le_of_ne (not_lt.1 hc) fun e => hx (2 * ⌊u⌋) ?_
      push_cast
      linarith
    have hev : (fun y => makePeriodic y p) =ᶠ[𝓝 x] fun y => y + p / 2 - 2 * p * ⌊u⌋ - p / 2 := by
      have h3 : ∀ᶠ y in 𝓝 x, y + p / 2 - 2 * p * ⌊u⌋ < p :=
        (show ContinuousAt (fun y : ℝ => y + p / 2 - 2 * p * ⌊u⌋) x by fun_prop).eventually (eventually_lt_nhds hlt)
      filter_upwards [hfloor, h3] with y h1 h2
      rw [makePeriodic_unfold, h1, if_neg (not_lt.2 h2.le)]
    refine HasDerivAt.congr_of_eventuallyEq ?_ hev
    have := (((hasDerivAt_id x).add_const (p / 2)).sub_const (2 * p * (⌊u⌋ : ℝ))).sub_const (p / 2)
    exact this

/-! ## links -/

namespace PwLayer

/-- The slope of a link at `v` as the backward pass computes it. -/
noncomputable def linkSlope (L : PwLayer ℝ) (o i : ℕ) (v : ℝ) : ℝ :=
  (linkPoly L.n fun k => L.w.get [o, i, L.seg v * L.stride + k]).derivative.eval (L.xIn v) * (L.length / 2 * L.segments) * periodizeGrad L.periodicity v

theorem localCoord_hasDeriv (S s : ℕ) (x : ℝ) : HasDerivAt (fun x => localCoord S s x) S x := by
  unfold localCoord
  have := ((((hasDerivAt_id x).add_const (1 : ℝ)).const_mul (S : ℝ)).sub_const (2 * (s : ℝ))).sub_const (1 : ℝ)
  rw [mul_one] at this
  exact this

/-- Points where the slope of a link is a derivative: not on a boundary between two segments and not on a turning point of the periodic wrap. -/
def Smooth (L : PwLayer ℝ) (v : ℝ) : Prop :=
  (∀ s, 0 < s → s < L.segments → periodize L.periodicity v ≠ -(L.length / 2) + L.length * s / L.segments) ∧
  ∀ p, L.periodicity = some p → ∀ k : ℤ, v ≠ p / 2 + k * p

/-- The slope of the link without the periodic wrap. -/
theorem noPeriod_linkSlope (L : PwLayer ℝ) (hS : 0 < L.segments) (hl : 0 < L.length) (o i : ℕ) (u : ℝ) {s : Set ℝ}
    (hs : ∀ᶠ y in 𝓝[s] u, IsActive L.segments (L.noPeriod.seg u) (2 * y / L.length)) :
    HasDerivWithinAt (L.noPeriod.linkFn o i) (L.noPeriod.linkSlope o i u) s u := by
  have hS' : 0 < L.noPeriod.segments := hS
  have hev : (L.noPeriod.linkFn o i) =ᶠ[𝓝[s] u] fun y => (linkPoly L.n fun k => L.w.get [o, i, L.noPeriod.seg u * L.stride + k]).eval
      (L.length / 2 * localCoord L.segments (L.noPeriod.seg u) y) := by
    filter_upwards [hs] with y hy
    have e : L.noPeriod.seg y = L.noPeriod.seg u := isActive_unique (L.noPeriod.isActive_seg_any hS' hl rfl y) hy
    rw [L.noPeriod.linkFn_any hS' rfl, e]
    rfl
  have hat : L.noPeriod.linkFn o i u = (linkPoly L.n fun k => L.w.get [o, i, L.noPeriod.seg u * L.stride + k]).eval
      (L.length / 2 * localCoord L.segments (L.noPeriod.seg u) u) := L.noPeriod.linkFn_any hS' rfl o i u
  refine HasDerivWithinAt.congr_of_eventuallyEq ?_ hev hat
  have h1 := ((localCoord_hasDeriv L.segments (L.noPeriod.seg u) u).const_mul (L.length / 2)).hasDerivWithinAt (s := s)
  have h2 := (Polynomial.hasDerivAt (linkPoly L.n fun k => L.w.get [o, i, L.noPeriod.seg u * L.stride + k])
    (L.length / 2 * localCoord L.segments (L.noPeriod.seg u) u)).comp_hasDerivWithinAt u h1
  have e : L.noPeriod.xIn u = L.length / 2 * localCoord L.segments (L.noPeriod.seg u) u := by
    unfold xIn
    rw [L.noPeriod.whichSegment_eq_seg hS']
    exact L.noPeriod.xLocal_any hS' u _
  unfold linkSlope
  rw [e]
  show HasDerivWithinAt _ (_ * (L.length / 2 * L.segments) * (1 : ℝ)) s u
  rw [mul_one]
  exact h2

theorem linkSlope_periodic (L : PwLayer ℝ) (o i : ℕ) (v : ℝ) :
    L.linkSlope o i v = L.noPeriod.linkSlope o i (periodize L.periodicity v) * periodizeGrad L.periodicity v := by
  show _ = _ * (1 : ℝ) * _
  rw [mul_one]
  rfl

theorem boundary_iff {S : ℕ} (hS : 0 < S) {l : ℝ} (hl : 0 < l) (u : ℝ) (q : ℕ) : 2 * u / l = segLeft S q ↔ u = -(l / 2) + l * q / S := by
  have hSr : (0 : ℝ) < S := by exact_mod_cast hS
  unfold segLeft
  rw [div_eq_iff hl.ne']
  constructor
  · intro h
    field_simp at h ⊢
    linarith
  · intro h
    rw [h]
    field_simp

/-- At smooth points the slope is the derivative of the link. -/
theorem linkFn_hasDerivAt (L : PwLayer ℝ) (hS : 0 < L.segments) (hl : 0 < L.length) (hp : ∀ p, L.periodicity = some p → 0 < p) (o i : ℕ) {v : ℝ} (hv : L.Smooth v) :
    HasDerivAt (L.linkFn o i) (L.linkSlope o i v) v := by
  have hnp : HasDerivAt (L.noPeriod.linkFn o i) (L.noPeriod.linkSlope o i (periodize L.periodicity v)) (periodize L.periodicity v) := by
    rw [← hasDerivWithinAt_univ]
    apply L.noPeriod_linkSlope hS hl
    rw [nhdsWithin_univ]
    have h1 := L.noPeriod.isActive_seg_any hS hl rfl (periodize L.periodicity v)
    have h2 := isActive_near h1 fun q hq0 hq => fun e => hv.1 q hq0 hq ((boundary_iff hS hl _ q).1 e)
    have hcont : ContinuousAt (fun y : ℝ => 2 * y / L.length) (periodize L.periodicity v) := by fun_prop
    exact hcont.eventually h2
  have hper : HasDerivAt (periodize L.periodicity) (periodizeGrad L.periodicity v) v := by
    cases hpp : L.periodicity with
    | none => exact hasDerivAt_id v
    | some p => exact makePeriodic_deriv (hp p hpp) (hv.2 p hpp)
  rw [linkSlope_periodic]
  exact hnp.comp v hper

/-- Without the periodic wrap the slope is the right derivative everywhere. -/
theorem linkFn_hasDerivRight (L : PwLayer ℝ) (hS : 0 < L.segments) (hl : 0 < L.length) (hp : L.periodicity = none) (o i : ℕ) (v : ℝ) :
    HasDerivWithinAt (L.linkFn o i) (L.linkSlope o i v) (Set.Ici v) v := by
  have e : L.noPeriod = L := by
    unfold noPeriod
    rw [← hp]
  have h1 := L.isActive_seg_any hS hl hp v
  have key := L.noPeriod_linkSlope hS hl o i v (s := Set.Ici v) (by
    rw [e]
    have hcont : Tendsto (fun y : ℝ => 2 * y / L.length) (𝓝[≥] v) (𝓝[≥] (2 * v / L.length)) := by
      apply tendsto_nhdsWithin_of_tendsto_nhds_of_eventually_within
      · exact (show ContinuousAt (fun y : ℝ => 2 * y / L.length) v by fun_prop).tendsto.mono_left nhdsWithin_le_nhds
      · filter_upwards [self_mem_nhdsWithin] with y hy
        have hy' : v ≤ y := hy
        show 2 * v / L.length ≤ 2 * y / L.length
        gcongr
    exact hcont.eventually (isActive_right h1))
  rwa [e] at key

/-- An entry of the input gradient. -/
theorem inputGrad_get (L : PwLayer ℝ) (h : L.WF) {B : ℕ} {x : Tensor ℝ} (hx : x.shape = [B, L.inFeatures]) (g : Tensor ℝ) {b i : ℕ} (hb : b < B) (hi : i < L.inFeatures) :
    (L.inputGrad x g).get [b, i] = ∑ o ∈ Finset.range L.outFeatures,
      g.get [b, o] * (L.linkFactor (fun j => L.linkFn o j (x.get [b, j])) i * L.linkSlope o i (x.get [b, i])) := by
  have hSr : (0 : ℝ) < L.segments := by exact_mod_cast h.seg_pos
  have hbasis : L.poly.basis = getLagrangeBasis L.n ((2 : ℕ) : ℝ) := by
    unfold PwLayer.poly
    cases L.cls <;> rfl
  have hlink : ∀ o' j, sumL ((List.range L.n).map fun k => L.poly.basis.call (L.xLocal (periodize L.periodicity (x.get [b, j])) (L.whichSegment (x.get [b, j]))) k
      * L.w.get [o', j, (L.whichSegment (x.get [b, j])).toNat * L.stride + k]) = L.linkFn o' j (x.get [b, j]) := by
    intro o' j
    rw [sumL_range, hbasis]
    exact sum_basis_call_two L.n _ _
  have heta : L.eta (L.whichSegment (x.get [b, i]) + 1) - L.eta (L.whichSegment (x.get [b, i])) = 2 / L.segments := by
    rw [eta_real, eta_real]
    push_cast
    field_simp
    ring
  unfold inputGrad
  simp only [hx]
  rw [Tensor.get_tab2 hb hi, sumL_range, Finset.sum_mul, Finset.sum_mul]
  apply Finset.sum_congr rfl
  intro o _
  rw [sumL_range, hbasis, sum_dcall_two]
  rw [hbasis] at hlink
  simp only [hlink]
  rw [heta]
  unfold linkSlope xIn seg
  field_simp

/-! ## layers as functions of matrices -/

end PwLayer

/-- The tensor with the entries of a matrix. -/
noncomputable def ofMat {B I : ℕ} (X : Fin B → Fin I → ℝ) : Tensor ℝ := Tensor.tab2 B I fun b i => if h : b < B ∧ i < I then X ⟨b, h.1⟩ ⟨i, h.2⟩ else 0

theorem ofMat_get {B I : ℕ} (X : Fin B → Fin I → ℝ) (b : Fin B) (i : Fin I) : (ofMat X).get [(b : ℕ), (i : ℕ)] = X b i := by
  unfold ofMat
  rw [Tensor.get_tab2 b.2 i.2, dif_pos ⟨b.2, i.2⟩]

theorem ofMat_wf {B I : ℕ} (X : Fin B → Fin I → ℝ) : (ofMat X).WF := Tensor.wf_tabulate _ _

theorem ofMat_shape {B I : ℕ} (X : Fin B → Fin I → ℝ) : (ofMat X).shape = [B, I] := rfl

/-- Chain rule for a matrix valued function whose entry `(b, o)` has derivative `a b o i` by entry `(b, i)` of its argument and 0 by the entries of other rows. -/
theorem backprop_entries {B I O : ℕ} (F : (Fin B → Fin I → ℝ) → Fin B → Fin O → ℝ) (X : Fin B → Fin I → ℝ) (s : Set (Fin B → Fin I → ℝ)) (a : Fin B → Fin O → Fin I → ℝ)
    (hF : ∀ b o, HasFDerivWithinAt (fun Y => F Y b o)
      (∑ i : Fin I, a b o i • (ContinuousLinearMap.proj i).comp (ContinuousLinearMap.proj (R := ℝ) (φ := fun _ : Fin B => Fin I → ℝ) b)) s X)
    (loss : (Fin B → Fin O → ℝ) → ℝ) (D : (Fin B → Fin O → ℝ) →L[ℝ] ℝ) (hD : HasFDerivAt loss D (F X)) :
    ∃ D' : (Fin B → Fin I → ℝ) →L[ℝ] ℝ, HasFDerivWithinAt (fun Y => loss (F Y)) D' s X ∧
      ∀ (b : Fin B) (i : Fin I), ∑ o : Fin O, D (Pi.single b (Pi.single o 1)) * a b o i = D' (Pi.single b (Pi.single i 1)) := by
  set A : (Fin B → Fin I → ℝ) →L[ℝ] (Fin B → Fin O → ℝ) := ContinuousLinearMap.pi fun b => ContinuousLinearMap.pi fun o =>
    ∑ i : Fin I, a b o i • (ContinuousLinearMap.proj i).comp (ContinuousLinearMap.proj (R := ℝ) (φ := fun _ : Fin B => Fin I → ℝ) b) with hA
  have hmat : HasFDerivWithinAt F A s X := by
    rw [hA]
    exact hasFDerivWithinAt_pi.2 fun b => hasFDerivWithinAt_pi.2 fun o => hF b o
  refine ⟨D.comp A, hD.comp_hasFDerivWithinAt X hmat, fun b i => ?_⟩
  have hdec : A (Pi.single b (Pi.single i 1)) = ∑ o : Fin O, a b o i • (Pi.single b (Pi.single o (1 : ℝ)) : Fin B → Fin O → ℝ) := by
    funext b' o'
    rw [hA, Finset.sum_apply, Finset.sum_apply]
    simp only [ContinuousLinearMap.pi_apply, ContinuousLinearMap.sum_apply, ContinuousLinearMap.smul_apply, ContinuousLinearMap.comp_apply,
      ContinuousLinearMap.proj_apply, Pi.smul_apply, smul_eq_mul]
    by_cases hb : b' = b
    · subst hb
      rw [Finset.sum_eq_single i, Finset.sum_eq_single o']
      · simp
      · intro o'' _ hne
        simp [Pi.single_eq_of_ne hne.symm]
      · simp
      · intro i' _ hne
        simp [Pi.single_eq_of_ne hne]
      · simp
    · simp [Pi.single_eq_of_ne hb]
  rw [ContinuousLinearMap.comp_apply, hdec, map_sum]
  apply Finset.sum_congr rfl
  intro o _
  rw [map_smul, smul_eq_mul]
  ring

end HOL
