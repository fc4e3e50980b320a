import Verif.Lemmas.Structural
import Verif.Lemmas.LagrangeReal
import Mathlib.Topology.Order.OrderClosed
import Mathlib.Topology.Algebra.Polynomial
import Mathlib.Tactic.Continuity

/-! # Piecewise layers over the reals -/

namespace HOL
open TorchScalar Polynomial Spec

/-! ## segments -/

theorem isActive_exists {S : ℕ} (hS : 0 < S) (x : ℝ) : ∃ s, IsActive S s x := by
  by_cases h : ∀ s, 0 < s → s < S → x < segLeft S s
  · refine ⟨0, hS, Or.inl rfl, ?_⟩
    by_cases h1 : 0 + 1 = S
    · exact Or.inl h1
    · exact Or.inr (h 1 (by omega) (by omega))
  · push Not at h
    classical
    -- the largest segment whose left end is not beyond `x`
    obtain ⟨s0, h0, h1, h2⟩ := h
    have hne : ((Finset.range S).filter fun s => 0 < s ∧ segLeft S s ≤ x).Nonempty :=
      ⟨s0, by simp [h0, h1, h2]⟩
    let m := Finset.max' _ hne
    have hm := Finset.max'_mem _ hne
    simp only [Finset.mem_filter, Finset.mem_range] at hm
    refine ⟨m, hm.1, Or.inr hm.2.2, ?_⟩
    by_cases h3 : m + 1 = S
    · exact Or.inl h3
    · right
      by_contra h4
      push Not at h4
      have hlt : m + 1 < S := by
        have := hm.1
        change m < S at this
        omega
      have : m + 1 ≤ m := Finset.le_max' _ _ (by
        simp only [Finset.mem_filter, Finset.mem_range]
        exact ⟨hlt, by omega, h4⟩)
      omega

theorem segLeft_mono {S s t : ℕ} (h : s ≤ t) : segLeft S s ≤ segLeft S t := by
  unfold segLeft
  have : (s : ℝ) ≤ t := by exact_mod_cast h
  gcongr

theorem segLeft_strictMono {S s t : ℕ} (hS : 0 < S) (h : s < t) : segLeft S s < segLeft S t := by
  unfold segLeft
  have : (s : ℝ) < t := by exact_mod_cast h
  have : (0 : ℝ) < S := by exact_mod_cast hS
  gcongr

theorem isActive_unique {S s t : ℕ} {x : ℝ} (hs : IsActive S s x) (ht : IsActive S t x) : s = t := by
  wlog hst : s ≤ t generalizing s t
  · exact (this ht hs (by omega)).symm
  rcases Nat.eq_or_lt_of_le hst with h | h
  · exact h
  · exfalso
    obtain ⟨h1, _, h3⟩ := hs
    obtain ⟨h4, h5, _⟩ := ht
    have h6 : segLeft S t ≤ x := by
      rcases h5 with h5 | h5
      · omega
      · exact h5
    have h7 : x < segLeft S (s + 1) := by
      rcases h3 with h3 | h3
      · omega
      · exact h3
    have := segLeft_mono (S := S) (show s + 1 ≤ t by omega)
    linarith

namespace PwLayer

theorem half_real (L : PwLayer ℝ) : L.half = L.length / 2 := by
  show (1 : ℝ) / ((2 : ℕ) : ℝ) * L.length = _
  push_cast; ring

theorem eta_real (L : PwLayer ℝ) (i : ℤ) : L.eta i = (i : ℝ) / L.segments * 2 - 1 := by
  show (i : ℝ) / ((L.segments : ℕ) : ℝ) * ((2 : ℕ) : ℝ) - 1 = _
  push_cast; ring

theorem segIndex_real (L : PwLayer ℝ) (x : ℝ) :
    L.segIndex x = clampInt (toLong ((x + L.length / 2) / L.length * L.segments)) 0
      ((L.segments : ℤ) - 1) := by
  unfold segIndex
  rw [half_real]

/-- For `length = 2` the segment index of the code is the active segment. -/
theorem isActive_segIndex (L : PwLayer ℝ) (hS : 0 < L.segments) (hl : L.length = 2) (x : ℝ) :
    IsActive L.segments (L.segIndex x).toNat x := by
  have hSr : (0 : ℝ) < L.segments := by exact_mod_cast hS
  set y : ℝ := (x + L.length / 2) / L.length * L.segments with hy
  have hx : x = -1 + 2 * y / L.segments := by
    rw [hy, hl]; field_simp; ring
  have hle : ∀ k : ℕ, segLeft L.segments k ≤ x ↔ (k : ℝ) ≤ y := by
    intro k
    unfold segLeft
    rw [hx]
    rw [add_le_add_iff_left, div_le_div_iff_of_pos_right hSr]
    constructor <;> intro h <;> linarith
  have hlt : ∀ k : ℕ, x < segLeft L.segments k ↔ y < k := by
    intro k
    rw [← not_le, hle, not_le]
  have hidx : L.segIndex x = clampInt (toLong y) 0 ((L.segments : ℤ) - 1) := L.segIndex_real x
  rw [hidx, toLong_real]
  unfold clampInt
  by_cases h0 : 0 ≤ y
  · rw [if_pos h0]
    have hf : 0 ≤ ⌊y⌋ := Int.floor_nonneg.2 h0
    rcases le_or_gt (L.segments : ℤ) ⌊y⌋ with hbig | hsmall
    · have e : (min (max ⌊y⌋ 0) ((L.segments : ℤ) - 1)).toNat = L.segments - 1 := by omega
      rw [e]
      refine ⟨by omega, Or.inr ?_, Or.inl (by omega)⟩
      rw [hle]
      have h2 : ((L.segments : ℤ) : ℝ) ≤ y := Int.le_floor.1 hbig
      have h3 : ((L.segments - 1 : ℕ) : ℝ) ≤ L.segments := by exact_mod_cast Nat.sub_le _ _
      push_cast at h2
      linarith
    · obtain ⟨k, hk⟩ : ∃ k : ℕ, ⌊y⌋ = k := ⟨⌊y⌋.toNat, by omega⟩
      have e : (min (max ⌊y⌋ 0) ((L.segments : ℤ) - 1)).toNat = k := by omega
      rw [e]
      refine ⟨by omega, Or.inr ?_, Or.inr ?_⟩
      · rw [hle]
        have := Int.floor_le y
        rw [hk] at this
        exact_mod_cast this
      · rw [hlt]
        have := Int.lt_floor_add_one y
        rw [hk] at this
        push_cast
        exact_mod_cast this
  · rw [if_neg h0]
    push Not at h0
    have hc : ⌈y⌉ ≤ 0 := Int.ceil_le.2 (by simpa using h0.le)
    have e : (min (max ⌈y⌉ 0) ((L.segments : ℤ) - 1)).toNat = 0 := by omega
    rw [e]
    refine ⟨hS, Or.inl rfl, Or.inr ?_⟩
    rw [hlt]
    push_cast
    linarith

theorem isActive_seg (L : PwLayer ℝ) (hS : 0 < L.segments) (hl : L.length = 2) (x : ℝ) :
    IsActive L.segments (L.seg x) (periodize L.periodicity x) :=
  L.isActive_segIndex hS hl _

theorem xLocal_real (L : PwLayer ℝ) (hS : 0 < L.segments) (hl : L.length = 2) (x : ℝ) (s : ℕ) :
    L.xLocal x (s : ℤ) = localCoord L.segments s x := by
  have hSr : (L.segments : ℝ) ≠ 0 := by positivity
  show L.length * ((x - L.eta s) / (L.eta ((s : ℤ) + 1) - L.eta s)) - L.half = _
  rw [half_real, eta_real, eta_real, hl, localCoord]
  push_cast
  field_simp
  ring

theorem xGlobal_real (L : PwLayer ℝ) (hl : L.length = 2) (t : ℝ) (s : ℕ) :
    L.xGlobal t (s : ℤ) = segLeft L.segments s + (t + 1) / L.segments := by
  show ((t + L.half) / L.length) * (L.eta ((s : ℤ) + 1) - L.eta s) + L.eta s = _
  rw [half_real, eta_real, eta_real, hl, segLeft]
  push_cast
  ring

/-- The function of one link as computed by `forward` (any length, with the periodic wrap). -/
noncomputable def linkFn (L : PwLayer ℝ) (o i : ℕ) (v : ℝ) : ℝ :=
  (linkPoly L.n fun k => L.w.get [o, i, L.seg v * L.stride + k]).eval (L.xIn v)

/-- Sum layers: `forward` succeeds and each output is the sum of its links. -/
theorem forward_sum (L : PwLayer ℝ) (h : L.WF)
    (hc : L.cls = .continuous ∨ L.cls = .discontinuous) {x : Tensor ℝ} {B : ℕ}
    (hx : x.shape = [B, L.inFeatures]) (hwf : x.WF) :
    L.forward x = .ok (Tensor.tab2 B L.outFeatures fun b o =>
      ∑ i ∈ Finset.range L.inFeatures, L.linkFn o i (x.get [b, i])) := by
  rw [L.forward_eq h hx hwf]
  have hp : L.poly = Poly.mk .batch L.n (getLagrangeBasis L.n ((2 : ℕ) : ℝ)) := by
    unfold poly; rcases hc with hc | hc <;> rw [hc] <;> rfl
  rw [hp, activeW, interpolate_batch h.n_pos]
  congr 1
  apply tab2_congr
  intro b _ o _
  rw [sumL_flatMap_range, Finset.sum_comm]
  apply Finset.sum_congr rfl
  intro i _
  exact sum_basis_call_two L.n _ _

/-- Product layers: `forward` succeeds and each output is `∏ (1 + f) - 1`. -/
theorem forward_prod (L : PwLayer ℝ) (h : L.WF)
    (hc : L.cls = .continuousProd ∨ L.cls = .discontinuousProd) {x : Tensor ℝ} {B : ℕ}
    (hx : x.shape = [B, L.inFeatures]) (hwf : x.WF) :
    L.forward x = .ok (Tensor.tab2 B L.outFeatures fun b o =>
      ∏ i ∈ Finset.range L.inFeatures, (1 + L.linkFn o i (x.get [b, i])) - 1) := by
  rw [L.forward_eq h hx hwf]
  have hp : L.poly = Poly.mk (.batchProd 1) L.n (getLagrangeBasis L.n ((2 : ℕ) : ℝ)) := by
    unfold poly; rcases hc with hc | hc <;> rw [hc] <;> rfl
  rw [hp, activeW, interpolate_batchProd h.n_pos]
  congr 1
  apply tab2_congr
  intro b _ o _
  rw [prodL_range]
  have e : ∀ i, sumL ((List.range L.n).map fun p =>
      (getLagrangeBasis L.n ((2 : ℕ) : ℝ)).call (L.xIn (x.get [b, i])) p *
        L.w.get [o, i, L.seg (x.get [b, i]) * L.stride + p]) = L.linkFn o i (x.get [b, i]) := by
    intro i
    rw [sumL_range]
    exact sum_basis_call_two L.n _ _
  simp only [e]
  show _ - 1 + (1 - 1) * _ = _
  ring

/-- For `length = 2` and without periodicity a link is the specified piecewise polynomial. -/
theorem linkFn_isPiecewise (L : PwLayer ℝ) (hS : 0 < L.segments) (hl : L.length = 2)
    (hp : L.periodicity = none) (o i : ℕ) :
    IsPiecewisePoly L.n L.segments L.stride (fun q => L.w.get [o, i, q]) (L.linkFn o i) := by
  intro s x hs
  have h1 := L.isActive_seg hS hl x
  rw [hp] at h1
  have e : L.seg x = s := isActive_unique h1 hs
  unfold linkFn xIn
  rw [L.whichSegment_eq_seg hS, hp, e]
  congr 1
  exact L.xLocal_real hS hl x s

/-- The link of the layer without periodic wrap. -/
def noPeriod {K : Type} (L : PwLayer K) : PwLayer K := { L with periodicity := none }

theorem linkFn_periodic (L : PwLayer ℝ) (o i : ℕ) (v : ℝ) :
    L.linkFn o i v = L.noPeriod.linkFn o i (periodize L.periodicity v) := rfl

end PwLayer

/-! ## continuity -/

theorem localCoord_left {S : ℕ} (hS : 0 < S) (s : ℕ) : localCoord S s (segLeft S s) = -1 := by
  have : (S : ℝ) ≠ 0 := by positivity
  unfold localCoord segLeft; field_simp; ring

theorem localCoord_right {S : ℕ} (hS : 0 < S) (s : ℕ) :
    localCoord S s (segLeft S (s + 1)) = 1 := by
  have : (S : ℝ) ≠ 0 := by positivity
  unfold localCoord segLeft; push_cast; field_simp; ring

theorem continuous_localCoord (S s : ℕ) : Continuous (localCoord S s) := by
  unfold localCoord; fun_prop

theorem linkPoly_one_eval (v : ℕ → ℝ) (x : ℝ) : (linkPoly 1 v).eval x = v 0 := by
  unfold linkPoly
  simp [Lagrange.interpolate_apply, Lagrange.basis]

/-- The pieces of a continuous layer agree at the common end. -/
theorem pieces_agree {n S : ℕ} (hn : 0 < n) (hS : 0 < S) (v : ℕ → ℝ) (s : ℕ) :
    (linkPoly n fun k => v (s * (n - 1) + k)).eval (localCoord S s (segLeft S (s + 1)))
      = (linkPoly n fun k => v ((s + 1) * (n - 1) + k)).eval
          (localCoord S (s + 1) (segLeft S (s + 1))) := by
  rw [localCoord_right hS, localCoord_left hS]
  rcases Nat.lt_or_ge n 2 with h | h
  · have : n = 1 := by omega
    subst this
    rw [linkPoly_one_eval, linkPoly_one_eval]; simp
  · have e1 := linkPoly_eval_node (n := n) (j := n - 1) (by omega) (fun k => v (s * (n - 1) + k))
    have e2 := linkPoly_eval_node (n := n) (j := 0) (by omega) (fun k => v ((s + 1) * (n - 1) + k))
    rw [node_last h] at e1
    rw [node_zero h] at e2
    rw [e1, e2]
    congr 1
    ring

/-- A piecewise polynomial whose segments share their end nodes is continuous. -/
theorem continuous_of_isPiecewise {n S : ℕ} (hn : 0 < n) (hS : 0 < S) {v : ℕ → ℝ} {f : ℝ → ℝ}
    (hf : IsPiecewisePoly n S (n - 1) v f) : Continuous f := by
  classical
  let P : ℕ → ℝ → ℝ := fun s x =>
    (linkPoly n fun k => v (s * (n - 1) + k)).eval (localCoord S s x)
  have hP : ∀ s, Continuous (P s) := fun s =>
    (Polynomial.continuous _).comp (continuous_localCoord S s)
  have hfe : f = fun x => P 0 x + ∑ s ∈ Finset.range (S - 1),
      if segLeft S (s + 1) ≤ x then P (s + 1) x - P s x else 0 := by
    funext x
    obtain ⟨t, ht⟩ := isActive_exists hS x
    rw [hf t x ht]
    change P t x = _
    have hiff : ∀ s, s < S - 1 → (segLeft S (s + 1) ≤ x ↔ s < t) := by
      intro s hs
      constructor
      · intro h
        by_contra hst
        push Not at hst
        rcases ht.2.2 with h1 | h1
        · omega
        · have := segLeft_mono (S := S) (show t + 1 ≤ s + 1 by omega)
          linarith
      · intro h
        rcases ht.2.1 with h1 | h1
        · omega
        · exact le_trans (segLeft_mono (by omega)) h1
    have hsum : ∑ s ∈ Finset.range (S - 1), (if segLeft S (s + 1) ≤ x then P (s + 1) x - P s x else 0)
        = ∑ s ∈ Finset.range t, (P (s + 1) x - P s x) := by
      rw [← Finset.sum_filter]
      apply Finset.sum_congr _ (fun _ _ => rfl)
      ext s
      simp only [Finset.mem_filter, Finset.mem_range]
      constructor
      · rintro ⟨h1, h2⟩; exact (hiff s h1).1 h2
      · intro h
        have h1 : s < S - 1 := by have := ht.1; omega
        exact ⟨h1, (hiff s h1).2 h⟩
    rw [hsum, Finset.sum_range_sub (fun s => P s x)]
    ring
  rw [hfe]
  refine (hP 0).add (continuous_finsetSum _ fun s _ => ?_)
  refine Continuous.if_le ((hP (s + 1)).sub (hP s)) continuous_const continuous_const continuous_id ?_
  intro x hx
  have := pieces_agree hn hS v s
  change P s (segLeft S (s + 1)) = P (s + 1) (segLeft S (s + 1)) at this
  rw [← hx, this]
  simp

/-- Values at the global nodes of a continuous piecewise polynomial. -/
theorem isPiecewise_at_node {n S : ℕ} (hn : 2 ≤ n) {v : ℕ → ℝ} {f : ℝ → ℝ}
    (hf : IsPiecewisePoly n S (n - 1) v f) {s k : ℕ} (hs : s < S) (hk : k < n) :
    f (segLeft S s + (node n k + 1) / S) = v (s * (n - 1) + k) := by
  have hS : 0 < S := by omega
  have hSr : (0 : ℝ) < S := by exact_mod_cast hS
  have hmem := node_mem n k
  have hloc : localCoord S s (segLeft S s + (node n k + 1) / S) = node n k := by
    unfold localCoord segLeft; field_simp; ring
  rcases Nat.lt_or_ge k (n - 1) with hk1 | hk1
  · have hlt : node n k < 1 := by
      rw [← node_last hn]; exact node_strictMono hk1 (by omega)
    have hact : IsActive S s (segLeft S s + (node n k + 1) / S) := by
      refine ⟨hs, Or.inr ?_, Or.inr ?_⟩
      · have : 0 ≤ (node n k + 1) / S := div_nonneg (by linarith) hSr.le
        linarith
      · unfold segLeft
        push_cast
        have : (node n k + 1) / S < 2 / S := div_lt_div_of_pos_right (by linarith) hSr
        have e : 2 * ((s : ℝ) + 1) / S = 2 * s / S + 2 / S := by ring
        rw [e]; linarith
    rw [hf s _ hact, hloc, linkPoly_eval_node hk]
  · have hk' : k = n - 1 := by omega
    subst hk'
    rw [node_last hn]
    have hx : segLeft S s + (1 + 1) / S = segLeft S (s + 1) := by
      unfold segLeft; push_cast; ring
    rw [hx]
    rcases Nat.lt_or_ge (s + 1) S with h1 | h1
    · have hact : IsActive S (s + 1) (segLeft S (s + 1)) := by
        refine ⟨h1, Or.inr le_rfl, Or.inr (segLeft_strictMono hS (by omega))⟩
      rw [hf _ _ hact, localCoord_left hS, ← node_zero hn, linkPoly_eval_node (by omega)]
      congr 1; ring
    · have hact : IsActive S s (segLeft S (s + 1)) := by
        refine ⟨hs, Or.inr (segLeft_mono (by omega)), Or.inl (by omega)⟩
      rw [hf _ _ hact, localCoord_right hS, ← node_last hn, linkPoly_eval_node (by omega)]

end HOL
