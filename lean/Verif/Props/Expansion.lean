import Verif.Lemmas.ConvReal
import Verif.Lemmas.Layers

/-! # C49 - C51: expansions -/

namespace HOL
open TorchScalar Spec Polynomial

/-! ## C49 -/

/-- **C49 (2d).** In every arithmetic: `Expansion2d` accepts every image and puts function `v` of input channel `c` into channel `c * size + v` of
the same pixel; these are all channels. -/
theorem C49_expansion2d {K : Type} [TorchScalar K] {e : Expander K} (he : e.Fits .two) {x : Tensor K} (hx : x.WF) {B C H W : ℕ}
    (hs : x.shape = [B, C, H, W]) :
    ∃ E T, e.call x = .ok E ∧ E.shape = e.variables :: x.shape ∧ expansion2d e x = .ok T ∧ T.shape = [B, C * e.variables, H, W] ∧ T.WF ∧
      (∀ b < B, ∀ c < C, ∀ v < e.variables, ∀ i < H, ∀ j < W,
        T.get [b, c * e.variables + v, i, j] = E.get [v, b, c, i, j]) ∧
      ∀ q < C * e.variables, ∃ c < C, ∃ v < e.variables, q = c * e.variables + v := by
  obtain ⟨E, T, h1, h2, _, h3, h4, h5, h6⟩ := expansion2d_ok he hx hs
  have hv := he.variables_pos
  refine ⟨E, T, h1, by rw [hs]; exact h2, h3, h4, h5, fun b hb c hc v hv i hi j hj => (h6 b hb c hc v hv i hi j hj).1, ?_⟩
  intro q hq
  exact ⟨q / e.variables, (Nat.div_lt_iff_lt_mul hv).2 hq, q % e.variables, Nat.mod_lt _ hv, (Nat.div_add_mod' q _).symm⟩

/-- **C49 (1d).** -/
theorem C49_expansion1d {K : Type} [TorchScalar K] {e : Expander K} (he : e.Fits .one) {x : Tensor K} (hx : x.WF) {B C H : ℕ}
    (hs : x.shape = [B, C, H]) :
    ∃ E T, e.call x = .ok E ∧ E.shape = e.variables :: x.shape ∧ expansion1d e x = .ok T ∧ T.shape = [B, C * e.variables, H] ∧ T.WF ∧
      (∀ b < B, ∀ c < C, ∀ v < e.variables, ∀ i < H, T.get [b, c * e.variables + v, i] = E.get [v, b, c, i]) ∧
      ∀ q < C * e.variables, ∃ c < C, ∃ v < e.variables, q = c * e.variables + v := by
  obtain ⟨E, T, h1, h2, _, h3, h4, h5, h6⟩ := expansion1d_ok he hx hs
  have hv := he.variables_pos
  refine ⟨E, T, h1, by rw [hs]; exact h2, h3, h4, h5, fun b hb c hc v hv i hi => (h6 b hb c hc v hv i hi).1, ?_⟩
  intro q hq
  exact ⟨q / e.variables, (Nat.div_lt_iff_lt_mul hv).2 hq, q % e.variables, Nat.mod_lt _ hv, (Nat.div_add_mod' q _).symm⟩

/-- **C49 (values).** In every arithmetic: `LagrangeExpand`/`FourierExpand` return basis function `v` of the entry at the same position. -/
theorem C49_plain_values {K : Type} [TorchScalar K] {n : ℕ} (hn : 1 ≤ n) (basis : BasisFn K) (x : Tensor K) :
    ∃ E, (Expander.plain n basis).call x = .ok E ∧ E.shape = n :: x.shape ∧
      ∀ v < n, ∀ idx, InShape x.shape idx → E.get (v :: idx) = basis.call (x.get idx) v := by
  have hn' : n ≠ 0 := by omega
  simp only [Expander.call, stackBasis, if_neg hn']
  refine ⟨_, rfl, rfl, ?_⟩
  intro v hv idx hidx
  have hin : InShape (n :: x.shape) (v :: idx) := ⟨hv, hidx⟩
  rw [Tensor.get_tabulate hin]

/-- **C49 (constructor).** An expansion is built from a basis, which it keeps; without a basis the constructor raises. -/
theorem C49_constructor {K : Type} [TorchScalar K] :
    expansionInit (K := K) none = .error .exception ∧ ∀ e : Expander K, expansionInit (some e) = .ok e := ⟨rfl, fun _ => rfl⟩

/-- **C49 (errors).** Images of another rank and empty bases raise. -/
theorem C49_rejects {K : Type} [TorchScalar K] (e : Expander K) (x : Tensor K) :
    (x.shape.length ≠ 4 → ∃ err, expansion2d e x = .error err) ∧ (x.shape.length ≠ 3 → ∃ err, expansion1d e x = .error err) := by
  have key : ∀ T, e.call x = .ok T → ∃ v, T.shape = v :: x.shape := by
    intro T hT
    match e, hT with
    | .plain n basis, hT =>
      simp only [Expander.call, stackBasis] at hT
      split at hT
      · exact absurd hT (by simp)
      · exact ⟨n, by rw [← Except.ok.inj hT]; rfl⟩
    | .piecewise shared rank n segments length, hT =>
      simp only [Expander.call, piecewiseExpand, bind, Except.bind] at hT
      split at hT
      · exact absurd hT (by simp)
      · split at hT
        · exact absurd hT (by simp)
        · split at hT
          · exact absurd hT (by simp)
          · split at hT
            · exact absurd hT (by simp)
            · split at hT
              · exact absurd hT (by simp)
              · exact ⟨_, by rw [← Except.ok.inj hT]; rfl⟩
  constructor
  · intro hr
    cases hT : e.call x with
    | error err => exact ⟨err, by simp [expansion2d, hT, bind, Except.bind]⟩
    | ok T =>
      obtain ⟨v, hv⟩ := key T hT
      refine ⟨.runtimeError, ?_⟩
      simp only [expansion2d, hT, bind, Except.bind]
      split
      · rename_i h
        rw [hv] at h
        obtain ⟨_, h⟩ := List.cons.inj h
        rw [h] at hr
        exact absurd rfl hr
      · rfl
  · intro hr
    cases hT : e.call x with
    | error err => exact ⟨err, by simp [expansion1d, hT, bind, Except.bind]⟩
    | ok T =>
      obtain ⟨v, hv⟩ := key T hT
      refine ⟨.runtimeError, ?_⟩
      simp only [expansion1d, hT, bind, Except.bind]
      split
      · rename_i h
        rw [hv] at h
        obtain ⟨_, h⟩ := List.cons.inj h
        rw [h] at hr
        exact absurd rfl hr
      · rfl

/-- Two channels, quadratic basis: channel 4 of the result is function 1 of input channel 1. -/
example : ∃ E T, (lagrangeExpand 3 (2 : ℝ)).call (Tensor.tab4 1 2 2 2 fun _ c i j => (c + i + j : ℝ)) = .ok E ∧
    expansion2d (lagrangeExpand 3 (2 : ℝ)) (Tensor.tab4 1 2 2 2 fun _ c i j => (c + i + j : ℝ)) = .ok T ∧
    T.get [0, 4, 1, 0] = E.get [1, 0, 1, 1, 0] := by
  obtain ⟨E, T, h1, _, h3, _, _, h6, _⟩ := C49_expansion2d (e := lagrangeExpand 3 (2 : ℝ)) (show 0 < 3 by norm_num)
    (Tensor.wf_tab4 1 2 2 2 fun _ c i j => (c + i + j : ℝ)) rfl
  exact ⟨E, T, h1, h3, h6 0 (by norm_num) 1 (by norm_num) 1 (show 1 < 3 by norm_num) 1 (by norm_num) 0 (by norm_num)⟩

/-! ## C50 -/

/-- **C50.** Over the reals: the piecewise expansions (continuous or not, 1d or 2d) of an image succeed. Every entry is expanded to at most `n` nonzero
values, which sum to one (any `length ≠ 0`). For `length = 2`, weighting the values with `w` gives `f` of the entry, where `f` is the piecewise polynomial with
node values `w`, the same function for every entry. -/
theorem C50_piecewise_expansion (shared : Bool) (rank : Rank) {n S : ℕ} (hn : 1 ≤ n) (hS : 1 ≤ S) {length : ℝ} (hl : length ≠ 0)
    {x : Tensor ℝ} (hx : x.WF) (hr : x.shape.length = rank.dims) :
    ∃ N E, (if shared then N = (n - 1) * S + 1 else N = n * S) ∧
      (Expander.piecewise shared rank n S length).call x = .ok E ∧ E.shape = N :: x.shape ∧
      (∀ idx, InShape x.shape idx →
        ((Finset.range N).filter fun v => E.get (v :: idx) ≠ 0).card ≤ n ∧ ∑ v ∈ Finset.range N, E.get (v :: idx) = 1) ∧
      (length = 2 → ∀ w : ℕ → ℝ, ∃ f, IsPiecewisePoly n S (if shared then n - 1 else n) w f ∧
        ∀ idx, InShape x.shape idx → ∑ v ∈ Finset.range N, E.get (v :: idx) * w v = f (x.get idx)) := by
  obtain ⟨E, h1, h2, _, h4⟩ := Expander.call_ok (e := Expander.piecewise shared rank n S length) (r := rank) ⟨rfl, hn, hS⟩ hx hr
  refine ⟨(Expander.piecewise shared rank n S length).variables, E, ?_, h1, h2, ?_, ?_⟩
  · cases shared <;> rfl
  · intro idx hidx
    constructor
    · have hsub : ((Finset.range (Expander.piecewise shared rank n S length).variables).filter fun v => E.get (v :: idx) ≠ 0)
          ⊆ Finset.Ico (expandBase shared rank n S length (x.get idx)) (expandBase shared rank n S length (x.get idx) + n) := by
        intro v hv
        obtain ⟨hv1, hv2⟩ := Finset.mem_filter.1 hv
        rw [h4 v (Finset.mem_range.1 hv1) idx hidx] at hv2
        simp only [Expander.val] at hv2
        split at hv2
        · rename_i hc
          exact Finset.mem_Ico.2 hc
        · exact absurd rfl hv2
      have := Finset.card_le_card hsub
      rwa [Nat.card_Ico, Nat.add_sub_cancel_left] at this
    · rw [← val_sum_one shared rank hn hS hl (x.get idx)]
      exact Finset.sum_congr rfl fun v hv => h4 v (Finset.mem_range.1 hv) idx hidx
  · intro hl2 w
    subst hl2
    refine ⟨_, link_piecewise shared rank hn hS w, ?_⟩
    intro idx hidx
    exact Finset.sum_congr rfl fun v hv => by rw [h4 v (Finset.mem_range.1 hv) idx hidx]

/-- **C50 (fully connected layers).** The links of a fully connected piecewise layer with the same weights, segments and nodes have the values of the
contracted expansion. -/
theorem C50_same_as_layer (L : PwLayer ℝ) (hL : L.WF) (hl : L.length = 2) (hp : L.periodicity = none) (hc : L.cls = .continuous ∨ L.cls = .discontinuous)
    (rank : Rank) {x : Tensor ℝ} (hx : x.WF) (hr : x.shape.length = rank.dims) (o i : ℕ) (ho : o < L.outFeatures) (hi : i < L.inFeatures) :
    ∃ E, (Expander.piecewise L.cls.shared rank L.n L.segments (2 : ℝ)).call x = .ok E ∧
      ∀ idx, InShape x.shape idx → ∀ y : Tensor ℝ, y.WF → y.shape = [1, L.inFeatures] → y.get [0, i] = x.get idx →
        ∃ out rest, L.forward y = .ok out ∧ out.get [0, o] = rest +
          ∑ v ∈ Finset.range (PwLayer.wSize L.cls L.n L.segments), E.get (v :: idx) * L.w.get [o, i, v] ∧
          ∃ g : ℕ → ℝ → ℝ, rest = ∑ q ∈ (Finset.range L.inFeatures).erase i, g q (y.get [0, q]) := by
  obtain ⟨N, E, hN, h1, h2, _, h4⟩ := C50_piecewise_expansion L.cls.shared rank hL.n_pos hL.seg_pos (length := 2) (by norm_num) hx hr
  refine ⟨E, h1, ?_⟩
  intro idx hidx y hy hys hyi
  obtain ⟨f, hf, hsum⟩ := h4 rfl fun v => L.w.get [o, i, v]
  have hNw : N = PwLayer.wSize L.cls L.n L.segments := by
    unfold PwLayer.wSize
    split at hN
    · rename_i h; rw [if_pos h]; exact hN
    · rename_i h; rw [if_neg h]; exact hN
  refine ⟨_, ∑ q ∈ (Finset.range L.inFeatures).erase i, L.linkFn o q (y.get [0, q]), L.forward_sum hL hc hys hy, ?_, fun q => L.linkFn o q, rfl⟩
  rw [Tensor.get_tab2 (by norm_num) ho, ← hNw, hsum idx hidx,
    ← Finset.sum_erase_add _ _ (Finset.mem_range.2 hi)]
  congr 1
  rw [hyi]
  obtain ⟨s, hs⟩ := isActive_exists hL.seg_pos (x.get idx)
  rw [L.linkFn_isPiecewise hL.seg_pos hl hp o i s _ hs, hf s _ hs]
  rfl

/-- One entry `1/2`, linear nodes, two segments: the values are `0, 1/2, 1/2`. -/
example : ∃ E, (Expander.piecewise true .one 2 2 (2 : ℝ)).call (Tensor.tab3 1 1 1 fun _ _ _ => (1 / 2 : ℝ)) = .ok E ∧ E.shape = [3, 1, 1, 1] ∧
    E.get [0, 0, 0, 0] + E.get [1, 0, 0, 0] + E.get [2, 0, 0, 0] = 1 := by
  obtain ⟨N, E, hN, h1, h2, h3, _⟩ := C50_piecewise_expansion true .one (n := 2) (S := 2) (by norm_num) (by norm_num) (length := 2) (by norm_num)
    (x := Tensor.tab3 1 1 1 fun _ _ _ => (1 / 2 : ℝ)) (Tensor.wf_tab3 _ _ _ _) rfl
  have hN' : N = 3 := hN
  subst hN'
  refine ⟨E, h1, h2, ?_⟩
  have := (h3 [0, 0, 0] (inShape3.2 (by norm_num))).2
  simpa [Finset.sum_range_succ] using this

/-! ## C51 -/

/-- **C51 (expansions).** Over the reals, `length = 2`: with one segment the piecewise expansions return the same tensor as `LagrangeExpand`. -/
theorem C51_one_segment_expansion (shared : Bool) (rank : Rank) {n : ℕ} (hn : 1 ≤ n) {x : Tensor ℝ} (hx : x.WF)
    (hr : x.shape.length = rank.dims) :
    (Expander.piecewise shared rank n 1 (2 : ℝ)).call x = (lagrangeExpand n (2 : ℝ)).call x := by
  have hvars : (Expander.piecewise shared rank n 1 (2 : ℝ)).variables = n := by
    cases shared <;> simp only [Expander.variables] <;> omega
  obtain ⟨E, h1, h2, h3, h4⟩ := Expander.call_ok (e := Expander.piecewise shared rank n 1 (2 : ℝ)) (r := rank) ⟨rfl, hn, Nat.one_pos⟩ hx hr
  obtain ⟨F, k1, k2, k3, k4⟩ := Expander.call_ok (e := lagrangeExpand n (2 : ℝ)) (r := rank) hn hx hr
  rw [h1, k1]
  congr 1
  apply Tensor.ext_get h3 k3 (by rw [h2, k2, hvars]; rfl)
  intro idx hidx
  rw [h2, hvars] at hidx
  match idx, hidx with
  | v :: idx, hidx =>
    obtain ⟨hv, hidx⟩ := hidx
    rw [h4 v (by rw [hvars]; exact hv) idx hidx, k4 v hv idx hidx]
    have hseg := expandSegment_toNat_lt shared rank Nat.one_pos (2 : ℝ) (x.get idx)
    have hnn := expandSegment_nonneg shared rank Nat.one_pos (2 : ℝ) (x.get idx)
    have hz : expandSegment shared rank 1 (2 : ℝ) (x.get idx) = 0 := by omega
    have hb : expandBase shared rank n 1 (2 : ℝ) (x.get idx) = 0 := by simp [expandBase, hz]
    simp only [Expander.val, hb, hz]
    rw [if_pos ⟨Nat.zero_le _, by omega⟩]
    have : expandLocal 1 (2 : ℝ) (x.get idx) 0 = x.get idx := by
      unfold expandLocal expandEta
      push_cast
      ring
    rw [this]
    rfl

/-- **C51 (layers).** Over the reals: a piecewise layer with one segment and a `Polynomial` layer with the same weights and periodicity give the same output. -/
theorem C51_one_segment_layer (L : PwLayer ℝ) (hL : L.WF) (hl : L.length = 2) (hS : L.segments = 1)
    (hc : L.cls = .continuous ∨ L.cls = .discontinuous) {B : ℕ} {x : Tensor ℝ} (hx : x.shape = [B, L.inFeatures]) (hwf : x.WF) :
    ∃ P, polynomialInit L.n L.inFeatures L.outFeatures (2 : ℝ) (fun _ _ => 0) 1 L.periodicity = .ok P ∧
      L.w.shape = P.w.shape ∧ L.forward x = ({ P with w := L.w } : FnLayer ℝ).forward x := by
  unfold polynomialInit FnLayer.init
  rw [lagrangePolyFlat_numBasis hL.n_pos]
  have hw : L.w.shape = [L.outFeatures, L.inFeatures, L.n] := by
    rw [hL.w_shape, hS, PwLayer.wSize]
    have := hL.n_pos
    split <;> simp <;> omega
  refine ⟨_, rfl, hw, ?_⟩
  rw [L.forward_sum hL hc hx hwf, FnLayer.forward_lagrange _ hL.n_pos 2 rfl hw hx hwf]
  congr 1
  apply tab2_congr
  intro b _ o _
  apply Finset.sum_congr rfl
  intro i _
  rw [L.linkFn_periodic]
  have hact : IsActive L.noPeriod.segments 0 (periodize L.periodicity (x.get [b, i])) := by
    refine ⟨by show 0 < L.segments; omega, Or.inl rfl, Or.inl (by show 0 + 1 = L.segments; omega)⟩
  rw [L.noPeriod.linkFn_isPiecewise (by show 0 < L.segments; omega) hl rfl o i 0 _ hact]
  have e1 : localCoord L.noPeriod.segments 0 (periodize L.periodicity (x.get [b, i])) = periodize L.periodicity (x.get [b, i]) := by
    show localCoord L.segments 0 _ = _
    rw [hS, localCoord]; push_cast; ring
  rw [e1]
  have e2 : (fun j => (2 : ℝ) / 2 * node L.n j) = node L.n := by funext j; norm_num
  rw [e2]
  simp only [Nat.zero_mul, Nat.zero_add]
  rfl

/-- **C51 (limit).** The restriction to `length = 2` is needed: for `length = 1` one segment of a constant-slope expansion is not the plain polynomial
(at `x = 1/2` the value of the second function is `3/4` instead of `1`). -/
theorem C51_other_length :
    (Expander.piecewise true .one 2 1 (1 : ℝ)).call (Tensor.tab3 1 1 1 fun _ _ _ => (1 / 2 : ℝ))
      ≠ (lagrangeExpand 2 (1 : ℝ)).call (Tensor.tab3 1 1 1 fun _ _ _ => (1 / 2 : ℝ)) := by
  have hx : (Tensor.tab3 1 1 1 fun _ _ _ => (1 / 2 : ℝ)).WF := Tensor.wf_tab3 _ _ _ _
  obtain ⟨E, h1, _, _, h4⟩ := Expander.call_ok (e := Expander.piecewise true .one 2 1 (1 : ℝ)) (r := .one) ⟨rfl, by norm_num, Nat.one_pos⟩ hx rfl
  obtain ⟨F, k1, _, _, k4⟩ := Expander.call_ok (e := lagrangeExpand 2 (1 : ℝ)) (r := .one) (show 0 < 2 by norm_num) hx rfl
  rw [h1, k1]
  intro h
  have he : E = F := Except.ok.inj h
  have e1 := h4 1 (by show 1 < 2; norm_num) [0, 0, 0] (inShape3.2 (by norm_num))
  have e2 := k4 1 (by show 1 < 2; norm_num) [0, 0, 0] (inShape3.2 (by norm_num))
  rw [he, e2] at e1
  rw [Tensor.get_tab3 (by norm_num) (by norm_num) (by norm_num)] at e1
  have hseg := expandSegment_toNat_lt true .one Nat.one_pos (1 : ℝ) (1 / 2)
  have hnn := expandSegment_nonneg true .one Nat.one_pos (1 : ℝ) (1 / 2)
  have hz : expandSegment true .one 1 (1 : ℝ) (1 / 2) = 0 := by omega
  have hb : expandBase true .one 2 1 (1 : ℝ) (1 / 2) = 0 := by unfold expandBase; rw [hz]; rfl
  have hloc : expandLocal 1 (1 : ℝ) (1 / 2) 0 = 1 / 4 := by
    unfold expandLocal expandEta
    norm_num
  simp only [Expander.val, hb, hz, lagrangeExpand] at e1
  rw [if_pos (by norm_num), hloc, basis_call_eq (by norm_num), basis_call_eq (by norm_num)] at e1
  have n0 : node 2 0 = -1 := node_zero le_rfl
  have n1 : node 2 1 = 1 := node_last (n := 2) le_rfl
  have hr2 : Finset.range 2 = {0, 1} := rfl
  rw [hr2, Lagrange.basis_pair_right (by norm_num)] at e1
  simp only [Lagrange.basisDivisor, n0, n1, eval_mul, eval_C, eval_sub, eval_X] at e1
  norm_num at e1

/-- One segment, cubic, three inputs and two outputs. -/
example (x : Tensor ℝ) (hx : x.shape = [5, 3]) (hwf : x.WF) :
    ∃ P : FnLayer ℝ, (PwLayer.init .discontinuous 4 3 2 1 (2 : ℝ) (fun o i => o + i) 1 (some 2)).forward x = P.forward x := by
  obtain ⟨P, _, _, h⟩ := C51_one_segment_layer (PwLayer.init .discontinuous 4 3 2 1 (2 : ℝ) (fun o i => o + i) 1 (some 2))
    (PwLayer.init_wf _ (by norm_num) (by norm_num) (by norm_num) (by norm_num) _ _ _ _) rfl rfl (Or.inr rfl) hx hwf
  exact ⟨_, h⟩

end HOL
