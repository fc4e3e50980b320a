import Verif.Props.Linear
import Verif.Lemmas.Rounding
import Verif.Lemmas.RoundTrip
import Verif.Lemmas.Chebyshev

/-! # C90: outputs depend on the weights with a constant that does not grow with the number of segments -/

namespace HOL
open TorchScalar Polynomial Spec

/-- Layers that differ at most in their weights. -/
structure SameSizes (L L' : PwLayer ℝ) : Prop where
  cls : L'.cls = L.cls
  n : L'.n = L.n
  segments : L'.segments = L.segments
  inF : L'.inFeatures = L.inFeatures
  outF : L'.outFeatures = L.outFeatures
  length : L'.length = L.length
  periodicity : L'.periodicity = L.periodicity

/-- The link polynomial is linear in its node values. -/
theorem linkPoly_sub_eval (n : ℕ) (v w : ℕ → ℝ) (t : ℝ) :
    (linkPoly n v).eval t - (linkPoly n w).eval t = ∑ k ∈ Finset.range n, (v k - w k) * (Lagrange.basis (Finset.range n) (node n) k).eval t := by
  unfold linkPoly
  rw [Lagrange.interpolate_apply, Lagrange.interpolate_apply, eval_finsetSum, eval_finsetSum, ← Finset.sum_sub_distrib]
  refine Finset.sum_congr rfl fun k _ => ?_
  rw [eval_mul, eval_mul, eval_C, eval_C]
  ring

/-- The constant of a link with `n` nodes: it is 1 for `n ≤ 2` and never more than `√(2 n)`. -/
theorem link_stable (n : ℕ) (hn : 0 < n) : ∃ Λ : ℝ, 0 < Λ ∧ (n ≤ 2 → Λ = 1) ∧ Λ ≤ √(2 * n) ∧ ∀ (v w : ℕ → ℝ) (δ : ℝ), (∀ k < n, |v k - w k| ≤ δ) → ∀ t, -1 ≤ t → t ≤ 1 →
    |(linkPoly n v).eval t - (linkPoly n w).eval t| ≤ Λ * δ := by
  have hnr : (1 : ℝ) ≤ n := by exact_mod_cast hn
  rcases Nat.lt_or_ge 2 n with h2 | h2
  · refine ⟨√(2 * n), Real.sqrt_pos.2 (by linarith), fun h => absurd h (by omega), le_rfl, fun v w δ hd t h1 h2 => ?_⟩
    have hδ : 0 ≤ δ := (abs_nonneg _).trans (hd 0 hn)
    rw [linkPoly_sub_eval]
    refine (Finset.abs_sum_le_sum_abs _ _).trans ?_
    calc ∑ k ∈ Finset.range n, |(v k - w k) * cardinal n k t|
        ≤ ∑ k ∈ Finset.range n, δ * |cardinal n k t| := Finset.sum_le_sum fun k hk => by
          rw [abs_mul]
          exact mul_le_mul_of_nonneg_right (hd k (Finset.mem_range.1 hk)) (abs_nonneg _)
      _ = δ * ∑ k ∈ Finset.range n, |cardinal n k t| := by rw [Finset.mul_sum]
      _ ≤ δ * √(2 * n) := mul_le_mul_of_nonneg_left (cardinal_sum_abs n (abs_le.2 ⟨h1, h2⟩)) hδ
      _ = √(2 * n) * δ := mul_comm _ _
  · refine ⟨1, one_pos, fun _ => rfl, Real.one_le_sqrt.2 (by linarith), fun v w δ hd t h1 h2' => ?_⟩
    rw [one_mul]
    obtain rfl | rfl : n = 1 ∨ n = 2 := by omega
    · rw [linkPoly_one_eval, linkPoly_one_eval]
      exact hd 0 one_pos
    · rw [linkPoly_two_eval, linkPoly_two_eval]
      obtain ⟨a1, a2⟩ := abs_le.1 (hd 0 (by norm_num))
      obtain ⟨b1, b2⟩ := abs_le.1 (hd 1 (by norm_num))
      rw [abs_le]
      constructor <;> nlinarith

/-- Links at inputs in `[-1, 1]`. -/
theorem linkFn_stable {n : ℕ} {Λ : ℝ}
    (hΛ : ∀ (v w : ℕ → ℝ) (δ : ℝ), (∀ k < n, |v k - w k| ≤ δ) → ∀ t, -1 ≤ t → t ≤ 1 → |(linkPoly n v).eval t - (linkPoly n w).eval t| ≤ Λ * δ)
    {L L' : PwLayer ℝ} (h : L.WF) (hs : SameSizes L L') (hl : L.length = 2) (hp : L.periodicity = none) (hn : L.n = n) {o i : ℕ} {δ : ℝ}
    (hw : ∀ r < PwLayer.wSize L.cls L.n L.segments, |L'.w.get [o, i, r] - L.w.get [o, i, r]| ≤ δ) {t : ℝ} (h1 : -1 ≤ t) (h2 : t ≤ 1) :
    |L'.linkFn o i t - L.linkFn o i t| ≤ Λ * δ := by
  obtain ⟨s, hact⟩ := isActive_exists h.seg_pos t
  obtain ⟨-, -, b3, b4⟩ := isActive_bounds hact h1 h2
  have fst : L'.stride = L.stride := by unfold PwLayer.stride; rw [hs.cls, hs.n]
  have p2 := L'.linkFn_isPiecewise (by rw [hs.segments]; exact h.seg_pos) (hs.length.trans hl) (hs.periodicity.trans hp) o i
  rw [hs.n, hs.segments, fst] at p2
  rw [L.linkFn_isPiecewise h.seg_pos hl hp o i s t hact, p2 s t hact, hn]
  exact hΛ _ _ δ (fun k hk => hw _ (L.widx_lt h.n_pos hact.1 (by rw [hn]; exact hk))) _ b3 b4

/-- **C90.** There is a constant for every number `n` of nodes (1 for `n ≤ 2`) such that changing the weights of sum layers by at most `δ o i` changes the outputs at inputs in `[-1, 1]` by at most
the constant times the sum of `δ o i` over the inputs. The constant does not depend on the number of segments or features or on the weights. -/
theorem C90_sum_layers (n : ℕ) (hn : 0 < n) : ∃ Λ : ℝ, 0 < Λ ∧ (n ≤ 2 → Λ = 1) ∧ Λ ≤ √(2 * n) ∧ ∀ L L' : PwLayer ℝ, L.WF → L'.WF → SameSizes L L' → (L.cls = .continuous ∨ L.cls = .discontinuous) →
    L.length = 2 → L.periodicity = none → L.n = n → ∀ δ : ℕ → ℕ → ℝ,
    (∀ o < L.outFeatures, ∀ i < L.inFeatures, ∀ r < PwLayer.wSize L.cls L.n L.segments, |L'.w.get [o, i, r] - L.w.get [o, i, r]| ≤ δ o i) →
    ∀ (B : ℕ) (x : Tensor ℝ), x.shape = [B, L.inFeatures] → x.WF → InRange x B L.inFeatures →
      ∃ out out', L.forward x = .ok out ∧ L'.forward x = .ok out' ∧ ∀ b < B, ∀ o < L.outFeatures,
        |out'.get [b, o] - out.get [b, o]| ≤ Λ * ∑ i ∈ Finset.range L.inFeatures, δ o i := by
  obtain ⟨Λ, hΛ0, hΛ1, hΛ2, hΛ⟩ := link_stable n hn
  refine ⟨Λ, hΛ0, hΛ1, hΛ2, fun L L' h h' hs hc hl hp hLn δ hw B x hx hwf hr => ?_⟩
  refine ⟨_, _, L.forward_sum h hc hx hwf, L'.forward_sum h' (by rw [hs.cls]; exact hc) (by rw [hs.inF]; exact hx) hwf, fun b hb o ho => ?_⟩
  rw [Tensor.get_tab2 hb ho, Tensor.get_tab2 hb (by rw [hs.outF]; exact ho), hs.inF, ← Finset.sum_sub_distrib, Finset.mul_sum]
  refine (Finset.abs_sum_le_sum_abs _ _).trans (Finset.sum_le_sum fun i hi => ?_)
  have hi' := Finset.mem_range.1 hi
  exact linkFn_stable hΛ h hs hl hp hLn (hw o ho i hi') (hr b hb i hi').1 (hr b hb i hi').2

/-- **C90 (product layers).** For weights bounded by `W` the outputs of product layers change by at most a constant times the change of the weights; the constant depends on the number of nodes, of
inputs and on `W`, not on the number of segments. -/
theorem C90_product_layers (n I : ℕ) (hn : 0 < n) (W : ℝ) (hW : 0 ≤ W) : ∃ C : ℝ, 0 ≤ C ∧ ∀ L L' : PwLayer ℝ, L.WF → L'.WF → SameSizes L L' →
    (L.cls = .continuousProd ∨ L.cls = .discontinuousProd) → L.length = 2 → L.periodicity = none → L.n = n → L.inFeatures = I → ∀ δ : ℝ, 0 ≤ δ → δ ≤ 1 →
    (∀ o < L.outFeatures, ∀ i < I, ∀ r < PwLayer.wSize L.cls L.n L.segments, |L.w.get [o, i, r]| ≤ W ∧ |L'.w.get [o, i, r] - L.w.get [o, i, r]| ≤ δ) →
    ∀ (B : ℕ) (x : Tensor ℝ), x.shape = [B, I] → x.WF → InRange x B I →
      ∃ out out', L.forward x = .ok out ∧ L'.forward x = .ok out' ∧ ∀ b < B, ∀ o < L.outFeatures, |out'.get [b, o] - out.get [b, o]| ≤ C * δ := by
  obtain ⟨Λ, hΛ0, -, -, hΛ⟩ := link_stable n hn
  obtain ⟨E, hE, hprod⟩ := prod_close (List.range I) (B := 1 + Λ * W) (C := Λ) (by positivity) hΛ0.le
  refine ⟨E, hE, ?_⟩
  rintro L L' h h' hs hc hl hp hLn rfl δ hδ0 hδ1 hw B x hx hwf hr
  refine ⟨_, _, L.forward_prod h hc hx hwf, L'.forward_prod h' (by rw [hs.cls]; exact hc) (by rw [hs.inF]; exact hx) hwf, fun b hb o ho => ?_⟩
  rw [Tensor.get_tab2 hb ho, Tensor.get_tab2 hb (by rw [hs.outF]; exact ho), hs.inF]
  have key := hprod (fun i => 1 + L'.linkFn o i (x.get [b, i])) (fun i => 1 + L.linkFn o i (x.get [b, i])) δ hδ0 hδ1 fun i hi => by
    have hi' := List.mem_range.1 hi
    obtain ⟨r1, r2⟩ := hr b hb i hi'
    constructor
    · have hz : |L.linkFn o i (x.get [b, i])| ≤ Λ * W := by
        obtain ⟨s, hact⟩ := isActive_exists h.seg_pos (x.get [b, i])
        obtain ⟨-, -, b3, b4⟩ := isActive_bounds hact r1 r2
        have := hΛ (fun k => L.w.get [o, i, s * L.stride + k]) (fun _ => 0) W (fun k hk => by
          rw [sub_zero]
          exact (hw o ho i hi' _ (L.widx_lt h.n_pos hact.1 (by rw [hLn]; exact hk))).1) _ b3 b4
        have e0 : (linkPoly n fun _ => 0) = 0 := by
          have := linkPoly_eq_of_degree_lt (n := n) (P := 0) (by rw [degree_zero]; exact WithBot.bot_lt_coe _)
          simpa using this
        rw [e0, eval_zero, sub_zero] at this
        rw [L.linkFn_isPiecewise h.seg_pos hl hp o i s _ hact, hLn]
        exact this
      exact (abs_add_le _ _).trans (by rw [abs_one]; linarith)
    · have e : (1 + L'.linkFn o i (x.get [b, i])) - (1 + L.linkFn o i (x.get [b, i])) = L'.linkFn o i (x.get [b, i]) - L.linkFn o i (x.get [b, i]) := by ring
      rw [e]
      exact linkFn_stable hΛ h hs hl hp hLn (fun r hr' => (hw o ho i hi' r hr').2) r1 r2
  have eP : ∀ f : ℕ → ℝ, ((List.range L.inFeatures).map f).prod = ∏ i ∈ Finset.range L.inFeatures, f i := fun f => by
    rw [← List.prod_toFinset f List.nodup_range, List.toFinset_range]
  rw [eP, eP] at key
  have e : ∀ a b : ℝ, a - 1 - (b - 1) = a - b := fun a b => by ring
  rw [e]
  exact key

/-- **C90 (converse).** With one input feature, layers whose outputs differ by at most `ε` on `[-1, 1]` have weights that differ by at most `ε`. -/
theorem C90_weights_from_outputs (L L' : PwLayer ℝ) (h : L.WF) (h' : L'.WF) (hs : SameSizes L L') (hc : L.cls = .continuous ∨ L.cls = .discontinuous)
    (hl : L.length = 2) (hp : L.periodicity = none) (hI : L.inFeatures = 1) (ε : ℝ)
    (heq : ∀ t, -1 ≤ t → t ≤ 1 → ∃ out out', L.forward (Tensor.tab2 1 1 fun _ _ => t) = .ok out ∧ L'.forward (Tensor.tab2 1 1 fun _ _ => t) = .ok out' ∧
      ∀ o < L.outFeatures, |out'.get [0, o] - out.get [0, o]| ≤ ε) :
    ∀ o < L.outFeatures, ∀ r < PwLayer.wSize L.cls L.n L.segments, |L'.w.get [o, 0, r] - L.w.get [o, 0, r]| ≤ ε := by
  intro o ho r hr
  have hSr : (0 : ℝ) < L.segments := by exact_mod_cast h.seg_pos
  obtain ⟨s, hsS, k, hk, hrk⟩ := cover h.n_pos h.seg_pos hr
  have hlink : ∀ t, -1 ≤ t → t ≤ 1 → |L'.linkFn o 0 t - L.linkFn o 0 t| ≤ ε := by
    intro t h1 h2
    obtain ⟨out, out', e1, e2, hle⟩ := heq t h1 h2
    have hxw : (Tensor.tab2 1 1 fun _ _ => t).WF := Tensor.wf_tabulate _ _
    rw [L.forward_sum (B := 1) h hc (by rw [hI]; rfl) hxw] at e1
    rw [L'.forward_sum (B := 1) h' (by rw [hs.cls]; exact hc) (by rw [hs.inF, hI]; rfl) hxw] at e2
    cases e1
    cases e2
    have := hle o ho
    rw [Tensor.get_tab2 (by norm_num) ho, Tensor.get_tab2 (by norm_num) (by rw [hs.outF]; exact ho), hs.inF, hI] at this
    simpa [Finset.sum_range_one, Tensor.get_tab2 (show 0 < 1 by norm_num) (show 0 < 1 by norm_num)] using this
  have fst : L'.stride = L.stride := by unfold PwLayer.stride; rw [hs.cls, hs.n]
  have p1 := L.linkFn_isPiecewise h.seg_pos hl hp o 0
  have p2 := L'.linkFn_isPiecewise (by rw [hs.segments]; exact h.seg_pos) (hs.length.trans hl) (hs.periodicity.trans hp) o 0
  rw [hs.n, hs.segments, fst] at p2
  set P := linkPoly L.n fun k => L'.w.get [o, 0, s * L.stride + k] with hP
  set Q := linkPoly L.n fun k => L.w.get [o, 0, s * L.stride + k] with hQ
  have hcl : ∀ t ∈ Set.Icc (segLeft L.segments s) (segLeft L.segments (s + 1)), |P.eval (localCoord L.segments s t) - Q.eval (localCoord L.segments s t)| ≤ ε := by
    have hlt : segLeft L.segments s < segLeft L.segments (s + 1) := segLeft_strictMono h.seg_pos (by omega)
    have hcont : Continuous fun t => |P.eval (localCoord L.segments s t) - Q.eval (localCoord L.segments s t)| := by
      have hlc : Continuous fun t => localCoord L.segments s t := by unfold localCoord; fun_prop
      exact ((P.continuous.comp hlc).sub (Q.continuous.comp hlc)).abs
    have hsub : Set.Ioo (segLeft L.segments s) (segLeft L.segments (s + 1)) ⊆ {t | |P.eval (localCoord L.segments s t) - Q.eval (localCoord L.segments s t)| ≤ ε} := by
      rintro t ⟨h1, h2⟩
      have hact : IsActive L.segments s t := ⟨hsS, Or.inr h1.le, Or.inr h2⟩
      have lo := segLeft_mono (S := L.segments) (Nat.zero_le s)
      rw [segLeft_zero] at lo
      have up := segLeft_mono (S := L.segments) (show s + 1 ≤ L.segments by omega)
      rw [segLeft_last h.seg_pos] at up
      have := hlink t (by linarith) (by linarith)
      rw [p1 s t hact, p2 s t hact] at this
      exact this
    have hclosed : IsClosed {t | |P.eval (localCoord L.segments s t) - Q.eval (localCoord L.segments s t)| ≤ ε} := isClosed_le hcont continuous_const
    have := hclosed.closure_subset_iff.2 hsub
    rw [closure_Ioo hlt.ne] at this
    exact this
  have hnode := hcl (nodePos L.n L.segments s k) (nodePos_closed h.seg_pos s k)
  rw [localCoord_nodePos h.seg_pos, hP, hQ, linkPoly_eval_node hk, linkPoly_eval_node hk] at hnode
  rw [hrk]
  exact hnode

/-- Linear layer with `S` segments, one input and one output, and the given weights. -/
noncomputable def lineLayer (S : ℕ) (v : ℕ → ℝ) : PwLayer ℝ :=
  { cls := .continuous, n := 2, segments := S, inFeatures := 1, outFeatures := 1, length := 2, periodicity := none, w := Tensor.tab3 1 1 (S + 1) fun _ _ r => v r }

theorem lineLayer_wf {S : ℕ} (hS : 0 < S) (v : ℕ → ℝ) : (lineLayer S v).WF :=
  ⟨by simp [lineLayer], hS, by simp [lineLayer], by simp [lineLayer], by simp [lineLayer, PwLayer.wSize, PwClass.shared], Tensor.wf_tabulate _ _⟩

theorem lineLayer_same (S : ℕ) (v w : ℕ → ℝ) : SameSizes (lineLayer S v) (lineLayer S w) := ⟨rfl, rfl, rfl, rfl, rfl, rfl, rfl⟩

/-- **C90 (limit).** Outside `[-1, 1]` the constant grows with the number of segments: changing the last weight of a linear layer by `δ` changes the output at `t ≥ 1` by `δ (1 + S (t - 1) / 2)`. -/
theorem C90_extrapolation {S : ℕ} (hS : 0 < S) (v : ℕ → ℝ) (δ : ℝ) {t : ℝ} (ht : 1 ≤ t) :
    ∃ out out', (lineLayer S v).forward (Tensor.tab2 1 1 fun _ _ => t) = .ok out ∧
      (lineLayer S fun r => if r = S then v r + δ else v r).forward (Tensor.tab2 1 1 fun _ _ => t) = .ok out' ∧
      out'.get [0, 0] - out.get [0, 0] = δ * (1 + S * (t - 1) / 2) := by
  have hxw : (Tensor.tab2 1 1 fun _ _ => t).WF := Tensor.wf_tabulate _ _
  have hact : IsActive S (S - 1) t := by
    refine ⟨by omega, Or.inr ?_, Or.inl (by omega)⟩
    have := segLeft_mono (S := S) (show S - 1 ≤ S by omega)
    rw [segLeft_last hS] at this
    linarith
  have hloc : localCoord S (S - 1) t = 1 + S * (t - 1) := by
    unfold localCoord
    rw [Nat.cast_sub hS]
    push_cast
    ring
  have hlk : ∀ u : ℕ → ℝ, (lineLayer S u).linkFn 0 0 t = u (S - 1) + (u S - u (S - 1)) * ((1 + S * (t - 1) + 1) / 2) := fun u => by
    have e := (lineLayer S u).linkFn_isPiecewise hS rfl rfl 0 0 (S - 1) t hact
    change (lineLayer S u).linkFn 0 0 t = (linkPoly 2 fun k => (Tensor.tab3 1 1 (S + 1) fun _ _ r => u r).get [0, 0, (S - 1) * 1 + k]).eval (localCoord S (S - 1) t) at e
    rw [e, linkPoly_two_eval, hloc, Tensor.get_tab3 (by norm_num) (by norm_num) (by omega), Tensor.get_tab3 (by norm_num) (by norm_num) (by omega), Nat.mul_one, Nat.add_zero,
      Nat.sub_add_cancel hS]
  refine ⟨_, _, (lineLayer S v).forward_sum (B := 1) (lineLayer_wf hS v) (Or.inl rfl) rfl hxw, PwLayer.forward_sum _ (B := 1) (lineLayer_wf hS _) (Or.inl rfl) rfl hxw, ?_⟩
  rw [Tensor.get_tab2 (by norm_num) (by show 0 < 1; norm_num), Tensor.get_tab2 (by norm_num) (by show 0 < 1; norm_num)]
  have e1 : ∀ L : PwLayer ℝ, L.inFeatures = 1 → ∑ i ∈ Finset.range L.inFeatures, L.linkFn 0 i ((Tensor.tab2 1 1 fun _ _ => t).get [0, i]) = L.linkFn 0 0 t := fun L hL => by
    rw [hL, Finset.sum_range_one, Tensor.get_tab2 (by norm_num) (by norm_num)]
  rw [e1 _ rfl, e1 _ rfl, hlk, hlk, if_pos rfl, if_neg (by omega)]
  ring

/-- 1000 segments, weights off by at most a hundredth: the output is off by at most a hundredth. -/
example (v w : ℕ → ℝ) (h : ∀ r ≤ 1000, |w r - v r| ≤ 1 / 100) {t : ℝ} (h1 : -1 ≤ t) (h2 : t ≤ 1) :
    ∃ out out', (lineLayer 1000 v).forward (Tensor.tab2 1 1 fun _ _ => t) = .ok out ∧ (lineLayer 1000 w).forward (Tensor.tab2 1 1 fun _ _ => t) = .ok out' ∧
      |out'.get [0, 0] - out.get [0, 0]| ≤ 1 / 100 := by
  obtain ⟨Λ, -, hΛ, -, key⟩ := C90_sum_layers 2 (by norm_num)
  obtain ⟨out, out', e1, e2, hle⟩ := key (lineLayer 1000 v) (lineLayer 1000 w) (lineLayer_wf (by norm_num) v) (lineLayer_wf (by norm_num) w) (lineLayer_same _ _ _) (Or.inl rfl) rfl rfl rfl
    (fun _ _ => 1 / 100) (fun o ho i hi r hr => by
      have ho' : o < 1 := ho
      have hi' : i < 1 := hi
      have hr' : r < 1000 + 1 := by simpa [lineLayer, PwLayer.wSize, PwClass.shared] using hr
      show |(Tensor.tab3 1 1 (1000 + 1) fun _ _ r => w r).get [o, i, r] - (Tensor.tab3 1 1 (1000 + 1) fun _ _ r => v r).get [o, i, r]| ≤ 1 / 100
      rw [Tensor.get_tab3 ho' hi' hr', Tensor.get_tab3 ho' hi' hr']
      exact h r (by omega)) 1 (Tensor.tab2 1 1 fun _ _ => t) rfl (Tensor.wf_tabulate _ _) (fun b hb i hi => by
        have hi' : i < 1 := hi
        rw [Tensor.get_tab2 hb hi']; exact ⟨h1, h2⟩)
  refine ⟨out, out', e1, e2, ?_⟩
  have := hle 0 (by norm_num) 0 (by show 0 < 1; norm_num)
  rw [hΛ le_rfl, one_mul] at this
  exact this.trans (by show ∑ i ∈ Finset.range 1, _ ≤ _; simp)

/-- At 2 the change of one weight of 1000 segments by a hundredth changes the output by 5.01. -/
example : ∃ out out', (lineLayer 1000 fun _ => 0).forward (Tensor.tab2 1 1 fun _ _ => 2) = .ok out ∧
    (lineLayer 1000 fun r => if r = 1000 then 0 + 1 / 100 else 0).forward (Tensor.tab2 1 1 fun _ _ => 2) = .ok out' ∧ out'.get [0, 0] - out.get [0, 0] = 501 / 100 := by
  obtain ⟨out, out', e1, e2, e3⟩ := C90_extrapolation (S := 1000) (by norm_num) (fun _ => 0) (1 / 100) (t := 2) (by norm_num)
  refine ⟨out, out', e1, e2, ?_⟩
  rw [e3]
  norm_num

/-- Weights 0, 1, 4 and 0, 2, 4: the outputs are off by at least 1 somewhere, so not within a half. -/
example : ¬ ∀ t, -1 ≤ t → t ≤ 1 → ∃ out out', (lineLayer 2 fun r => r ^ 2).forward (Tensor.tab2 1 1 fun _ _ => t) = .ok out ∧
    (lineLayer 2 fun r => 2 * r).forward (Tensor.tab2 1 1 fun _ _ => t) = .ok out' ∧ ∀ o < 1, |out'.get [0, o] - out.get [0, o]| ≤ 1 / 2 := by
  intro h
  have := C90_weights_from_outputs (lineLayer 2 fun r => (r : ℝ) ^ 2) (lineLayer 2 fun r => 2 * (r : ℝ)) (lineLayer_wf (by norm_num) _) (lineLayer_wf (by norm_num) _) (lineLayer_same _ _ _)
    (Or.inl rfl) rfl rfl rfl (1 / 2) h 0 (by show 0 < 1; norm_num) 1 (by simp [lineLayer, PwLayer.wSize, PwClass.shared])
  change |(Tensor.tab3 1 1 (2 + 1) fun _ _ r => 2 * (r : ℝ)).get [0, 0, 1] - (Tensor.tab3 1 1 (2 + 1) fun _ _ r => (r : ℝ) ^ 2).get [0, 0, 1]| ≤ 1 / 2 at this
  rw [Tensor.get_tab3 (by norm_num) (by norm_num) (by norm_num), Tensor.get_tab3 (by norm_num) (by norm_num) (by norm_num)] at this
  norm_num at this

/-- The product layer on one input with weights in `[-3, 3]`. -/
example : ∃ C : ℝ, ∀ (S : ℕ), 0 < S → ∀ (v w : ℕ → ℝ) (δ : ℝ), 0 ≤ δ → δ ≤ 1 → (∀ r < S + 1, |v r| ≤ 3 ∧ |w r - v r| ≤ δ) → ∀ t : ℝ, -1 ≤ t → t ≤ 1 →
    ∃ out out', ({ lineLayer S v with cls := .continuousProd } : PwLayer ℝ).forward (Tensor.tab2 1 1 fun _ _ => t) = .ok out ∧
      ({ lineLayer S w with cls := .continuousProd } : PwLayer ℝ).forward (Tensor.tab2 1 1 fun _ _ => t) = .ok out' ∧ |out'.get [0, 0] - out.get [0, 0]| ≤ C * δ := by
  obtain ⟨C, -, key⟩ := C90_product_layers 2 1 (by norm_num) 3 (by norm_num)
  refine ⟨C, fun S hS v w δ h0 h1 h t ht1 ht2 => ?_⟩
  have wf : ∀ u, ({ lineLayer S u with cls := .continuousProd } : PwLayer ℝ).WF := fun u =>
    ⟨by simp [lineLayer], hS, by simp [lineLayer], by simp [lineLayer], by simp [lineLayer, PwLayer.wSize, PwClass.shared], Tensor.wf_tabulate _ _⟩
  obtain ⟨out, out', e1, e2, hle⟩ := key _ _ (wf v) (wf w) ⟨rfl, rfl, rfl, rfl, rfl, rfl, rfl⟩ (Or.inl rfl) rfl rfl rfl rfl δ h0 h1 (fun o ho i hi r hr => by
    have ho' : o < 1 := ho
    have hi' : i < 1 := hi
    have hr' : r < S + 1 := by simpa [lineLayer, PwLayer.wSize, PwClass.shared] using hr
    show |(Tensor.tab3 1 1 (S + 1) fun _ _ r => v r).get [o, i, r]| ≤ 3 ∧ |(Tensor.tab3 1 1 (S + 1) fun _ _ r => w r).get [o, i, r] - (Tensor.tab3 1 1 (S + 1) fun _ _ r => v r).get [o, i, r]| ≤ δ
    rw [Tensor.get_tab3 ho' hi' hr', Tensor.get_tab3 ho' hi' hr']
    exact h r hr') 1 (Tensor.tab2 1 1 fun _ _ => t) rfl (Tensor.wf_tabulate _ _) (fun b hb i hi => by rw [Tensor.get_tab2 hb hi]; exact ⟨ht1, ht2⟩)
  exact ⟨out, out', e1, e2, hle 0 (by norm_num) 0 (by show 0 < 1; norm_num)⟩

end HOL
