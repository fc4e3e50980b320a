import Verif.Props.NetworkContinuity
import Verif.Props.NetworkOptions
import Verif.Props.NetworkRefinement

/-! # Concrete networks for C26, C27, C31, C71 and C72 -/

namespace HOL
open TorchScalar Relation Spec

/-- Two inputs, two hidden layers of width three, one output; `n` nodes and `s` segments everywhere. -/
noncomputable def exNet (t : String) (n s : ℕ) : MLPArgs ℝ :=
  { layerType := t, layerTypeIn := none, n := .int n, nIn := none, nOut := none, nHidden := none
    inWidth := 2, outWidth := 1, hiddenLayers := 2, hiddenWidth := 3, inSegments := some (.int s), outSegments := some (.int s)
    hiddenSegments := some (.int s), periodicity := none, normalization := none, nonLinearity := none, resnet := false
    dropout := 0, dropoutFn := fun x => .ok x, scale := 1, rescaleOutput := false, initialization := "" }

theorem exNet_usable (t : String) {n s : ℕ} (hn : 0 < n) (hs : 0 < s) (cls : PwClass) :
    Usable (.leaf (.pw cls)) (exNet t n s).inputArgs ∧ Usable (.leaf (.pw cls)) (exNet t n s).hiddenArgs ∧
    Usable (.leaf (.pw cls)) (exNet t n s).outputArgs := by
  refine ⟨⟨n, s, rfl, rfl, hn, hs, ?_, ?_⟩, ⟨n, s, rfl, rfl, hn, hs, ?_, ?_⟩, ⟨n, s, rfl, rfl, hn, hs, ?_, ?_⟩⟩ <;> simp [exNet, MLPArgs.inputArgs,
    MLPArgs.hiddenArgs, MLPArgs.outputArgs]

theorem exNet_orders (t : String) {n s : ℕ} (hn : 0 < n) (hs : 0 < s) : (exNet t n s).HasOrders ⟨n, s, n, s, n, s⟩ :=
  ⟨rfl, rfl, rfl, rfl, rfl, rfl, ⟨hn, hn, hn, hs, hs, hs⟩, by simp [exNet]⟩

theorem exNet_pre (t : String) (n s : ℕ) : preFns (exNet t n s) noFwd = [] := by simp [preFns, exNet, ltB]

theorem ordered_nil : Heap.Ordered ([] : Heap ℝ) := by
  intro i m hm
  simp at hm

theorem later_refl (h : Heap ℝ) : h.Later h := fun _ m hm => ⟨m, hm, .refl m⟩

/-- C31 for a network of discontinuous layers with arbitrary random numbers. -/
example (rng r1 r2 : Rng ℝ) (hr1 : ∀ j o i, 0 ≤ r1 j o i ∧ r1 j o i < 1) (hr2 : ∀ j o i, 0 ≤ r2 j o i ∧ r2 j o i < 1) :
    ∃ net h h', mlpInit rng (exNet "discontinuous" 3 2) [] = .ok (net, h) ∧
      initializeNetwork net (1 : ℝ) (1 / 2) (fun k => 1 / (k : ℝ)) r1 r2 h = (.ok (), h') ∧ AffineMap (h'.forward net) 2 1 := by
  have hk : fcTable.lookup (exNet "discontinuous" 3 2).layerType = some (.leaf (.pw .discontinuous)) := by
    show List.lookup "discontinuous" _ = _; decide
  obtain ⟨uI, uH, uO⟩ := exNet_usable "discontinuous" (n := 3) (s := 2) (by norm_num) (by norm_num) .discontinuous
  have hnl : ∀ j ∈ (exNet "discontinuous" 3 2).nonLinearity, ([] : Heap ℝ)[j]? = some (.other (noFwd : Fwd ℝ)) := by
    intro j hj; simp [exNet] at hj
  have h2 : ∀ n, IntOrList.int 3 = .int n → 2 ≤ n := by intro n h; cases h; norm_num
  obtain ⟨g, D, -, -, -, -, e1, -, e2, -⟩ := mlpInit_net rng (c := exNet "discontinuous" 3 2) hk hk uI uH uO ordered_nil hnl
  obtain ⟨h', q1, q2⟩ := C31_network_affine rng hk hk (Or.inr rfl) (Or.inr rfl) uI uH uO h2 h2 h2 rfl (exNet_pre _ _ _) rfl (Or.inl rfl) ordered_nil e1
    (later_refl _) e2 1 (1 / 2) (by norm_num) (by norm_num) (fun k => 1 / (k : ℝ)) (fun k => by positivity) r1 r2 hr1 hr2
  exact ⟨_, _, h', e1, q1, q2⟩

/-- C71 for a network of discontinuous product layers with arbitrary weights. -/
example (rng : Rng ℝ) : ∃ net h h', mlpInit rng (exNet "discontinuous_prod" 4 5) [] = .ok (net, h) ∧
      smoothNetwork net 1 h = (.ok (), h') ∧ ComputesContinuous (h'.forward net) 2 1 := by
  have hk : fcTable.lookup (exNet "discontinuous_prod" 4 5).layerType = some (.leaf (.pw .discontinuousProd)) := by
    show List.lookup "discontinuous_prod" _ = _; decide
  obtain ⟨uI, uH, uO⟩ := exNet_usable "discontinuous_prod" (n := 4) (s := 5) (by norm_num) (by norm_num) .discontinuousProd
  have hnl : ∀ j ∈ (exNet "discontinuous_prod" 4 5).nonLinearity, ([] : Heap ℝ)[j]? = some (.other (noFwd : Fwd ℝ)) := by
    intro j hj; simp [exNet] at hj
  have h2 : ∀ n, IntOrList.int 4 = .int n → 2 ≤ n := by intro n h; cases h; norm_num
  obtain ⟨g, D, -, -, -, -, e1, -, e2, -⟩ := mlpInit_net rng (c := exNet "discontinuous_prod" 4 5) hk hk uI uH uO ordered_nil hnl
  obtain ⟨h', q1, q2⟩ := C71_factor_one_continuous rng hk hk uI uH uO h2 h2 h2 (by intro q hq; cases hq) (Or.inl rfl) ordered_nil hnl
    (by rw [exNet_pre]; simp) e1 (later_refl _) e2
  exact ⟨_, _, h', e1, q1, q2⟩

/-- C72 for a network of continuous layers with arbitrary weights. -/
example (rng : Rng ℝ) : ∃ net h, mlpInit rng (exNet "continuous" 4 5) [] = .ok (net, h) ∧ ComputesContinuous (h.forward net) 2 1 := by
  have hk : fcTable.lookup (exNet "continuous" 4 5).layerType = some (.leaf (.pw .continuous)) := by
    show List.lookup "continuous" _ = _; decide
  obtain ⟨uI, uH, uO⟩ := exNet_usable "continuous" (n := 4) (s := 5) (by norm_num) (by norm_num) .continuous
  have hnl : ∀ j ∈ (exNet "continuous" 4 5).nonLinearity, ([] : Heap ℝ)[j]? = some (.other (noFwd : Fwd ℝ)) := by
    intro j hj; simp [exNet] at hj
  obtain ⟨g, D, -, -, -, -, e1, -, e2, -⟩ := mlpInit_net rng (c := exNet "continuous" 4 5) hk hk uI uH uO ordered_nil hnl
  exact ⟨_, _, e1, C72_network_continuous rng hk hk uI uH uO (Or.inl rfl) (Or.inl rfl) (by intro q hq; cases hq) ordered_nil hnl
    (by rw [exNet_pre]; simp) e1 (later_refl _) e2⟩

/-- Two networks built one after the other. -/
theorem exTwo (t : String) {sw : Bool} {cls : PwClass} (hk : fcTable.lookup t = some (kindOf sw cls)) {n s n' s' : ℕ} (hn : 0 < n) (hs : 0 < s)
    (hn' : 0 < n') (hs' : 0 < s') (rng rng' : Rng ℝ) : ∃ a b h1 h, mlpInit rng (exNet t n s) [] = .ok (a, h1) ∧ mlpInit rng' (exNet t n' s') h1 = .ok (b, h) ∧
      TwoNetworks (exNet t n s) (exNet t n' s') a b h := by
  have hnl : ∀ (n s : ℕ) (h : Heap ℝ), ∀ j ∈ (exNet t n s).nonLinearity, h[j]? = some (.other (noFwd : Fwd ℝ)) := by
    intro n s h j hj; simp [exNet] at hj
  obtain ⟨D, e1, -, e2, -⟩ := mlpInit_pwNet (rng := rng) (c := exNet t n s) hk hk (exNet_orders t hn hs) (Or.inl rfl) ordered_nil (hnl n s _)
  obtain ⟨E, f1, -, f2, -⟩ := mlpInit_pwNet (rng := rng') (c := exNet t n' s') hk hk (exNet_orders t hn' hs') (Or.inl rfl) e2 (hnl n' s' _)
  refine ⟨_, _, _, _, e1, f1, ⟨rng, rng', _, _, _, _, ordered_nil, e2, f2, e1, f1, ⟨?_, ?_, ?_⟩, ⟨?_, ?_, ?_⟩, Or.inl ⟨later_refl _, later_refl _⟩⟩⟩
  · intro f hf; simp [exNet] at hf
  · intro f hf; simp [exNet] at hf
  · intro B x y hx hw hy; cases hy; exact ⟨hx, hw⟩
  · intro f hf; simp [exNet] at hf
  · intro f hf; simp [exNet] at hf
  · intro B x y hx hw hy; cases hy; exact ⟨hx, hw⟩

theorem exNet_same (t : String) (n s n' s' : ℕ) : (exNet t n s).SameArchitecture (exNet t n' s') :=
  ⟨rfl, rfl, rfl, rfl, rfl, rfl, rfl, rfl, rfl, rfl, rfl, rfl⟩

/-- C26: from quadratic to quartic switch networks, arbitrary weights. -/
example (rng rng' : Rng ℝ) : ∃ a b h1 h h', mlpInit rng (exNet "switch_discontinuous" 3 2) [] = .ok (a, h1) ∧
    mlpInit rng' (exNet "switch_discontinuous" 5 2) h1 = .ok (b, h) ∧ interpolateNetwork a b h = (.ok (), h') ∧
    ∀ (B : ℕ) (x : Tensor ℝ), x.shape = [B, 2] → x.WF → h'.forward b x = h.forward a x := by
  obtain ⟨a, b, h1, h, e1, e2, e3⟩ := exTwo "switch_discontinuous" (sw := true) (cls := .discontinuous) (by decide) (n := 3) (s := 2) (n' := 5) (s' := 2)
    (by norm_num) (by norm_num) (by norm_num) (by norm_num) rng rng'
  obtain ⟨h', f1, f2, -⟩ := C26_network_p_refinement e3 (exNet_same _ _ _ _ _) (Or.inr (Or.inr (Or.inr rfl))) (Or.inr (Or.inr (Or.inr rfl)))
    (Or.inl rfl) (exNet_orders _ (by norm_num) (by norm_num)) (exNet_orders _ (by norm_num) (by norm_num)) ⟨⟨by norm_num, rfl⟩, ⟨by norm_num, rfl⟩, ⟨by norm_num, rfl⟩⟩
  exact ⟨a, b, h1, h, h', e1, e2, f1, f2⟩

/-- C27: from two quadratic to six cubic segments, continuous product layers. -/
example (rng rng' : Rng ℝ) : ∃ a b h1 h h', mlpInit rng (exNet "continuous_prod" 3 2) [] = .ok (a, h1) ∧
    mlpInit rng' (exNet "continuous_prod" 4 6) h1 = .ok (b, h) ∧ refineNetwork a b h = (.ok (), h') ∧
    ∀ (B : ℕ) (x : Tensor ℝ), x.shape = [B, 2] → x.WF → h'.forward b x = h.forward a x := by
  obtain ⟨a, b, h1, h, e1, e2, e3⟩ := exTwo "continuous_prod" (sw := false) (cls := .continuousProd) (by decide) (n := 3) (s := 2) (n' := 4) (s' := 6)
    (by norm_num) (by norm_num) (by norm_num) (by norm_num) rng rng'
  obtain ⟨h', f1, f2, -⟩ := C27_network_hp_refinement e3 (exNet_same _ _ _ _ _) (Or.inr (Or.inl rfl)) (Or.inr (Or.inl rfl))
    (Or.inl rfl) (by intro p hp; cases hp) (exNet_orders _ (by norm_num) (by norm_num)) (exNet_orders _ (by norm_num) (by norm_num))
    ⟨⟨by norm_num, ⟨3, rfl⟩, by norm_num⟩, ⟨by norm_num, ⟨3, rfl⟩, by norm_num⟩, ⟨by norm_num, ⟨3, rfl⟩, by norm_num⟩⟩
  exact ⟨a, b, h1, h, h', e1, e2, f1, f2⟩

end HOL
