import Verif.Lemmas.RefineReal

/-! # Lemmas: refining and going back -/

namespace HOL
open TorchScalar Polynomial Spec

/-- `interpolateLayer_weights` with the values required only where a node is. -/
theorem interpolateLayer_weights' {Lin Lout : PwLayer ℝ} (hin : Lin.WF) (hout : Lout.WF)
    (hc : Lin.cls = .continuous ∨ Lin.cls = .discontinuous) (hcls : Lout.cls = Lin.cls)
    (hseg : Lin.segments = Lout.segments) (hI : Lout.inFeatures = Lin.inFeatures)
    (hO : Lout.outFeatures = Lin.outFeatures) (V : ℕ → ℕ → ℕ → ℝ)
    (hV : ∀ o < Lout.outFeatures, ∀ i < Lout.inFeatures, ∀ s < Lout.segments, ∀ k < Lout.n, V o i (s * Lout.stride + k)
      = (linkPoly Lin.n fun q => Lin.w.get [o, i, s * Lin.stride + q]).eval (node Lout.n k)) :
    ∃ L', interpolateLayer Lin Lout = (.ok (), L') ∧ Frame Lout L' ∧
      ∀ o < Lout.outFeatures, ∀ i < Lout.inFeatures,
        ∀ r < PwLayer.wSize Lout.cls Lout.n Lout.segments, L'.w.get [o, i, r] = V o i r := by
  obtain ⟨X, hXs, hXg, e⟩ := interpolateLayer_loops hin hseg hI hO
  rw [e]
  apply fill_loops hout
  intro a ha b hb j hj
  exact interpolateStep_writes hin hout hc hcls hseg hI hO hXs hXg V ha hb hj (fun k hk => hV a ha b hb j hj k hk)

/-- A layer whose weights are those of `L`, in the frame of a layer of the same sizes, has the weight tensor of `L`. -/
theorem Frame.eq_weights {L L0 L' : PwLayer ℝ} (h : L.WF) (h0 : L0.WF) (hf : Frame L0 L') (hcls : L0.cls = L.cls) (hn : L0.n = L.n) (hS : L0.segments = L.segments)
    (hI : L0.inFeatures = L.inFeatures) (hO : L0.outFeatures = L.outFeatures)
    (hw : ∀ o < L0.outFeatures, ∀ i < L0.inFeatures, ∀ r < PwLayer.wSize L0.cls L0.n L0.segments, L'.w.get [o, i, r] = L.w.get [o, i, r]) :
    L' = { L0 with w := L.w } := by
  have e : L'.w = L.w := by
    have hs : L'.w.shape = L.w.shape := by rw [hf.shape, h0.w_shape, h.w_shape, hcls, hn, hS, hI, hO]
    apply Tensor.ext_get hf.wf h.w_wf hs
    intro idx hidx
    rw [hf.shape, h0.w_shape] at hidx
    match idx, hidx with
    | [o, i, r], hidx =>
      obtain ⟨ho, hi, hr⟩ := inShape3.1 hidx
      exact hw o ho i hi r hr
  rw [hf.eq, e]

/-- Two layers in the same frame with the same weights are equal. -/
theorem Frame.unique {L0 L1 L2 : PwLayer ℝ} (h0 : L0.WF) (h1 : Frame L0 L1) (h2 : Frame L0 L2)
    (hw : ∀ o < L0.outFeatures, ∀ i < L0.inFeatures, ∀ r < PwLayer.wSize L0.cls L0.n L0.segments, L1.w.get [o, i, r] = L2.w.get [o, i, r]) : L1 = L2 := by
  have h := h1.eq_weights (h2.wf' h0) h0 (by rw [h2.eq]) (by rw [h2.eq]) (by rw [h2.eq]) (by rw [h2.eq]) (by rw [h2.eq]) hw
  rw [h]
  exact h2.eq.symm

/-- A continuous piecewise polynomial at a node, for any `n`. -/
theorem isPiecewise_at_node' {n S : ℕ} (hn : 0 < n) {v : ℕ → ℝ} {f : ℝ → ℝ}
    (hf : IsPiecewisePoly n S (n - 1) v f) {s k : ℕ} (hs : s < S) (hk : k < n) :
    f (nodePos n S s k) = v (s * (n - 1) + k) := by
  rcases Nat.lt_or_ge n 2 with h | h
  · obtain rfl : n = 1 := by omega
    obtain rfl : k = 0 := by omega
    obtain ⟨t, k', -, hact, -⟩ := nodePos_active (n := 1) (k := 0) one_pos hs one_pos
    rw [hf t _ hact, linkPoly_one_eval]
    simp
  · exact isPiecewise_at_node h hf hs hk

/-- `refine` to a multiple of the segments keeps every link. -/
theorem refine_links (Lin Lout : PwLayer ℝ) (hin : Lin.WF) (hout : Lout.WF)
    (hc : Lin.cls = .continuous ∨ Lin.cls = .continuousProd) (hcls : Lout.cls = Lin.cls)
    {m : ℕ} (hm : 0 < m) (hseg : Lout.segments = m * Lin.segments)
    (hI : Lout.inFeatures = Lin.inFeatures) (hO : Lout.outFeatures = Lin.outFeatures)
    (hlen : Lin.length = 2) (hlen' : Lout.length = 2) (hp : ∀ p ∈ Lin.periodicity, 2 ≤ p) (hn : Lin.n ≤ Lout.n) :
    ∃ L', Lin.refine Lout = (.ok (), L') ∧ Frame Lout L' ∧
      ∀ o < Lin.outFeatures, ∀ i < Lin.inFeatures, L'.noPeriod.linkFn o i = Lin.noPeriod.linkFn o i := by
  have hsh : Lin.cls.shared = true := by rcases hc with h | h <;> rw [h] <;> rfl
  have hsh' : Lout.cls.shared = true := by rw [hcls]; exact hsh
  have hgood : 2 ≤ Lout.n ∨ Lin.n = 1 := by
    have := hin.n_pos
    rcases Nat.lt_or_ge Lout.n 2 with h | h
    · right; omega
    · exact Or.inl h
  obtain ⟨V, hV⟩ := refine_target Lin Lout hout.n_pos hsh hgood
  obtain ⟨L', e, hf, hw⟩ := refineLayer_weights hin hout hsh hsh' hlen' hp hI hO V
    (fun o i s k _ hk => hV o i s k hk)
  refine ⟨L', by unfold PwLayer.refine; rw [if_pos hsh]; exact e, hf, fun o ho i hi => ?_⟩
  have hL' : L'.WF := hf.wf' hout
  have fn : L'.n = Lout.n := by rw [hf.eq]
  have fc : L'.cls = Lin.cls := by rw [hf.eq]; exact hcls
  have fs : L'.segments = m * Lin.segments := by rw [hf.eq]; exact hseg
  have fl : L'.length = 2 := by rw [hf.eq]; exact hlen'
  have hst : Lin.noPeriod.stride = Lin.n - 1 := by
    show (if Lin.cls.shared then Lin.n - 1 else Lin.n) = _; rw [hsh]; rfl
  have hst' : L'.noPeriod.stride = L'.n - 1 := by
    show (if L'.cls.shared then L'.n - 1 else L'.n) = _; rw [fc, hsh]; rfl
  have h1 := Lin.noPeriod.linkFn_isPiecewise hin.seg_pos hlen rfl o i
  have h2 := L'.noPeriod.linkFn_isPiecewise hL'.seg_pos fl rfl o i
  rw [hst] at h1
  rw [hst'] at h2
  change IsPiecewisePoly Lin.n Lin.segments (Lin.n - 1) _ _ at h1
  change IsPiecewisePoly L'.n L'.segments (L'.n - 1) (fun q => L'.w.get [o, i, q]) _ at h2
  rw [fn, fs] at h2
  exact refined_eq hin.n_pos hn hin.seg_pos hm h1 h2 (by
    intro s k hs hk
    have hr := Lout.widx_lt hout.n_pos (s := s) (k := k) (by rw [hseg]; exact hs) hk
    have hst2 : Lout.stride = Lout.n - 1 := by unfold PwLayer.stride; rw [hsh']; rfl
    rw [hst2] at hr
    rw [hw o (hO ▸ ho) i (hI ▸ hi) _ hr, hV _ _ _ _ hk, hseg])

end HOL
