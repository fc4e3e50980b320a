import Verif.Lemmas.RefineReal
import Verif.Props.Forward

/-! # C20 - C25: p and h refinement of layers -/

namespace HOL
open TorchScalar Polynomial Spec

/-- **C20.** `layer_in.interpolate(layer_out)` with the same segments and `n_in ≤ n_out` succeeds and afterwards
`layer_out` computes the function of `layer_in`, for continuous and discontinuous layers, any length
and periodicity. Only the weights of `layer_out` change. -/
theorem C20_p_refinement_exact (Lin Lout : PwLayer ℝ) (hin : Lin.WF) (hout : Lout.WF)
    (hc : Lin.cls = .continuous ∨ Lin.cls = .discontinuous) (hcls : Lout.cls = Lin.cls)
    (hseg : Lout.segments = Lin.segments) (hI : Lout.inFeatures = Lin.inFeatures)
    (hO : Lout.outFeatures = Lin.outFeatures) (hlen : Lout.length = Lin.length)
    (hper : Lout.periodicity = Lin.periodicity) (hn : Lin.n ≤ Lout.n) :
    ∃ L', interpolateLayer Lin Lout = (.ok (), L') ∧
      (∃ w, w.shape = Lout.w.shape ∧ L' = { Lout with w := w }) ∧
      ∀ (B : ℕ) (x : Tensor ℝ), x.shape = [B, Lin.inFeatures] → x.WF → L'.forward x = Lin.forward x := by
  have hgood : Lin.cls.shared = true → 2 ≤ Lout.n ∨ Lin.n = 1 := by
    intro _
    have := hin.n_pos
    rcases Nat.lt_or_ge Lout.n 2 with h | h
    · right; omega
    · exact Or.inl h
  obtain ⟨V, hV⟩ := interpolate_target Lin Lout hin.n_pos hout.n_pos hin.seg_pos hcls hgood
  obtain ⟨L', e, hf, hw⟩ := interpolateLayer_weights hin hout hc hcls hseg.symm hI hO V hV
  refine ⟨L', e, ⟨L'.w, hf.shape, hf.eq⟩, ?_⟩
  intro B x hx hwf
  have hL' : L'.WF := hf.wf' hout
  have fn : L'.n = Lout.n := by rw [hf.eq]
  have fst : L'.stride = Lout.stride := by rw [hf.eq]; rfl
  have fI : L'.inFeatures = Lin.inFeatures := by rw [hf.eq]; exact hI
  have fO : L'.outFeatures = Lin.outFeatures := by rw [hf.eq]; exact hO
  have fc : L'.cls = Lin.cls := by rw [hf.eq]; exact hcls
  have fs : L'.segments = Lin.segments := by rw [hf.eq]; exact hseg
  refine forward_eq_of_links hin hL' fc fI fO hx hwf ?_
  intro o ho b _ i hi
  set v := x.get [b, i]
  obtain ⟨s1, s2⟩ := PwLayer.seg_congr (L := Lin) (L' := L') fs
    (by rw [hf.eq]; exact hlen) (by rw [hf.eq]; exact hper) v
  unfold PwLayer.linkFn
  rw [s1, s2, fn, fst]
  congr 1
  have e2 : (linkPoly Lout.n fun k => L'.w.get [o, i, Lin.seg v * Lout.stride + k])
      = linkPoly Lout.n fun k => (linkPoly Lin.n fun q =>
          Lin.w.get [o, i, Lin.seg v * Lin.stride + q]).eval (node Lout.n k) := by
    apply linkPoly_congr
    intro k hk
    rw [hw o (hO ▸ ho) i (hI ▸ hi) _ (Lout.widx_lt hout.n_pos
      (by rw [hseg]; exact Lin.seg_lt hin.seg_pos v) hk), hV _ _ _ _ hk]
  rw [e2]
  apply linkPoly_eq_of_degree_lt
  exact lt_of_lt_of_le (linkPoly_degree_lt _ _) (by exact_mod_cast hn)

/-- Quadratic to degree five on four segments. -/
example : ∃ L', interpolateLayer exC (PwLayer.init .continuous 6 2 1 4 2 (fun _ _ => 0) 1 none) = (.ok (), L') ∧
    ∀ (B : ℕ) (x : Tensor ℝ), x.shape = [B, 2] → x.WF → L'.forward x = exC.forward x := by
  obtain ⟨L', h1, _, h3⟩ := C20_p_refinement_exact exC
    (PwLayer.init .continuous 6 2 1 4 2 (fun _ _ => 0) 1 none) exC_wf
    (PwLayer.init_wf _ (by norm_num) (by norm_num) (by norm_num) (by norm_num) _ _ _ _)
    (Or.inl rfl) rfl rfl rfl rfl rfl rfl (by show 3 ≤ 6; norm_num)
  exact ⟨L', h1, h3⟩

/-- **C20 (product classes).** For the product classes `interpolate` raises `UnboundLocalError` instead and
leaves the target as it was. -/
theorem C20_product_classes_raise {K : Type} [TorchScalar K] (Lin Lout : PwLayer K) (hin : Lin.WF)
    (hX : ∃ X, columnX Lin.poly.basis = .ok X) (hX' : ∃ X, columnX Lout.poly.basis = .ok X)
    (hc : Lin.cls = .continuousProd ∨ Lin.cls = .discontinuousProd)
    (hseg : Lout.segments = Lin.segments) :
    interpolateLayer Lin Lout = (.error .unboundLocalError, Lout) := by
  obtain ⟨X, hX⟩ := hX
  obtain ⟨X', hX'⟩ := hX'
  unfold interpolateLayer
  rw [if_neg (by rw [hseg]; simp), hX, hX', nAttr_poly, nAttr_poly]
  have d0 : dim Lin.w 0 = Lin.outFeatures := by unfold dim; rw [hin.w_shape]; rfl
  have d1 : dim Lin.w 1 = Lin.inFeatures := by unfold dim; rw [hin.w_shape]; rfl
  simp only
  rw [d0, d1]
  have hstep : ∀ a b i, interpolateStep Lin X' Lin.n Lout.n a b i Lout = (.error .unboundLocalError, Lout) := by
    intro a b i
    unfold interpolateStep interpolateOffsets
    rcases hc with h | h <;> rw [h] <;> rfl
  have hloop : ∀ (N : ℕ) (body : ℕ → PwLayer K → Eff (PwLayer K)), 0 < N →
      (∀ t, body t Lout = (.error .unboundLocalError, Lout)) →
      forLoop N body Lout = (.error .unboundLocalError, Lout) := by
    intro N body hN hb
    induction N with
    | zero => omega
    | succ N ih =>
      rcases Nat.eq_zero_or_pos N with h | h
      · subst h; simp only [forLoop]; exact hb 0
      · rw [forLoop, ih h]
  apply hloop _ _ hin.out_pos
  intro a
  apply hloop _ _ hin.in_pos
  intro b
  apply hloop _ _ hin.seg_pos
  intro i
  exact hstep a b i

/-- All entries of the batch are node positions of the layer. -/
def AtNodes (L : PwLayer ℝ) (B : ℕ) (x : Tensor ℝ) : Prop :=
  ∀ b < B, ∀ i < L.inFeatures, ∃ s < L.segments, ∃ k < L.n,
    x.get [b, i] = L.xGlobal ((chebyshevLobatto L.n : Tensor ℝ).get [k]) (s : ℕ)

theorem atNodes_pos {L : PwLayer ℝ} (hl : L.length = 2) {s k : ℕ} (hk : k < L.n) :
    L.xGlobal ((chebyshevLobatto L.n : Tensor ℝ).get [k]) (s : ℕ) = nodePos L.n L.segments s k := by
  rw [L.xGlobal_real hl, chebyshev_get hk]; rfl

/-- **C21.** For any `n_out` (at least 2 for continuous layers) the interpolated layer agrees with `layer_in`
at every node of `layer_out`. -/
theorem C21_p_coarsening_nodal (Lin Lout : PwLayer ℝ) (hin : Lin.WF) (hout : Lout.WF)
    (hc : (Lin.cls = .continuous ∧ 2 ≤ Lout.n) ∨ Lin.cls = .discontinuous) (hcls : Lout.cls = Lin.cls)
    (hseg : Lout.segments = Lin.segments) (hI : Lout.inFeatures = Lin.inFeatures)
    (hO : Lout.outFeatures = Lin.outFeatures) (hlen : Lin.length = 2) (hlen' : Lout.length = 2)
    (hper : Lin.periodicity = none) (hper' : Lout.periodicity = none) :
    ∃ L', interpolateLayer Lin Lout = (.ok (), L') ∧
      ∀ (B : ℕ) (x : Tensor ℝ), x.shape = [B, Lin.inFeatures] → x.WF → AtNodes Lout B x →
        L'.forward x = Lin.forward x := by
  have hc' : Lin.cls = .continuous ∨ Lin.cls = .discontinuous := by
    rcases hc with h | h
    · exact Or.inl h.1
    · exact Or.inr h
  have hgood : Lin.cls.shared = true → 2 ≤ Lout.n ∨ Lin.n = 1 := by
    intro h
    rcases hc with h1 | h1
    · exact Or.inl h1.2
    · rw [h1] at h; simp [PwClass.shared] at h
  obtain ⟨V, hV⟩ := interpolate_target Lin Lout hin.n_pos hout.n_pos hin.seg_pos hcls hgood
  obtain ⟨L', e, hf, hw⟩ := interpolateLayer_weights hin hout hc' hcls hseg.symm hI hO V hV
  refine ⟨L', e, ?_⟩
  intro B x hx hwf hnodes
  have hL' : L'.WF := hf.wf' hout
  have fn : L'.n = Lout.n := by rw [hf.eq]
  have fst : L'.stride = Lout.stride := by rw [hf.eq]; rfl
  have fI : L'.inFeatures = Lin.inFeatures := by rw [hf.eq]; exact hI
  have fO : L'.outFeatures = Lin.outFeatures := by rw [hf.eq]; exact hO
  have fc : L'.cls = Lin.cls := by rw [hf.eq]; exact hcls
  have fs : L'.segments = Lin.segments := by rw [hf.eq]; exact hseg
  have fl : L'.length = 2 := by rw [hf.eq]; exact hlen'
  have fp : L'.periodicity = none := by rw [hf.eq]; exact hper'
  refine forward_eq_of_links hin hL' fc fI fO hx hwf ?_
  intro o ho b hb i hi
  obtain ⟨s, hs, k, hk, hxe⟩ := hnodes b hb i (hI ▸ hi)
  rw [hxe, atNodes_pos hlen' hk]
  obtain ⟨t, k', hk', ht, hloc⟩ := nodePos_active hout.n_pos hs hk
  have ht' : IsActive L'.segments t (nodePos Lout.n Lout.segments s k) := by rw [fs, ← hseg]; exact ht
  have ht'' : IsActive Lin.segments t (nodePos Lout.n Lout.segments s k) := by rw [← hseg]; exact ht
  have h1 := L'.linkFn_isPiecewise hL'.seg_pos fl fp o i t _ ht'
  have h2 := Lin.linkFn_isPiecewise hin.seg_pos hlen hper o i t _ ht''
  rw [fs, fst, fn, ← hseg, hloc] at h1
  rw [← hseg, hloc] at h2
  rw [h1, h2, linkPoly_eval_node hk', ← hV _ _ _ _ hk']
  exact hw o (hO ▸ ho) i (hI ▸ hi) _ (Lout.widx_lt hout.n_pos ht.1 hk')

/-- From quadratic down to linear on the same segments. -/
example : ∃ L', interpolateLayer exC (PwLayer.init .continuous 2 2 1 4 2 (fun _ _ => 0) 1 none) = (.ok (), L') := by
  obtain ⟨L', h1, _⟩ := C21_p_coarsening_nodal exC
    (PwLayer.init .continuous 2 2 1 4 2 (fun _ _ => 0) 1 none) exC_wf
    (PwLayer.init_wf _ (by norm_num) (by norm_num) (by norm_num) (by norm_num) _ _ _ _)
    (Or.inl ⟨rfl, by show 2 ≤ 2; norm_num⟩) rfl rfl rfl rfl rfl rfl rfl rfl
  exact ⟨L', h1⟩

/-- **C22.** Different numbers of segments: `ValueError`, and the target is left as it was. -/
theorem C22_segment_mismatch {K : Type} [TorchScalar K] (Lin Lout : PwLayer K)
    (h : Lin.segments ≠ Lout.segments) : interpolateLayer Lin Lout = (.error .valueError, Lout) := by
  unfold interpolateLayer
  rw [if_pos h]

example : interpolateLayer exC (PwLayer.init .continuous 3 2 1 5 2 (fun _ _ => 0) 1 none)
    = (.error .valueError, PwLayer.init .continuous 3 2 1 5 2 (fun _ _ => 0) 1 none) :=
  C22_segment_mismatch _ _ (by simp [exC, PwLayer.init])

/-- **C23.** `layer_in.refine(layer_out)` for continuous layers (sum or product) with
`segments_out = m * segments_in` and `n_in ≤ n_out` succeeds and `layer_out` then computes the function of `layer_in`.
A common periodicity is allowed if it is at least the width 2 of the domain. -/
theorem C23_h_refinement_exact (Lin Lout : PwLayer ℝ) (hin : Lin.WF) (hout : Lout.WF)
    (hc : Lin.cls = .continuous ∨ Lin.cls = .continuousProd) (hcls : Lout.cls = Lin.cls)
    {m : ℕ} (hm : 0 < m) (hseg : Lout.segments = m * Lin.segments)
    (hI : Lout.inFeatures = Lin.inFeatures) (hO : Lout.outFeatures = Lin.outFeatures)
    (hlen : Lin.length = 2) (hlen' : Lout.length = 2)
    (hper : Lout.periodicity = Lin.periodicity) (hp : ∀ p ∈ Lin.periodicity, 2 ≤ p)
    (hn : Lin.n ≤ Lout.n) :
    ∃ L', Lin.refine Lout = (.ok (), L') ∧
      (∃ w, w.shape = Lout.w.shape ∧ L' = { Lout with w := w }) ∧
      ∀ (B : ℕ) (x : Tensor ℝ), x.shape = [B, Lin.inFeatures] → x.WF → L'.forward x = Lin.forward x := by
  have hsh : Lin.cls.shared = true := by rcases hc with h | h <;> rw [h] <;> rfl
  have hsh' : Lout.cls.shared = true := by rw [hcls]; exact hsh
  have hgood : 2 ≤ Lout.n ∨ Lin.n = 1 := by
    have := hin.n_pos
    rcases Nat.lt_or_ge Lout.n 2 with h | h
    · right; omega
    · exact Or.inl h
  obtain ⟨V, hV⟩ := refine_target Lin Lout hout.n_pos hsh hgood
  obtain ⟨L', e, hf, hw⟩ := refineLayer_weights hin hout hsh hsh' hlen' hp hI hO V
    (fun o i s k _ hk => hV o i s k hk)
  refine ⟨L', by unfold PwLayer.refine; rw [if_pos hsh]; exact e, ⟨L'.w, hf.shape, hf.eq⟩, ?_⟩
  intro B x hx hwf
  have hL' : L'.WF := hf.wf' hout
  have fn : L'.n = Lout.n := by rw [hf.eq]
  have fI : L'.inFeatures = Lin.inFeatures := by rw [hf.eq]; exact hI
  have fO : L'.outFeatures = Lin.outFeatures := by rw [hf.eq]; exact hO
  have fc : L'.cls = Lin.cls := by rw [hf.eq]; exact hcls
  have fs : L'.segments = m * Lin.segments := by rw [hf.eq]; exact hseg
  have fl : L'.length = 2 := by rw [hf.eq]; exact hlen'
  have fp : L'.periodicity = Lin.periodicity := by rw [hf.eq]; exact hper
  have hst : Lin.noPeriod.stride = Lin.n - 1 := by
    show (if Lin.cls.shared then Lin.n - 1 else Lin.n) = _; rw [hsh]; rfl
  have hst' : L'.noPeriod.stride = L'.n - 1 := by
    show (if L'.cls.shared then L'.n - 1 else L'.n) = _; rw [fc, hsh]; rfl
  refine forward_eq_of_links hin hL' fc fI fO hx hwf ?_
  intro o ho b _ i hi
  rw [L'.linkFn_periodic, Lin.linkFn_periodic, fp]
  have h1 := Lin.noPeriod.linkFn_isPiecewise hin.seg_pos hlen rfl o i
  have h2 := L'.noPeriod.linkFn_isPiecewise hL'.seg_pos fl rfl o i
  rw [hst] at h1
  rw [hst'] at h2
  change IsPiecewisePoly Lin.n Lin.segments (Lin.n - 1) _ _ at h1
  change IsPiecewisePoly L'.n L'.segments (L'.n - 1) (fun q => L'.w.get [o, i, q]) _ at h2
  rw [fn, fs] at h2
  have := refined_eq hin.n_pos hn hin.seg_pos hm h1 h2 (by
    intro s k hs hk
    have hr := Lout.widx_lt hout.n_pos (s := s) (k := k) (by rw [hseg]; exact hs) hk
    have hst2 : Lout.stride = Lout.n - 1 := by unfold PwLayer.stride; rw [hsh']; rfl
    rw [hst2] at hr
    rw [hw o (hO ▸ ho) i (hI ▸ hi) _ hr, hV _ _ _ _ hk, hseg])
  rw [this]

/-- From 4 to 12 segments and from quadratic to cubic. -/
example : ∃ L', exC.refine (PwLayer.init .continuous 4 2 1 12 2 (fun _ _ => 0) 1 none) = (.ok (), L') ∧
    ∀ (B : ℕ) (x : Tensor ℝ), x.shape = [B, 2] → x.WF → L'.forward x = exC.forward x := by
  obtain ⟨L', h1, _, h3⟩ := C23_h_refinement_exact exC
    (PwLayer.init .continuous 4 2 1 12 2 (fun _ _ => 0) 1 none) exC_wf
    (PwLayer.init_wf _ (by norm_num) (by norm_num) (by norm_num) (by norm_num) _ _ _ _)
    (Or.inl rfl) rfl (m := 3) (by norm_num) rfl rfl rfl rfl rfl rfl
    (by intro p hp; simp [exC, PwLayer.init] at hp) (by show 3 ≤ 4; norm_num)
  exact ⟨L', h1, h3⟩

/-- **C24.** For arbitrary numbers of segments and orders (`n_out ≥ 2`) the refined layer agrees with `layer_in` at
every node of `layer_out`. -/
theorem C24_h_refinement_nodal (Lin Lout : PwLayer ℝ) (hin : Lin.WF) (hout : Lout.WF)
    (hc : Lin.cls = .continuous ∨ Lin.cls = .continuousProd) (hcls : Lout.cls = Lin.cls)
    (hI : Lout.inFeatures = Lin.inFeatures) (hO : Lout.outFeatures = Lin.outFeatures)
    (hlen' : Lout.length = 2)
    (hper : Lin.periodicity = none) (hper' : Lout.periodicity = none) (hn : 2 ≤ Lout.n) :
    ∃ L', Lin.refine Lout = (.ok (), L') ∧
      ∀ (B : ℕ) (x : Tensor ℝ), x.shape = [B, Lin.inFeatures] → x.WF → AtNodes Lout B x →
        L'.forward x = Lin.forward x := by
  have hsh : Lin.cls.shared = true := by rcases hc with h | h <;> rw [h] <;> rfl
  have hsh' : Lout.cls.shared = true := by rw [hcls]; exact hsh
  obtain ⟨V, hV⟩ := refine_target Lin Lout hout.n_pos hsh (Or.inl hn)
  obtain ⟨L', e, hf, hw⟩ := refineLayer_weights hin hout hsh hsh' hlen'
    (by intro p hp; rw [hper] at hp; cases hp) hI hO V (fun o i s k _ hk => hV o i s k hk)
  refine ⟨L', by unfold PwLayer.refine; rw [if_pos hsh]; exact e, ?_⟩
  intro B x hx hwf hnodes
  have hL' : L'.WF := hf.wf' hout
  have fn : L'.n = Lout.n := by rw [hf.eq]
  have fI : L'.inFeatures = Lin.inFeatures := by rw [hf.eq]; exact hI
  have fO : L'.outFeatures = Lin.outFeatures := by rw [hf.eq]; exact hO
  have fc : L'.cls = Lin.cls := by rw [hf.eq]; exact hcls
  have fs : L'.segments = Lout.segments := by rw [hf.eq]
  have fl : L'.length = 2 := by rw [hf.eq]; exact hlen'
  have fp : L'.periodicity = none := by rw [hf.eq]; exact hper'
  refine forward_eq_of_links hin hL' fc fI fO hx hwf ?_
  intro o ho b hb i hi
  obtain ⟨s, hs, k, hk, hxe⟩ := hnodes b hb i (hI ▸ hi)
  rw [hxe, atNodes_pos hlen' hk]
  have h2 := L'.linkFn_isPiecewise hL'.seg_pos fl fp o i
  have hst' : L'.stride = L'.n - 1 := by
    show (if L'.cls.shared then L'.n - 1 else L'.n) = _; rw [fc, hsh]; rfl
  rw [hst', fn, fs] at h2
  have h3 := isPiecewise_at_node hn h2 hs hk
  have hr := Lout.widx_lt hout.n_pos hs hk
  have hst2 : Lout.stride = Lout.n - 1 := by unfold PwLayer.stride; rw [hsh']; rfl
  rw [hst2] at hr
  refine h3.trans ?_
  rw [hw o (hO ▸ ho) i (hI ▸ hi) _ hr, hV _ _ _ _ hk]
  rw [Lin.linkFn_periodic, hper]
  rfl

/-- From 4 to 7 segments. -/
example : ∃ L', exC.refine (PwLayer.init .continuous 3 2 1 7 2 (fun _ _ => 0) 1 none) = (.ok (), L') := by
  obtain ⟨L', h1, _⟩ := C24_h_refinement_nodal exC
    (PwLayer.init .continuous 3 2 1 7 2 (fun _ _ => 0) 1 none) exC_wf
    (PwLayer.init_wf _ (by norm_num) (by norm_num) (by norm_num) (by norm_num) _ _ _ _)
    (Or.inl rfl) rfl rfl rfl rfl rfl rfl (by show 2 ≤ 3; norm_num)
  exact ⟨L', h1⟩

/-- **C25.** `refine` on a discontinuous layer raises `ValueError` and leaves the target as it was. -/
theorem C25_discontinuous_refine_refuses (Lin Lout : PwLayer ℝ) (hin : Lin.WF)
    (hc : Lin.cls = .discontinuous ∨ Lin.cls = .discontinuousProd) (hS : 0 < Lout.segments) :
    Lin.refine Lout = (.error .valueError, Lout) := by
  obtain ⟨X, hX, -⟩ := columnX_poly Lin
  obtain ⟨X', hX', -⟩ := columnX_poly Lout
  have hsh : Lin.cls.shared = false := by rcases hc with h | h <;> rw [h] <;> rfl
  unfold PwLayer.refine refineDiscontinuousLayer
  rw [hsh, hX, hX', nAttr_poly, nAttr_poly]
  simp only [Bool.false_eq_true, if_false]
  have d0 : dim Lin.w 0 = Lin.outFeatures := by unfold dim; rw [hin.w_shape]; rfl
  have d1 : dim Lin.w 1 = Lin.inFeatures := by unfold dim; rw [hin.w_shape]; rfl
  rw [d0, d1]
  have hloop : ∀ (N : ℕ) (body : ℕ → PwLayer ℝ → Eff (PwLayer ℝ)), 0 < N →
      (∀ t, body t Lout = (.error .valueError, Lout)) →
      forLoop N body Lout = (.error .valueError, Lout) := by
    intro N body hN hb
    induction N with
    | zero => omega
    | succ N ih =>
      rcases Nat.eq_zero_or_pos N with h | h
      · subst h; simp only [forLoop]; exact hb 0
      · rw [forLoop, ih h]
  exact hloop _ _ hin.out_pos fun a => hloop _ _ hin.in_pos fun b => hloop _ _ hS fun i => rfl

example : exD.refine exD = (.error .valueError, exD) :=
  C25_discontinuous_refine_refuses exD exD exD_wf (Or.inl rfl) exD_wf.seg_pos

end HOL
