import Verif.Lemmas.RoundTrip
import Verif.Props.Refinement

/-! # C88: refining a layer loses nothing; going back restores its weights -/

namespace HOL
open TorchScalar Polynomial Spec

/-- **C88 (order).** Interpolate a layer to one of at least as many points per segment, then back to a layer of the original sizes: the weights are exactly the original ones, whatever the
weights of the two targets, their lengths and periodicities. -/
theorem C88_p_round_trip (L Lfine Lback : PwLayer ℝ) (h : L.WF) (hfine : Lfine.WF) (hback : Lback.WF)
    (hc : L.cls = .continuous ∨ L.cls = .discontinuous) (hcls : Lfine.cls = L.cls) (hseg : Lfine.segments = L.segments) (hI : Lfine.inFeatures = L.inFeatures)
    (hO : Lfine.outFeatures = L.outFeatures) (hn : L.n ≤ Lfine.n)
    (bcls : Lback.cls = L.cls) (bn : Lback.n = L.n) (bseg : Lback.segments = L.segments) (bI : Lback.inFeatures = L.inFeatures) (bO : Lback.outFeatures = L.outFeatures) :
    ∃ L', interpolateLayer L Lfine = (.ok (), L') ∧ interpolateLayer L' Lback = (.ok (), { Lback with w := L.w }) := by
  have hgood : L.cls.shared = true → 2 ≤ Lfine.n ∨ L.n = 1 := by
    intro _
    have := h.n_pos
    rcases Nat.lt_or_ge Lfine.n 2 with h | h
    · right; omega
    · exact Or.inl h
  obtain ⟨V, hV⟩ := interpolate_target L Lfine h.n_pos hfine.n_pos h.seg_pos hcls hgood
  obtain ⟨L', e, hf, hw⟩ := interpolateLayer_weights h hfine hc hcls hseg.symm hI hO V hV
  have hL' : L'.WF := hf.wf' hfine
  have fn : L'.n = Lfine.n := by rw [hf.eq]
  have fst : L'.stride = Lfine.stride := by rw [hf.eq]; rfl
  have fI : L'.inFeatures = L.inFeatures := by rw [hf.eq]; exact hI
  have fO : L'.outFeatures = L.outFeatures := by rw [hf.eq]; exact hO
  have fc : L'.cls = L.cls := by rw [hf.eq]; exact hcls
  have fs : L'.segments = L.segments := by rw [hf.eq]; exact hseg
  have bst : Lback.stride = L.stride := by unfold PwLayer.stride; rw [bcls, bn]
  refine ⟨L', e, ?_⟩
  obtain ⟨L'', e', hf', hw'⟩ := interpolateLayer_weights' hL' hback (by rw [fc]; exact hc) (bcls.trans fc.symm) (fs.trans bseg.symm) (bI.trans fI.symm) (bO.trans fO.symm)
    (fun o i r => L.w.get [o, i, r]) (fun o ho i hi s hs k hk => by
      rw [bO] at ho
      rw [bI] at hi
      rw [bseg] at hs
      rw [bn] at hk ⊢
      rw [fn, fst, bst]
      have e2 : (linkPoly Lfine.n fun q => L'.w.get [o, i, s * Lfine.stride + q])
          = linkPoly Lfine.n fun q => (linkPoly L.n fun q => L.w.get [o, i, s * L.stride + q]).eval (node Lfine.n q) := by
        apply linkPoly_congr
        intro q hq
        rw [hw o (hO ▸ ho) i (hI ▸ hi) _ (Lfine.widx_lt hfine.n_pos (by rw [hseg]; exact hs) hq), hV _ _ _ _ hq]
      rw [e2, linkPoly_eq_of_degree_lt (lt_of_lt_of_le (linkPoly_degree_lt _ _) (by exact_mod_cast hn)), linkPoly_eval_node hk])
  rw [e', hf'.eq_weights h hback bcls bn bseg bI bO hw']

/-- **C88 (segments).** Refine a continuous layer (sum or product) on `[-1, 1]` to a multiple of its segments and at least as many points, then back to a layer of the original sizes: the weights
are exactly the original ones. -/
theorem C88_h_round_trip (L Lfine Lback : PwLayer ℝ) (h : L.WF) (hfine : Lfine.WF) (hback : Lback.WF)
    (hc : L.cls = .continuous ∨ L.cls = .continuousProd) (hcls : Lfine.cls = L.cls) {m : ℕ} (hm : 0 < m) (hseg : Lfine.segments = m * L.segments)
    (hI : Lfine.inFeatures = L.inFeatures) (hO : Lfine.outFeatures = L.outFeatures) (hn : L.n ≤ Lfine.n)
    (bcls : Lback.cls = L.cls) (bn : Lback.n = L.n) (bseg : Lback.segments = L.segments) (bI : Lback.inFeatures = L.inFeatures) (bO : Lback.outFeatures = L.outFeatures)
    (hlen : L.length = 2) (flen : Lfine.length = 2) (blen : Lback.length = 2)
    (hp : ∀ p ∈ L.periodicity, 2 ≤ p) (fp : ∀ p ∈ Lfine.periodicity, 2 ≤ p) :
    ∃ L', L.refine Lfine = (.ok (), L') ∧ L'.refine Lback = (.ok (), { Lback with w := L.w }) := by
  have hsh : L.cls.shared = true := by rcases hc with h | h <;> rw [h] <;> rfl
  obtain ⟨L', e, hf, hlink⟩ := refine_links L Lfine h hfine hc hcls hm hseg hI hO hlen flen hp hn
  refine ⟨L', e, ?_⟩
  have hL' : L'.WF := hf.wf' hfine
  have fI : L'.inFeatures = L.inFeatures := by rw [hf.eq]; exact hI
  have fO : L'.outFeatures = L.outFeatures := by rw [hf.eq]; exact hO
  have fc : L'.cls.shared = true := by rw [hf.eq]; show Lfine.cls.shared = true; rw [hcls]; exact hsh
  have fper : ∀ p ∈ L'.periodicity, 2 ≤ p := by rw [hf.eq]; exact fp
  have bsh : Lback.cls.shared = true := by rw [bcls]; exact hsh
  have hst : L.noPeriod.stride = L.n - 1 := by
    show (if L.cls.shared then L.n - 1 else L.n) = _; rw [hsh]; rfl
  obtain ⟨L'', e', hf', hw'⟩ := refineLayer_values hL' hback fc bsh blen (bI.trans fI.symm) (bO.trans fO.symm)
    (fun o i r => L.w.get [o, i, r]) (fun o i s k ho hi hs hk => by
      obtain ⟨h1, h2⟩ := nodePos_mem (n := Lback.n) hs k
      rw [bO] at ho
      rw [bI] at hi
      rw [refineVal_eq hL' fc fper o i h1 h2, hlink o ho i hi, bn, bseg]
      rw [bseg] at hs
      rw [bn] at hk
      have h3 := L.noPeriod.linkFn_isPiecewise h.seg_pos hlen rfl o i
      rw [hst] at h3
      exact (isPiecewise_at_node' h.n_pos h3 hs hk).symm)
  unfold PwLayer.refine
  rw [if_pos fc, e', hf'.eq_weights h hback bcls bn bseg bI bO hw']

/-- **C88 (order in stages).** Raising the order in two stages gives the same layer as raising it at once. The last stage may also lower the order. -/
theorem C88_p_stages (L Lmid Lend : PwLayer ℝ) (h : L.WF) (hmid : Lmid.WF) (hend : Lend.WF)
    (hc : L.cls = .continuous ∨ L.cls = .discontinuous) (hcls : Lmid.cls = L.cls) (hseg : Lmid.segments = L.segments) (hI : Lmid.inFeatures = L.inFeatures)
    (hO : Lmid.outFeatures = L.outFeatures) (hn : L.n ≤ Lmid.n)
    (ecls : Lend.cls = L.cls) (eseg : Lend.segments = L.segments) (eI : Lend.inFeatures = L.inFeatures) (eO : Lend.outFeatures = L.outFeatures)
    (en : L.cls = .continuous → 2 ≤ Lend.n ∨ L.n = 1) :
    ∃ L' L'', interpolateLayer L Lmid = (.ok (), L') ∧ interpolateLayer L' Lend = (.ok (), L'') ∧ interpolateLayer L Lend = (.ok (), L'') := by
  have hgood : L.cls.shared = true → 2 ≤ Lmid.n ∨ L.n = 1 := by
    intro _
    have := h.n_pos
    rcases Nat.lt_or_ge Lmid.n 2 with h | h
    · right; omega
    · exact Or.inl h
  have egood : L.cls.shared = true → 2 ≤ Lend.n ∨ L.n = 1 := by
    intro hs
    rcases hc with hc | hc
    · exact en hc
    · rw [hc] at hs; cases hs
  obtain ⟨V, hV⟩ := interpolate_target L Lmid h.n_pos hmid.n_pos h.seg_pos hcls hgood
  obtain ⟨L', e, hf, hw⟩ := interpolateLayer_weights h hmid hc hcls hseg.symm hI hO V hV
  obtain ⟨U, hU⟩ := interpolate_target L Lend h.n_pos hend.n_pos h.seg_pos ecls egood
  obtain ⟨L2, e2, hf2, hw2⟩ := interpolateLayer_weights h hend hc ecls eseg.symm eI eO U hU
  have hL' : L'.WF := hf.wf' hmid
  have fn : L'.n = Lmid.n := by rw [hf.eq]
  have fst : L'.stride = Lmid.stride := by rw [hf.eq]; rfl
  have fI : L'.inFeatures = L.inFeatures := by rw [hf.eq]; exact hI
  have fO : L'.outFeatures = L.outFeatures := by rw [hf.eq]; exact hO
  have fc : L'.cls = L.cls := by rw [hf.eq]; exact hcls
  have fs : L'.segments = L.segments := by rw [hf.eq]; exact hseg
  obtain ⟨L3, e3, hf3, hw3⟩ := interpolateLayer_weights' hL' hend (by rw [fc]; exact hc) (ecls.trans fc.symm) (fs.trans eseg.symm) (eI.trans fI.symm) (eO.trans fO.symm)
    U (fun o ho i hi s hs k hk => by
      rw [eO] at ho
      rw [eI] at hi
      rw [eseg] at hs
      rw [hU o i s k hk, fn, fst]
      have e2 : (linkPoly Lmid.n fun q => L'.w.get [o, i, s * Lmid.stride + q])
          = linkPoly Lmid.n fun q => (linkPoly L.n fun q => L.w.get [o, i, s * L.stride + q]).eval (node Lmid.n q) := by
        apply linkPoly_congr
        intro q hq
        rw [hw o (hO ▸ ho) i (hI ▸ hi) _ (Lmid.widx_lt hmid.n_pos (by rw [hseg]; exact hs) hq), hV _ _ _ _ hq]
      rw [e2, linkPoly_eq_of_degree_lt (lt_of_lt_of_le (linkPoly_degree_lt _ _) (by exact_mod_cast hn))])
  refine ⟨L', L2, e, ?_, e2⟩
  rw [e3, hf3.unique hend hf2 fun o ho i hi r hr => (hw3 o ho i hi r hr).trans (hw2 o ho i hi r hr).symm]

/-- **C88 (segments in stages).** Refining a continuous layer to a multiple of its segments and from there to any target gives the same layer as refining to the target at once. -/
theorem C88_h_stages (L Lmid Lend : PwLayer ℝ) (h : L.WF) (hmid : Lmid.WF) (hend : Lend.WF)
    (hc : L.cls = .continuous ∨ L.cls = .continuousProd) (hcls : Lmid.cls = L.cls) {m : ℕ} (hm : 0 < m) (hseg : Lmid.segments = m * L.segments)
    (hI : Lmid.inFeatures = L.inFeatures) (hO : Lmid.outFeatures = L.outFeatures) (hn : L.n ≤ Lmid.n)
    (ecls : Lend.cls = L.cls) (eI : Lend.inFeatures = L.inFeatures) (eO : Lend.outFeatures = L.outFeatures) (en : 2 ≤ Lend.n ∨ L.n = 1)
    (hlen : L.length = 2) (mlen : Lmid.length = 2) (elen : Lend.length = 2)
    (hp : ∀ p ∈ L.periodicity, 2 ≤ p) (mp : ∀ p ∈ Lmid.periodicity, 2 ≤ p) :
    ∃ L' L'', L.refine Lmid = (.ok (), L') ∧ L'.refine Lend = (.ok (), L'') ∧ L.refine Lend = (.ok (), L'') := by
  have hsh : L.cls.shared = true := by rcases hc with h | h <;> rw [h] <;> rfl
  have esh : Lend.cls.shared = true := by rw [ecls]; exact hsh
  obtain ⟨L', e, hf, hlink⟩ := refine_links L Lmid h hmid hc hcls hm hseg hI hO hlen mlen hp hn
  have hL' : L'.WF := hf.wf' hmid
  have fI : L'.inFeatures = L.inFeatures := by rw [hf.eq]; exact hI
  have fO : L'.outFeatures = L.outFeatures := by rw [hf.eq]; exact hO
  have fc : L'.cls.shared = true := by rw [hf.eq]; show Lmid.cls.shared = true; rw [hcls]; exact hsh
  have fper : ∀ p ∈ L'.periodicity, 2 ≤ p := by rw [hf.eq]; exact mp
  obtain ⟨U, hU⟩ := refine_target L Lend hend.n_pos hsh en
  obtain ⟨L2, e2, hf2, hw2⟩ := refineLayer_weights h hend hsh esh elen hp eI eO U (fun o i s k _ hk => hU o i s k hk)
  obtain ⟨L3, e3, hf3, hw3⟩ := refineLayer_values hL' hend fc esh elen (eI.trans fI.symm) (eO.trans fO.symm)
    U (fun o i s k ho hi hs hk => by
      obtain ⟨h1, h2⟩ := nodePos_mem (n := Lend.n) hs k
      rw [eO] at ho
      rw [eI] at hi
      rw [hU o i s k hk, refineVal_eq hL' fc fper o i h1 h2, hlink o ho i hi])
  refine ⟨L', L2, e, ?_, ?_⟩
  · unfold PwLayer.refine
    rw [if_pos fc, e3, hf3.unique hend hf2 fun o ho i hi r hr => (hw3 o ho i hi r hr).trans (hw2 o ho i hi r hr).symm]
  · unfold PwLayer.refine
    rw [if_pos hsh]
    exact e2

/-- The layer of `C88_coarsening_loses`: one quadratic segment with values 0, 1, 0. -/
def bump : PwLayer ℝ :=
  { cls := .continuous, n := 3, segments := 1, inFeatures := 1, outFeatures := 1, length := 2, periodicity := none, w := ⟨[1, 1, 3], [0, 1, 0]⟩ }

theorem bump_wf : bump.WF := ⟨by simp [bump], by simp [bump], by simp [bump], by simp [bump], rfl, rfl⟩

/-- **C88 (limit).** The other order loses information: the quadratic with values 0, 1, 0 interpolated to a linear layer and back has only zero weights. -/
theorem C88_coarsening_loses :
    ∃ L' L'', interpolateLayer bump (PwLayer.init .continuous 2 1 1 1 2 (fun _ _ => 0) 1 none) = (.ok (), L') ∧ interpolateLayer L' bump = (.ok (), L'') ∧
      bump.w.get [0, 0, 1] = 1 ∧ ∀ r < 3, L''.w.get [0, 0, r] = 0 := by
  have hc : bump.cls = .continuous ∨ bump.cls = .discontinuous := Or.inl rfl
  have hwf2 : (PwLayer.init .continuous 2 1 1 1 2 (fun _ _ => 0) 1 none : PwLayer ℝ).WF :=
    PwLayer.init_wf _ (by norm_num) (by norm_num) (by norm_num) (by norm_num) _ _ _ _
  have n0 : node 2 0 = node 3 0 := by rw [node_zero le_rfl, node_zero (by norm_num)]
  have n1 : node 2 1 = node 3 2 := (node_last (n := 2) le_rfl).trans (node_last (n := 3) (by norm_num)).symm
  obtain ⟨L', e, hf, hw⟩ := interpolateLayer_weights' bump_wf hwf2 hc rfl rfl rfl rfl (fun _ _ _ => 0) (fun o ho i hi s hs k hk => by
    have hs' : s < 1 := hs
    have hk' : k < 2 := hk
    have ho' : o < 1 := ho
    have hi' : i < 1 := hi
    obtain rfl : s = 0 := by omega
    obtain rfl : o = 0 := by omega
    obtain rfl : i = 0 := by omega
    show 0 = (linkPoly 3 fun q => bump.w.get [0, 0, 0 * bump.stride + q]).eval (node 2 k)
    obtain rfl | rfl : k = 0 ∨ k = 1 := by omega
    · rw [n0, linkPoly_eval_node (by norm_num)]; simp [bump, Tensor.get, ravel, numel]
    · rw [n1, linkPoly_eval_node (by norm_num)]; simp [bump, Tensor.get, ravel, numel])
  have hL' : L'.WF := hf.wf' hwf2
  have hcl : L'.cls = .continuous := by rw [hf.eq]; rfl
  have hw0 : ∀ r < 2, L'.w.get [0, 0, r] = 0 := fun r hr => hw 0 (by show 0 < 1; omega) 0 (by show 0 < 1; omega) r hr
  obtain ⟨L'', e', hf', hw'⟩ := interpolateLayer_weights' hL' bump_wf (Or.inl hcl) hcl.symm (by rw [hf.eq]; rfl) (by rw [hf.eq]; rfl) (by rw [hf.eq]; rfl) (fun _ _ _ => 0)
    (fun o ho i hi s hs k hk => by
      have hs' : s < 1 := hs
      have ho' : o < 1 := ho
      have hi' : i < 1 := hi
      obtain rfl : s = 0 := by omega
      obtain rfl : o = 0 := by omega
      obtain rfl : i = 0 := by omega
      have hn : L'.n = 2 := by rw [hf.eq]; rfl
      rw [hn, Nat.zero_mul]
      have e : (linkPoly 2 fun q => L'.w.get [0, 0, 0 + q]) = linkPoly 2 fun q => (0 : ℝ[X]).eval (node 2 q) := by
        apply linkPoly_congr
        intro q hq
        rw [Nat.zero_add, hw0 q hq, eval_zero]
      rw [e, linkPoly_eq_of_degree_lt (by rw [degree_zero]; exact WithBot.bot_lt_coe _), eval_zero])
  exact ⟨L', L'', e, e', by simp [bump, Tensor.get, ravel, numel], fun r hr => hw' 0 (by show 0 < 1; omega) 0 (by show 0 < 1; omega) r hr⟩

/-- Quadratic on four segments to degree five and back. -/
example : ∃ L', interpolateLayer exC (PwLayer.init .continuous 6 2 1 4 2 (fun _ _ => 0) 1 none) = (.ok (), L') ∧
    interpolateLayer L' (PwLayer.init .continuous 3 2 1 4 2 (fun _ _ => 7) 1 none)
      = (.ok (), { PwLayer.init .continuous 3 2 1 4 2 (fun _ _ => 7) 1 none with w := exC.w }) :=
  C88_p_round_trip exC _ _ exC_wf (PwLayer.init_wf _ (by norm_num) (by norm_num) (by norm_num) (by norm_num) _ _ _ _)
    (PwLayer.init_wf _ (by norm_num) (by norm_num) (by norm_num) (by norm_num) _ _ _ _) (Or.inl rfl) rfl rfl rfl rfl (by show 3 ≤ 6; norm_num) rfl rfl rfl rfl rfl

/-- From 4 to 12 segments and back. -/
example : ∃ L', exC.refine (PwLayer.init .continuous 4 2 1 12 2 (fun _ _ => 0) 1 none) = (.ok (), L') ∧
    L'.refine (PwLayer.init .continuous 3 2 1 4 2 (fun _ _ => 7) 1 none) = (.ok (), { PwLayer.init .continuous 3 2 1 4 2 (fun _ _ => 7) 1 none with w := exC.w }) :=
  C88_h_round_trip exC _ _ exC_wf (PwLayer.init_wf _ (by norm_num) (by norm_num) (by norm_num) (by norm_num) _ _ _ _)
    (PwLayer.init_wf _ (by norm_num) (by norm_num) (by norm_num) (by norm_num) _ _ _ _) (Or.inl rfl) rfl (m := 3) (by norm_num) rfl rfl rfl (by show 3 ≤ 4; norm_num)
    rfl rfl rfl rfl rfl rfl rfl rfl (by intro p hp; simp [exC, PwLayer.init] at hp) (by intro p hp; simp [PwLayer.init] at hp)

/-- From 4 segments over 8 to 24. -/
example : ∃ L' L'', exC.refine (PwLayer.init .continuous 3 2 1 8 2 (fun _ _ => 0) 1 none) = (.ok (), L') ∧
    L'.refine (PwLayer.init .continuous 5 2 1 24 2 (fun _ _ => 0) 1 none) = (.ok (), L'') ∧ exC.refine (PwLayer.init .continuous 5 2 1 24 2 (fun _ _ => 0) 1 none) = (.ok (), L'') :=
  C88_h_stages exC _ _ exC_wf (PwLayer.init_wf _ (by norm_num) (by norm_num) (by norm_num) (by norm_num) _ _ _ _)
    (PwLayer.init_wf _ (by norm_num) (by norm_num) (by norm_num) (by norm_num) _ _ _ _) (Or.inl rfl) rfl (m := 2) (by norm_num) rfl rfl rfl (by show 3 ≤ 3; norm_num)
    rfl rfl rfl (Or.inl (by show 2 ≤ 5; norm_num)) rfl rfl rfl (by intro p hp; simp [exC, PwLayer.init] at hp) (by intro p hp; simp [PwLayer.init] at hp)

/-- From quadratic over cubic to degree five. -/
example : ∃ L' L'', interpolateLayer exC (PwLayer.init .continuous 4 2 1 4 2 (fun _ _ => 0) 1 none) = (.ok (), L') ∧
    interpolateLayer L' (PwLayer.init .continuous 6 2 1 4 2 (fun _ _ => 0) 1 none) = (.ok (), L'') ∧
    interpolateLayer exC (PwLayer.init .continuous 6 2 1 4 2 (fun _ _ => 0) 1 none) = (.ok (), L'') :=
  C88_p_stages exC _ _ exC_wf (PwLayer.init_wf _ (by norm_num) (by norm_num) (by norm_num) (by norm_num) _ _ _ _)
    (PwLayer.init_wf _ (by norm_num) (by norm_num) (by norm_num) (by norm_num) _ _ _ _) (Or.inl rfl) rfl rfl rfl rfl (by show 3 ≤ 4; norm_num)
    rfl rfl rfl rfl (fun _ => Or.inl (by show 2 ≤ 6; norm_num))

end HOL
