import Verif.Props.Refinement

/-!
# Where refinement does not do what one expects

Concrete witnesses for the hypotheses of C21 and C23 that the properties do not mention.
-/

namespace HOL
open TorchScalar Polynomial Spec

/-- One link, weights given by a list. -/
noncomputable def oneLink (cls : PwClass) (n S : ℕ) (p : Option ℝ) (v : ℕ → ℝ) : PwLayer ℝ :=
  { cls := cls, n := n, segments := S, inFeatures := 1, outFeatures := 1, length := 2, periodicity := p
    w := Tensor.tab3 1 1 (PwLayer.wSize cls n S) fun _ _ r => v r }

theorem oneLink_wf {cls : PwClass} {n S : ℕ} (hn : 0 < n) (hS : 0 < S) (p : Option ℝ) (v : ℕ → ℝ) :
    (oneLink cls n S p v).WF :=
  ⟨hn, hS, by show 0 < 1; norm_num, by show 0 < 1; norm_num, rfl, Tensor.wf_tabulate _ _⟩

theorem oneLink_get {cls : PwClass} {n S : ℕ} (p : Option ℝ) (v : ℕ → ℝ) {r : ℕ}
    (hr : r < PwLayer.wSize cls n S) : (oneLink cls n S p v).w.get [0, 0, r] = v r :=
  Tensor.get_tab3 (by omega) (by omega) hr

/-- The line through two weights. -/
theorem linkPoly_two (v : ℕ → ℝ) (t : ℝ) :
    (linkPoly 2 v).eval t = v 0 * (1 - t) / 2 + v 1 * (1 + t) / 2 := by
  have h0 : node 2 0 = -1 := node_zero (le_refl 2)
  have h1 : node 2 1 = 1 := node_last (le_refl 2)
  have hp : linkPoly 2 v = C ((v 1 - v 0) / 2) * X + C ((v 0 + v 1) / 2) := by
    rw [← linkPoly_eq_of_degree_lt (n := 2) (P := C ((v 1 - v 0) / 2) * X + C ((v 0 + v 1) / 2))]
    · apply linkPoly_congr
      intro k hk
      have : k = 0 ∨ k = 1 := by omega
      rcases this with rfl | rfl
      · simp only [eval_add, eval_mul, eval_C, eval_X, h0]; ring
      · simp only [eval_add, eval_mul, eval_C, eval_X, h1]; ring
    · exact lt_of_le_of_lt degree_linear_le (by norm_num)
  rw [hp]
  simp only [eval_add, eval_mul, eval_C, eval_X]
  ring

/-- A single input. -/
noncomputable def single (v : ℝ) : Tensor ℝ := Tensor.tab2 1 1 fun _ _ => v

theorem single_get (v : ℝ) : (single v).get [0, 0] = v := Tensor.get_tab2 (by omega) (by omega)

/-- The output of a layer with one link at a single input. -/
theorem forward_single {L : PwLayer ℝ} (h : L.WF) (hc : L.cls = .continuous) (hI : L.inFeatures = 1)
    (hO : L.outFeatures = 1) (v : ℝ) :
    ∃ out, L.forward (single v) = .ok out ∧ out.get [0, 0] = L.linkFn 0 0 v := by
  refine ⟨_, L.forward_sum h (Or.inl hc) (B := 1) (x := single v) (by rw [hI]; rfl) (Tensor.wf_tabulate _ _), ?_⟩
  refine (Tensor.get_tab2 (by omega) (by omega)).trans ?_
  rw [hI, Finset.sum_range_one, single_get]

/-- **C21 (counterexample for `n_out = 1`).** Coarsening a continuous layer to one node per segment does not sample
the function at the nodes: the segments share their only weight and the last segment wins. Here the
layer with weights 0, 0, 1 on two segments computes 0 at the first node of the target, the coarsened layer 1/2. -/
theorem C21_fails_for_one_node :
    ∃ Lin Lout L' : PwLayer ℝ, Lin.WF ∧ Lout.WF ∧ Lin.cls = .continuous ∧ Lout.cls = .continuous ∧
      Lout.segments = Lin.segments ∧ Lin.length = 2 ∧ Lout.length = 2 ∧ Lin.periodicity = none ∧
      Lout.periodicity = none ∧ Lout.n = 1 ∧ interpolateLayer Lin Lout = (.ok (), L') ∧
      AtNodes Lout 1 (single (-1 / 2)) ∧ L'.forward (single (-1 / 2)) ≠ Lin.forward (single (-1 / 2)) := by
  let Lin := oneLink .continuous 2 2 none fun r => if r = 2 then 1 else 0
  let Lout := oneLink .continuous 1 2 none fun _ => 0
  have hin : Lin.WF := oneLink_wf (by norm_num) (by norm_num) _ _
  have hout : Lout.WF := oneLink_wf (by norm_num) (by norm_num) _ _
  obtain ⟨X, hXs, hXg, e⟩ := interpolateLayer_loops (Lin := Lin) (Lout := Lout) hin rfl rfl rfl
  have hn1 : node 1 0 = 0 := by simp [node]
  have step := fun (V : ℕ → ℕ → ℕ → ℝ) (j : ℕ) (hj : j < 2) => interpolateStep_writes (Lin := Lin) (Lout := Lout)
    hin hout (Or.inl rfl) rfl rfl rfl rfl hXs hXg V (a := 0) (b := 0) (j := j) (by show 0 < 1; omega)
    (by show 0 < 1; omega) hj
  obtain ⟨L1, e1, f1, -⟩ := step (fun _ _ _ => (linkPoly 2 fun q => Lin.w.get [0, 0, 0 * 1 + q]).eval (node 1 0)) 0
    (by omega) (by
      intro k hk
      have : k = 0 := by change k < 1 at hk; omega
      subst this; rfl) Lout (Frame.refl hout.w_wf)
  obtain ⟨L2, e2, f2, v2⟩ := step (fun _ _ _ => (linkPoly 2 fun q => Lin.w.get [0, 0, 1 * 1 + q]).eval (node 1 0)) 1
    (by omega) (by
      intro k hk
      have : k = 0 := by change k < 1 at hk; omega
      subst this; rfl) L1 f1
  have hw2 : L2.w.get [0, 0, 0] = 1 / 2 := by
    refine ((v2 0 0 0 (by rw [hout.w_shape]; exact inShape3.2 ⟨by show 0 < 1; omega, by show 0 < 1; omega,
      by show 0 < 1; omega⟩)).1 ⟨rfl, rfl, 0, by show 0 < 1; omega, rfl⟩).trans ?_
    rw [linkPoly_two, hn1]
    have g1 : Lin.w.get [0, 0, 1 * 1 + 0] = 0 := by
      refine (oneLink_get _ _ (by show 1 < 3; omega)).trans ?_
      simp
    have g2 : Lin.w.get [0, 0, 1 * 1 + 1] = 1 := by
      refine (oneLink_get _ _ (by show 2 < 3; omega)).trans ?_
      simp
    rw [g1, g2]; norm_num
  refine ⟨Lin, Lout, L2, hin, hout, rfl, rfl, rfl, rfl, rfl, rfl, rfl, rfl, ?_, ?_, ?_⟩
  · rw [e]
    show forLoop 1 (fun a => forLoop 1 fun b => forLoop 2 fun i => interpolateStep Lin X Lin.n Lout.n a b i) Lout = _
    simp only [forLoop]
    rw [e1]
    exact e2
  · intro b hb i hi
    have hi0 : i = 0 := by change i < 1 at hi; omega
    have hb0 : b = 0 := by omega
    subst hi0; subst hb0
    refine ⟨0, by show 0 < 2; omega, 0, by show 0 < 1; omega, ?_⟩
    rw [single_get, atNodes_pos rfl (by show 0 < 1; omega)]
    show (-1 / 2 : ℝ) = nodePos 1 2 0 0
    unfold nodePos segLeft
    rw [hn1]; norm_num
  · have h2wf : L2.WF := f2.wf' hout
    obtain ⟨o1, h1, h1'⟩ := forward_single h2wf (by rw [f2.eq]; rfl) (by rw [f2.eq]; rfl) (by rw [f2.eq]; rfl) (-1 / 2)
    obtain ⟨o2, h2, h2'⟩ := forward_single hin rfl rfl rfl (-1 / 2)
    rw [h1, h2]
    intro heq
    have : o1 = o2 := by injection heq
    rw [this, h2'] at h1'
    have hact : IsActive 2 0 (-1 / 2 : ℝ) := ⟨by omega, Or.inl rfl, Or.inr (by unfold segLeft; norm_num)⟩
    have p1 := L2.linkFn_isPiecewise h2wf.seg_pos (by rw [f2.eq]; rfl) (by rw [f2.eq]; rfl) 0 0
    have s1 : L2.segments = 2 := by rw [f2.eq]; rfl
    have s2 : L2.n = 1 := by rw [f2.eq]; rfl
    rw [s1, s2] at p1
    have q1 := p1 0 _ hact
    rw [linkPoly_one_eval] at q1
    simp only [Nat.zero_mul, Nat.add_zero] at q1
    rw [hw2] at q1
    have p2 := Lin.linkFn_isPiecewise hin.seg_pos rfl rfl 0 0 0 (-1 / 2) hact
    have g1 : Lin.w.get [0, 0, 0] = 0 := by
      refine (oneLink_get _ _ (by show 0 < 3; omega)).trans ?_
      simp
    have g2 : Lin.w.get [0, 0, 1] = 0 := by
      refine (oneLink_get _ _ (by show 1 < 3; omega)).trans ?_
      simp
    have q2 : Lin.linkFn 0 0 (-1 / 2) = 0 := by
      rw [p2]
      show (linkPoly 2 _).eval _ = 0
      rw [linkPoly_two]
      simp only [Nat.zero_mul, Nat.zero_add]
      rw [g1, g2]; ring
    rw [q1, q2] at h1'
    norm_num at h1'

/-- **C23 (counterexample for small periodicity).** With a common periodicity below the width 2 of the domain refinement
changes the function: `which_segment` wraps the node positions, the local coordinate does not. Here
periodicity 1, three segments before and after, weights 0, 0, 0, 1: the target computes 0 at 1/2, the source 1/4. -/
theorem C23_fails_for_small_periodicity :
    ∃ Lin Lout L' : PwLayer ℝ, Lin.WF ∧ Lout.WF ∧ Lin.cls = .continuous ∧ Lout.cls = .continuous ∧
      Lout.segments = 1 * Lin.segments ∧ Lin.length = 2 ∧ Lout.length = 2 ∧ Lin.periodicity = some 1 ∧
      Lout.periodicity = some 1 ∧ Lin.n = Lout.n ∧ Lin.refine Lout = (.ok (), L') ∧
      L'.forward (single (1 / 2)) ≠ Lin.forward (single (1 / 2)) := by
  let Lin := oneLink .continuous 2 3 (some 1) fun r => if r = 3 then 1 else 0
  let Lout := oneLink .continuous 2 3 (some 1) fun _ => 0
  have hin : Lin.WF := oneLink_wf (by norm_num) (by norm_num) _ _
  have hout : Lout.WF := oneLink_wf (by norm_num) (by norm_num) _ _
  have hn0 : node 2 0 = -1 := node_zero (le_refl 2)
  have hn1 : node 2 1 = 1 := node_last (le_refl 2)
  have hg : ∀ r < 3, Lin.w.get [0, 0, r] = 0 := by
    intro r hr
    refine (oneLink_get _ _ (by show r < 4; omega)).trans ?_
    rw [if_neg (by omega)]
  have hg3 : Lin.w.get [0, 0, 3] = 1 := by
    refine (oneLink_get _ _ (by show 3 < 4; omega)).trans ?_
    rw [if_pos rfl]
  have hseg : ∀ (x : ℝ) (s : ℕ), IsActive 3 s (makePeriodic x 1) → Lin.seg x = s := fun x s h =>
    isActive_unique (Lin.isActive_seg hin.seg_pos rfl x) h
  have mid : ∀ x, Lin.seg x ≤ 1 → refineVal Lin 0 0 x = 0 := by
    intro x hx
    unfold refineVal
    show (linkPoly 2 _).eval _ = 0
    rw [linkPoly_two]
    show Lin.w.get [0, 0, Lin.seg x * 1 + 0] * _ / 2 + Lin.w.get [0, 0, Lin.seg x * 1 + 1] * _ / 2 = 0
    rw [hg _ (by omega), hg _ (by omega)]; ring
  have m1 : makePeriodic (1 : ℝ) 1 = 0 := by
    have := makePeriodic_mirror (p := 1) one_pos 0
    rw [sub_zero] at this
    rw [this]
    exact makePeriodic_id one_pos (by norm_num) (by norm_num)
  have m2 : makePeriodic (-1 : ℝ) 1 = 0 := by
    have := makePeriodic_add_two (p := 1) one_pos (-1)
    rw [← this]
    norm_num
    exact m1
  have segm : segLeft 3 1 = -1 / 3 ∧ segLeft 3 2 = 1 / 3 := by unfold segLeft; norm_num
  have act0 : IsActive 3 1 (0 : ℝ) := by
    refine ⟨by omega, Or.inr ?_, Or.inr ?_⟩
    · rw [segm.1]; norm_num
    · rw [segm.2]; norm_num
  have hvals : ∀ s k, s < 3 → k < 2 → refineVal Lin 0 0 (nodePos 2 3 s k) = 0 := by
    intro s k hs hk
    have hk' : k = 0 ∨ k = 1 := by omega
    have third : refineVal Lin 0 0 (1 / 3) = 0 := by
      have : Lin.seg (1 / 3) = 2 := by
        apply hseg
        rw [makePeriodic_id one_pos (by norm_num) (by norm_num)]
        exact ⟨by omega, Or.inr (by rw [segm.2]), Or.inl rfl⟩
      unfold refineVal
      rw [this, Lin.xLocal_real hin.seg_pos rfl]
      show (linkPoly 2 _).eval (localCoord 3 2 (1 / 3)) = 0
      rw [linkPoly_two]
      show Lin.w.get [0, 0, 2 * 1 + 0] * _ / 2 + Lin.w.get [0, 0, 2 * 1 + 1] * _ / 2 = 0
      rw [hg _ (by omega)]
      unfold localCoord
      norm_num
    have mthird : refineVal Lin 0 0 (-1 / 3) = 0 := by
      apply mid
      have : Lin.seg (-1 / 3) = 1 := by
        apply hseg
        rw [makePeriodic_id one_pos (by norm_num) (by norm_num)]
        exact ⟨by omega, Or.inr (by rw [segm.1]), Or.inr (by rw [segm.2]; norm_num)⟩
      omega
    have one : refineVal Lin 0 0 1 = 0 := by
      apply mid
      rw [hseg 1 1 (by rw [m1]; exact act0)]
    have mone : refineVal Lin 0 0 (-1) = 0 := by
      apply mid
      rw [hseg (-1) 1 (by rw [m2]; exact act0)]
    have hpos : nodePos 2 3 s k = -1 ∨ nodePos 2 3 s k = -1 / 3 ∨ nodePos 2 3 s k = 1 / 3 ∨ nodePos 2 3 s k = 1 := by
      have hs' : s = 0 ∨ s = 1 ∨ s = 2 := by omega
      unfold nodePos segLeft
      rcases hs' with rfl | rfl | rfl <;> rcases hk' with rfl | rfl <;> norm_num [hn0, hn1]
    rcases hpos with h | h | h | h <;> rw [h] <;> assumption
  obtain ⟨L', e, hf, hw⟩ := refineLayer_values (Lin := Lin) (Lout := Lout) hin hout rfl rfl rfl rfl rfl
    (fun _ _ _ => 0) (by
      intro o i s k ho hi hs hk
      have ho0 : o = 0 := by change o < 1 at ho; omega
      have hi0 : i = 0 := by change i < 1 at hi; omega
      subst ho0; subst hi0
      exact (hvals s k hs hk).symm)
  refine ⟨Lin, Lout, L', hin, hout, rfl, rfl, rfl, rfl, rfl, rfl, rfl, rfl, e, ?_⟩
  have hwf' : L'.WF := hf.wf' hout
  obtain ⟨o1, h1, h1'⟩ := forward_single hwf' (by rw [hf.eq]; rfl) (by rw [hf.eq]; rfl) (by rw [hf.eq]; rfl) (1 / 2)
  obtain ⟨o2, h2, h2'⟩ := forward_single hin rfl rfl rfl (1 / 2)
  rw [h1, h2]
  intro heq
  have : o1 = o2 := by injection heq
  rw [this, h2'] at h1'
  have hact : IsActive 3 2 (1 / 2 : ℝ) :=
    ⟨by omega, Or.inr (by rw [segm.2]; norm_num), Or.inl rfl⟩
  have hid : makePeriodic (1 / 2 : ℝ) 1 = 1 / 2 := makePeriodic_id one_pos (by norm_num) (by norm_num)
  have q2 : Lin.linkFn 0 0 (1 / 2) = 1 / 4 := by
    rw [Lin.linkFn_periodic]
    show Lin.noPeriod.linkFn 0 0 (makePeriodic (1 / 2) 1) = _
    rw [hid, Lin.noPeriod.linkFn_isPiecewise hin.seg_pos rfl rfl 0 0 2 _ hact]
    show (linkPoly 2 _).eval (localCoord 3 2 (1 / 2)) = _
    rw [linkPoly_two]
    show Lin.w.get [0, 0, 2 * 1 + 0] * _ / 2 + Lin.w.get [0, 0, 2 * 1 + 1] * _ / 2 = _
    rw [hg _ (by omega), hg3]
    unfold localCoord
    norm_num
  have q1 : L'.linkFn 0 0 (1 / 2) = 0 := by
    have s1 : L'.segments = 3 := by rw [hf.eq]; rfl
    have s2 : L'.n = 2 := by rw [hf.eq]; rfl
    have hs := L'.seg_lt hwf'.seg_pos (1 / 2)
    rw [s1] at hs
    have hst : L'.stride = 1 := by rw [hf.eq]; rfl
    unfold PwLayer.linkFn
    rw [s2, linkPoly_two, hst]
    have z : ∀ r < 4, L'.w.get [0, 0, r] = 0 := fun r hr =>
      hw 0 (by show 0 < 1; omega) 0 (by show 0 < 1; omega) r (by show r < 4; omega)
    rw [z _ (by omega), z _ (by omega)]; ring
  rw [q1, q2] at h1'
  norm_num at h1'

end HOL
