import Verif.Lemmas.Universal
import Verif.Props.NetworkExamples

/-! # C87: networks of piecewise layers approximate every continuous function; one layer does not -/

namespace HOL
open Spec TorchScalar

theorem seqForward_ids {K : Type} {t : Tensor K} : ∀ {ids : List (Fwd K)}, (∀ f ∈ ids, f t = .ok t) → ∀ g : Fwd K, seqForward (ids ++ [g]) t = g t
  | [], _, g => by
    simp only [List.nil_append, seqForward]
    cases g t <;> rfl
  | f :: ids, h, g => by
    simp only [List.cons_append, seqForward, h f List.mem_cons_self, bind, Except.bind]
    exact seqForward_ids (fun f' hf' => h f' (List.mem_cons_of_mem _ hf')) g

/-- **C87 (universal approximation).** Let `f` have `m` outputs and be continuous on the cube `[-1, 1]^d`. For every `ε > 0` there are a width and a number of segments such that every
`HighOrderMLP` of continuous or discontinuous layers with this hidden width and at least this many output segments (any numbers of hidden layers, input and hidden segments and nodes `n ≥ 2`;
no normalization, nonlinearity, dropout, periodicity) has weights for which it is within `ε` of `f` on the whole cube. -/
theorem C87_universal (d m : ℕ) (f : Fin m → (Fin d → ℝ) → ℝ) (hf : ∀ o, ContinuousOn (f o) (Set.Icc (fun _ => -1) (fun _ => 1))) (ε : ℝ) (hε : 0 < ε) (nOut : ℕ) :
    ∃ H S₀ : ℕ, 0 < H ∧ ∀ (rng : Rng ℝ) (c : MLPArgs ℝ) (cls clsIn : PwClass), fcTable.lookup c.layerType = some (.leaf (.pw cls)) →
      fcTable.lookup (orStr c.layerTypeIn c.layerType) = some (.leaf (.pw clsIn)) → (cls = .continuous ∨ cls = .discontinuous) →
      (clsIn = .continuous ∨ clsIn = .discontinuous) → Usable (.leaf (.pw clsIn)) c.inputArgs →
      Usable (.leaf (.pw cls)) c.hiddenArgs → Usable (.leaf (.pw cls)) c.outputArgs → (∀ n, c.inputArgs.n = .int n → 2 ≤ n) →
      (∀ n, c.hiddenArgs.n = .int n → 2 ≤ n) → (∀ n, c.outputArgs.n = .int n → 2 ≤ n) → c.outputArgs.n = .int nOut → c.periodicity = none →
      preFns c noFwd = [] → c.nonLinearity = none → c.resnet = false → c.inWidth = d → c.hiddenWidth = H → c.outWidth = m →
      (∀ S, c.outSegments = some (.int S) → S₀ ≤ S) → ∀ (h0 : Heap ℝ), h0.Ordered → ∀ (net : ℕ) (h1 : Heap ℝ), mlpInit rng c h0 = .ok (net, h1) →
      ∃ h : Heap ℝ, h1.Later h ∧ h.Ordered ∧ ∀ (B : ℕ) (x : Tensor ℝ), x.shape = [B, d] → x.WF → InRange x B d →
        ∃ out, h.forward net x = .ok out ∧ out.shape = [B, m] ∧ ∀ b < B, ∀ o : Fin m, |out.get [b, o] - f o fun i => x.get [b, i]| < ε := by
  obtain ⟨H, a, cf, hH0, happ⟩ := exp_dense_list f hf (half_pos hε)
  -- scale of the hidden units
  set R : ℝ := 1 + ∑ h ∈ Finset.range H, ∑ i, |a h i| with hR
  have hRpos : 0 < R := by
    have : 0 ≤ ∑ h ∈ Finset.range H, ∑ i, |a h i| := Finset.sum_nonneg fun _ _ => Finset.sum_nonneg fun _ _ => abs_nonneg _
    linarith
  let f1 : ℕ → ℕ → ℝ → ℝ := fun h i t => (if hi : i < d then a h ⟨i, hi⟩ / R else 0) * t
  let f2 : ℕ → ℕ → ℝ → ℝ := fun o i t => (if o = i then 1 else 0) * t
  let f3 : ℕ → ℕ → ℝ → ℝ := fun o h t => (if ho : o < m then cf ⟨o, ho⟩ h else 0) * Real.exp (R * t)
  by_cases hnOut : 2 ≤ nOut
  swap
  · refine ⟨1, 0, one_pos, ?_⟩
    intro rng c cls clsIn _ _ _ _ _ _ _ _ _ h2O hnO
    exact absurd (h2O nOut hnO) hnOut
  obtain ⟨S₀, hS₀⟩ := C84_convergence nOut H m (by omega) f3
    (fun o i => (continuous_const.mul (Real.continuous_exp.comp (continuous_const.mul continuous_id))).continuousOn) (ε / 2) (half_pos hε)
  refine ⟨H, S₀, hH0, ?_⟩
  intro rng c cls clsIn hk hki hcls hclsIn hI hH hO h2I h2H h2O hnO hper hpre hnl hres hd hHw hm hseg h0 hord net h1 hb
  obtain ⟨net', h1', e1, -, hord1, inp, out, hid, hnd, hstr⟩ := C57_structure rng hk hki hI hH hO hord (nl := noFwd) (by intro j hj; rw [hnl] at hj; cases hj)
  rw [hb] at e1
  cases e1
  have hself : h1.Later h1 := fun i mo hmo => ⟨mo, hmo, .refl mo⟩
  obtain ⟨i1, i2, i3, -, -⟩ := hstr h1 hself hord1
  -- choice of the weights
  let F : ℕ → ℕ → ℕ → ℝ → ℝ := fun j => if j = inp then f1 else if j = out then f3 else f2
  have hchoice : ∀ j, ∃ w : Option (Tensor ℝ), (∀ (L : PwLayer ℝ) v, h1[j]? = some (.pw L) → w = some v → v.shape = L.w.shape ∧ v.WF) ∧
      ∀ L : PwLayer ℝ, h1[j]? = some (.pw L) → L.WF → 2 ≤ L.n → ∃ v, w = some v ∧ ({ L with w := v } : PwLayer ℝ).WF ∧ Samples { L with w := v } (F j) := by
    intro j
    by_cases hex : ∃ L : PwLayer ℝ, h1[j]? = some (.pw L) ∧ L.WF ∧ 2 ≤ L.n
    · obtain ⟨L, e, wf, hn⟩ := hex
      obtain ⟨v, hv1, hv2⟩ := C84_sampled_weights L wf (fun _ => hn) (F j)
      refine ⟨some v, fun L' v' e' ev => ?_, fun L' e' _ _ => ?_⟩
      · rw [e] at e'
        cases e'
        cases ev
        exact ⟨hv1.w_shape.trans wf.w_shape.symm, hv1.w_wf⟩
      · rw [e] at e'
        cases e'
        exact ⟨v, rfl, hv1, hv2⟩
    · refine ⟨none, fun _ _ _ ev => (by cases ev), fun L e wf hn => absurd ⟨L, e, wf, hn⟩ hex⟩
  choose W hW1 hW2 using hchoice
  have hlat : h1.Later (h1.retune W) := Heap.retune_later fun j L w => hW1 j L w
  have ho : (h1.retune W).Ordered := Heap.retune_ordered hord1
  refine ⟨h1.retune W, hlat, ho, fun B x hx hwf hr => ?_⟩
  obtain ⟨-, -, -, hfw, -⟩ := hstr _ hlat ho
  rw [hfw hres, hpre]
  -- a layer after the choice
  have layer : ∀ {cl : PwClass} {ar : FcArgs ℝ} {j : ℕ}, Usable (.leaf (.pw cl)) ar → ar.periodicity = none → (∀ n, ar.n = .int n → 2 ≤ n) →
      IsLayer (.leaf (.pw cl)) ar h1 j → ∃ L : PwLayer ℝ, (h1.retune W).forward j = L.forward ∧ L.WF ∧ L.cls = cl ∧ L.length = 2 ∧ L.periodicity = none ∧ 2 ≤ L.n ∧
        ar.n = .int L.n ∧ ar.segments = some (.int L.segments) ∧ L.inFeatures = ar.inFeatures ∧ L.outFeatures = ar.outFeatures ∧ Samples L (F j) := by
    intro cl ar j hu hp h2 hl
    obtain ⟨L, p1, wf, p2, p3, p4, p5, p6, p7, p8⟩ := hl.pwLayer' hu
    have hn := h2 _ p4
    obtain ⟨v, q1, q2, q3⟩ := hW2 j L p1 wf hn
    refine ⟨{ L with w := v }, ?_, q2, p2, by rw [← Nat.cast_ofNat (R := ℝ) (n := 2)]; exact p3, p8.trans hp, hn, p4, p5, p6, p7, q3⟩
    rw [Heap.forward_eq ho (h1.retune_pw W p1 q1)]
    rfl
  simp only [List.nodup_cons, List.mem_cons, List.mem_map, List.mem_range, not_or, not_exists, not_and] at hnd
  obtain ⟨⟨hio, hih⟩, hoh, -⟩ := hnd
  obtain ⟨L1, k1, wf1, c1, l1, per1, n1, -, -, w1, w1', s1⟩ := layer hI hper h2I i1
  obtain ⟨L3, k3, wf3, c3, l3, per3, n3, nn3, sg3, w3, w3', s3⟩ := layer hO hper h2O i3
  have eF1 : F inp = f1 := if_pos rfl
  have eF3 : F out = f3 := by
    show (if out = inp then f1 else if out = out then f3 else f2) = f3
    rw [if_neg (Ne.symm hio), if_pos rfl]
  rw [eF1] at s1
  rw [eF3] at s3
  have w1I : L1.inFeatures = d := w1.trans hd
  have w1O : L1.outFeatures = H := w1'.trans hHw
  have w3I : L3.inFeatures = H := w3.trans hHw
  have w3O : L3.outFeatures = m := w3'.trans hm
  -- input layer
  obtain ⟨t, t1, t2, t3, t4⟩ := linear_layer L1 wf1 (by rw [c1]; exact hclsIn) l1 per1 n1 (fun h i => if hi : i < d then a h ⟨i, hi⟩ / R else 0) s1
    (B := B) (x := x) (by rw [w1I]; exact hx) hwf (by rw [w1I]; exact hr)
  rw [w1O] at t2 t4
  rw [w1I] at t4
  have ht : ∀ b < B, ∀ h < H, R * t.get [b, h] = ∑ i : Fin d, a h i * x.get [b, i] := fun b hb h hh => by
    rw [t4 b hb h hh, Finset.sum_range, Finset.mul_sum]
    refine Finset.sum_congr rfl fun i _ => ?_
    rw [dif_pos i.2]
    field_simp
  have htr : InRange t B H := fun b hb h hh => by
    have h2 : |R * t.get [b, h]| ≤ R := by
      rw [ht b hb h hh]
      refine (Finset.abs_sum_le_sum_abs _ _).trans ?_
      have h3 : ∑ i : Fin d, |a h i * x.get [b, i]| ≤ ∑ i : Fin d, |a h i| := Finset.sum_le_sum fun i _ => by
        rw [abs_mul]
        have := abs_le.2 (hr b hb i i.2)
        nlinarith [abs_nonneg (a h i)]
      have h4 : ∑ i : Fin d, |a h i| ≤ ∑ h ∈ Finset.range H, ∑ i, |a h i| :=
        Finset.single_le_sum (f := fun h => ∑ i, |a h i|) (fun _ _ => Finset.sum_nonneg fun _ _ => abs_nonneg _) (Finset.mem_range.2 hh)
      linarith
    rw [abs_mul, abs_of_pos hRpos] at h2
    exact abs_le.1 (by nlinarith [abs_nonneg (t.get [b, h])])
  -- hidden layers
  have hids : ∀ g ∈ (List.range c.hiddenLayers).map (fun i => (h1.retune W).forward (hid i)), g t = .ok t := by
    intro g hg
    obtain ⟨i, hi, rfl⟩ := List.mem_map.1 hg
    have hi' := List.mem_range.1 hi
    obtain ⟨L2, k2, wf2, c2, l2, per2, n2, -, -, w2, w2', s2⟩ := layer hH hper h2H (i2 i hi')
    have eF2 : F (hid i) = f2 := by
      show (if hid i = inp then f1 else if hid i = out then f3 else f2) = f2
      rw [if_neg (hih i hi'), if_neg (hoh i hi')]
    rw [eF2] at s2
    have w2I : L2.inFeatures = H := w2.trans hHw
    have w2O : L2.outFeatures = H := w2'.trans hHw
    obtain ⟨u, u1, u2, u3, u4⟩ := linear_layer L2 wf2 (by rw [c2]; exact hcls) l2 per2 n2 (fun o i => if o = i then 1 else 0) s2
      (B := B) (x := t) (by rw [w2I]; exact t2) t3 (by rw [w2I]; exact htr)
    rw [w2O] at u2 u4
    rw [w2I] at u4
    beta_reduce
    rw [k2, u1]
    congr 1
    apply Tensor.ext_get u3 t3 (u2.trans t2.symm)
    intro idx hidx
    rw [u2] at hidx
    match idx, hidx with
    | [b, o], hidx =>
      obtain ⟨hb', ho'⟩ := inShape2.1 hidx
      rw [u4 b hb' o ho']
      simp [ho']
  -- output layer
  have hS3 : S₀ ≤ L3.segments := hseg _ sg3
  have hn3 : L3.n = nOut := by
    rw [hnO] at nn3
    cases nn3
    rfl
  obtain ⟨y, y1, y2, y3⟩ := hS₀ L3 wf3 (by rw [c3]; exact hcls) l3 per3 hn3 w3I w3O hS3 s3 B t t2 t3 htr
  refine ⟨y, ?_, y2, fun b hb o => ?_⟩
  · unfold compose
    have efm : ∀ l : List (Fwd ℝ), (l.flatMap fun l => ([] : List (Fwd ℝ)) ++ [l]) = l := fun l => by
      induction l with
      | nil => rfl
      | cons a l ih => rw [List.flatMap_cons, ih]; rfl
    rw [efm]
    simp only [seqForward, k1, t1, bind, Except.bind]
    rw [seqForward_ids hids, k3, y1]
  · have h5 := y3 b hb o o.2
    have h6 := happ o (fun i => x.get [b, i]) ⟨fun i => (hr b hb i i.2).1, fun i => (hr b hb i i.2).2⟩
    have h7 : ∑ h ∈ Finset.range H, f3 o h (t.get [b, h]) = ∑ h ∈ Finset.range H, cf o h * Real.exp (∑ i, a h i * x.get [b, i]) := by
      refine Finset.sum_congr rfl fun h hh => ?_
      show (if ho : (o : ℕ) < m then cf ⟨o, ho⟩ h else 0) * Real.exp (R * t.get [b, h]) = _
      rw [dif_pos o.2, ht b hb h (Finset.mem_range.1 hh)]
    rw [h7] at h5
    have e : y.get [b, o] - f o (fun i => x.get [b, i]) = (y.get [b, o] - ∑ h ∈ Finset.range H, cf o h * Real.exp (∑ i, a h i * x.get [b, i]))
        + (∑ h ∈ Finset.range H, cf o h * Real.exp (∑ i, a h i * x.get [b, i]) - f o fun i => x.get [b, i]) := by ring
    rw [e]
    refine (abs_add_le _ _).trans_lt ?_
    linarith

/-- The sample with `u` and `v` in features 0 and 1 and zeros elsewhere. -/
def pairSample (I : ℕ) (u v : ℝ) : Tensor ℝ := Tensor.tab2 1 I fun _ i => if i = 0 then u else if i = 1 then v else 0

/-- **C87 (one layer).** A single sum layer has no interaction of features: changing features `i` and `j` together has the effect of changing one plus the effect of changing the other. -/
theorem C87_no_interaction (L : PwLayer ℝ) (h : L.WF) (hc : L.cls = .continuous ∨ L.cls = .discontinuous) {i j : ℕ} (hij : i ≠ j)
    {B : ℕ} (r : ℕ → ℕ → ℝ) (u v : ℝ) :
    ∃ o00 o10 o01 o11, L.forward (Tensor.tab2 B L.inFeatures r) = .ok o00 ∧
      L.forward (Tensor.tab2 B L.inFeatures fun b k => if k = i then u else r b k) = .ok o10 ∧
      L.forward (Tensor.tab2 B L.inFeatures fun b k => if k = j then v else r b k) = .ok o01 ∧
      L.forward (Tensor.tab2 B L.inFeatures fun b k => if k = i then u else if k = j then v else r b k) = .ok o11 ∧
      ∀ b < B, ∀ o < L.outFeatures, o11.get [b, o] - o00.get [b, o] = (o10.get [b, o] - o00.get [b, o]) + (o01.get [b, o] - o00.get [b, o]) := by
  refine ⟨_, _, _, _, L.forward_sum h hc rfl (Tensor.wf_tabulate _ _), L.forward_sum h hc rfl (Tensor.wf_tabulate _ _), L.forward_sum h hc rfl (Tensor.wf_tabulate _ _),
    L.forward_sum h hc rfl (Tensor.wf_tabulate _ _), fun b hb o ho => ?_⟩
  rw [Tensor.get_tab2 hb ho, Tensor.get_tab2 hb ho, Tensor.get_tab2 hb ho, Tensor.get_tab2 hb ho, ← Finset.sum_sub_distrib, ← Finset.sum_sub_distrib, ← Finset.sum_sub_distrib,
    ← Finset.sum_add_distrib]
  refine Finset.sum_congr rfl fun k hk => ?_
  have hk' := Finset.mem_range.1 hk
  rw [Tensor.get_tab2 hb hk', Tensor.get_tab2 hb hk', Tensor.get_tab2 hb hk', Tensor.get_tab2 hb hk']
  by_cases h1 : k = i
  · have h2 : k ≠ j := fun e => hij (h1.symm.trans e)
    simp [h1, hij]
  · by_cases h2 : k = j
    · simp [h2, Ne.symm hij]
    · simp [h1, h2]

/-- **C87 (lower bound).** So no single sum layer, whatever its size and weights, is within less than 1 of the product of two features at all corners of the square. -/
theorem C87_product_needs_depth (L : PwLayer ℝ) (h : L.WF) (hc : L.cls = .continuous ∨ L.cls = .discontinuous) (hI : 2 ≤ L.inFeatures) {o : ℕ} (ho : o < L.outFeatures) :
    ∃ u v : ℝ, (u = -1 ∨ u = 1) ∧ (v = -1 ∨ v = 1) ∧ ∃ out, L.forward (pairSample L.inFeatures u v) = .ok out ∧ 1 ≤ |out.get [0, o] - u * v| := by
  have hfw : ∀ u v : ℝ, ∃ out, L.forward (pairSample L.inFeatures u v) = .ok out ∧
      out.get [0, o] = L.linkFn o 0 u + L.linkFn o 1 v + ∑ k ∈ Finset.range (L.inFeatures - 2), L.linkFn o (k + 2) 0 := fun u v => by
    refine ⟨_, L.forward_sum h hc (B := 1) rfl (Tensor.wf_tabulate _ _), ?_⟩
    rw [Tensor.get_tab2 one_pos ho]
    obtain ⟨q, hq⟩ := Nat.exists_eq_add_of_le' hI
    have e : ∀ k ∈ Finset.range L.inFeatures, L.linkFn o k ((pairSample L.inFeatures u v).get [0, k]) = L.linkFn o k (if k = 0 then u else if k = 1 then v else 0) :=
      fun k hk => by
        unfold pairSample
        rw [Tensor.get_tab2 one_pos (Finset.mem_range.1 hk)]
    rw [Finset.sum_congr rfl e, hq, Finset.sum_range_succ', Finset.sum_range_succ', Nat.add_sub_cancel]
    simp
    ring
  by_contra hno
  push Not at hno
  obtain ⟨o1, a1, b1⟩ := hfw 1 1
  obtain ⟨o2, a2, b2⟩ := hfw 1 (-1)
  obtain ⟨o3, a3, b3⟩ := hfw (-1) 1
  obtain ⟨o4, a4, b4⟩ := hfw (-1) (-1)
  have c1 := abs_lt.1 (hno 1 1 (Or.inr rfl) (Or.inr rfl) o1 a1)
  have c2 := abs_lt.1 (hno 1 (-1) (Or.inr rfl) (Or.inl rfl) o2 a2)
  have c3 := abs_lt.1 (hno (-1) 1 (Or.inl rfl) (Or.inr rfl) o3 a3)
  have c4 := abs_lt.1 (hno (-1) (-1) (Or.inl rfl) (Or.inl rfl) o4 a4)
  rw [b1] at c1
  rw [b2] at c2
  rw [b3] at c3
  rw [b4] at c4
  linarith [c1.1, c2.2, c3.2, c4.1]

/-- The product of two features, which no single layer computes: a network with two hidden layers of some width and some number of output segments is within 1/10. -/
example (rng : Rng ℝ) : ∃ (H S net : ℕ) (h1 h : Heap ℝ), mlpInit rng { exNet "continuous" 3 2 with hiddenWidth := H, hiddenLayers := 2, outSegments := some (.int S) } [] = .ok (net, h1) ∧
    h1.Later h ∧ ∀ u v : ℝ, -1 ≤ u ∧ u ≤ 1 → -1 ≤ v ∧ v ≤ 1 → ∃ out, h.forward net (pairSample 2 u v) = .ok out ∧ |out.get [0, 0] - u * v| < 1 / 10 := by
  have hcont : Continuous fun x : Fin 2 → ℝ => x 0 * x 1 := (continuous_apply 0).mul (continuous_apply 1)
  obtain ⟨H, S₀, hH, h⟩ := C87_universal 2 1 (fun _ x => x 0 * x 1) (fun _ => hcont.continuousOn) (1 / 10) (by norm_num) 3
  let c : MLPArgs ℝ := { exNet "continuous" 3 2 with hiddenWidth := H, hiddenLayers := 2, outSegments := some (.int (S₀ + 1)) }
  have hk : fcTable.lookup c.layerType = some (.leaf (.pw .continuous)) := by show List.lookup "continuous" _ = _; decide
  have uI : Usable (.leaf (.pw .continuous)) c.inputArgs := ⟨3, 2, rfl, rfl, by norm_num, by norm_num, by show 0 < 2; norm_num, hH⟩
  have uH : Usable (.leaf (.pw .continuous)) c.hiddenArgs := ⟨3, 2, rfl, rfl, by norm_num, by norm_num, hH, hH⟩
  have uO : Usable (.leaf (.pw .continuous)) c.outputArgs := ⟨3, S₀ + 1, rfl, rfl, by norm_num, by omega, hH, by show 0 < 1; norm_num⟩
  have h2 : ∀ n, IntOrList.int 3 = .int n → 2 ≤ n := by intro n h; cases h; norm_num
  have hnl : ∀ j ∈ c.nonLinearity, ([] : Heap ℝ)[j]? = some (.other (noFwd : Fwd ℝ)) := by intro j hj; simp [c, exNet] at hj
  obtain ⟨g, D, -, -, -, -, e1, -, e2, -⟩ := mlpInit_net rng (c := c) hk hk uI uH uO ordered_nil hnl
  obtain ⟨h', q1, -, q3⟩ := h rng c .continuous .continuous hk hk (Or.inl rfl) (Or.inl rfl) uI uH uO h2 h2 h2 rfl rfl (by simp [preFns, c, exNet]) rfl rfl rfl rfl rfl
    (by intro S hS; cases hS; omega) [] ordered_nil _ _ e1
  refine ⟨H, S₀ + 1, _, _, h', e1, q1, fun u v hu hv => ?_⟩
  obtain ⟨out, p1, -, p2⟩ := q3 1 (pairSample 2 u v) rfl (Tensor.wf_tabulate _ _) (by
    intro b hb i hi
    unfold pairSample
    rw [Tensor.get_tab2 hb hi]
    split
    · exact hu
    · split
      · exact hv
      · norm_num)
  refine ⟨out, p1, ?_⟩
  have := p2 0 one_pos 0
  exact this

end HOL
