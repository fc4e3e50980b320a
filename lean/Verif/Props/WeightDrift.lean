import Verif.Props.Sensitivity
import Verif.Props.LionGrid

/-! # C125: how much the outputs of a network change when its weights change -/

namespace HOL
open TorchScalar Polynomial Spec

/-- `f` and `g` take matrices with `I` columns to matrices with `O` columns, and where the entries of a row of their inputs differ by at most `δ` the entries of the row of their results differ by
at most `C δ + e`. -/
def Spec.Drift (f g : Fwd ℝ) (I O : ℕ) (C e : ℝ) : Prop :=
  ∀ (B : ℕ) (x y : Tensor ℝ), x.shape = [B, I] → x.WF → y.shape = [B, I] → y.WF →
    ∃ u v, f x = .ok u ∧ g y = .ok v ∧ (u.shape = [B, O] ∧ u.WF) ∧ (v.shape = [B, O] ∧ v.WF) ∧
      ∀ b < B, ∀ δ, (∀ i < I, |y.get [b, i] - x.get [b, i]| ≤ δ) → ∀ o < O, |v.get [b, o] - u.get [b, o]| ≤ C * δ + e

/-- Applied to the same input. -/
theorem Spec.Drift.same {f g : Fwd ℝ} {I O : ℕ} {C e : ℝ} (h : Drift f g I O C e) {B : ℕ} {x : Tensor ℝ} (hx : x.shape = [B, I]) (hwx : x.WF) :
    ∃ u v, f x = .ok u ∧ g x = .ok v ∧ u.shape = [B, O] ∧ v.shape = [B, O] ∧ ∀ b < B, ∀ o < O, |v.get [b, o] - u.get [b, o]| ≤ e := by
  obtain ⟨u, v, e1, e2, hu, hv, hle⟩ := h B x x hx hwx hx hwx
  refine ⟨u, v, e1, e2, hu.1, hv.1, fun b hb o ho => ?_⟩
  have := hle b hb 0 (fun i _ => by rw [sub_self, abs_zero]) o ho
  rwa [mul_zero, zero_add] at this

theorem Spec.Steady.drift {f : Fwd ℝ} {I O : ℕ} {C : ℝ} (h : Steady f I O C) : Drift f f I O C 0 := by
  intro B x y hx hwx hy hwy
  obtain ⟨u, v, e1, e2, hu, hv, hle⟩ := h B x y hx hwx hy hwy
  exact ⟨u, v, e1, e2, hu, hv, fun b hb δ hδ o ho => by rw [add_zero]; exact hle b hb δ hδ o ho⟩

theorem Spec.Drift.comp {f f' g g' : Fwd ℝ} {I M O : ℕ} {C D e d : ℝ} (hf : Drift f f' I M C e) (hg : Drift g g' M O D d) :
    Drift (fun x => f x >>= g) (fun x => f' x >>= g') I O (D * C) (D * e + d) := by
  intro B x y hx hwx hy hwy
  obtain ⟨u, v, e1, e2, hu, hv, h1⟩ := hf B x y hx hwx hy hwy
  obtain ⟨u', v', e3, e4, hu', hv', h2⟩ := hg B u v hu.1 hu.2 hv.1 hv.2
  refine ⟨u', v', by beta_reduce; rw [e1]; exact e3, by beta_reduce; rw [e2]; exact e4, hu', hv', fun b hb δ hδ o ho => ?_⟩
  refine (h2 b hb (C * δ + e) (h1 b hb δ hδ) o ho).trans_eq ?_
  ring

/-- Two sequences of layers that correspond to each other. -/
inductive Spec.DriftChain : List (Fwd ℝ) → List (Fwd ℝ) → ℕ → ℕ → ℝ → ℝ → Prop
  | nil (I : ℕ) : DriftChain [] [] I I 1 0
  | cons {f g : Fwd ℝ} {fs gs : List (Fwd ℝ)} {I M O : ℕ} {C D e d : ℝ} : Drift f g I M C e → DriftChain fs gs M O D d → DriftChain (f :: fs) (g :: gs) I O (D * C) (D * e + d)

/-- **C125 (sequences).** The differences of the layers add up, each multiplied by the constants of the layers that follow. -/
theorem C125_sequential {fs gs : List (Fwd ℝ)} {I O : ℕ} {C e : ℝ} (h : DriftChain fs gs I O C e) : Drift (seqForward fs) (seqForward gs) I O C e := by
  induction h with
  | nil I =>
    intro B x y hx hwx hy hwy
    refine ⟨x, y, rfl, rfl, ⟨hx, hwx⟩, ⟨hy, hwy⟩, fun b hb δ hδ o ho => ?_⟩
    rw [one_mul, add_zero]
    exact hδ o ho
  | cons hf _ ih => exact hf.comp ih

theorem Spec.DriftChain.append {fs gs fs' gs' : List (Fwd ℝ)} {I M O : ℕ} {C D e d : ℝ} (h : DriftChain fs gs I M C e) (h' : DriftChain fs' gs' M O D d) :
    DriftChain (fs ++ fs') (gs ++ gs') I O (D * C) (D * e + d) := by
  induction h with
  | nil I => rw [mul_one, mul_zero, zero_add]; exact h'
  | @cons f g fs gs I M O' C D' e d' hf _ ih =>
    have := DriftChain.cons hf (ih h')
    have e1 : D * D' * C = D * (D' * C) := mul_assoc _ _ _
    have e2 : D * D' * e + (D * d' + d) = D * (D' * e + d') + d := by ring
    rw [e1, e2] at this
    exact this

/-- Links with a periodicity of at most 2. -/
theorem linkFn_stable_periodic {L L' : PwLayer ℝ} (h : L.WF) (hs : SameSizes L L') (hl : L.length = 2) {p : ℝ} (hp : L.periodicity = some p) (hp0 : 0 < p) (hp2 : p ≤ 2) {o i : ℕ} {δ : ℝ}
    (hw : ∀ r < PwLayer.wSize L.cls L.n L.segments, |L'.w.get [o, i, r] - L.w.get [o, i, r]| ≤ δ) (t : ℝ) : |L'.linkFn o i t - L.linkFn o i t| ≤ √(2 * L.n) * δ := by
  obtain ⟨Λ, -, -, hΛ2, hΛ⟩ := link_stable L.n h.n_pos
  have hδ : 0 ≤ δ := (abs_nonneg _).trans (hw 0 (by
    have := L.widx_lt (s := 0) (k := 0) h.n_pos h.seg_pos h.n_pos
    simpa using this))
  rw [L.linkFn_periodic, L'.linkFn_periodic, hs.periodicity, hp]
  obtain ⟨a, b⟩ := makePeriodic_mem hp0 t
  refine (linkFn_stable (n := L.n) hΛ (L := L.noPeriod) (L' := L'.noPeriod) ⟨h.n_pos, h.seg_pos, h.in_pos, h.out_pos, h.w_shape, h.w_wf⟩
    ⟨hs.cls, hs.n, hs.segments, hs.inF, hs.outF, hs.length, rfl⟩ hl rfl rfl hw (t := periodize (some p) t) ?_ ?_).trans
    (mul_le_mul_of_nonneg_right hΛ2 hδ)
  · show -1 ≤ makePeriodic t p; linarith
  · show makePeriodic t p ≤ 1; linarith

/-- **C125 (layers).** Two continuous layers with a periodicity of at most 2 that differ in their weights by at most `η`; the weights of the first are at most `W`. -/
theorem C125_layer (L L' : PwLayer ℝ) (h : L.WF) (h' : L'.WF) (hs : SameSizes L L') (hc : L.cls = .continuous) (hl : L.length = 2) {p : ℝ} (hp : L.periodicity = some p) (hp0 : 0 < p)
    (hp2 : p ≤ 2) {W η : ℝ} (hw : ∀ o < L.outFeatures, ∀ i < L.inFeatures, ∀ r < PwLayer.wSize L.cls L.n L.segments, |L.w.get [o, i, r]| ≤ W)
    (hη : ∀ o < L.outFeatures, ∀ i < L.inFeatures, ∀ r < PwLayer.wSize L.cls L.n L.segments, |L'.w.get [o, i, r] - L.w.get [o, i, r]| ≤ η) :
    Drift L.forward L'.forward L.inFeatures L.outFeatures (L.inFeatures * (slopeBound L.n L.segments * W)) (L.inFeatures * √(2 * L.n) * η) := by
  intro B x y hx hwx hy hwy
  obtain ⟨u, v, e1, e2, hu, hv, hle⟩ := steady_periodic L h hc hl hp hp0 hp2 hw B x y hx hwx hy hwy
  have s2 := L.forward_sum h (Or.inl hc) hy hwy
  rw [e2] at s2
  cases s2
  refine ⟨u, _, e1, L'.forward_sum h' (by rw [hs.cls]; exact Or.inl hc) (by rw [hs.inF]; exact hy) hwy, hu, ⟨by rw [← hs.outF]; rfl, Tensor.wf_tabulate _ _⟩, fun b hb δ hδ o ho => ?_⟩
  have h1 := hle b hb δ hδ o ho
  rw [Tensor.get_tab2 hb ho] at h1
  rw [Tensor.get_tab2 hb (by rw [hs.outF]; exact ho), hs.inF]
  have h2 : |∑ i ∈ Finset.range L.inFeatures, L'.linkFn o i (y.get [b, i]) - ∑ i ∈ Finset.range L.inFeatures, L.linkFn o i (y.get [b, i])| ≤ L.inFeatures * √(2 * L.n) * η := by
    rw [← Finset.sum_sub_distrib]
    refine (Finset.abs_sum_le_sum_abs _ _).trans ?_
    calc _ ≤ ∑ _i ∈ Finset.range L.inFeatures, √(2 * L.n) * η := Finset.sum_le_sum fun i hi =>
          linkFn_stable_periodic h hs hl hp hp0 hp2 (hη o ho i (Finset.mem_range.1 hi)) _
      _ = _ := by rw [Finset.sum_const, Finset.card_range, nsmul_eq_mul, mul_assoc]
  have h3 := abs_sub_le (∑ i ∈ Finset.range L.inFeatures, L'.linkFn o i (y.get [b, i])) (∑ i ∈ Finset.range L.inFeatures, L.linkFn o i (y.get [b, i])) (u.get [b, o])
  linarith

/-- Factor by which differences of the inputs of a layer appear in its outputs. -/
noncomputable def Spec.layerGain (width n segments : ℕ) (W : ℝ) : ℝ := width * (√(2 * n) * ((n : ℝ) - 1) ^ 2 * segments * W)

/-- Factor by which differences of the weights of a layer appear in its outputs. -/
noncomputable def Spec.layerLoad (width n : ℕ) : ℝ := width * √(2 * n)

/-- The load of every layer, multiplied by the gains of the layers that follow. -/
noncomputable def Spec.driftBound (c : MLPArgs ℝ) (q : Orders) (W : ℝ) : ℝ :=
  layerGain c.hiddenWidth q.nOut q.sOut W * (layerGain c.hiddenWidth q.nHidden q.sHidden W ^ c.hiddenLayers * layerLoad c.inWidth q.nIn +
    (∑ k ∈ Finset.range c.hiddenLayers, layerGain c.hiddenWidth q.nHidden q.sHidden W ^ k) * layerLoad c.hiddenWidth q.nHidden) + layerLoad c.hiddenWidth q.nOut

/-- **C125.** A `HighOrderMLP` of continuous layers with a periodicity of at most 2, without normalization and dropout, with a nonlinearity that does not enlarge differences or none, at two times
after its construction: when the weights of all layers are at most `W` at the first time and differ by at most `η` between the times, then the outputs for the same input differ by at most `η` times
a constant that depends on the sizes, the orders and `W` only; this holds for all inputs. -/
theorem C125_network (rng : Rng ℝ) {c : MLPArgs ℝ} {q : Orders} (hq : c.HasOrders q) (hk : fcTable.lookup c.layerType = some (.leaf (.pw .continuous)))
    (hki : fcTable.lookup (orStr c.layerTypeIn c.layerType) = some (.leaf (.pw .continuous))) {p : ℝ} (hp : c.periodicity = some p) (hp0 : 0 < p) (hp2 : p ≤ 2)
    (hnorm : c.normalization = none) (hdrop : c.dropout ≤ 0) (hres : c.resnet = false) {h0 : Heap ℝ} (hord : h0.Ordered) {nl : Fwd ℝ}
    (hnl : ∀ j ∈ c.nonLinearity, h0[j]? = some (.other nl)) (hst : c.nonLinearity.isSome → Steady nl c.hiddenWidth c.hiddenWidth 1) :
    ∃ (net : ℕ) (h1 : Heap ℝ) (inp out : ℕ) (hid : ℕ → ℕ), mlpInit rng c h0 = .ok (net, h1) ∧
      (∀ h : Heap ℝ, h1.Later h → h.Ordered → ∀ j ∈ inp :: out :: (List.range c.hiddenLayers).map hid, ∃ L : PwLayer ℝ, h[j]? = some (.pw L) ∧ L.WF) ∧
      ∀ h h' : Heap ℝ, h1.Later h → h.Ordered → h1.Later h' → h'.Ordered → ∀ W η : ℝ,
      (∀ j ∈ inp :: out :: (List.range c.hiddenLayers).map hid, ∃ L L' : PwLayer ℝ, h[j]? = some (.pw L) ∧ h'[j]? = some (.pw L') ∧
        ∀ o < L.outFeatures, ∀ i < L.inFeatures, ∀ r < PwLayer.wSize L.cls L.n L.segments, |L.w.get [o, i, r]| ≤ W ∧ |L'.w.get [o, i, r] - L.w.get [o, i, r]| ≤ η) →
      ∀ (B : ℕ) (x : Tensor ℝ), x.shape = [B, c.inWidth] → x.WF → ∃ u v, h.forward net x = .ok u ∧ h'.forward net x = .ok v ∧ u.shape = [B, c.outWidth] ∧ v.shape = [B, c.outWidth] ∧
        ∀ b < B, ∀ o < c.outWidth, |v.get [b, o] - u.get [b, o]| ≤ driftBound c q W * η := by
  obtain ⟨p1, p2, p3, p4, p5, p6⟩ := hq.pos
  obtain ⟨w1, w2, w3⟩ := hq.widths
  have hI : Usable (.leaf (.pw .continuous)) c.inputArgs := ⟨_, _, hq.nIn, hq.sIn, p1, p4, w1, w2⟩
  have hH : Usable (.leaf (.pw .continuous)) c.hiddenArgs := ⟨_, _, hq.nHidden, hq.sHidden, p2, p5, w2, w2⟩
  have hO : Usable (.leaf (.pw .continuous)) c.outputArgs := ⟨_, _, hq.nOut, hq.sOut, p3, p6, w2, w3⟩
  obtain ⟨net, h1, e1, -, -, inp, out, hid, -, hall⟩ := C57_structure rng hk hki hI hH hO hord hnl
  refine ⟨net, h1, inp, out, hid, e1, fun h hl ho j hj => ?_, fun h h' hl ho hl' ho' W η hW B x hx hwx => ?_⟩
  · obtain ⟨l1, l2, l3, -, -⟩ := hall h hl ho
    have get : ∀ {a : FcArgs ℝ}, Usable (.leaf (.pw .continuous)) a → IsLayer (.leaf (.pw .continuous)) a h j → ∃ L : PwLayer ℝ, h[j]? = some (.pw L) ∧ L.WF := fun hu hlay => by
      obtain ⟨L, m1, m2, -⟩ := IsLayer.pwLayer' hu hlay
      exact ⟨L, m1, m2⟩
    simp only [List.mem_cons, List.mem_map, List.mem_range] at hj
    rcases hj with rfl | rfl | ⟨i, hi, rfl⟩
    · exact get hI l1
    · exact get hO l3
    · exact get hH (l2 i hi)
  obtain ⟨l1, l2, l3, l4, -⟩ := hall h hl ho
  obtain ⟨m1, m2, m3, m4, -⟩ := hall h' hl' ho'
  have lay : ∀ (a : FcArgs ℝ) (n s j : ℕ), Usable (.leaf (.pw .continuous)) a → a.n = .int n → a.segments = some (.int s) → a.periodicity = some p → IsLayer (.leaf (.pw .continuous)) a h j →
      IsLayer (.leaf (.pw .continuous)) a h' j → j ∈ inp :: out :: (List.range c.hiddenLayers).map hid →
      Drift (h.forward j) (h'.forward j) a.inFeatures a.outFeatures (layerGain a.inFeatures n s W) (layerLoad a.inFeatures n * η) := by
    intro a n s j hu hn hs hpa hlay hlay' hj
    obtain ⟨L, m1, m2, m3, m4, m5, m6, m7, m8, m9⟩ := IsLayer.pwLayer' hu hlay
    obtain ⟨L', n1, n2, n3, n4, n5, n6, n7, n8, n9⟩ := IsLayer.pwLayer' hu hlay'
    obtain ⟨K, K', f1, f2, f3⟩ := hW j hj
    rw [m1] at f1
    cases f1
    rw [n1] at f2
    cases f2
    have en : L.n = n := by rw [hn] at m5; injection m5 with h; exact h.symm
    have es : L.segments = s := by rw [hs] at m6; injection m6 with h; injection h with h; exact h.symm
    have en' : L'.n = n := by rw [hn] at n5; injection n5 with h; exact h.symm
    have es' : L'.segments = s := by rw [hs] at n6; injection n6 with h; injection h with h; exact h.symm
    have := C125_layer L L' m2 n2 ⟨n3.trans m3.symm, en'.trans en.symm, es'.trans es.symm, n7.trans m7.symm, n8.trans m8.symm, n4.trans m4.symm, n9.trans m9.symm⟩ m3 (by rw [m4]; norm_num)
      (by rw [m9]; exact hpa) hp0 hp2 (fun o ho i hi r hr => (f3 o ho i hi r hr).1) (fun o ho i hi r hr => (f3 o ho i hi r hr).2)
    rw [en, es, m7, m8] at this
    rw [Heap.forward_eq ho m1, Heap.forward_eq ho' n1]
    exact this
  have hpre : DriftChain (preFns c nl) (preFns c nl) c.hiddenWidth c.hiddenWidth 1 0 := by
    have hd : TorchScalar.ltB 0 c.dropout = false := decide_eq_false (not_lt.2 hdrop)
    unfold preFns
    rw [hnorm, hd]
    cases hn : c.nonLinearity with
    | none => exact .nil _
    | some j =>
      have := DriftChain.cons (hst (by rw [hn]; rfl)).drift (.nil c.hiddenWidth)
      rw [mul_one, mul_zero, add_zero] at this
      exact this
  have sIn := lay c.inputArgs _ _ inp hI hq.nIn hq.sIn hp l1 m1 (by simp)
  have sOut := lay c.outputArgs _ _ out hO hq.nOut hq.sOut hp l3 m3 (by simp)
  obtain ⟨A, hA⟩ : ∃ A, A = layerGain c.hiddenWidth q.nHidden q.sHidden W := ⟨_, rfl⟩
  obtain ⟨E, hE⟩ : ∃ E, E = layerLoad c.hiddenWidth q.nHidden * η := ⟨_, rfl⟩
  have sHid : ∀ i < c.hiddenLayers, Drift (h.forward (hid i)) (h'.forward (hid i)) c.hiddenWidth c.hiddenWidth A E := fun i hi => by
    rw [hA, hE]
    exact lay c.hiddenArgs _ _ (hid i) hH hq.nHidden hq.sHidden hp (l2 i hi) (m2 i hi) (by simp; exact Or.inr (Or.inr ⟨i, hi, rfl⟩))
  have blk : ∀ {f g : Fwd ℝ} {O : ℕ} {C e : ℝ}, Drift f g c.hiddenWidth O C e → DriftChain (preFns c nl ++ [f]) (preFns c nl ++ [g]) c.hiddenWidth O C e := by
    intro f g O C e hd
    have := hpre.append (.cons hd (.nil _))
    simpa using this
  have hmid : ∀ k ≤ c.hiddenLayers, DriftChain (((List.range k).map fun i => h.forward (hid i)).flatMap fun l => preFns c nl ++ [l])
      (((List.range k).map fun i => h'.forward (hid i)).flatMap fun l => preFns c nl ++ [l]) c.hiddenWidth c.hiddenWidth (A ^ k) ((∑ j ∈ Finset.range k, A ^ j) * E) := by
    intro k
    induction k with
    | zero => intro _; simpa using DriftChain.nil c.hiddenWidth
    | succ k ih =>
      intro hk
      rw [List.range_succ, List.map_append, List.flatMap_append, List.map_append, List.flatMap_append]
      have := (ih (by omega)).append (fs' := [h.forward (hid k)].flatMap fun l => preFns c nl ++ [l]) (gs' := [h'.forward (hid k)].flatMap fun l => preFns c nl ++ [l])
        (by rw [List.flatMap_singleton, List.flatMap_singleton]; exact blk (sHid k hk))
      have e : A * ((∑ j ∈ Finset.range k, A ^ j) * E) + E = (∑ j ∈ Finset.range (k + 1), A ^ j) * E := by
        rw [Finset.sum_range_succ', Finset.sum_congr rfl fun j _ => pow_succ A j, ← Finset.sum_mul]
        ring
      rw [e, ← pow_succ'] at this
      exact this
  obtain ⟨u, v, r1, r2, r3, r4, hle⟩ := (C125_sequential (.cons sIn ((hmid c.hiddenLayers le_rfl).append (fs' := [h.forward out].flatMap fun l => preFns c nl ++ [l])
    (gs' := [h'.forward out].flatMap fun l => preFns c nl ++ [l]) (by rw [List.flatMap_singleton, List.flatMap_singleton]; exact blk sOut)))).same hx hwx
  refine ⟨u, v, by rw [l4 hres]; unfold compose; rw [List.flatMap_append]; exact r1, by rw [m4 hres]; unfold compose; rw [List.flatMap_append]; exact r2, r3, r4, fun b hb o ho => (hle b hb o ho).trans_eq ?_⟩
  unfold driftBound
  rw [← hA, hE]
  show layerGain c.hiddenWidth q.nOut q.sOut W * A ^ c.hiddenLayers * (layerLoad c.inWidth q.nIn * η) +
    (layerGain c.hiddenWidth q.nOut q.sOut W * ((∑ j ∈ Finset.range c.hiddenLayers, A ^ j) * (layerLoad c.hiddenWidth q.nHidden * η)) + layerLoad c.hiddenWidth q.nOut * η) = _
  ring

/-- **C125 (SparseLion).** `k` steps of SparseLion with learning rates of at most `lr` on any gradients change the outputs of such a network by at most `k lr` times the constant. -/
theorem C125_sparse_lion (rng : Rng ℝ) {c : MLPArgs ℝ} {q : Orders} (hq : c.HasOrders q) (hk : fcTable.lookup c.layerType = some (.leaf (.pw .continuous)))
    (hki : fcTable.lookup (orStr c.layerTypeIn c.layerType) = some (.leaf (.pw .continuous))) {p : ℝ} (hp : c.periodicity = some p) (hp0 : 0 < p) (hp2 : p ≤ 2)
    (hnorm : c.normalization = none) (hdrop : c.dropout ≤ 0) (hres : c.resnet = false) {h0 : Heap ℝ} (hord : h0.Ordered) {nl : Fwd ℝ}
    (hnl : ∀ j ∈ c.nonLinearity, h0[j]? = some (.other nl)) (hst : c.nonLinearity.isSome → Steady nl c.hiddenWidth c.hiddenWidth 1) :
    ∃ (net : ℕ) (h1 : Heap ℝ) (inp out : ℕ) (hid : ℕ → ℕ), mlpInit rng c h0 = .ok (net, h1) ∧ ∀ h h' : Heap ℝ, h1.Later h → h.Ordered → h1.Later h' → h'.Ordered → ∀ W lr : ℝ,
      ∀ s s' : List (LionGroup ℝ), LionWF s → ∀ hist : List (ℕ → ℕ → Option (Tensor ℝ)), (∀ gr ∈ hist, GradsFit s gr) → sparseLionRun s hist = .ok s' →
      (∀ j ∈ inp :: out :: (List.range c.hiddenLayers).map hid, ∃ (L L' : PwLayer ℝ) (gi pi : ℕ) (g g' : LionGroup ℝ) (p p' : LionParam ℝ), h[j]? = some (.pw L) ∧ h'[j]? = some (.pw L') ∧
        s[gi]? = some g ∧ g.params[pi]? = some p ∧ p.data = L.w ∧ s'[gi]? = some g' ∧ g'.params[pi]? = some p' ∧ p'.data = L'.w ∧ |g.lr| ≤ lr ∧
        ∀ o < L.outFeatures, ∀ i < L.inFeatures, ∀ r < PwLayer.wSize L.cls L.n L.segments, |L.w.get [o, i, r]| ≤ W) →
      ∀ (B : ℕ) (x : Tensor ℝ), x.shape = [B, c.inWidth] → x.WF → ∃ u v, h.forward net x = .ok u ∧ h'.forward net x = .ok v ∧ u.shape = [B, c.outWidth] ∧ v.shape = [B, c.outWidth] ∧
        ∀ b < B, ∀ o < c.outWidth, |v.get [b, o] - u.get [b, o]| ≤ driftBound c q W * (hist.length * lr) := by
  obtain ⟨net, h1, inp, out, hid, e1, hlay, hall⟩ := C125_network rng hq hk hki hp hp0 hp2 hnorm hdrop hres hord hnl hst
  refine ⟨net, h1, inp, out, hid, e1, fun h h' hl ho hl' ho' W lr s s' hs hist hh hrun hW B x hx hwx => ?_⟩
  refine hall h h' hl ho hl' ho' W (hist.length * lr) (fun j hj => ?_) B x hx hwx
  obtain ⟨L, L', gi, pi, g, g', p, p', f1, f2, f3, f4, f5, f6, f7, f8, f9, f10⟩ := hW j hj
  refine ⟨L, L', f1, f2, fun o hr1 i hi r hr => ⟨f10 o hr1 i hi r hr, ?_⟩⟩
  obtain ⟨L0, k1, hw⟩ := hlay h hl ho j hj
  rw [f1] at k1
  cases k1
  obtain ⟨s'', r1, r2⟩ := C112_grid s hs hist hh
  rw [hrun] at r1
  cases r1
  obtain ⟨g'', p'', a1, a2, a3, a4, a5⟩ := r2 gi g f3 pi p f4
  rw [f6] at a1
  cases a1
  rw [f7] at a2
  cases a2
  rw [← f5, ← f8]
  obtain ⟨z, z1, z2⟩ := a5 [o, i, r] (by rw [f5, hw.w_shape]; exact inShape3.2 ⟨hr1, hi, hr⟩)
  rw [z2, add_sub_cancel_left, abs_mul]
  have hz : |(z : ℝ)| ≤ hist.length := by exact_mod_cast z1
  exact mul_le_mul hz f9 (abs_nonneg _) (Nat.cast_nonneg _)

/-- One input, one output, one node, two segments with the same weight `a`. -/
noncomputable def flatLayer (a : ℝ) : PwLayer ℝ := { unitJump with w := Tensor.tab3 1 1 2 fun _ _ _ => a }

theorem flatLayer_wf (a : ℝ) : (flatLayer a).WF := ⟨one_pos, two_pos, one_pos, one_pos, rfl, Tensor.wf_tabulate _ _⟩

theorem flatLayer_forward (a t : ℝ) : (flatLayer a).forward (Tensor.tab2 1 1 fun _ _ => t) = .ok (Tensor.tab2 1 1 fun _ _ => a) := by
  refine ((flatLayer a).forward_sum (B := 1) (flatLayer_wf a) (Or.inr rfl) rfl (Tensor.wf_tabulate _ _)).trans ?_
  refine congrArg Except.ok (tab2_congr fun b hb o ho => ?_)
  obtain rfl : b = 0 := by omega
  have ho : o < 1 := ho
  obtain rfl : o = 0 := by omega
  show ∑ i ∈ Finset.range 1, (flatLayer a).linkFn 0 i ((Tensor.tab2 1 1 fun _ _ => t).get [0, i]) = _
  obtain ⟨s, hs⟩ := isActive_exists (S := 2) two_pos t
  have e := (flatLayer a).linkFn_isPiecewise (by show 0 < 2; norm_num) rfl rfl 0 0 s t hs
  change (flatLayer a).linkFn 0 0 t = (linkPoly 1 fun k => (Tensor.tab3 1 1 2 fun _ _ _ => a).get [0, 0, s * 1 + k]).eval (localCoord 2 s t) at e
  rw [Finset.sum_range_one, Tensor.get_tab2 one_pos one_pos, e, linkPoly_one_eval, Tensor.get_tab3 one_pos one_pos (by have := hs.1; omega)]

/-- **C125 (discontinuous layers).** Two discontinuous layers in a row: however little the weights of the first change, the output may change by 2. -/
theorem C125_discontinuous {η : ℝ} (hη : 0 < η) (t : ℝ) : SameSizes (flatLayer 0) (flatLayer (-η)) ∧
    (∀ r < 2, |(flatLayer (-η)).w.get [0, 0, r] - (flatLayer 0).w.get [0, 0, r]| ≤ η) ∧
    ∃ u v, seqForward [(flatLayer 0).forward, unitJump.forward] (Tensor.tab2 1 1 fun _ _ => t) = .ok u ∧
      seqForward [(flatLayer (-η)).forward, unitJump.forward] (Tensor.tab2 1 1 fun _ _ => t) = .ok v ∧ |v.get [0, 0] - u.get [0, 0]| = 2 := by
  have e1 : segLeft 2 1 = 0 := by unfold segLeft; norm_num
  obtain ⟨v, f1, f2⟩ := unitJump_forward (t := -η) (s := 0) ⟨by norm_num, Or.inl rfl, Or.inr (by rw [e1]; linarith)⟩
  obtain ⟨u, g1, g2⟩ := unitJump_forward (t := 0) (s := 1) ⟨by norm_num, Or.inr (by rw [e1]), Or.inl rfl⟩
  refine ⟨⟨rfl, rfl, rfl, rfl, rfl, rfl, rfl⟩, fun r hr => ?_, u, v, ?_, ?_, ?_⟩
  · show |(Tensor.tab3 1 1 2 fun _ _ _ => -η).get [0, 0, r] - (Tensor.tab3 1 1 2 fun _ _ _ => (0 : ℝ)).get [0, 0, r]| ≤ η
    rw [Tensor.get_tab3 one_pos one_pos hr, Tensor.get_tab3 one_pos one_pos hr, sub_zero, abs_neg, abs_of_pos hη]
  · simp only [seqForward, flatLayer_forward, g1, Bind.bind, Except.bind]
  · simp only [seqForward, flatLayer_forward, f1, Bind.bind, Except.bind]
  · rw [f2, g2, if_pos rfl, if_neg one_ne_zero]
    norm_num

/-- Two inputs, two hidden layers of width three, two nodes and one segment everywhere, periodicity 2: rounding weights between -1 and 1 to multiples of 1/1000000 changes the outputs by less than
1/500. -/
example (rng : Rng ℝ) : ∃ (net : ℕ) (h1 : Heap ℝ) (inp out : ℕ) (hid : ℕ → ℕ), mlpInit rng { exNet "continuous" 2 1 with periodicity := some 2 } [] = .ok (net, h1) ∧
    ∀ h h' : Heap ℝ, h1.Later h → h.Ordered → h1.Later h' → h'.Ordered →
      (∀ j ∈ inp :: out :: (List.range 2).map hid, ∃ L L' : PwLayer ℝ, h[j]? = some (.pw L) ∧ h'[j]? = some (.pw L') ∧
        ∀ o < L.outFeatures, ∀ i < L.inFeatures, ∀ r < PwLayer.wSize L.cls L.n L.segments, |L.w.get [o, i, r]| ≤ 1 ∧ |L'.w.get [o, i, r] - L.w.get [o, i, r]| ≤ 1 / 1000000) →
      ∀ (B : ℕ) (x : Tensor ℝ), x.shape = [B, 2] → x.WF → ∃ u v, h.forward net x = .ok u ∧ h'.forward net x = .ok v ∧ ∀ b < B, |v.get [b, 0] - u.get [b, 0]| < 1 / 500 := by
  obtain ⟨net, h1, inp, out, hid, e1, -, hall⟩ := C125_network rng (c := { exNet "continuous" 2 1 with periodicity := some 2 }) (q := ⟨2, 1, 2, 1, 2, 1⟩) (p := 2) (nl := noFwd)
    ⟨rfl, rfl, rfl, rfl, rfl, rfl, by norm_num, by simp [exNet]⟩ (by rfl) (by rfl) rfl (by norm_num) le_rfl rfl le_rfl rfl ordered_nil (by intro j hj; cases hj) (by intro h; cases h)
  refine ⟨net, h1, inp, out, hid, e1, fun h h' hl ho hl' ho' hW B x hx hwx => ?_⟩
  obtain ⟨u, v, r1, r2, -, -, hle⟩ := hall h h' hl ho hl' ho' 1 (1 / 1000000) hW B x hx hwx
  refine ⟨u, v, r1, r2, fun b hb => (hle b hb 0 (by show 0 < 1; norm_num)).trans_lt ?_⟩
  unfold driftBound
  show (layerGain 3 2 1 1 * (layerGain 3 2 1 1 ^ 2 * layerLoad 2 2 + (∑ k ∈ Finset.range 2, layerGain 3 2 1 1 ^ k) * layerLoad 3 2) + layerLoad 3 2) * (1 / 1000000 : ℝ) < 1 / 500
  have e : √((2 : ℝ) * ((2 : ℕ) : ℝ)) = 2 := by
    rw [show (2 : ℝ) * ((2 : ℕ) : ℝ) = 2 ^ 2 by norm_num, Real.sqrt_sq (by norm_num)]
  have a1 : layerGain 3 2 1 1 = 6 := by unfold layerGain; rw [e]; norm_num
  have a2 : layerLoad 3 2 = 6 := by unfold layerLoad; rw [e]; norm_num
  have a3 : layerLoad 2 2 = 4 := by unfold layerLoad; rw [e]; norm_num
  rw [a1, a2, a3, Finset.sum_range_succ, Finset.sum_range_one]
  norm_num

end HOL
