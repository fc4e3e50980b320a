import Verif.Model.Transform
import Verif.Props.Rotation
import Verif.Props.LowOrder

/-! # C77: networks behind a fixed rotation -/

namespace HOL
open TorchScalar Relation Spec

/-- Two functions agree on `[batch, w]` tensors. -/
def AgreeOn (w : ℕ) (f g : Fwd ℝ) : Prop := ∀ (B : ℕ) (x : Tensor ℝ), x.shape = [B, w] → x.WF → f x = g x

/-- The fixed layer as a linear map. -/
theorem rotation_computes {n R : ℕ} (hn : 0 < n) (hR : 1 ≤ R) {w : Tensor ℝ} {width : ℕ}
    (h : fixedRotationLayer n (R : ℤ) true = .ok (w, width)) :
    width = n + n * (n - 1) * (R - 1) ∧ Computes (linearNoBias w) n width fun r v => ∑ k ∈ Finset.range n, v k * w.get [r, k] := by
  obtain ⟨w', width', h1, h2, h3, -⟩ := C40_rotation_layer n R hn hR true
  rw [h] at h1
  cases h1
  refine ⟨h2, ?_⟩
  intro B x hx hwf
  refine ⟨Tensor.tab2 B width fun s r => sumL ((List.range n).map fun q => x.get [s, q] * w.get [r, q]), ?_, rfl, Tensor.wf_tabulate _ _, ?_⟩
  · unfold linearNoBias; rw [hx, h3]; simp
  · intro b hb r hr
    rw [Tensor.get_tab2 hb hr, sumL_range]

/-- One rotation: the layer is the identity. -/
theorem rotation_one {n : ℕ} (hn : 0 < n) {w : Tensor ℝ} {width : ℕ} (h : fixedRotationLayer n 1 true = .ok (w, width)) :
    width = n ∧ AgreeOn n (linearNoBias w) fun x => .ok x := by
  obtain ⟨w', h1, h2, -, h4⟩ := fixedRotationLayer_ok (K := ℝ) n 1 hn le_rfl true
  have h1' : fixedRotationLayer n 1 true = .ok (w', n + n * (n - 1) * (1 - 1)) := h1
  have hc := (rotation_computes (R := 1) hn le_rfl h1').2
  rw [h] at h1'
  cases h1'
  have hw : n + n * (n - 1) * (1 - 1) = n := by simp
  refine ⟨hw, ?_⟩
  have hrow : ∀ r < n, ∀ k < n, w.get [r, k] = if k = r then 1 else 0 := by
    intro r hr k hk
    obtain ⟨row, -, hr2, hr3⟩ := h4 r (by omega)
    rw [hr3 k hk]
    have e : (combos n 1 true : List (List ℝ)) = (List.range n).map fun i => (List.replicate n (0 : ℝ)).set i 1 := by
      unfold combos
      rw [List.map_eq_flatMap]
      congr 1
      funext i
      simp
    rw [e, List.getElem?_map, List.getElem?_range hr] at hr2
    cases hr2
    exact unit_row hr k hk
  intro B x hx hwf
  obtain ⟨y, y1, y2, y3, y4⟩ := hc B x hx hwf
  rw [y1]
  congr 1
  rw [hw] at y2 y4
  apply Tensor.ext_get y3 hwf (by rw [y2, hx])
  intro idx hidx
  rw [y2] at hidx
  obtain ⟨b, o, rfl, hb, ho⟩ := inShape2_exists hidx
  rw [y4 b hb o ho]
  beta_reduce
  rw [Finset.sum_eq_single o]
  · rw [hrow o ho o ho, if_pos rfl, mul_one]
  · intro k hk hko
    rw [hrow o ho k (Finset.mem_range.1 hk), if_neg hko, mul_zero]
  · intro h; exact absurd (Finset.mem_range.2 ho) h

section
variable {K : Type} [TorchScalar K]

/-- **C77 (errors).** Fewer than one rotation is a `ValueError`, in both functions; otherwise an error of `HighOrderMLP` is passed on. -/
theorem C77_errors (rng : Rng K) (a : TransformArgs K) (h0 : Heap K) :
    (a.rotations < 1 → transformMlp rng a h0 = .error .valueError) ∧
    (∀ (nonLin : Option ℕ) (norm : Option (Fwd K)), a.rotations < 1 →
      transformLowMlp rng a.inWidth a.hiddenWidth a.outWidth a.hiddenLayers nonLin norm a.rotations h0 = .error .valueError) ∧
    (∀ w width e, fixedRotationLayer a.inWidth a.rotations true = .ok (w, width) →
      mlpInit rng (a.mlpArgs width) (h0 ++ [.other (linearNoBias w)]) = .error e → transformMlp rng a h0 = .error e) := by
  refine ⟨fun h => ?_, fun _ _ h => ?_, fun w width e h1 h2 => ?_⟩
  · simp only [transformMlp, C40_rejects _ _ _ h, bind, Except.bind]
  · simp only [transformLowMlp, C40_rejects _ _ _ h, bind, Except.bind]
  · simp only [transformMlp, h1, h2, bind, Except.bind]

omit [TorchScalar K] in
theorem seq_two_child {h : Heap K} {net r m : ℕ} (hs : h[net]? = some (.seq [r, m])) {f : Fwd K} (hr : h[r]? = some (.other f)) {j : ℕ} :
    ReflTransGen h.Child net j ↔ j = net ∨ j = r ∨ ReflTransGen h.Child m j := by
  constructor
  · intro hj
    rcases ReflTransGen.cases_head hj with rfl | ⟨c, hc, hcj⟩
    · exact Or.inl rfl
    · obtain ⟨m', hm', hc⟩ := hc
      rw [hs] at hm'
      cases hm'
      simp only [Mod.children, List.mem_cons, List.not_mem_nil, or_false] at hc
      rcases hc with rfl | rfl
      · rcases ReflTransGen.cases_head hcj with rfl | ⟨d, ⟨m', hm', hd⟩, -⟩
        · exact Or.inr (Or.inl rfl)
        · rw [hr] at hm'
          cases hm'
          cases hd
      · exact Or.inr (Or.inr hcj)
  · rintro (rfl | rfl | hj)
    · exact .refl
    · exact .single ⟨_, hs, by simp [Mod.children]⟩
    · exact .head ⟨_, hs, by simp [Mod.children]⟩ hj

/-- `Sequential(fixed_input, network)`. -/
theorem seq_two {h1 h : Heap K} {net r m : ℕ} {f : Fwd K} (hs : h1[net]? = some (.seq [r, m])) (hr : h1[r]? = some (.other f)) (hl : h1.Later h) (ho : h.Ordered) :
    h.forward net = (fun x => f x >>= h.forward m) ∧ (∀ j, j ∈ h.parameters net ↔ j ∈ h.parameters m) ∧
      h.model net = .error .attributeError := by
  have hs' : h[net]? = some (.seq [r, m]) := hl.same hs rfl
  obtain ⟨hr', hf⟩ := later_other hl ho hr
  have hnet := (List.getElem?_eq_some_iff.1 hs').1
  have hm : m < net := ho net _ hs' m (by simp [Mod.refs, Mod.hidden, Mod.children])
  refine ⟨?_, ?_, ?_⟩
  · rw [Heap.forward_eq ho hs']
    funext x
    simp only [Mod.forward, List.map_cons, List.map_nil, seqForward, hf, bind, Except.bind]
    cases f x with
    | error e => rfl
    | ok y =>
      dsimp only
      cases h.forward m y <;> rfl
  · intro j
    rw [mem_parameters ho hnet, mem_parameters ho (by omega), seq_two_child hs' hr']
    constructor
    · rintro ⟨rfl | rfl | hj, mm, h2, h3⟩
      · rw [hs'] at h2; cases h2; cases h3
      · rw [hr'] at h2; cases h2; cases h3
      · exact ⟨hj, mm, h2, h3⟩
    · rintro ⟨hj, hm⟩
      exact ⟨Or.inr (Or.inr hj), hm⟩
  · simp only [Heap.model, hs']

theorem mlpInit_grows {rng : Rng K} {c : MLPArgs K} {h0 h1 : Heap K} {net : ℕ} {kind kindIn : FcKind} (hk : fcTable.lookup c.layerType = some kind)
    (hki : fcTable.lookup (orStr c.layerTypeIn c.layerType) = some kindIn) (hI : Usable kindIn c.inputArgs)
    (hH : Usable kind c.hiddenArgs) (hO : Usable kind c.outputArgs) (hord : h0.Ordered) {nl : Fwd K}
    (hnl : ∀ j ∈ c.nonLinearity, h0[j]? = some (.other nl)) (hb : mlpInit rng c h0 = .ok (net, h1)) :
    (∃ D, h1 = h0 ++ D) ∧ h1.Ordered ∧ net < h1.length := by
  obtain ⟨g, D, -, -, -, -, e1, -, e3, hn⟩ := mlpInit_net rng hk hki hI hH hO hord hnl
  rw [hb] at e1
  cases e1
  exact ⟨⟨D, rfl⟩, e3, hn.length_lt⟩

/-- **C77 (structure).** For usable layer types `transform_mlp` succeeds. The result computes, at any time of training, the fixed rotation (which training
does not change) and then a `HighOrderMLP` with `in_width + in_width (in_width - 1) (rotations - 1)` inputs; its trainable parameters are those of this
network. -/
theorem C77_structure (rng : Rng K) {a : TransformArgs K} {R : ℕ} (hR : a.rotations = R) (hR1 : 1 ≤ R) (hn : 0 < a.inWidth) {kind : FcKind}
    (hk : fcTable.lookup a.layerType = some kind) :
    let c := a.mlpArgs (a.inWidth + a.inWidth * (a.inWidth - 1) * (R - 1))
    ∀ (_ : Usable kind c.inputArgs) (_ : Usable kind c.hiddenArgs) (_ : Usable kind c.outputArgs) {h0 : Heap K} (_ : h0.Ordered),
      ∃ net h1 w mlp hm, transformMlp rng a h0 = .ok (net, h1) ∧ fixedRotationLayer a.inWidth R true = .ok (w, c.inWidth) ∧
        mlpInit rng c (h0 ++ [.other (linearNoBias w)]) = .ok (mlp, hm) ∧ (∃ D, h1 = h0 ++ D) ∧ h1.Ordered ∧
        ∀ h : Heap K, h1.Later h → h.Ordered → hm.Later h ∧ h.forward net = (fun x => linearNoBias w x >>= h.forward mlp) ∧
          ∀ j, j ∈ h.parameters net ↔ j ∈ h.parameters mlp := by
  intro c hI hH hO h0 hord
  obtain ⟨w, h1, h2, -, -⟩ := fixedRotationLayer_ok (K := K) a.inWidth R hn hR1 true
  have hord1 : Heap.Ordered (h0 ++ [.other (linearNoBias w)]) := hord.append_one (by intro j hj; cases hj)
  have hki : fcTable.lookup (orStr c.layerTypeIn c.layerType) = some kind := by simpa [orStr, c, TransformArgs.mlpArgs] using hk
  have hnl : ∀ j ∈ c.nonLinearity, (h0 ++ [.other (linearNoBias w)])[j]? = some (.other (linearNoBias w)) := by
    intro j hj; simp [c, TransformArgs.mlpArgs] at hj
  obtain ⟨mlp, hm, e, -⟩ := C57_structure rng hk hki hI hH hO hord1 hnl
  obtain ⟨⟨D, rfl⟩, ho1, hlt⟩ := mlpInit_grows hk hki hI hH hO hord1 hnl e
  have hbuilt : transformMlp rng a h0 = .ok ((h0 ++ [Mod.other (linearNoBias w)] ++ D).length,
      h0 ++ [Mod.other (linearNoBias w)] ++ D ++ [.seq [h0.length, mlp]]) := by
    simp only [transformMlp, hR, h1, bind, Except.bind]
    have e' : mlpInit rng (a.mlpArgs (a.inWidth + a.inWidth * (a.inWidth - 1) * (R - 1))) (h0 ++ [.other (linearNoBias w)])
      = .ok (mlp, h0 ++ [Mod.other (linearNoBias w)] ++ D) := e
    rw [e']
  refine ⟨_, _, w, mlp, _, hbuilt, h1, e, ⟨[Mod.other (linearNoBias w)] ++ D ++ [.seq [h0.length, mlp]], by simp⟩, ?_, ?_⟩
  · apply ho1.append_one
    intro j hj
    simp only [Mod.refs, Mod.hidden, Mod.children, List.nil_append, List.mem_cons, List.not_mem_nil, or_false] at hj
    rcases hj with rfl | rfl
    · simp
    · exact hlt
  · intro h hl ho
    obtain ⟨f1, f2, -⟩ := seq_two (r := h0.length) (m := mlp) (f := linearNoBias w) (net := (h0 ++ [Mod.other (linearNoBias w)] ++ D).length)
      (List.getElem?_concat_length ..) (by simp) hl ho
    exact ⟨hl.prefix rfl, f1, f2⟩

omit [TorchScalar K] in
/-- **C77 (arguments).** What the inner network is asked for: everything as given to `transform_mlp`, no other type of input layer, no nonlinearity,
no dropout. -/
theorem C77_arguments [TorchScalar K] (a : TransformArgs K) (width : ℕ) :
    let c := a.mlpArgs width
    (c.layerType, c.layerTypeIn, c.inWidth, c.hiddenWidth, c.outWidth, c.hiddenLayers) =
      (a.layerType, none, width, a.hiddenWidth, a.outWidth, a.hiddenLayers) ∧
    (c.n, c.nIn, c.nHidden, c.nOut) = (a.n, a.nIn, a.nHidden, a.nOut) ∧
    (c.inSegments, c.hiddenSegments, c.outSegments) = (a.inSegments, a.hiddenSegments, a.outSegments) ∧
    (c.periodicity, c.scale, c.resnet, c.normalization) = (a.periodicity, a.scale, a.resnet, a.normalization) ∧
    (c.nonLinearity, c.dropout) = (none, 0) := ⟨rfl, rfl, rfl, rfl, rfl⟩

/-- **C77 (refinement functions).** The result is a `Sequential` without attribute `model`: `interpolate_high_order_mlp`, `hp_refine_high_order_mlp`
and `smooth_discontinuous_network` raise `AttributeError` and change nothing; they have to be given its second element. -/
theorem C77_not_refinable {rng : Rng K} {a : TransformArgs K} {h0 h1 : Heap K} {net : ℕ} (hb : transformMlp rng a h0 = .ok (net, h1))
    {h : Heap K} (hl : h1.Later h) (other : ℕ) (factor : K) :
    interpolateNetwork net other h = (.error .attributeError, h) ∧ interpolateNetwork other net h = (.error .attributeError, h) ∧
    refineNetwork net other h = (.error .attributeError, h) ∧ refineNetwork other net h = (.error .attributeError, h) ∧
    smoothNetwork net factor h = (.error .attributeError, h) := by
  have hmodel : h.model net = .error .attributeError := by
    simp only [transformMlp, bind, Except.bind] at hb
    cases e1 : (fixedRotationLayer a.inWidth a.rotations true : Py (Tensor K × ℕ)) with
    | error e => rw [e1] at hb; cases hb
    | ok p =>
      rw [e1] at hb
      dsimp only at hb
      cases e2 : mlpInit rng (a.mlpArgs p.2) (h0 ++ [.other (linearNoBias p.1)]) with
      | error e => rw [e2] at hb; cases hb
      | ok r =>
        rw [e2] at hb
        cases hb
        have : h[r.2.length]? = some (.seq [h0.length, r.1]) := hl.same (List.getElem?_concat_length ..) rfl
        simp only [Heap.model, this]
  refine ⟨?_, ?_, ?_, ?_, ?_⟩
  · simp only [interpolateNetwork, transferNetwork, hmodel]
  · simp only [interpolateNetwork, transferNetwork, hmodel]
    cases h.model other <;> rfl
  · simp only [refineNetwork, transferNetwork, hmodel]
  · simp only [refineNetwork, transferNetwork, hmodel]
    cases h.model other <;> rfl
  · simp only [smoothNetwork, hmodel]

/-- **C77 (low order).** `transform_low_mlp` with at least one rotation succeeds, and computes the fixed rotation and then a `LowOrderMLP`. -/
theorem C77_low_structure (rng : Rng K) {inW hidW outW H R : ℕ} (hR1 : 1 ≤ R) (hn : 0 < inW) {nonLin : Option ℕ} (norm : Option (Fwd K)) {nl : Fwd K}
    {h0 : Heap K} (hord : h0.Ordered) (hnl : ∀ j ∈ nonLin, h0[j]? = some (.other nl)) :
    ∃ net h1 w mlp hm, transformLowMlp rng inW hidW outW H nonLin norm R h0 = .ok (net, h1) ∧
      fixedRotationLayer inW R true = .ok (w, inW + inW * (inW - 1) * (R - 1)) ∧
      lowMlpInit rng (inW + inW * (inW - 1) * (R - 1)) outW H hidW nonLin norm (h0 ++ [.other (linearNoBias w)]) = (mlp, hm) ∧
      (∃ D, h1 = h0 ++ D) ∧ h1.Ordered ∧
      ∀ h : Heap K, h1.Later h → h.Ordered → hm.Later h ∧ h.forward net = (fun x => linearNoBias w x >>= h.forward mlp) ∧
        ∀ j, j ∈ h.parameters net ↔ j ∈ h.parameters mlp := by
  obtain ⟨w, h1, h2, -, -⟩ := fixedRotationLayer_ok (K := K) inW R hn hR1 true
  have hord1 : Heap.Ordered (h0 ++ [.other (linearNoBias w)]) := hord.append_one (by intro j hj; cases hj)
  have hnl' : ∀ j ∈ nonLin, (h0 ++ [.other (linearNoBias w)])[j]? = some (.other nl) := fun j hj => getElem?_append_of_some (hnl j hj) _
  obtain ⟨ids, s, -, -, hres⟩ := lowMlpInit_inv rng hord1 (inW + inW * (inW - 1) * (R - 1)) outW H hidW norm hnl'
  obtain ⟨mlp, hm, e⟩ : ∃ mlp hm, lowMlpInit rng (inW + inW * (inW - 1) * (R - 1)) outW H hidW nonLin norm (h0 ++ [.other (linearNoBias w)]) = (mlp, hm) :=
    ⟨_, _, rfl⟩
  obtain ⟨⟨D, rfl⟩, ho1, -⟩ := C76_structure rng hord1 (inW + inW * (inW - 1) * (R - 1)) outW H hidW norm hnl' e
  have hlt : mlp < (h0 ++ [Mod.other (linearNoBias w)] ++ D).length := by
    rw [e] at hres
    have e1 : mlp = s.2.length + 1 := congrArg Prod.fst hres
    have e2 : h0 ++ [Mod.other (linearNoBias w)] ++ D = s.2 ++ [.seq s.1, .wrap s.2.length] := congrArg Prod.snd hres
    rw [e1, e2, List.length_append]
    simp
  have hbuilt : transformLowMlp rng inW hidW outW H nonLin norm R h0 = .ok ((h0 ++ [Mod.other (linearNoBias w)] ++ D).length,
      h0 ++ [Mod.other (linearNoBias w)] ++ D ++ [.seq [h0.length, mlp]]) := by
    simp only [transformLowMlp, h1, bind, Except.bind, e]
  refine ⟨_, _, w, mlp, _, hbuilt, h1, e, ⟨[Mod.other (linearNoBias w)] ++ D ++ [.seq [h0.length, mlp]], by simp⟩, ?_, ?_⟩
  · apply ho1.append_one
    intro j hj
    simp only [Mod.refs, Mod.hidden, Mod.children, List.nil_append, List.mem_cons, List.not_mem_nil, or_false] at hj
    rcases hj with rfl | rfl
    · simp
    · exact hlt
  · intro h hl ho
    obtain ⟨f1, f2, -⟩ := seq_two (r := h0.length) (m := mlp) (f := linearNoBias w) (net := (h0 ++ [Mod.other (linearNoBias w)] ++ D).length)
      (List.getElem?_concat_length ..) (by simp) hl ho
    exact ⟨hl.prefix rfl, f1, f2⟩

end

theorem Spec.ComputesContinuous.before {f g : Fwd ℝ} {w w' w'' : ℕ} (hf : ComputesContinuous f w w') (hg : ComputesContinuous g w' w'') :
    ComputesContinuous (fun x => f x >>= g) w w'' := by
  have : (fun x => f x >>= g) = seqForward [f, g] := by
    funext x
    simp only [seqForward, bind, Except.bind]
    cases f x with
    | error e => rfl
    | ok y =>
      dsimp only
      cases g y <;> rfl
  rw [this]
  exact hf.cons (hg.cons (.nil w''))

theorem rotation_continuous {n R : ℕ} (hn : 0 < n) (hR : 1 ≤ R) {w : Tensor ℝ} {width : ℕ}
    (h : fixedRotationLayer n (R : ℤ) true = .ok (w, width)) : ComputesContinuous (linearNoBias w) n width := by
  refine .of_local (rotation_computes hn hR h).2 (fun r _ => by fun_prop) ?_
  intro r _ v v' hv
  apply Finset.sum_congr rfl
  intro q hq
  rw [hv q (Finset.mem_range.1 hq)]

section
variable (rng : Rng ℝ) {a : TransformArgs ℝ} {R : ℕ} (hR : a.rotations = R) (hR1 : 1 ≤ R) (hn : 0 < a.inWidth) {kind : FcKind}
    (hk : fcTable.lookup a.layerType = some kind)
    (hI : Usable kind (a.mlpArgs (a.inWidth + a.inWidth * (a.inWidth - 1) * (R - 1))).inputArgs)
    (hH : Usable kind (a.mlpArgs (a.inWidth + a.inWidth * (a.inWidth - 1) * (R - 1))).hiddenArgs)
    (hO : Usable kind (a.mlpArgs (a.inWidth + a.inWidth * (a.inWidth - 1) * (R - 1))).outputArgs) {h0 : Heap ℝ} (hord : h0.Ordered)
    {net : ℕ} {h1 h : Heap ℝ} (hb : transformMlp rng a h0 = .ok (net, h1)) (hl : h1.Later h) (ho : h.Ordered)

include hR hR1 hn hk hI hH hO hord hb hl ho

/-- **C77 (shapes).** `[batch, in_width]` goes to `[batch, out_width]` for all weights and batch sizes, if the normalization keeps `[batch, hidden_width]`. -/
theorem C77_shape (hnorm : ∀ f ∈ a.normalization, MapsTo f a.hiddenWidth a.hiddenWidth) : MapsTo (h.forward net) a.inWidth a.outWidth := by
  obtain ⟨net', h1', w, mlp, hm, e1, e2, e3, -, -, hall⟩ := C77_structure rng hR hR1 hn hk hI hH hO hord
  rw [hb] at e1
  cases e1
  obtain ⟨hl', hf, -⟩ := hall h hl ho
  have hord1 : Heap.Ordered (h0 ++ [.other (linearNoBias w)]) := hord.append_one (by intro j hj; cases hj)
  have hmlp := C57_shape rng (nl := linearNoBias w) hk (by simpa [orStr, TransformArgs.mlpArgs] using hk) hI hH hO hord1
    (by intro j hj; simp [TransformArgs.mlpArgs] at hj) (by
      intro f hf
      simp [preFns, TransformArgs.mlpArgs] at hf
      exact hnorm f hf) e3 hl' ho
  intro B x hx hwf
  obtain ⟨y, y1, y2, y3, -⟩ := (rotation_computes hn hR1 e2).2 B x hx hwf
  obtain ⟨z, z1, z2, z3⟩ := hmlp B y y2 y3
  refine ⟨z, ?_, z2, z3⟩
  rw [hf]
  simp only [bind, Except.bind, y1]
  exact z1

/-- **C77 (continuity).** With layers without jumps and a positive periodicity the whole network is continuous, for all weights. -/
theorem C77_continuous (hj : kind.jumpFree) (hper : ∀ q ∈ a.periodicity, 0 < q)
    (hnorm : ∀ f ∈ a.normalization, ComputesContinuous f a.hiddenWidth a.hiddenWidth) : ComputesContinuous (h.forward net) a.inWidth a.outWidth := by
  obtain ⟨net', h1', w, mlp, hm, e1, e2, e3, -, -, hall⟩ := C77_structure rng hR hR1 hn hk hI hH hO hord
  rw [hb] at e1
  cases e1
  obtain ⟨hl', hf, -⟩ := hall h hl ho
  have hord1 : Heap.Ordered (h0 ++ [.other (linearNoBias w)]) := hord.append_one (by intro j hj; cases hj)
  have hmlp := C72_network_continuous rng (nl := linearNoBias w) hk (by simpa [orStr, TransformArgs.mlpArgs] using hk) hI hH hO hj hj hper hord1
    (by intro j hj; simp [TransformArgs.mlpArgs] at hj) (by
      intro f hf
      simp [preFns, TransformArgs.mlpArgs] at hf
      exact hnorm f hf) e3 hl' ho
  rw [hf]
  exact (rotation_continuous hn hR1 e2).before hmlp

/-- **C77 (one rotation).** With `rotations=1` the result is the inner `HighOrderMLP` of `in_width` inputs itself. -/
theorem C77_one_rotation (h1R : R = 1) : ∃ w mlp hm, mlpInit rng (a.mlpArgs a.inWidth) (h0 ++ [.other (linearNoBias w)]) = .ok (mlp, hm) ∧
    hm.Later h ∧ AgreeOn a.inWidth (h.forward net) (h.forward mlp) := by
  subst h1R
  obtain ⟨net', h1', w, mlp, hm, e1, e2, e3, -, -, hall⟩ := C77_structure rng hR hR1 hn hk hI hH hO hord
  rw [hb] at e1
  cases e1
  obtain ⟨hl', hf, -⟩ := hall h hl ho
  obtain ⟨-, hid⟩ := rotation_one hn e2
  refine ⟨w, mlp, hm, by simpa using e3, hl', ?_⟩
  intro B x hx hwf
  rw [hf]
  beta_reduce
  rw [hid B x hx hwf]
  rfl

end

/-- Two inputs, three rotations, continuous layers with three nodes and two segments, resnet: the network is built, takes `[batch, 2]` to `[batch, 1]` and is continuous, for
all weights. -/
example (rng : Rng ℝ) : ∃ net h1, transformMlp rng
      { layerType := "continuous", inWidth := 2, hiddenWidth := 4, outWidth := 1, n := .int 3, nIn := none, nHidden := none, nOut := none
        inSegments := some (.int 2), hiddenSegments := some (.int 2), outSegments := some (.int 2), hiddenLayers := 2, rotations := 3
        scale := 2, periodicity := some 2, normalization := none, resnet := true } [] = .ok (net, h1) ∧
    ComputesContinuous (h1.forward net) 2 1 := by
  set a : TransformArgs ℝ := { layerType := "continuous", inWidth := 2, hiddenWidth := 4, outWidth := 1, n := .int 3, nIn := none, nHidden := none, nOut := none
                               inSegments := some (.int 2), hiddenSegments := some (.int 2), outSegments := some (.int 2), hiddenLayers := 2, rotations := 3
                               scale := 2, periodicity := some 2, normalization := none, resnet := true } with ha
  have hk : fcTable.lookup a.layerType = some (.leaf (.pw .continuous)) := by rw [ha]; rfl
  have hI : Usable (.leaf (.pw .continuous)) (a.mlpArgs (a.inWidth + a.inWidth * (a.inWidth - 1) * (3 - 1))).inputArgs :=
    ⟨3, 2, rfl, rfl, by norm_num, by norm_num, by simp [MLPArgs.inputArgs, TransformArgs.mlpArgs, ha], by simp [MLPArgs.inputArgs, TransformArgs.mlpArgs, ha]⟩
  have hH : Usable (.leaf (.pw .continuous)) (a.mlpArgs (a.inWidth + a.inWidth * (a.inWidth - 1) * (3 - 1))).hiddenArgs :=
    ⟨3, 2, rfl, rfl, by norm_num, by norm_num, by simp [MLPArgs.hiddenArgs, TransformArgs.mlpArgs, ha], by simp [MLPArgs.hiddenArgs, TransformArgs.mlpArgs, ha]⟩
  have hO : Usable (.leaf (.pw .continuous)) (a.mlpArgs (a.inWidth + a.inWidth * (a.inWidth - 1) * (3 - 1))).outputArgs :=
    ⟨3, 2, rfl, rfl, by norm_num, by norm_num, by simp [MLPArgs.outputArgs, TransformArgs.mlpArgs, ha], by simp [MLPArgs.outputArgs, TransformArgs.mlpArgs, ha]⟩
  have hord : Heap.Ordered ([] : Heap ℝ) := by intro i m hm; simp at hm
  have hn : 0 < a.inWidth := by rw [ha]; norm_num
  obtain ⟨net, h1, w, mlp, hm, e1, -, -, -, ho, -⟩ := C77_structure rng (a := a) (R := 3) rfl (by norm_num) hn hk hI hH hO hord
  refine ⟨net, h1, e1, ?_⟩
  exact C77_continuous rng (a := a) (R := 3) rfl (by norm_num) hn hk hI hH hO hord e1 (.refl h1) ho (by simp [FcKind.jumpFree])
    (by intro q hq; simp [ha] at hq; subst hq; norm_num) (by intro f hf; simp [ha] at hf)

/-- No rotation at all is rejected. -/
example (rng : Rng ℝ) : transformLowMlp rng 2 4 1 1 none none 0 [] = .error .valueError := by
  simp only [transformLowMlp, C40_rejects _ _ _ (show (0 : ℤ) < 1 by norm_num), bind, Except.bind]

end HOL
