import Verif.Lemmas.Modules
import Verif.Props.Network
import Verif.Props.LowOrder
import Verif.Props.Trainable

/-! # C78, C79: networks and optimizers chosen by a configuration -/

namespace HOL
open TorchScalar Spec Relation

section
set_option linter.unusedSectionVars false
variable {K : Type} [TorchScalar K]

/-- What the flag `normalize` stands for in the fully connected networks: anything but `true` means none. -/
def Spec.normOf (W : World K) (v : Cfg K) : Option (Fwd K) :=
  match v with
  | .bool true => some (W.bn defaultEps)
  | _ => none

theorem selectNormalization_ok (W : World K) {cfg v : Cfg K} (h : NetEntry cfg ["normalize"] v) :
    selectNormalization W cfg = .ok (normOf W v) := by
  have h' : cfg.path ["net", "normalize"] = .ok v := h
  unfold selectNormalization
  simp only [h', bind, Except.bind]
  unfold normOf
  split <;> simp_all

/-- The arguments of `HighOrderMLP` for the values of a configuration: **the hidden layers get `n_in`**. -/
def Spec.highOrderArgs (layerType : String) (n : IntOrList) (nIn nOut : Option IntOrList) (inWidth hiddenWidth outWidth hiddenLayers : ℕ)
    (inSegments hiddenSegments outSegments : Option IntOrList) (normalization : Option (Fwd K)) : MLPArgs K :=
  { layerType := layerType, layerTypeIn := none, n := n, nIn := nIn, nOut := nOut, nHidden := nIn, inWidth := inWidth, outWidth := outWidth
    hiddenLayers := hiddenLayers, hiddenWidth := hiddenWidth, inSegments := inSegments, outSegments := outSegments
    hiddenSegments := hiddenSegments, periodicity := none, normalization := normalization, nonLinearity := none, resnet := false, dropout := 0
    dropoutFn := fun x => .ok x, scale := ((2 : ℕ) : K), rescaleOutput := false, initialization := "constant_random" }

section
variable {cfg v : Cfg K} {layerType : String} {n : IntOrList} {nIn nOut : Option IntOrList} {inWidth hiddenWidth outWidth hiddenLayers : ℕ}
  {inSegments hiddenSegments outSegments : Option IntOrList}

/-- **C78 (uniform networks).** `select_network` is `HighOrderMLP` without periodicity, nonlinearity, residual connections and dropout, whose hidden layers get the
order `n_in` of the configuration; no other entries (such as `n_hidden` and `periodicity`) are read. -/
theorem C78_high_order (W : World K) (hv : NetEntry cfg ["normalize"] v)
    (h : AsksHighOrder cfg layerType n nIn nOut inWidth hiddenWidth outWidth hiddenLayers inSegments hiddenSegments outSegments) (h0 : Heap K) :
    selectNetwork W cfg h0 = asModule (mlpInit W.rng
      (highOrderArgs layerType n nIn nOut inWidth hiddenWidth outWidth hiddenLayers inSegments hiddenSegments outSegments (normOf W v)) h0) := by
  obtain ⟨a1, a2, a3, a4, a5, a6, a7, a8, a9, a10, a11, a12⟩ := h
  unfold NetEntry at a1 a2 a3 a4 a5 a6 a7 a8 a9 a10 a11 a12
  unfold selectNetwork
  rw [selectNormalization_ok W hv]
  simp only [bind, Except.bind, a1]
  congr 1
  unfold selectHighOrder
  simp only [bind, Except.bind, a2, a3, a4, a5, a6, a7, a8, a9, a10, a11, a12, Cfg.toStr, toIntOrList_c, toOption_intOrList, toNat_cNat]
  rfl

/-- **C78 (order of the hidden layers).** If `n_in` is a positive number `p`, the input layer and all hidden layers have order `p`, whatever `n` and
`n_hidden` are; the output layer has order `n_out`, and without it `n`. (`0 < 0` is false: the dropout of `HighOrderMLP` is off.) -/
theorem C78_hidden_order (W : World K) (hv : NetEntry cfg ["normalize"] v) (h00 : ltB (0 : K) 0 = false) {p q : ℕ} (hp : 0 < p)
    (h : AsksHighOrder cfg layerType (.int q) (some (.int p)) none inWidth hiddenWidth outWidth hiddenLayers inSegments hiddenSegments outSegments)
    {kind : FcKind} (hk : fcTable.lookup layerType = some kind) {h0 : Heap K} (hord : h0.Ordered) :
    let c := highOrderArgs layerType (.int q) (some (.int p)) none inWidth hiddenWidth outWidth hiddenLayers inSegments hiddenSegments outSegments (normOf W v)
    ∀ (_ : Usable kind c.inputArgs) (_ : Usable kind c.hiddenArgs) (_ : Usable kind c.outputArgs),
      ∃ net h1, selectNetwork W cfg h0 = .ok (.module net h1) ∧ h1.Ordered ∧
        ∃ (inp out : ℕ) (hid : ℕ → ℕ) (ai ah ao : FcArgs K), (ai.n, ah.n, ao.n) = (.int p, .int p, .int q) ∧
          (ai.periodicity, ah.periodicity, ao.periodicity) = (none, none, none) ∧
          (ai.inFeatures, ai.outFeatures, ah.inFeatures, ah.outFeatures, ao.inFeatures, ao.outFeatures)
            = (inWidth, hiddenWidth, hiddenWidth, hiddenWidth, hiddenWidth, outWidth) ∧
          (ai.segments, ah.segments, ao.segments) = (inSegments, hiddenSegments, outSegments) ∧
          ∀ h : Heap K, h1.Later h → h.Ordered → IsLayer kind ai h inp ∧ (∀ i < hiddenLayers, IsLayer kind ah h (hid i)) ∧ IsLayer kind ao h out ∧
            h.forward net = compose (normOf W v).toList (h.forward inp)
              ((List.range hiddenLayers).map (fun i => h.forward (hid i)) ++ [h.forward out]) := by
  intro c hI hH hO
  have hnl : ∀ j ∈ c.nonLinearity, h0[j]? = some (.other fun x => .ok x) := by intro j hj; cases hj
  obtain ⟨net, h1, e1, -, e3, inp, out, hid, -, hall⟩ := C57_structure W.rng (c := c) (kind := kind) (kindIn := kind) hk hk hI hH hO hord hnl
  refine ⟨net, h1, ?_, e3, inp, out, hid, c.inputArgs, c.hiddenArgs, c.outputArgs, ?_, rfl, rfl, rfl, fun h hl ho => ?_⟩
  · rw [C78_high_order W hv h h0, e1]; rfl
  · have hp' : p ≠ 0 := by omega
    simp [c, highOrderArgs, MLPArgs.inputArgs, MLPArgs.hiddenArgs, MLPArgs.outputArgs, orElse, IntOrList.truthy, hp']
  · obtain ⟨b1, b2, b3, b4, -⟩ := hall h hl ho
    refine ⟨b1, b2, b3, ?_⟩
    rw [b4 rfl]
    congr 1
    simp [c, preFns, highOrderArgs, h00]

end

/-! ## unknown types -/

/-- **C78 (unknown type).** For any other value of `net.model_type` the error message itself reads `cfg.model_type`: without such an entry beside `net` the error is an
`AttributeError`, with it the intended `ValueError`. -/
theorem C78_unknown_type (W : World K) {cfg v t : Cfg K} (hv : NetEntry cfg ["normalize"] v) (ht : NetEntry cfg ["model_type"] t)
    (h : ∀ s ∈ ["high_order_input", "high_order", "high_order_conv", "high_order_tail_focus"], t ≠ .str s) (h0 : Heap K) :
    (cfg.attr "model_type" = .error .attributeError → selectNetwork W cfg h0 = .error .attributeError) ∧
    (∀ u, cfg.attr "model_type" = .ok u → selectNetwork W cfg h0 = .error .valueError) := by
  have ht' : cfg.path ["net", "model_type"] = .ok t := ht
  have key : selectNetwork W cfg h0 = unknownModelType cfg := by
    unfold selectNetwork
    rw [selectNormalization_ok W hv]
    simp only [bind, Except.bind, ht']
    split
    · exact absurd rfl (h "high_order_input" (by simp))
    · exact absurd rfl (h "high_order" (by simp))
    · exact absurd rfl (h "high_order_conv" (by simp))
    · exact absurd rfl (h "high_order_tail_focus" (by simp))
    · rfl
  rw [key]
  constructor
  · intro hu; simp only [unknownModelType, hu, bind, Except.bind]
  · intro u hu; simp only [unknownModelType, hu, bind, Except.bind]

/-- **C78 (missing entries).** Without `net.normalize` or without `net.model_type` there is an `AttributeError`. -/
theorem C78_missing (W : World K) (cfg : Cfg K) (h0 : Heap K) :
    (cfg.path ["net", "normalize"] = .error .attributeError → selectNetwork W cfg h0 = .error .attributeError) ∧
    (∀ v, NetEntry cfg ["normalize"] v → cfg.path ["net", "model_type"] = .error .attributeError → selectNetwork W cfg h0 = .error .attributeError) := by
  constructor
  · intro h; simp only [selectNetwork, selectNormalization, h, bind, Except.bind]
  · intro v hv h
    unfold selectNetwork
    rw [selectNormalization_ok W hv]
    simp only [h, bind, Except.bind]

/-! ## high order input -/

/-- The arguments of the input layer. -/
def Spec.highOrderInputArgs (n : IntOrList) (inWidth hiddenWidth : ℕ) (segments : Option IntOrList) : FcArgs K :=
  { n := n, inFeatures := inWidth, outFeatures := hiddenWidth, segments := segments, periodicity := none, numInputLayers := 2
    scale := ((2 : ℕ) : K), rescaleOutput := false, initialization := "constant_random" }

section
variable {cfg v : Cfg K} {layerType : String} {n : IntOrList} {inWidth hiddenWidth hiddenLayers : ℕ} {segments : Option IntOrList}

/-- **C78 (output width of the networks with high order input, negative).** The width of the output is read at `cfg.output.width`, not at `cfg.net.output.width`
as for the uniform networks: if the configuration has no entry `output` beside `net`, an `AttributeError` is raised, after the input layer has been made. -/
theorem C78_input_output_width (W : World K) (hv : NetEntry cfg ["normalize"] v) (h : AsksHighOrderInput cfg layerType n inWidth hiddenWidth hiddenLayers segments)
    {kind : FcKind} (hk : fcTable.lookup layerType = some kind) (hI : Usable kind (highOrderInputArgs (K := K) n inWidth hiddenWidth segments))
    (hout : cfg.path ["output", "width"] = .error .attributeError) (h0 : Heap K) : selectNetwork W cfg h0 = .error .attributeError := by
  obtain ⟨a1, a2, a3, a4, a5, a6, a7⟩ := h
  unfold NetEntry at a1 a2 a3 a4 a5 a6 a7
  obtain ⟨F, hF⟩ := hI.builds W.rng
  unfold selectNetwork
  rw [selectNormalization_ok W hv]
  simp only [bind, Except.bind, a1]
  unfold selectHighOrderInput
  have e : fcLayer W.rng layerType (highOrderInputArgs (K := K) n inWidth hiddenWidth segments) h0 = .ok (h0.length + (F h0.length).length - 1, h0 ++ F h0.length) := by
    simp only [fcLayer, hk, hF.ok, bind, Except.bind]
  unfold highOrderInputArgs at e
  simp only [bind, Except.bind, a2, a3, a4, a5, a6, Cfg.toStr, toIntOrList_c, toOption_intOrList, toNat_cNat, e, hout, asModule]

theorem lowWidth_to (w outW H k : ℕ) : lowWidth w outW H w (k + 1) = if k ≤ H then w else outW := by
  simp [lowWidth]

theorem lowWidth_from {w outW H k : ℕ} (hk : k ≤ H + 1) : lowWidth w outW H w k = w := by
  simp [lowWidth, hk]

/-- Parameters of a `Sequential`. -/
theorem parameters_seq {h : Heap K} (ho : h.Ordered) {net : ℕ} {ids : List ℕ} (hs : h[net]? = some (.seq ids)) (j : ℕ) :
    j ∈ h.parameters net ↔ ∃ c ∈ ids, j ∈ h.parameters c := by
  have hnet := (List.getElem?_eq_some_iff.1 hs).1
  have hlt : ∀ c ∈ ids, c < h.length := fun c hc => lt_trans (ho net _ hs c (by simpa [Mod.refs, Mod.hidden, Mod.children] using hc)) hnet
  rw [mem_parameters ho hnet]
  constructor
  · rintro ⟨hr, m, hm, hp⟩
    rcases ReflTransGen.cases_head hr with rfl | ⟨c, ⟨m', hm', hc⟩, hcj⟩
    · rw [hs] at hm; cases hm; cases hp
    · rw [hs] at hm'
      cases hm'
      exact ⟨c, hc, (mem_parameters ho (hlt c hc)).2 ⟨hcj, m, hm, hp⟩⟩
  · rintro ⟨c, hc, hj⟩
    obtain ⟨hr, hm⟩ := (mem_parameters ho (hlt c hc)).1 hj
    exact ⟨.head ⟨_, hs, hc⟩ hr, hm⟩

theorem parameters_other {h : Heap K} (ho : h.Ordered) {i : ℕ} {f : Fwd K} (hi : h[i]? = some (.other f)) (j : ℕ) : j ∉ h.parameters i := by
  rw [mem_parameters ho (List.getElem?_eq_some_iff.1 hi).1]
  rintro ⟨hr, m, hm, hp⟩
  rcases ReflTransGen.cases_head hr with rfl | ⟨c, ⟨m', hm', hc⟩, -⟩
  · rw [hi] at hm; cases hm; cases hp
  · rw [hi] at hm'; cases hm'; cases hc

theorem lowMlp_net_lt (rng : Rng K) {h0 : Heap K} (hord : h0.Ordered) (inW outW H hidW : ℕ) {nonLinearity : Option ℕ}
    (normalization : Option (Fwd K)) {nl : Fwd K} (hnl : ∀ j ∈ nonLinearity, h0[j]? = some (.other nl)) {net : ℕ} {h1 : Heap K}
    (hb : lowMlpInit rng inW outW H hidW nonLinearity normalization h0 = (net, h1)) : net < h1.length := by
  obtain ⟨ids, s, -, -, e⟩ := lowMlpInit_inv rng hord inW outW H hidW normalization hnl
  rw [e] at hb
  cases hb
  simp

/-- **C78 (high order input).** With `cfg.output.width` the network computes, at any time of training, the input layer (without periodicity), the batch normalization if
`normalize` is `true`, and then `hidden.layers + 1` linear layers (2 for `hidden.layers = 0`), with the normalization and ReLU between them. Its parameters are those of
the linear layers and those of the input layer (not counting the batch normalizations). -/
theorem C78_input_structure (W : World K) (hv : NetEntry cfg ["normalize"] v)
    (h : AsksHighOrderInput cfg layerType n inWidth hiddenWidth hiddenLayers segments)
    {kind : FcKind} (hk : fcTable.lookup layerType = some kind) (hI : Usable kind (highOrderInputArgs (K := K) n inWidth hiddenWidth segments))
    {outWidth : ℕ} (hout : cfg.path ["output", "width"] = .ok (cNat outWidth)) {h0 : Heap K} (hord : h0.Ordered) :
    ∃ net h1 inp, selectNetwork W cfg h0 = .ok (.module net h1) ∧ h1.Ordered ∧ ∃ lin : ℕ → ℕ,
      (∀ k ≤ hiddenLayers - 1 + 1, ∀ l ≤ hiddenLayers - 1 + 1, lin k = lin l → k = l) ∧
      ∀ h : Heap K, h1.Later h → h.Ordered →
        IsLayer kind (highOrderInputArgs n inWidth hiddenWidth segments) h inp ∧
        (∀ k ≤ hiddenLayers - 1 + 1, IsLinear h (lin k) hiddenWidth (if k ≤ hiddenLayers - 1 then hiddenWidth else outWidth)) ∧
        h.forward net = seqForward (h.forward inp :: ((normOf W v).toList ++
          [compose ((normOf W v).toList ++ [fun x => .ok (reluT x)]) (h.forward (lin 0))
            ((List.range (hiddenLayers - 1 + 1)).map fun k => h.forward (lin (k + 1)))])) ∧
        ∀ j, j ∈ h.parameters net ↔ j ∈ h.parameters inp ∨ ∃ k ≤ hiddenLayers - 1 + 1, j = lin k := by
  obtain ⟨a1, a2, a3, a4, a5, a6, a7⟩ := h
  unfold NetEntry at a1 a2 a3 a4 a5 a6 a7
  obtain ⟨F, hF⟩ := hI.builds W.rng
  have hlen := hF.len h0.length
  have hpos := hF.pos
  set hA : Heap K := h0 ++ F h0.length with hAdef
  have hAo : hA.Ordered := hord.append (hF.ord h0.length)
  set inp := h0.length + (F h0.length).length - 1 with hinp
  have hinplt : inp < hA.length := by rw [hAdef, List.length_append]; omega
  have hlay : IsLayer kind (highOrderInputArgs (K := K) n inWidth hiddenWidth segments) hA inp := by
    rw [hinp, hlen]
    refine IsLayer.of_lookup hF fun k hk' => ?_
    rw [hAdef, List.getElem?_append_right (by omega)]
    congr 1
    omega
  -- the batch normalization
  set B : Heap K := (normOf W v).toList.map Mod.other with hBdef
  set bid : List ℕ := (normOf W v).toList.map fun _ => hA.length with hbid
  have hABo : Heap.Ordered (hA ++ B) := by
    apply hAo.append
    intro k m hm j hj
    obtain ⟨f, -, rfl⟩ := List.mem_map.1 (List.mem_of_getElem? hm)
    cases hj
  set hC : Heap K := hA ++ B ++ [Mod.other fun x => .ok (reluT x)] with hCdef
  have hCo : hC.Ordered := hABo.append_one (by intro j hj; cases hj)
  have hnl : ∀ j ∈ some (hA ++ B).length, hC[j]? = some (.other fun x => .ok (reluT x)) := by
    rintro j ⟨⟩
    exact List.getElem?_concat_length ..
  obtain ⟨low, hm, e⟩ : ∃ low hm, lowMlpInit W.rng hiddenWidth outWidth (hiddenLayers - 1) hiddenWidth (some (hA ++ B).length) (normOf W v) hC = (low, hm) :=
    ⟨_, _, rfl⟩
  have hlt := lowMlp_net_lt W.rng hCo _ _ _ _ _ hnl e
  obtain ⟨⟨D, hD⟩, hmo, lin, hinj, hall⟩ := C76_structure W.rng hCo _ _ _ _ _ hnl e
  have hel : fcLayer W.rng layerType (highOrderInputArgs (K := K) n inWidth hiddenWidth segments) h0 = .ok (inp, hA) := by
    simp only [fcLayer, hk, hF.ok, bind, Except.bind, hAdef, hinp]
  have hbuilt : selectNetwork W cfg h0 = .ok (.module hm.length (hm ++ [.seq (inp :: bid ++ [low])])) := by
    unfold highOrderInputArgs at hel
    unfold selectNetwork
    rw [selectNormalization_ok W hv]
    simp only [bind, Except.bind, a1]
    unfold selectHighOrderInput
    simp only [bind, Except.bind, a2, a3, a4, a5, a6, a7, Cfg.toStr, toIntOrList_c, toOption_intOrList, toNat_cNat, hel, hout]
    cases hn : normOf W v with
    | none =>
      simp only [hn, hCdef, hBdef, hbid, Option.toList_none, List.map_nil, List.append_nil] at e ⊢
      simp only [e, asModule, bind, Except.bind, List.cons_append, List.nil_append]
    | some f =>
      simp only [hn, hCdef, hBdef, hbid, Option.toList_some, List.map_cons, List.map_nil] at e ⊢
      simp only [e, asModule, bind, Except.bind, List.cons_append, List.nil_append]
  have hAm : ∃ E, hm = hA ++ E := ⟨B ++ [Mod.other fun x => .ok (reluT x)] ++ D, by rw [hD, hCdef]; simp⟩
  have hmlen : hA.length ≤ hm.length := by obtain ⟨E, rfl⟩ := hAm; simp
  refine ⟨_, _, inp, hbuilt, ?_, lin, hinj, ?_⟩
  · apply hmo.append_one
    intro j hj
    simp only [Mod.refs, Mod.hidden, Mod.children, List.nil_append, List.cons_append, List.mem_cons, List.mem_append, List.not_mem_nil, or_false] at hj
    rcases hj with rfl | hj | rfl
    · omega
    · rw [hbid] at hj
      cases hn : normOf W v with
      | none => rw [hn] at hj; simp at hj
      | some f =>
        rw [hn] at hj
        simp only [Option.toList_some, List.map_cons, List.map_nil, List.mem_singleton] at hj
        have : hm.length = hA.length + (B.length + 1 + D.length) := by rw [hD, hCdef]; simp; omega
        omega
    · exact hlt
  · intro h hl ho
    have hlm : hm.Later h := hl.prefix rfl
    obtain ⟨E, hE⟩ := hAm
    obtain ⟨c1, c2, c3⟩ := hall h hlm ho
    have hs' : h[hm.length]? = some (.seq (inp :: bid ++ [low])) := hl.same (List.getElem?_concat_length ..) rfl
    refine ⟨hlay.later (hlm.prefix hE), fun k hk' => ?_, ?_, fun j => ?_⟩
    · have := c1 k hk'
      rwa [lowWidth_from, lowWidth_to] at this
      exact hk'
    · rw [Heap.forward_eq ho hs']
      funext x
      simp only [Mod.forward, List.cons_append, List.map_cons, List.map_append, List.map_nil, c2, Option.isSome_some, if_true]
      congr 3
      rw [hbid, List.map_map]
      cases hn : normOf W v with
      | none => rfl
      | some f =>
        have : hm[hA.length]? = some (.other f) := by
          rw [hD, hCdef, hBdef, hn]
          simp
        simp only [Option.toList_some, List.map_cons, List.map_nil, Function.comp]
        rw [(later_other hlm ho this).2]
    · rw [parameters_seq ho hs']
      have hb : ∀ c ∈ bid, j ∉ h.parameters c := by
        intro c hc
        rw [hbid] at hc
        cases hn : normOf W v with
        | none => rw [hn] at hc; simp at hc
        | some f =>
          rw [hn] at hc
          simp only [Option.toList_some, List.map_cons, List.map_nil, List.mem_singleton] at hc
          have : hm[hA.length]? = some (.other f) := by
            rw [hD, hCdef, hBdef, hn]
            simp
          rw [hc]
          exact parameters_other ho (later_other hlm ho this).1 j
      rw [← c3 j]
      constructor
      · rintro ⟨c, hc, hj⟩
        simp only [List.cons_append, List.mem_cons, List.mem_append, List.not_mem_nil, or_false] at hc
        rcases hc with rfl | hc | rfl
        · exact Or.inl hj
        · exact absurd hj (hb c hc)
        · exact Or.inr hj
      · rintro (hj | hj)
        · exact ⟨inp, by simp, hj⟩
        · exact ⟨low, by simp, hj⟩

end
end

/-! ## shapes, and batches of one -/

theorem BatchNorm.eval_mapsTo {K : Type} [TorchScalar K] (N : BatchNorm K) (w : ℕ) : MapsTo N.eval w w := by
  intro B x hx hwf
  exact ⟨Tensor.tab2 B w fun s r => N.entry r (N.runningMean r) (N.runningVar r) (x.get [s, r]), by unfold BatchNorm.eval; rw [hx], rfl,
    Tensor.wf_tabulate _ _⟩

theorem relu_mapsTo {K : Type} [TorchScalar K] (w : ℕ) : MapsTo (fun x : Tensor K => .ok (reluT x)) w w := by
  intro B x hx hwf
  exact ⟨_, rfl, hx, Tensor.wf_map hwf _⟩

section
variable {cfg v : Cfg ℝ} {layerType : String} {n : IntOrList} {nIn nOut : Option IntOrList} {inWidth hiddenWidth outWidth hiddenLayers : ℕ}
  {inSegments hiddenSegments outSegments segments : Option IntOrList} {kind : FcKind}

/-- **C78 (shapes).** In evaluation mode (the batch normalizations having any state) both kinds of fully connected networks map `[batch, input.width]` to
`[batch, output.width]`, at any time of training. -/
theorem C78_shape (W : World ℝ) (N : BatchNorm ℝ) (hbn : W.bn defaultEps = N.eval) (hv : NetEntry cfg ["normalize"] v)
    (hk : fcTable.lookup layerType = some kind) {h0 : Heap ℝ} (hord : h0.Ordered) {net : ℕ} {h1 h : Heap ℝ}
    (hb : selectNetwork W cfg h0 = .ok (.module net h1)) (hl : h1.Later h) (ho : h.Ordered) :
    (∀ (_ : AsksHighOrder cfg layerType n nIn nOut inWidth hiddenWidth outWidth hiddenLayers inSegments hiddenSegments outSegments),
      let c := highOrderArgs layerType n nIn nOut inWidth hiddenWidth outWidth hiddenLayers inSegments hiddenSegments outSegments (normOf W v)
      Usable kind c.inputArgs → Usable kind c.hiddenArgs → Usable kind c.outputArgs → MapsTo (h.forward net) inWidth outWidth) ∧
    (∀ (_ : AsksHighOrderInput cfg layerType n inWidth hiddenWidth hiddenLayers segments),
      Usable kind (highOrderInputArgs (K := ℝ) n inWidth hiddenWidth segments) → cfg.path ["output", "width"] = .ok (cNat outWidth) →
      MapsTo (h.forward net) inWidth outWidth) := by
  have hnorm : ∀ f ∈ (normOf W v).toList, MapsTo f hiddenWidth hiddenWidth := by
    intro f hf
    unfold normOf at hf
    split at hf
    · simp only [Option.toList_some, List.mem_singleton] at hf
      rw [hf, hbn]
      exact N.eval_mapsTo _
    · simp at hf
  constructor
  · intro ha c hI hH hO
    rw [C78_high_order W hv ha h0] at hb
    cases e : mlpInit W.rng c h0 with
    | error e' =>
      rw [show mlpInit W.rng (highOrderArgs layerType n nIn nOut inWidth hiddenWidth outWidth hiddenLayers inSegments hiddenSegments outSegments (normOf W v)) h0
        = .error e' from e] at hb
      cases hb
    | ok r =>
      rw [show mlpInit W.rng (highOrderArgs layerType n nIn nOut inWidth hiddenWidth outWidth hiddenLayers inSegments hiddenSegments outSegments (normOf W v)) h0
        = .ok r from e] at hb
      cases hb
      refine C57_shape W.rng (c := c) (nl := fun x => .ok x) hk hk hI hH hO hord (by intro j hj; cases hj) ?_ e hl ho
      intro f hf
      simp only [c, preFns, highOrderArgs, Option.isSome_none, Bool.false_eq_true, if_false, List.append_nil, ltB_real, lt_irrefl] at hf
      exact hnorm f hf
  · intro ha hI hout
    obtain ⟨net', h1', inp, e1, -, lin, -, hall⟩ := C78_input_structure W hv ha hk hI hout hord
    rw [hb] at e1
    cases e1
    obtain ⟨b1, b2, b3, -⟩ := hall h hl ho
    rw [b3]
    refine (b1.mapsTo hI ho).cons (MapsTo.append (w' := hiddenWidth) (.all hnorm) (MapsTo.cons (w' := outWidth) ?_ (.nil _)))
    refine MapsTo.compose (w := hiddenWidth) ?_ ?_ ?_ ?_
    · intro f hf
      rcases List.mem_append.1 hf with hf | hf
      · exact hnorm f hf
      · rw [List.mem_singleton.1 hf]
        exact relu_mapsTo _
    · simpa using (b2 0 (by omega)).mapsTo ho
    · intro i hi
      simpa [show i + 1 ≤ hiddenLayers - 1 by omega] using (b2 (i + 1) (by omega)).mapsTo ho
    · simpa using (b2 (hiddenLayers - 1 + 1) (by omega)).mapsTo ho

/-- **C78 (batches of one).** With `normalize: true` a batch of one sample raises `ValueError` in training mode. -/
theorem C78_batch_of_one (W : World ℝ) (hbn : W.bn defaultEps = (BatchNorm.new defaultEps).train) (hv : NetEntry cfg ["normalize"] (.bool true))
    (hk : fcTable.lookup layerType = some kind) {h0 : Heap ℝ} (hord : h0.Ordered) {net : ℕ} {h1 h : Heap ℝ}
    (hb : selectNetwork W cfg h0 = .ok (.module net h1)) (hl : h1.Later h) (ho : h.Ordered) {x : Tensor ℝ} (hx : x.shape = [1, inWidth]) (hwf : x.WF) :
    (∀ (_ : AsksHighOrder cfg layerType n nIn nOut inWidth hiddenWidth outWidth hiddenLayers inSegments hiddenSegments outSegments),
      let c := highOrderArgs layerType n nIn nOut inWidth hiddenWidth outWidth hiddenLayers inSegments hiddenSegments outSegments (some (W.bn defaultEps))
      Usable kind c.inputArgs → Usable kind c.hiddenArgs → Usable kind c.outputArgs → h.forward net x = .error .valueError) ∧
    (∀ (_ : AsksHighOrderInput cfg layerType n inWidth hiddenWidth hiddenLayers segments),
      Usable kind (highOrderInputArgs (K := ℝ) n inWidth hiddenWidth segments) → cfg.path ["output", "width"] = .ok (cNat outWidth) →
      h.forward net x = .error .valueError) := by
  have hno : normOf W (.bool true) = some (W.bn defaultEps) := rfl
  have hbad : ∀ y : Tensor ℝ, y.shape = [1, hiddenWidth] → W.bn defaultEps y = .error .valueError := by
    intro y hy
    rw [hbn]
    simp [BatchNorm.train, hy]
  constructor
  · intro ha c hI hH hO
    rw [C78_high_order W hv ha h0] at hb
    obtain ⟨net', h1', e1, -, -, inp, out, hid, -, hall⟩ := C57_structure W.rng (c := c) (nl := fun x => .ok x) hk hk hI hH hO hord (by intro j hj; cases hj)
    rw [hno] at hb
    rw [show mlpInit W.rng (highOrderArgs layerType n nIn nOut inWidth hiddenWidth outWidth hiddenLayers inSegments hiddenSegments outSegments
      (some (W.bn defaultEps))) h0 = .ok (net', h1') from e1] at hb
    cases hb
    obtain ⟨b1, -, -, b4, -⟩ := hall h hl ho
    rw [b4 rfl]
    obtain ⟨y, y1, y2, -⟩ := b1.mapsTo hI ho 1 x hx hwf
    have hne : ∃ l ls, (List.range c.hiddenLayers).map (fun i => h.forward (hid i)) ++ [h.forward out] = l :: ls := by
      cases e : (List.range c.hiddenLayers).map (fun i => h.forward (hid i)) with
      | nil => exact ⟨_, _, rfl⟩
      | cons a as => exact ⟨_, _, rfl⟩
    obtain ⟨l, ls, e⟩ := hne
    rw [e]
    have hp : preFns c (fun x => .ok x) = [W.bn defaultEps] := by simp [c, preFns, highOrderArgs]
    unfold compose
    rw [hp]
    simp only [List.flatMap_cons, List.cons_append, seqForward, y1, bind, Except.bind]
    rw [hbad y y2]
  · intro ha hI hout
    obtain ⟨net', h1', inp, e1, -, lin, -, hall⟩ := C78_input_structure W hv ha hk hI hout hord
    rw [hb] at e1
    cases e1
    obtain ⟨b1, -, b3, -⟩ := hall h hl ho
    obtain ⟨y, y1, y2, -⟩ := b1.mapsTo hI ho 1 x hx hwf
    rw [b3, hno]
    simp only [Option.toList_some, List.cons_append, List.nil_append, seqForward, y1, bind, Except.bind]
    rw [hbad y y2]

end

/-! ## optimizers -/

section
variable {K : Type} [TorchScalar K]

/-- `cfg.optimizer.key = v`. -/
def Spec.OptEntry (cfg : Cfg K) (key : String) (v : Cfg K) : Prop := cfg.path ["optimizer", key] = .ok v

/-- Names of the optimizers. -/
def Spec.optName : OptimizerKind → String
  | .adam => "adam"
  | .lion => "lion"

/-- Accepted learning rates: not negative for Adam, positive for Lion. -/
def Spec.LrOk : OptimizerKind → K → Prop
  | .adam, lr => ltB lr 0 = false
  | .lion, lr => ltB 0 lr = true

theorem chooseOptimizer_ok {cfg : Cfg K} {kind : OptimizerKind} {lr : K} {params : List ℕ} (hn : OptEntry cfg "name" (.str (optName kind)))
    (hlr : OptEntry cfg "lr" (.num lr)) (hok : LrOk kind lr) (hp : params ≠ []) : chooseOptimizer params cfg = .ok ⟨kind, params, lr⟩ := by
  unfold OptEntry at hn hlr
  cases kind <;> simp_all [chooseOptimizer, optName, LrOk, bind, Except.bind, Cfg.toScalar, adamInit, lionInit]

/-- **C79 (choice).** With a valid learning rate and at least one parameter the optimizer has the name asked for, all parameters and that learning rate. With
`scheduler: plateau` it comes with `ReduceLROnPlateau(patience, factor)` marked `reduce_on_plateau`, with `scheduler: exponential` with `ExponentialLR(gamma)` not so marked,
both monitoring `train_loss`; with any other value of `scheduler` it is alone. -/
theorem C79_choice {cfg s : Cfg K} {kind : OptimizerKind} {lr : K} {params : List ℕ} (hn : OptEntry cfg "name" (.str (optName kind)))
    (hlr : OptEntry cfg "lr" (.num lr)) (hok : LrOk kind lr) (hp : params ≠ []) (hs : OptEntry cfg "scheduler" s) :
    (∀ patience factor, s = .str "plateau" → OptEntry cfg "patience" (cNat patience) → OptEntry cfg "factor" (.num factor) → ltB factor 1 = true →
      configureOptimizers params cfg = .ok (.scheduled ⟨kind, params, lr⟩ (.plateau patience factor) true "train_loss")) ∧
    (∀ gamma, s = .str "exponential" → OptEntry cfg "gamma" (.num gamma) →
      configureOptimizers params cfg = .ok (.scheduled ⟨kind, params, lr⟩ (.exponential gamma) false "train_loss")) ∧
    (s ≠ .str "plateau" → s ≠ .str "exponential" → configureOptimizers params cfg = .ok (.plain ⟨kind, params, lr⟩)) := by
  have ho := chooseOptimizer_ok hn hlr hok hp
  unfold OptEntry at *
  refine ⟨fun patience factor h1 h2 h3 h4 => ?_, fun gamma h1 h2 => ?_, fun h1 h2 => ?_⟩
  · subst h1
    simp only [configureOptimizers, ho, hs, h2, h3, bind, Except.bind, toNat_cNat, Cfg.toScalar, plateauInit, h4, if_true]
  · subst h1
    simp only [configureOptimizers, ho, hs, h2, bind, Except.bind, Cfg.toScalar]
  · simp only [configureOptimizers, ho, hs, bind, Except.bind]

/-- **C79 (errors).** Names other than `adam` and `lion` are a `ValueError` whatever else the configuration says; without `name`, `lr`, `scheduler` or the parameter of the scheduler there
is an `AttributeError`; a negative learning rate for Adam, an empty list of parameters and a factor of 1 or more are `ValueError`s, a learning rate for Lion that is
not positive is an `AssertionError`. -/
theorem C79_errors (cfg : Cfg K) (params : List ℕ) :
    (∀ t, OptEntry cfg "name" t → t ≠ .str "adam" → t ≠ .str "lion" → configureOptimizers params cfg = .error .valueError) ∧
    (cfg.path ["optimizer", "name"] = .error .attributeError → configureOptimizers params cfg = .error .attributeError) ∧
    (∀ kind, OptEntry cfg "name" (.str (optName kind)) →
      (cfg.path ["optimizer", "lr"] = .error .attributeError → configureOptimizers params cfg = .error .attributeError) ∧
      ∀ lr, OptEntry cfg "lr" (.num lr) →
        (kind = .adam → ltB lr 0 = true → configureOptimizers params cfg = .error .valueError) ∧
        (kind = .lion → ltB 0 lr = false → configureOptimizers params cfg = .error .assertionError) ∧
        (LrOk kind lr → params = [] → configureOptimizers params cfg = .error .valueError) ∧
        (LrOk kind lr → params ≠ [] →
          (cfg.path ["optimizer", "scheduler"] = .error .attributeError → configureOptimizers params cfg = .error .attributeError) ∧
          (OptEntry cfg "scheduler" (.str "plateau") →
            (cfg.path ["optimizer", "patience"] = .error .attributeError → configureOptimizers params cfg = .error .attributeError) ∧
            ∀ patience, OptEntry cfg "patience" (cNat patience) →
              (cfg.path ["optimizer", "factor"] = .error .attributeError → configureOptimizers params cfg = .error .attributeError) ∧
              ∀ factor, OptEntry cfg "factor" (.num factor) → ltB factor 1 = false → configureOptimizers params cfg = .error .valueError) ∧
          (OptEntry cfg "scheduler" (.str "exponential") →
            cfg.path ["optimizer", "gamma"] = .error .attributeError → configureOptimizers params cfg = .error .attributeError))) := by
  unfold OptEntry
  refine ⟨fun t h1 h2 h3 => ?_, fun h => ?_, fun kind hn => ⟨fun h => ?_, fun lr hlr => ⟨fun hk h => ?_, fun hk h => ?_, fun hok hp => ?_, fun hok hp => ?_⟩⟩⟩
  · have : chooseOptimizer params cfg = .error .valueError := by
      simp only [chooseOptimizer, h1, bind, Except.bind]
    simp only [configureOptimizers, this, bind, Except.bind]
  · simp only [configureOptimizers, chooseOptimizer, h, bind, Except.bind]
  · cases kind <;> simp_all [configureOptimizers, chooseOptimizer, optName, bind, Except.bind]
  · subst hk
    simp_all [configureOptimizers, chooseOptimizer, optName, bind, Except.bind, Cfg.toScalar, adamInit]
  · subst hk
    simp_all [configureOptimizers, chooseOptimizer, optName, bind, Except.bind, Cfg.toScalar, lionInit]
  · cases kind <;> simp_all [configureOptimizers, chooseOptimizer, optName, LrOk, bind, Except.bind, Cfg.toScalar, adamInit, lionInit]
  · have ho := chooseOptimizer_ok (params := params) hn hlr hok hp
    refine ⟨fun h => ?_, fun hs => ⟨fun h => ?_, fun patience h1 => ⟨fun h => ?_, fun factor h2 h3 => ?_⟩⟩, fun hs h => ?_⟩
    · simp only [configureOptimizers, ho, h, bind, Except.bind]
    · simp only [configureOptimizers, ho, hs, h, bind, Except.bind]
    · simp only [configureOptimizers, ho, hs, h1, h, bind, Except.bind]
    · simp only [configureOptimizers, ho, hs, h1, h2, bind, Except.bind, toNat_cNat, Cfg.toScalar, plateauInit, h3, Bool.false_eq_true, if_false]
    · simp only [configureOptimizers, ho, hs, h, bind, Except.bind]

/-- **C79 (monitored value).** The value monitored by the schedulers is one that `training_step` logs, in both kinds of modules, and neither validation nor test logs it. -/
theorem C79_monitor {cfg : Cfg K} {params : List ℕ} {o : Optimizer K} {s : Scheduler K} {b : Bool} {monitor : String}
    (h : configureOptimizers params cfg = .ok (.scheduled o s b monitor)) :
    monitor ∈ classificationLogs trainingName ∧ monitor ∈ regressionLogs trainingName ∧
    (∀ name ∈ [validationName, testName], monitor ∉ classificationLogs name ∧ monitor ∉ regressionLogs name) ∧
    (b = true ↔ ∃ p f, s = .plateau p f) := by
  have key : monitor = "train_loss" ∧ (b = true ↔ ∃ p f, s = .plateau p f) := by
    simp only [configureOptimizers, bind, Except.bind] at h
    split at h
    · cases h
    split at h
    · cases h
    split at h
    · split at h
      · cases h
      split at h
      · cases h
      split at h
      · cases h
      split at h
      · cases h
      rename_i factor _
      unfold plateauInit at h
      split at h
      · cases h
      · rename_i s' hs'
        split at hs'
        · cases hs'
          cases h
          exact ⟨rfl, by simp⟩
        · cases hs'
    · split at h
      · cases h
      split at h
      · cases h
      cases h
      exact ⟨rfl, by simp⟩
    · cases h
  obtain ⟨rfl, hb⟩ := key
  exact ⟨by decide, by decide, by decide, hb⟩

/-- **C79 (switch layers, negative).** A configured network all of whose layers are switch layers, without normalization, has no parameters (C34), so that no optimizer can be made for it. -/
theorem C79_switch (W : World K) {cfg v : Cfg K} {layerType : String} {n : IntOrList} {nIn nOut : Option IntOrList}
    {inWidth hiddenWidth outWidth hiddenLayers : ℕ} {inSegments hiddenSegments outSegments : Option IntOrList}
    (hv : NetEntry cfg ["normalize"] v) (hnt : v ≠ .bool true)
    (h : AsksHighOrder cfg layerType n nIn nOut inWidth hiddenWidth outWidth hiddenLayers inSegments hiddenSegments outSegments)
    {cls : PwClass} (hk : fcTable.lookup layerType = some (.switch cls)) {h0 : Heap K} (hord : h0.Ordered) {kind : OptimizerKind} {lr : K}
    (hn : OptEntry cfg "name" (.str (optName kind))) (hlr : OptEntry cfg "lr" (.num lr)) (hok : LrOk kind lr) :
    let c := highOrderArgs layerType n nIn nOut inWidth hiddenWidth outWidth hiddenLayers inSegments hiddenSegments outSegments (none : Option (Fwd K))
    Usable (.switch cls) c.inputArgs → Usable (.switch cls) c.hiddenArgs → Usable (.switch cls) c.outputArgs →
    ∃ net h1, selectNetwork W cfg h0 = .ok (.module net h1) ∧ ∀ hh : Heap K, h1.Later hh → hh.Ordered →
      configureOptimizers (hh.parameters net) cfg = .error .valueError := by
  intro c hI hH hO
  have hno : normOf W v = none := by
    unfold normOf
    split
    · exact absurd rfl hnt
    · rfl
  have hnl : ∀ j ∈ c.nonLinearity, h0[j]? = some (.other fun x => .ok x) := by intro j hj; cases hj
  obtain ⟨net, h1, e1, -⟩ := C57_structure W.rng (c := c) hk hk hI hH hO hord hnl
  refine ⟨net, h1, ?_, fun hh hl ho => ?_⟩
  · rw [C78_high_order W hv h h0, hno]
    rw [show mlpInit W.rng (highOrderArgs layerType n nIn nOut inWidth hiddenWidth outWidth hiddenLayers inSegments hiddenSegments outSegments
      (none : Option (Fwd K))) h0 = .ok (net, h1) from e1]
    rfl
  · have hp := (C34_switch_untrainable W.rng (c := c) hk hk hI hH hO hord hnl e1 hl ho).1
    rw [hp]
    exact (((C79_errors cfg []).2.2 kind hn).2 lr hlr).2.2.1 hok rfl

end

/-! ## examples -/

/-- config/net/high_order_mlp.yaml, with `n_hidden: 7` and `n_in: 3`, and config/optimizer/adam.yaml with the optimizer of the given name. -/
noncomputable def exCfg (optimizer : String) (modelType : String) : Cfg ℝ :=
  .dict [("net", .dict [("layer_type", .str "discontinuous"), ("normalize", .bool false), ("features", .int 16), ("model_type", .str modelType), ("n", .int 2),
      ("n_in", .int 3), ("n_out", .null), ("n_hidden", .int 7), ("periodicity", .num 2), ("input", .dict [("segments", .int 128), ("width", .int 16)]),
      ("output", .dict [("segments", .int 8), ("width", .int 128)]), ("hidden", .dict [("segments", .int 8), ("layers", .int 2), ("width", .int 10)])]),
    ("optimizer", .dict [("name", .str optimizer), ("lr", .num (1 / 1000)), ("patience", .int 5), ("factor", .num (1 / 10)), ("gamma", .num (9 / 10)),
      ("scheduler", .str "plateau")])]

theorem exCfg_asks (o : String) : AsksHighOrder (exCfg o "high_order") "discontinuous" (.int 2) (some (.int 3)) none 16 10 128 2 (some (.int 128)) (some (.int 8))
    (some (.int 8)) := by
  constructor <;> rfl

/-- The hidden layers have order 3, not 7. -/
example (W : World ℝ) : ∃ net h1, selectNetwork W (exCfg "adam" "high_order") [] = .ok (.module net h1) ∧
    ∃ hid : ℕ → ℕ, ∀ h : Heap ℝ, h1.Later h → h.Ordered → ∀ i < 2, ∃ a : FcArgs ℝ, a.n = .int 3 ∧ IsLayer (.leaf (.pw .discontinuous)) a h (hid i) := by
  obtain ⟨net, h1, e1, -, inp, out, hid, ai, ah, ao, e2, -, -, -, hall⟩ := C78_hidden_order W (cfg := exCfg "adam" "high_order") (v := .bool false) rfl (by simp [ltB]) (p := 3) (q := 2) (by norm_num)
    (exCfg_asks "adam") (kind := .leaf (.pw .discontinuous)) rfl (h0 := []) (by intro i m hm; simp at hm)
    ⟨3, 128, rfl, rfl, by norm_num, by norm_num, Nat.succ_pos _, Nat.succ_pos _⟩ ⟨3, 8, rfl, rfl, by norm_num, by norm_num, Nat.succ_pos _, Nat.succ_pos _⟩
    ⟨2, 8, rfl, rfl, by norm_num, by norm_num, Nat.succ_pos _, Nat.succ_pos _⟩
  refine ⟨net, h1, e1, hid, fun h hl ho i hi => ⟨ah, ?_, (hall h hl ho).2.1 i hi⟩⟩
  simp only [Prod.mk.injEq] at e2
  exact e2.2.1

/-- A type that does not exist is an `AttributeError`, since the message reads `cfg.model_type`. -/
example (W : World ℝ) : selectNetwork W (exCfg "adam" "low_order") [] = .error .attributeError :=
  (C78_unknown_type W (cfg := exCfg "adam" "low_order") (v := .bool false) (t := .str "low_order") rfl rfl (by simp) []).1 rfl

/-- With high order input the same configuration is an `AttributeError`: no `output` beside `net`. -/
example (W : World ℝ) : selectNetwork W (exCfg "adam" "high_order_input") [] = .error .attributeError :=
  C78_input_output_width W (cfg := exCfg "adam" "high_order_input") (v := .bool false) (n := .int 2) (inWidth := 16) (hiddenWidth := 10) (hiddenLayers := 2) (segments := some (.int 128)) rfl
    (by constructor <;> rfl) (kind := .leaf (.pw .discontinuous)) rfl ⟨2, 128, rfl, rfl, by norm_num, by norm_num, Nat.succ_pos _, Nat.succ_pos _⟩ rfl []

/-- `adam` and `lion` work, `sophia` and `adahessian` do not. -/
example : configureOptimizers [0, 1] (exCfg "adam" "high_order") = .ok (.scheduled ⟨.adam, [0, 1], 1 / 1000⟩ (.plateau 5 (1 / 10)) true "train_loss") ∧
    configureOptimizers [0, 1] (exCfg "lion" "high_order") = .ok (.scheduled ⟨.lion, [0, 1], 1 / 1000⟩ (.plateau 5 (1 / 10)) true "train_loss") ∧
    configureOptimizers [0, 1] (exCfg "sophia" "high_order") = .error .valueError ∧
    configureOptimizers [0, 1] (exCfg "adahessian" "high_order") = .error .valueError := by
  refine ⟨?_, ?_, ?_, ?_⟩
  · refine (C79_choice (cfg := exCfg "adam" "high_order") (kind := .adam) (lr := 1 / 1000) rfl rfl ?_ (by simp) rfl).1 5 (1 / 10) rfl rfl rfl ?_
    · simp only [LrOk, Bool.eq_false_iff, ne_eq, ltB_real]; norm_num
    · rw [ltB_real]; norm_num
  · refine (C79_choice (cfg := exCfg "lion" "high_order") (kind := .lion) (lr := 1 / 1000) rfl rfl ?_ (by simp) rfl).1 5 (1 / 10) rfl rfl rfl ?_
    · simp only [LrOk, ltB_real]; norm_num
    · rw [ltB_real]; norm_num
  · exact (C79_errors (exCfg "sophia" "high_order") [0, 1]).1 (.str "sophia") rfl (by simp) (by simp)
  · exact (C79_errors (exCfg "adahessian" "high_order") [0, 1]).1 (.str "adahessian") rfl (by simp) (by simp)

end HOL
