import Verif.Lemmas.Modules
import Verif.Props.BatchNorm
import Verif.Props.ConvNet
import Verif.Props.TailFocus
import Verif.Props.Modules

/-! # C80: configured convolutional networks -/

namespace HOL
open TorchScalar Spec

section
set_option linter.unusedSectionVars false
variable {K : Type} [TorchScalar K]

/-- The arguments for the values of a configuration. The normalization of layer `i` is a `LazyBatchNorm1d` whose `eps` is the number of channels. -/
def Spec.convArgs (W : World K) (layerType : OneOrMany String) (n : OneOrMany ℕ) (channels : List ℕ) (segments : OneOrMany ℕ) (kernelSize : List ℕ)
    (periodicity : Option K) (stride focus : Option (OneOrMany ℕ)) : ConvNetArgs K :=
  { layerType := layerType, n := n, channels := channels, segments := segments, kernelSize := kernelSize, rescaleOutput := false
    periodicity := periodicity, normalization := some fun i c => W.bnAt i ((c : ℕ) : K), pooling := "", stride := stride, padding := 0, focus := focus }

section
variable {cfg v : Cfg K} {layerType : OneOrMany String} {n : OneOrMany ℕ} {channels : List ℕ} {segments : OneOrMany ℕ} {kernelSize : List ℕ}
  {periodicity : Option K} {stride : Option (OneOrMany ℕ)}

theorem selectConvArgs_ok (W : World K) (h : AsksConv cfg layerType n channels segments kernelSize periodicity stride) (focus : Option (OneOrMany ℕ)) :
    selectConvArgs W cfg (cOption cOneOrMany focus) = .ok (convArgs W layerType n channels segments kernelSize periodicity stride focus) := by
  obtain ⟨a1, a2, a3, a4, a5, a6, a7⟩ := h
  unfold NetEntry at a1 a2 a3 a4 a5 a6 a7
  unfold selectConvArgs
  simp only [bind, Except.bind, a1, a2, a3, a4, a5, a6, a7, toStrOrStrs_c, toNatOrNats_c, toNatList_cNats, toOption_num, toOption_oneOrMany]
  rfl

/-- **C80 (fully convolutional).** The network is a `HighOrderFullyConvolutionalNetwork` without pooling, with a batch normalization after every layer whatever `normalize`
says, followed by a linear layer with `out_features` outputs; errors of the constructor are passed on. -/
theorem C80_conv (W : World K) (hv : NetEntry cfg ["normalize"] v) (ht : NetEntry cfg ["model_type"] (.str "high_order_conv"))
    (h : AsksConv cfg layerType n channels segments kernelSize periodicity stride) {out : ℕ} (ho : NetEntry cfg ["out_features"] (cNat out)) (h0 : Heap K) :
    let a := convArgs W layerType n channels segments kernelSize periodicity stride none
    (∀ e, FCN.init a W.conv = .error e → selectNetwork W cfg h0 = .error e) ∧
    (∀ N, FCN.init a W.conv = .ok N → selectNetwork W cfg h0 = .ok (.conv ⟨.fcn N, out, W.weight, W.bias, none⟩)) := by
  intro a
  have ha : selectConvArgs W cfg .null = .ok a := selectConvArgs_ok W h none
  have ht' : cfg.path ["net", "model_type"] = .ok (.str "high_order_conv") := ht
  have ho' : cfg.path ["net", "out_features"] = .ok (cNat out) := ho
  have key : selectNetwork W cfg h0 = asConv (selectConv W cfg) := by
    unfold selectNetwork
    rw [selectNormalization_ok W hv]
    simp only [bind, Except.bind, ht']
  rw [key]
  constructor
  · intro e he
    simp only [selectConv, ha, he, bind, Except.bind, asConv]
  · intro N hN
    simp only [selectConv, ha, hN, bind, Except.bind, asConv, selectHead, ho', toNat_cNat]

/-- **C80 (tail focus).** Likewise for `HighOrderTailFocusNetwork`, but the sizes are computed for the log: without `stride` the construction raises `TypeError`
although the network itself accepts that. -/
theorem C80_tail_focus (W : World K) (hv : NetEntry cfg ["normalize"] v) (ht : NetEntry cfg ["model_type"] (.str "high_order_tail_focus"))
    (h : AsksConv cfg layerType n channels segments kernelSize periodicity stride) {out : ℕ} (ho : NetEntry cfg ["out_features"] (cNat out))
    {focus : Option (OneOrMany ℕ)} (hf : NetEntry cfg ["focus"] (cOption cOneOrMany focus)) {features : ℕ} (hw : NetEntry cfg ["features"] (cNat features))
    (h0 : Heap K) :
    let a := convArgs W layerType n channels segments kernelSize periodicity stride focus
    (∀ e, TailFocus.init a W.conv = .error e → selectNetwork W cfg h0 = .error e) ∧
    (∀ N, TailFocus.init a W.conv = .ok N →
      (∀ e, N.computeSizes features = .error e → selectNetwork W cfg h0 = .error e) ∧
      (∀ r, N.computeSizes features = .ok r → selectNetwork W cfg h0 = .ok (.conv ⟨.tail N, out, W.weight, W.bias, none⟩)) ∧
      (stride = none → kernelSize ≠ [] → selectNetwork W cfg h0 = .error .typeError)) := by
  intro a
  have ha : selectConvArgs W cfg (cOption cOneOrMany focus) = .ok a := selectConvArgs_ok W h focus
  have ht' : cfg.path ["net", "model_type"] = .ok (.str "high_order_tail_focus") := ht
  have ho' : cfg.path ["net", "out_features"] = .ok (cNat out) := ho
  have hf' : cfg.path ["net", "focus"] = .ok (cOption cOneOrMany focus) := hf
  have hw' : cfg.path ["net", "features"] = .ok (cNat features) := hw
  have key : selectNetwork W cfg h0 = asConv (selectTailFocus W cfg) := by
    unfold selectNetwork
    rw [selectNormalization_ok W hv]
    simp only [bind, Except.bind, ht']
  rw [key]
  have err : ∀ N, TailFocus.init a W.conv = .ok N → ∀ e, N.computeSizes features = .error e → asConv (selectTailFocus W cfg) = .error e := by
    intro N hN e he
    simp only [selectTailFocus, hf', ha, hN, bind, Except.bind, asConv, selectHead, ho', hw', toNat_cNat, he]
  refine ⟨fun e he => ?_, fun N hN => ⟨err N hN, fun r hr => ?_, fun hs hk => err N hN _ ?_⟩⟩
  · simp only [selectTailFocus, hf', ha, he, bind, Except.bind, asConv]
  · simp only [selectTailFocus, hf', ha, hN, bind, Except.bind, asConv, selectHead, ho', hw', toNat_cNat, hr]
  · have : N.stride = none ∧ N.kernelSize = kernelSize := by
      unfold TailFocus.init at hN
      simp only [bind, Except.bind] at hN
      split at hN
      · cases hN
      · cases hN
        exact ⟨by simp [a, convArgs, ConvNetArgs.lists, hs], rfl⟩
    unfold TailFocus.computeSizes
    rw [this.2]
    cases kernelSize with
    | nil => exact absurd rfl hk
    | cons k ks => simp only [TailFocus.widthsFrom, TailFocus.nextWidth, this.1, bind, Except.bind]

end

/-! ## the linear layer at the end -/

/-- **C80 (size fixed by the first call).** The first batch decides the number of inputs of the last linear layer; later a batch with another number of
features after the convolutions (signals of another length) raises `RuntimeError`. -/
theorem C80_first_call (M : ConvModel K) {x y : Tensor K} {B F : ℕ} (hy : M.body.forward x = .ok y) (hs : y.shape = [B, F]) :
    (M.inFeatures = none → ∃ z M', M.forward x = .ok (z, M') ∧ z.WF ∧ z.shape = [B, M.outFeatures] ∧ M' = { M with inFeatures := some F } ∧
      ∀ b < B, ∀ o < M.outFeatures, z.get [b, o] = sumL ((List.range F).map fun i => y.get [b, i] * M.weight o i) + M.bias o) ∧
    (∀ F', M.inFeatures = some F' → F ≠ F' → M.forward x = .error .runtimeError) ∧
    (M.inFeatures = some F → ∃ z, M.forward x = .ok (z, M) ∧ z.WF ∧ z.shape = [B, M.outFeatures] ∧
      ∀ b < B, ∀ o < M.outFeatures, z.get [b, o] = sumL ((List.range F).map fun i => y.get [b, i] * M.weight o i) + M.bias o) := by
  have lin : linearForward (Tensor.tab2 M.outFeatures F M.weight) (Tensor.tab1 M.outFeatures M.bias) y
      = .ok (Tensor.tab2 B M.outFeatures fun s r => sumL ((List.range F).map fun q => y.get [s, q] * (Tensor.tab2 M.outFeatures F M.weight).get [r, q])
        + (Tensor.tab1 M.outFeatures M.bias).get [r]) := by
    unfold linearForward
    rw [hs]
    simp [Tensor.tab2, Tensor.tabulate]
  have val : ∀ b < B, ∀ o < M.outFeatures,
      (Tensor.tab2 B M.outFeatures fun s r => sumL ((List.range F).map fun q => y.get [s, q] * (Tensor.tab2 M.outFeatures F M.weight).get [r, q])
        + (Tensor.tab1 M.outFeatures M.bias).get [r]).get [b, o] = sumL ((List.range F).map fun i => y.get [b, i] * M.weight o i) + M.bias o := by
    intro b hb o ho
    rw [Tensor.get_tab2 hb ho, Tensor.get_tab1 ho]
    congr 2
    apply List.map_congr_left
    intro i hi
    rw [Tensor.get_tab2 ho (List.mem_range.1 hi)]
  refine ⟨fun hn => ?_, fun F' hF hne => ?_, fun hF => ?_⟩
  · refine ⟨_, _, ?_, Tensor.wf_tab2 _ _ _, rfl, rfl, val⟩
    unfold ConvModel.forward
    simp only [hy, hs, hn, bind, Except.bind, Option.getD_none, Option.getD_some, lin]
  · unfold ConvModel.forward
    simp only [hy, hs, hF, bind, Except.bind, Option.getD_some]
    have : linearForward (Tensor.tab2 M.outFeatures F' M.weight) (Tensor.tab1 M.outFeatures M.bias) y = .error .runtimeError := by
      unfold linearForward
      rw [hs]
      simp [Tensor.tab2, Tensor.tabulate, hne]
    rw [this]
  · refine ⟨_, ?_, Tensor.wf_tab2 _ _ _, rfl, val⟩
    unfold ConvModel.forward
    simp only [hy, hs, hF, bind, Except.bind, Option.getD_some, lin]
    cases M
    simp_all

end

/-! ## what the normalizations do -/

theorem BatchNorm.eval_mapsShape {K : Type} [TorchScalar K] (N : BatchNorm K) (c l : ℕ) : MapsShape N.eval [c, l] [c, l] := by
  intro B x hwf hx
  exact ⟨Tensor.tab3 B c l fun s r i => N.entry r (N.runningMean r) (N.runningVar r) (x.get [s, r, i]), by unfold BatchNorm.eval; rw [hx],
    Tensor.wf_tabulate _ _, rfl⟩

section
variable {cfg v : Cfg ℝ} {layerType : OneOrMany String} {n : OneOrMany ℕ} {channels : List ℕ} {segments : OneOrMany ℕ} {kernelSize : List ℕ}
  {periodicity : Option ℝ} {stride : Option (OneOrMany ℕ)} {cls : ℕ → ConvClass} {m : ℕ}

/-- **C80 (epsilon, negative).** The number of channels is handed to `LazyBatchNorm1d` as its `eps`. In training mode the signal after layer `i` therefore does not get
variance 1: a channel of variance `v` gets `v / (v + C)` with `C` the number of channels of that layer, less than one half whenever `v < C`. -/
theorem C80_epsilon (W : World ℝ) (hbn : ∀ i eps, W.bnAt i eps = (BatchNorm.new eps).train)
    (hfine : (convArgs W layerType n channels segments kernelSize periodicity stride none).Fine kernelSize.length .one cls m) :
    let a := convArgs W layerType n channels segments kernelSize periodicity stride none
    ∃ (N : FCN ℝ) (Ls : ℕ → ConvLayer ℝ) (g : ℕ → Fwd ℝ), FCN.init a W.conv = .ok N ∧ N.stages = stagesOf m Ls (some g) ∧
      ∀ i < m, 1 ≤ a.chan (i + 1) → ∀ (x : Tensor ℝ) (b l : ℕ), x.shape = [b, a.chan (i + 1), l] → 2 ≤ b * l →
        ∃ y, g i x = .ok y ∧ y.shape = [b, a.chan (i + 1), l] ∧ ∀ r < a.chan (i + 1), chanMean y b l r = 0 ∧
          chanVar y b l r = chanVar x b l r / (chanVar x b l r + a.chan (i + 1)) ∧
          (chanVar x b l r < a.chan (i + 1) → chanVar y b l r < 1 / 2) := by
  intro a
  obtain ⟨Ls, h1, -⟩ := convStages_ok hfine W.conv
  refine ⟨_, Ls, fun i => W.bnAt i ((a.chan (i + 1) : ℕ) : ℝ), by unfold FCN.init; rw [show convStages convLayer a a.kernelSize.length W.conv = _ from h1]; rfl, rfl, ?_⟩
  intro i hi hc x b l hx hbl
  have hpos : (0 : ℝ) < (a.chan (i + 1) : ℕ) := by exact_mod_cast hc
  obtain ⟨y, y1, -, y3, y4⟩ := C80_statistics hpos hx hbl
  refine ⟨y, by show W.bnAt i _ x = _; rw [hbn]; exact y1, y3, fun r hr => ⟨(y4 r hr).1, (y4 r hr).2, fun hlt => ?_⟩⟩
  rw [(y4 r hr).2]
  have h0 := chanVar_nonneg x b l r
  rw [div_lt_div_iff₀ (by linarith) (by norm_num)]
  linarith

/-- **C80 (shapes).** In evaluation mode, with any state of the batch normalizations and any convolution weights: signals of `features` values long enough for all
kernels give `[batch, out_features]` in the first call. -/
theorem C80_shape (W : World ℝ) (hv : NetEntry cfg ["normalize"] v) (ht : NetEntry cfg ["model_type"] (.str "high_order_conv"))
    (h : AsksConv cfg layerType n channels segments kernelSize periodicity stride) {out : ℕ} (ho : NetEntry cfg ["out_features"] (cNat out))
    (hfine : (convArgs W layerType n channels segments kernelSize periodicity stride none).Fine kernelSize.length .one cls m) (h0 : Heap ℝ) :
    let a := convArgs W layerType n channels segments kernelSize periodicity stride none
    1 ≤ a.chan m →
    ∃ (M : ConvModel ℝ) (N : FCN ℝ) (Ls : ℕ → ConvLayer ℝ), selectNetwork W cfg h0 = .ok (.conv M) ∧ M.body = .fcn N ∧ M.inFeatures = none ∧
      ∀ (Ws : ℕ → Tensor ℝ) (Ns : ℕ → BatchNorm ℝ), (∀ i < m, (Ws i).shape = (Ls i).weight.shape) →
      ∀ (B w : ℕ) (x : Tensor ℝ), x.WF → x.shape = [B, a.chan 0, w] → (∀ i < m, a.kern i ≤ a.widthAt kernelSize.length w i) →
      let M' : ConvModel ℝ := { M with body := .fcn { N with stages := stagesOf m (fun i => { Ls i with weight := Ws i }) (some fun i => (Ns i).eval) } }
      ∃ z, M'.forward x = .ok (z, { M' with inFeatures := some (a.chan m * a.widthAt kernelSize.length w m) }) ∧ z.WF ∧ z.shape = [B, out] := by
  intro a hO
  obtain ⟨N, Ls, e1, -, -, e4⟩ := C56_fully_convolutional (a := a) hfine hO W.conv
  refine ⟨_, N, Ls, (C80_conv W hv ht h ho h0).2 N e1, rfl, rfl, fun Ws Ns hWs B w x hwf hx hw => ?_⟩
  obtain ⟨y, -, -, y3, -, -, y6, -⟩ := e4 Ws (some fun i => (Ns i).eval) hWs
    B w 0 x hwf hx (fun i hi => Nat.le_trans (hw i hi) (Nat.le_add_right _ _)) (by intro h; cases h) (by rintro f ⟨⟩ i hi; exact ((Ns i).eval_mapsShape _ _).keeps B)
  obtain ⟨u, u1, -, u3, -⟩ := y6 (by simp [a, convArgs])
  rw [y3] at u3
  have hu : u.shape = [B, a.chan m * a.widthAt kernelSize.length w m] := by
    rw [u3]; simp [imageShape, numel, a, convArgs]
  obtain ⟨z, M', z1, z2, z3, z4, -⟩ := (C80_first_call
    ⟨.fcn { N with stages := stagesOf m (fun i => { Ls i with weight := Ws i }) (some fun i => (Ns i).eval) }, out, W.weight, W.bias, none⟩ u1 hu).1 rfl
  exact ⟨z, by rw [← z4]; exact z1, z2, z3⟩

/-- **C80 (two-dimensional layers, negative).** The normalizations are one-dimensional: with 2d layers the network is constructed, but every batch of images large
enough for the first kernel raises `ValueError`, in training and in evaluation mode. -/
theorem C80_two_dimensional {K : Type} [TorchScalar K] {cfg v : Cfg K} {periodicity : Option K} (W : World K)
    (hbn : ∀ i eps, ∃ N : BatchNorm K, W.bnAt i eps = N.train ∨ W.bnAt i eps = N.eval)
    (hv : NetEntry cfg ["normalize"] v) (ht : NetEntry cfg ["model_type"] (.str "high_order_conv"))
    (h : AsksConv cfg layerType n channels segments kernelSize periodicity stride) {out : ℕ} (ho : NetEntry cfg ["out_features"] (cNat out))
    (hfine : (convArgs W layerType n channels segments kernelSize periodicity stride none).Fine kernelSize.length .two cls m) (h0 : Heap K) :
    let a := convArgs W layerType n channels segments kernelSize periodicity stride none
    ∃ M : ConvModel K, selectNetwork W cfg h0 = .ok (.conv M) ∧
      ∀ (B H w : ℕ) (x : Tensor K), x.WF → x.shape = [B, a.chan 0, H, w] → a.kern 0 ≤ H → a.kern 0 ≤ w → M.forward x = .error .valueError := by
  intro a
  obtain ⟨Ls, h1, h2⟩ := convStages_ok hfine W.conv
  have hN : FCN.init a W.conv = .ok ⟨stagesOf m Ls (some fun i => W.bnAt i ((a.chan (i + 1) : ℕ) : K)), none, channels⟩ := by
    unfold FCN.init
    rw [show convStages convLayer a a.kernelSize.length W.conv = _ from h1]
    rfl
  refine ⟨_, (C80_conv W hv ht h ho h0).2 _ hN, fun B H w x hwf hx hH hw => ?_⟩
  obtain ⟨j, hj⟩ : ∃ j, m = j + 1 := ⟨m - 1, by have := hfine.layers; omega⟩
  have hm0 : 0 < m := hfine.layers
  obtain ⟨y, y1, -, y3⟩ := (h2 0 hm0).mapsShape (hfine.kernel 0 hm0).2 (hfine.stride 0 hm0).2 (H := H) (W := w) (by exact Nat.le_trans hH (Nat.le_add_right _ _))
    (fun _ => Nat.le_trans hw (Nat.le_add_right _ _)) B x hwf hx
  have hy : ∀ eps, W.bnAt 0 eps y = .error .valueError := by
    intro eps
    have hl : y.shape.length = 4 := by rw [y3]; rfl
    obtain ⟨N, hN | hN⟩ := hbn 0 eps
    · rw [hN]; exact ((C80_rejects N y).1 (by omega) (by omega)).1
    · rw [hN]; exact ((C80_rejects N y).1 (by omega) (by omega)).2
  have run : runStages (stagesOf m Ls (some fun i => W.bnAt i ((a.chan (i + 1) : ℕ) : K))) x = .error .valueError := by
    rw [hj]
    unfold stagesOf
    rw [List.range_succ_eq_map, List.flatMap_cons]
    simp only [Option.map_some, Option.toList_some, List.cons_append, List.nil_append, runStages, ConvStage.call, bind, Except.bind, y1, hy]
  unfold ConvModel.forward ConvBody.forward FCN.forward
  simp only [run, bind, Except.bind]

end

/-! ## examples -/

/-- config/net/high_order_conv.yaml and a two-dimensional variant. -/
noncomputable def exConvCfg (layerType : String) : Cfg ℝ :=
  .dict [("net", .dict [("layer_type", .str layerType), ("normalize", .bool true), ("features", .int 10000), ("out_features", .int 128),
    ("model_type", .str "high_order_conv"), ("n", .int 2), ("periodicity", .num 2), ("kernel_size", .list [.int 10, .int 10, .int 10, .int 10]),
    ("stride", .list [.int 10, .int 10, .int 10, .int 10]), ("channels", .list [.int 1, .int 10, .int 100, .int 100]),
    ("segments", .list [.int 128, .int 10, .int 10, .int 10])])]

theorem exConvCfg_asks (t : String) : AsksConv (exConvCfg t) (.one t) (.one 2) [1, 10, 100, 100] (.many [128, 10, 10, 10]) [10, 10, 10, 10] (some 2)
    (some (.many [10, 10, 10, 10])) := by
  constructor <;> rfl

noncomputable def exConvArgs (W : World ℝ) (t : String) : ConvNetArgs ℝ :=
  convArgs W (.one t) (.one 2) [1, 10, 100, 100] (.many [128, 10, 10, 10]) [10, 10, 10, 10] (some 2) (some (.many [10, 10, 10, 10])) none

theorem exConvArgs_fine (W : World ℝ) {t : String} {r : Rank} (ht : convTable.lookup t = some (some (.piecewise true r))) :
    (exConvArgs W t).Fine 4 r (fun _ => .piecewise true r) 3 := by
  refine ⟨by decide, rfl, ?_, ?_, ?_, ?_, ?_, ?_, ?_⟩
  all_goals intro i hi
  all_goals interval_cases i
  all_goals first
    | exact ⟨t, rfl, ht⟩
    | simp [exConvArgs, convArgs, ConvNetArgs.chan, ConvNetArgs.kern, ConvNetArgs.step, ConvNetArgs.lists, OneOrMany.toList, ConvClass.rank]

/-- The shipped configuration has three layers (the fourth kernel is never used): 10000 values become 100 channels of 10 values, the linear layer gets 1000 inputs,
and the result has 128 columns. -/
example (W : World ℝ) : ∃ (M : ConvModel ℝ) (N : FCN ℝ) (Ls : ℕ → ConvLayer ℝ), selectNetwork W (exConvCfg "continuous1d") [] = .ok (.conv M) ∧ M.body = .fcn N ∧
    ∀ (Ns : ℕ → BatchNorm ℝ) (x : Tensor ℝ), x.WF → x.shape = [7, 1, 10000] →
    let M' : ConvModel ℝ := { M with body := .fcn { N with stages := stagesOf 3 Ls (some fun i => (Ns i).eval) } }
    ∃ z, M'.forward x = .ok (z, { M' with inFeatures := some 1000 }) ∧ z.shape = [7, 128] := by
  obtain ⟨M, N, Ls, e1, e2, -, e4⟩ := C80_shape W (cfg := exConvCfg "continuous1d") (v := .bool true) rfl rfl (exConvCfg_asks _) (out := 128) rfl
    (exConvArgs_fine W (r := .one) rfl) [] (by simp [convArgs, ConvNetArgs.chan])
  refine ⟨M, N, Ls, e1, e2, fun Ns x hwf hx => ?_⟩
  obtain ⟨z, z1, -, z3⟩ := e4 (fun i => (Ls i).weight) Ns (fun _ _ => rfl) 7 10000 x hwf hx (by
    intro i hi
    interval_cases i <;> simp [convArgs, ConvNetArgs.kern, ConvNetArgs.widthAt, ConvNetArgs.step, ConvNetArgs.lists, OneOrMany.toList, convOut])
  refine ⟨z, ?_, z3⟩
  rw [z1]
  simp [convArgs, ConvNetArgs.chan, ConvNetArgs.kern, ConvNetArgs.widthAt, ConvNetArgs.step, ConvNetArgs.lists, OneOrMany.toList, convOut]

/-- The same with `continuous2d` cannot be used. -/
example (W : World ℝ) (hbn : ∀ i eps, W.bnAt i eps = (BatchNorm.new eps).train) (x : Tensor ℝ) (hwf : x.WF) (hx : x.shape = [2, 1, 1000, 1000]) :
    ∃ M : ConvModel ℝ, selectNetwork W (exConvCfg "continuous2d") [] = .ok (.conv M) ∧ M.forward x = .error .valueError := by
  obtain ⟨M, e1, e2⟩ := C80_two_dimensional W (fun i eps => ⟨_, .inl (hbn i eps)⟩) (cfg := exConvCfg "continuous2d") (v := .bool true) rfl rfl (exConvCfg_asks _)
    (out := 128) rfl (exConvArgs_fine W (r := .two) rfl) []
  exact ⟨M, e1, e2 2 1000 1000 x hwf hx (by simp [convArgs, ConvNetArgs.kern]) (by simp [convArgs, ConvNetArgs.kern])⟩

/-- After the second layer (100 channels) a signal of variance 1 gets variance 1/101. -/
example (W : World ℝ) (hbn : ∀ i eps, W.bnAt i eps = (BatchNorm.new eps).train) :
    ∃ (N : FCN ℝ) (Ls : ℕ → ConvLayer ℝ) (g : ℕ → Fwd ℝ), FCN.init (exConvArgs W "continuous1d") W.conv = .ok N ∧ N.stages = stagesOf 3 Ls (some g) ∧
      ∀ x : Tensor ℝ, x.shape = [7, 100, 100] → chanVar x 7 100 3 = 1 → ∃ y, g 1 x = .ok y ∧ chanVar y 7 100 3 = 1 / 101 := by
  obtain ⟨N, Ls, g, e1, e2, e3⟩ := C80_epsilon W hbn (exConvArgs_fine W (t := "continuous1d") (r := .one) rfl)
  refine ⟨N, Ls, g, e1, e2, fun x hx hv => ?_⟩
  obtain ⟨y, y1, -, y3⟩ := e3 1 (by decide) (by simp [convArgs, ConvNetArgs.chan]) x 7 100 hx (by decide)
  refine ⟨y, y1, ?_⟩
  rw [(y3 3 (by simp [convArgs, ConvNetArgs.chan])).2.1, hv]
  simp [convArgs, ConvNetArgs.chan]
  norm_num

/-- A tail focus network with or without strides. -/
noncomputable def exTailCfg (stride : Option (OneOrMany ℕ)) : Cfg ℝ :=
  .dict [("net", .dict [("layer_type", .str "continuous1d"), ("normalize", .bool true), ("features", .int 10), ("out_features", .int 6),
    ("model_type", .str "high_order_tail_focus"), ("n", .int 3), ("periodicity", .null), ("kernel_size", .list [.int 3, .int 2]),
    ("stride", cOption cOneOrMany stride), ("channels", .list [.int 2, .int 5, .int 4]), ("segments", .int 2), ("focus", .list [.int 2, .int 3])])]

theorem exTailCfg_asks (stride : Option (OneOrMany ℕ)) : AsksConv (exTailCfg stride) (.one "continuous1d") (.one 3) [2, 5, 4] (.one 2) [3, 2] none stride := by
  constructor <;> rfl

noncomputable def exTailArgs (W : World ℝ) (stride : Option (OneOrMany ℕ)) : ConvNetArgs ℝ :=
  convArgs W (.one "continuous1d") (.one 3) [2, 5, 4] (.one 2) [3, 2] none stride (some (.many [2, 3]))

theorem exTailArgs_fine (W : World ℝ) (stride : Option (OneOrMany ℕ)) (h : stride = none ∨ stride = some (.many [2, 1])) :
    (exTailArgs W stride).Fine 2 .one (fun _ => .piecewise true .one) 2 := by
  rcases h with rfl | rfl
  all_goals refine ⟨by decide, rfl, ?_, ?_, ?_, ?_, ?_, ?_, ?_⟩
  all_goals intro i hi
  all_goals interval_cases i
  all_goals first
    | exact ⟨_, rfl, rfl⟩
    | simp [exTailArgs, convArgs, ConvNetArgs.chan, ConvNetArgs.kern, ConvNetArgs.step, ConvNetArgs.lists, OneOrMany.toList, ConvClass.rank]

/-- With strides the network is built, with `stride: null` the log message is a `TypeError`. -/
example (W : World ℝ) : (∃ M, selectNetwork W (exTailCfg (some (.many [2, 1]))) [] = .ok (.conv M) ∧ M.outFeatures = 6) ∧
    selectNetwork W (exTailCfg none) [] = .error .typeError := by
  constructor
  · obtain ⟨N, Ls, h1, h2, h4⟩ := C55_forward (a := exTailArgs W (some (.many [2, 1]))) (focus := [2, 3]) (exTailArgs_fine W _ (.inr rfl)) rfl
      (by simp [exTailArgs, convArgs]) W.conv
    have hs := (C55_compute_sizes (a := exTailArgs W (some (.many [2, 1]))) (w := 10) (exTailArgs_fine W _ (.inr rfl)) rfl rfl rfl rfl (by
        intro i hi
        interval_cases i <;> simp [exTailArgs, convArgs, ConvNetArgs.kern, ConvNetArgs.widthAt, ConvNetArgs.step, ConvNetArgs.lists, OneOrMany.toList, convOut])
      h1).1 (by decide)
    exact ⟨_, ((C80_tail_focus W (cfg := exTailCfg (some (.many [2, 1]))) (v := .bool true) rfl rfl (exTailCfg_asks _) (out := 6) rfl (focus := some (.many [2, 3])) rfl
      (features := 10) rfl []).2 N h1).2.1 _ hs, rfl⟩
  · obtain ⟨N, Ls, h1, -⟩ := C55_forward (a := exTailArgs W none) (focus := [2, 3]) (exTailArgs_fine W _ (.inl rfl)) rfl (by simp [exTailArgs, convArgs]) W.conv
    exact ((C80_tail_focus W (cfg := exTailCfg none) (v := .bool true) rfl rfl (exTailCfg_asks _) (out := 6) rfl (focus := some (.many [2, 3])) rfl
      (features := 10) rfl []).2 N h1).2.2 rfl (by simp)

end HOL
