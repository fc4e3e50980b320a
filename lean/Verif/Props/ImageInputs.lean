import Verif.Props.ConvModel
import Verif.Props.Modules

/-! # C115: the configured networks do not take images

`ClassificationNet` and `RegressionNet` (modules.py:194-220) hand the batch of the data loader to the network of `select_network` as it is (modules.py:16-20, 33-36, 42-43). A data loader of images gives tensors with
four axes, as in examples/cifar100.py:77-97. -/

namespace HOL
open TorchScalar Spec
variable {K : Type} [TorchScalar K]

/-- The call raises. -/
def Spec.Raises {α : Type} (r : Py α) : Prop := ∃ e, r = .error e

theorem Spec.Raises.bind {α β : Type} {r : Py α} (h : Raises r) (f : α → Py β) : Raises (r >>= f) := by
  obtain ⟨e, rfl⟩ := h
  exact ⟨e, rfl⟩

theorem Spec.Raises.of_ok {α β : Type} {r : Py α} {f : α → Py β} (h : ∀ a, r = .ok a → Raises (f a)) : Raises (r >>= f) := by
  cases r with
  | error e => exact ⟨e, rfl⟩
  | ok a => exact h a rfl

theorem stackBasis_shape {n : ℕ} {basis : BasisFn K} {x y : Tensor K} (h : stackBasis n basis x = .ok y) : y.shape = n :: x.shape := by
  unfold stackBasis at h
  split at h
  · cases h
  · cases h
    rfl

theorem einsumFlat_rank {a w : Tensor K} (h : a.shape.length ≠ 3) : Raises (einsumFlat a w) := by
  unfold einsumFlat
  split
  · rename_i i j k _ _ _ ha _
    rw [ha] at h
    exact absurd rfl h
  · exact ⟨_, rfl⟩

theorem FnLayer.forward_rank (L : FnLayer K) (hL : L.poly.kind = .flat) {x : Tensor K} (hx : x.shape.length ≠ 2) : Raises (L.forward x) := by
  unfold FnLayer.forward Poly.interpolate
  refine .of_ok fun y hy => ?_
  have hs : y.shape = L.poly.n :: (x.map (periodize L.periodicity)).shape := stackBasis_shape hy
  rw [hL]
  exact einsumFlat_rank (by rw [hs, List.length_cons, show (x.map (periodize L.periodicity)).shape = x.shape from rfl]; omega)

theorem PwLayer.forward_rank (L : PwLayer K) {x : Tensor K} (hx : x.shape.length ≠ 2) : Raises (L.forward x) := by
  unfold PwLayer.forward
  split
  · rename_i a b h
    rw [h] at hx
    exact absurd rfl hx
  · exact ⟨_, rfl⟩

/-- Kinds of layers made of piecewise polynomials, polynomials or Fourier series. -/
def Spec.TakesMatrices : FcKind → Prop
  | .leaf (.pw _) | .leaf .polynomial | .leaf .fourier | .switch _ => True
  | _ => False

theorem IsLayer.rejects {kind : FcKind} (hk : TakesMatrices kind) {a : FcArgs K} (hu : Usable kind a) {h : Heap K} (ho : h.Ordered) {j : ℕ} (hl : IsLayer kind a h j) {x : Tensor K}
    (hx : x.shape.length ≠ 2) : Raises (h.forward j x) := by
  obtain ⟨rng, base, ms, e1, e2, e3⟩ := hl
  have pw : ∀ {L : PwLayer K} {i : ℕ} {m' : Mod K}, h[i]? = some m' → (Mod.pw L).Trained m' → Raises (h.forward i x) := by
    intro L i m' hi ht
    rw [Heap.forward_eq ho hi]
    cases ht with
    | refl => exact PwLayer.forward_rank _ hx
    | pw L w hs' hw => exact PwLayer.forward_rank _ hx
  match kind, hk, hu with
  | .leaf (.pw cls), _, ⟨n, s, hn, hs, h1, h2, h3, h4⟩ =>
    simp only [fcMods, leafMods, hn, hs] at e1
    cases e1
    have hj : j = base + 0 := by simpa using e2
    obtain ⟨m', f1, f2⟩ := e3 0 _ rfl
    rw [hj]
    exact pw f1 f2
  | .switch cls, _, ⟨⟨n, s, hn, hs, h1, h2, h3, h4⟩, hnum⟩ =>
    have hb := pwF_builds rng true cls a hn hs hnum
    have e1' : fcMods rng (.switch cls) a base = .ok (pwF rng true cls a n s base) := hb.ok base
    rw [e1'] at e1
    cases e1
    have hj : j = base + 2 := by simp [pwF] at e2; omega
    obtain ⟨m0, f1, f2⟩ := e3 0 _ rfl
    obtain ⟨m2, f5, f6⟩ := e3 2 _ rfl
    cases f6
    rw [hj, Heap.forward_eq ho f5]
    have := pw f1 f2
    simp only [Nat.add_zero] at this
    obtain ⟨e, he⟩ := this
    refine ⟨e, ?_⟩
    simp only [Mod.forward, List.mapM_cons, he, bind, Except.bind]
  | .leaf .polynomial, _, ⟨n, hn, hpos⟩ =>
    simp only [fcMods, leafMods, hn, polynomialInit, FnLayer.init] at e1
    rw [lagrangePolyFlat_numBasis hpos] at e1
    cases e1
    have hj : j = base + 0 := by simpa using e2
    obtain ⟨m', f1, f2⟩ := e3 0 _ rfl
    rw [hj, Heap.forward_eq ho f1]
    cases f2 with
    | refl => exact FnLayer.forward_rank _ rfl hx
    | fn L w hs hw => exact FnLayer.forward_rank _ rfl hx
  | .leaf .fourier, _, ⟨n, hn, hpos⟩ =>
    simp only [fcMods, leafMods, hn, fourierSeriesInit, FnLayer.init, Poly.numBasis, fourierSeriesFlat, BasisFn.numBasis] at e1
    cases e1
    have hj : j = base + 0 := by simpa using e2
    obtain ⟨m', f1, f2⟩ := e3 0 _ rfl
    rw [hj, Heap.forward_eq ho f1]
    cases f2 with
    | refl => exact FnLayer.forward_rank _ rfl hx
    | fn L w hs hw => exact FnLayer.forward_rank _ rfl hx

section
variable {cfg v : Cfg K} {layerType : String} {n : IntOrList} {nIn nOut : Option IntOrList} {inWidth hiddenWidth outWidth hiddenLayers : ℕ}
  {inSegments hiddenSegments outSegments : Option IntOrList}

/-- **C115 (uniform networks).** A network of `model_type: high_order` raises for every batch of images, before and during training, whatever widths, orders and segments are configured, for every layer type
made of piecewise polynomials, polynomials or Fourier series. -/
theorem C115_high_order (W : World K) (hv : NetEntry cfg ["normalize"] v)
    (h : AsksHighOrder cfg layerType n nIn nOut inWidth hiddenWidth outWidth hiddenLayers inSegments hiddenSegments outSegments)
    {kind : FcKind} (hk : fcTable.lookup layerType = some kind) (hm : TakesMatrices kind) {h0 : Heap K} (hord : h0.Ordered) :
    let c := highOrderArgs layerType n nIn nOut inWidth hiddenWidth outWidth hiddenLayers inSegments hiddenSegments outSegments (normOf W v)
    ∀ (_ : Usable kind c.inputArgs) (_ : Usable kind c.hiddenArgs) (_ : Usable kind c.outputArgs),
      ∃ net h1, selectNetwork W cfg h0 = .ok (.module net h1) ∧ h1.Ordered ∧ ∀ h : Heap K, h1.Later h → h.Ordered → ∀ x : Tensor K, x.shape.length ≠ 2 → Raises (h.forward net x) := by
  intro c hI hH hO
  have hnl : ∀ j ∈ c.nonLinearity, h0[j]? = some (.other fun x => .ok x) := by intro j hj; cases hj
  obtain ⟨net, h1, e1, -, e3, inp, out, hid, -, hall⟩ := C57_structure W.rng (c := c) (kind := kind) (kindIn := kind) hk hk hI hH hO hord hnl
  refine ⟨net, h1, ?_, e3, fun h2 hl ho x hx => ?_⟩
  · rw [C78_high_order W hv h h0, e1]
    rfl
  · obtain ⟨i1, -, -, i4, -⟩ := hall h2 hl ho
    rw [i4 rfl]
    exact (i1.rejects hm hI ho hx).bind _

/-- **C115 (high order input).** The same for `model_type: high_order_input`. -/
theorem C115_high_order_input (W : World K) (hv : NetEntry cfg ["normalize"] v) {segments : Option IntOrList}
    (h : AsksHighOrderInput cfg layerType n inWidth hiddenWidth hiddenLayers segments) {kind : FcKind} (hk : fcTable.lookup layerType = some kind) (hm : TakesMatrices kind)
    (hI : Usable kind (highOrderInputArgs (K := K) n inWidth hiddenWidth segments)) (hout : cfg.path ["output", "width"] = .ok (cNat outWidth)) {h0 : Heap K} (hord : h0.Ordered) :
    ∃ net h1, selectNetwork W cfg h0 = .ok (.module net h1) ∧ h1.Ordered ∧ ∀ h : Heap K, h1.Later h → h.Ordered → ∀ x : Tensor K, x.shape.length ≠ 2 → Raises (h.forward net x) := by
  obtain ⟨net, h1, inp, e1, e3, lin, -, hall⟩ := C78_input_structure W hv h hk hI hout hord
  refine ⟨net, h1, e1, e3, fun h2 hl ho x hx => ?_⟩
  obtain ⟨i1, -, i3, -⟩ := hall h2 hl ho
  rw [i3]
  exact (i1.rejects hm hI ho hx).bind _

end

/-! ## convolutions -/

theorem Expander.call_rank {e : Expander K} {x y : Tensor K} (h : e.call x = .ok y) : y.shape.length = x.shape.length + 1 := by
  cases e with
  | plain n basis =>
    rw [stackBasis_shape (show stackBasis n basis x = .ok y from h), List.length_cons]
  | piecewise shared rank n segments length =>
    simp only [Expander.call, piecewiseExpand, bind, Except.bind] at h
    repeat' split at h
    all_goals cases h
    rfl

/-- A convolution applied to something with four axes raises or gives four axes. -/
theorem ConvLayer.forward_rank {L : ConvLayer K} {x y : Tensor K} (hx : x.shape.length = 4) (h : L.forward x = .ok y) : y.shape.length = 4 := by
  unfold ConvLayer.forward at h
  cases hL : L.kind with
  | conv2d =>
    simp only [hL, bind, Except.bind] at h
    split at h
    · cases h
    · rename_i z hz
      simp only [conv2d, bind, Except.bind] at h
      repeat' split at h
      all_goals cases h
      rename_i hq
      repeat' split at hq
      all_goals cases hq
      rfl
  | convTranspose2d =>
    simp only [hL, bind, Except.bind] at h
    split at h
    · cases h
    · rename_i z hz
      simp only [convTranspose2d, bind, Except.bind] at h
      repeat' split at h
      all_goals cases h
      rename_i hq
      repeat' split at hq
      all_goals cases hq
      rfl
  | conv1d =>
    exfalso
    simp only [hL, bind, Except.bind] at h
    split at h
    · cases h
    · rename_i z hz
      unfold expansion1d at hz
      simp only [bind, Except.bind] at hz
      split at hz
      · cases hz
      · rename_i u hu
        have := Expander.call_rank hu
        rw [show (x.map (periodize L.periodicity)).shape = x.shape from rfl, hx] at this
        split at hz
        · rename_i hs
          rw [hs] at this
          simp at this
        · cases hz

theorem BatchNorm.rejects_images (N : BatchNorm K) {x : Tensor K} (hx : x.shape.length = 4) : Raises (N.train x) ∧ Raises (N.eval x) := by
  have := (C80_rejects N x).1 (by omega) (by omega)
  exact ⟨⟨_, this.1⟩, ⟨_, this.2⟩⟩

/-- The stages of a network with normalizations: a convolution and a normalization first. -/
theorem convStages_first {factory : String → ConvArgs K → ConvRng K → Py (ConvLayer K)} {a : ConvNetArgs K} {size : ℕ} {rand : ℕ → ConvRng K} {ss : List (ConvStage K)} {g : ℕ → ℕ → Fwd K}
    (hg : a.normalization = some g) (h : convStages factory a size rand = .ok ss) : ∃ L c rest, ss = .conv L :: .normal (g 0 c) :: rest := by
  unfold convStages at h
  dsimp only at h
  split at h
  · cases h
  · rename_i hc
    split at h
    · cases h
    · split at h
      · cases h
      · obtain ⟨k, hk⟩ : ∃ k, a.channels.length - 1 = k + 1 := ⟨a.channels.length - 2, by omega⟩
        rw [hk, List.range_succ_eq_map, List.mapM_cons] at h
        simp only [bind, Except.bind] at h
        split at h
        · cases h
        · rename_i z hz
          split at hz
          · cases hz
          · rename_i r hr
            have first : ∃ L c, r = [.conv L, .normal (g 0 c)] := by
              unfold convRound at hr
              simp only [bind, Except.bind, hg] at hr
              repeat' split at hr
              all_goals cases hr
              exact ⟨_, _, rfl⟩
            obtain ⟨L, c, rfl⟩ := first
            split at hz
            · cases hz
            · cases hz
              cases h
              exact ⟨L, c, _, by rw [List.flatten_cons]; rfl⟩

/-- **C115 (convolutional networks).** Whatever the configuration: if `select_network` makes a convolutional network (`high_order_conv` or `high_order_tail_focus`), that network raises for every batch of images, in
training and in evaluation mode, whatever the random initial weights are (`W` is arbitrary). -/
theorem C115_conv (W : World K) (hbn : ∀ i eps, ∃ N : BatchNorm K, W.bnAt i eps = N.train ∨ W.bnAt i eps = N.eval) {cfg : Cfg K} {h0 : Heap K} {M : ConvModel K}
    (h : selectNetwork W cfg h0 = .ok (.conv M)) {x : Tensor K} (hx : x.shape.length = 4) : Raises (M.forward x) := by
  have hbn' : ∀ i eps (y : Tensor K), y.shape.length = 4 → Raises (W.bnAt i eps y) := by
    intro i eps y hy
    obtain ⟨N, hN | hN⟩ := hbn i eps
    · rw [hN]; exact (N.rejects_images hy).1
    · rw [hN]; exact (N.rejects_images hy).2
  have two : ∀ (L : ConvLayer K) (i c : ℕ) (rest : List (ConvStage K)), Raises (runStages (.conv L :: .normal (W.bnAt i ((c : ℕ) : K)) :: rest) x) := by
    intro L i c rest
    refine .of_ok fun y hy => ?_
    exact (hbn' i _ y (ConvLayer.forward_rank hx hy)).bind _
  have args : ∀ {focus : Cfg K} {a : ConvNetArgs K}, selectConvArgs W cfg focus = .ok a → a.normalization = some fun i c => W.bnAt i ((c : ℕ) : K) := by
    intro focus a ha
    unfold selectConvArgs at ha
    simp only [bind, Except.bind] at ha
    repeat' split at ha
    all_goals cases ha
    rfl
  have head : ∀ {body : ConvBody K} {M' : ConvModel K}, selectHead W cfg body = .ok M' → M'.body = body := by
    intro body M' hM
    unfold selectHead at hM
    simp only [bind, Except.bind] at hM
    repeat' split at hM
    all_goals cases hM
    rfl
  have body : Raises (M.body.forward x) := by
    unfold selectNetwork at h
    simp only [bind, Except.bind] at h
    split at h
    · cases h
    · split at h
      · cases h
      · split at h
        · unfold asModule at h
          simp only [bind, Except.bind] at h
          split at h <;> cases h
        · unfold asModule at h
          simp only [bind, Except.bind] at h
          split at h <;> cases h
        · unfold asConv selectConv at h
          simp only [bind, Except.bind] at h
          split at h
          · cases h
          · rename_i r hr
            cases h
            split at hr
            · cases hr
            · rename_i a ha
              split at hr
              · cases hr
              · rename_i N hN
                rw [head hr]
                unfold FCN.init at hN
                simp only [bind, Except.bind] at hN
                split at hN
                · cases hN
                · rename_i ss hss
                  cases hN
                  obtain ⟨L, c, rest, rfl⟩ := convStages_first (args ha) hss
                  exact (two L 0 c rest).bind _
        · unfold asConv selectTailFocus at h
          simp only [bind, Except.bind] at h
          split at h
          · cases h
          · rename_i r hr
            cases h
            split at hr
            · cases hr
            · split at hr
              · cases hr
              · split at hr
                · cases hr
                · split at hr
                  · cases hr
                  · rename_i _ N _ _ M' hM'
                    have : M = M' := by
                      repeat' split at hr
                      all_goals cases hr
                      rfl
                    rw [this, head hM']
                    show Raises (N.forward x)
                    unfold TailFocus.forward
                    split
                    · exact ⟨_, rfl⟩
                    · refine .of_ok fun f _ => Raises.bind ?_ _
                      unfold tailSlice
                      split
                      · rename_i hs
                        rw [hs] at hx
                        simp at hx
                      · exact ⟨_, rfl⟩
        · unfold unknownModelType at h
          simp only [bind, Except.bind] at h
          split at h <;> cases h
  exact body.bind _

/-! ## concrete configurations -/

/-- config/cifar100_config.yaml with config/net/high_order_conv.yaml, on a batch of 128 CIFAR images: with `continuous2d` and with `continuous1d` the network is made but raises for the batch. -/
example (W : World ℝ) (hbn : ∀ i eps, W.bnAt i eps = (BatchNorm.new eps).train) (x : Tensor ℝ) (hx : x.shape = [128, 3, 32, 32]) :
    (∃ M : ConvModel ℝ, selectNetwork W (exConvCfg "continuous2d") [] = .ok (.conv M) ∧ Raises (M.forward x)) ∧
    ∃ M : ConvModel ℝ, selectNetwork W (exConvCfg "continuous1d") [] = .ok (.conv M) ∧ Raises (M.forward x) := by
  constructor
  · obtain ⟨M, e1, -⟩ := C80_two_dimensional W (fun i eps => ⟨_, .inl (hbn i eps)⟩) (cfg := exConvCfg "continuous2d") (v := .bool true) rfl rfl (exConvCfg_asks _)
      (out := 128) rfl (exConvArgs_fine W (r := .two) rfl) []
    exact ⟨M, e1, C115_conv W (fun i eps => ⟨_, .inl (hbn i eps)⟩) e1 (by rw [hx]; rfl)⟩
  · obtain ⟨M, N, Ls, e1, -⟩ := C80_shape W (cfg := exConvCfg "continuous1d") (v := .bool true) rfl rfl (exConvCfg_asks _) (out := 128) rfl
      (exConvArgs_fine W (r := .one) rfl) [] (by simp [convArgs, ConvNetArgs.chan])
    exact ⟨M, e1, C115_conv W (fun i eps => ⟨_, .inl (hbn i eps)⟩) e1 (by rw [hx]; rfl)⟩

/-- The shipped fully connected network. -/
example (W : World ℝ) (x : Tensor ℝ) (hx : x.shape = [128, 3, 32, 32]) :
    ∃ net h1, selectNetwork W (exCfg "adam" "high_order") [] = .ok (.module net h1) ∧ Raises (h1.forward net x) := by
  obtain ⟨net, h1, e1, ho, e2⟩ := C115_high_order W (cfg := exCfg "adam" "high_order") (v := .bool false) rfl (exCfg_asks "adam") (kind := .leaf (.pw .discontinuous)) rfl trivial
    (h0 := []) (by intro i m hm; simp at hm)
    ⟨3, 128, rfl, rfl, by norm_num, by norm_num, Nat.succ_pos _, Nat.succ_pos _⟩ ⟨3, 8, rfl, rfl, by norm_num, by norm_num, Nat.succ_pos _, Nat.succ_pos _⟩
    ⟨2, 8, rfl, rfl, by norm_num, by norm_num, Nat.succ_pos _, Nat.succ_pos _⟩
  exact ⟨net, h1, e1, e2 h1 (Heap.Later.refl h1) ho x (by rw [hx]; decide)⟩

end HOL
