import Verif.Spec.Folding
import Verif.Props.Periodic
import Verif.Props.Network
import Verif.Props.NetworkExamples
import Verif.Lemmas.Universal
import Verif.Props.TailFocus

/-! # C126: networks with a periodicity -/

namespace HOL
open TorchScalar Spec

section Any
variable {K : Type} [TorchScalar K]

/-- A layer of a kind that folds its inputs sees the folded inputs only. -/
theorem IsLayer.forward_folded {kind : FcKind} (hf : Folds kind) {a : FcArgs K} {h : Heap K} (ho : h.Ordered) {j : ℕ} (hl : IsLayer kind a h j) {x y : Tensor K}
    (he : y.map (periodize a.periodicity) = x.map (periodize a.periodicity)) : h.forward j y = h.forward j x := by
  obtain ⟨rng, base, ms, e1, e2, e3⟩ := hl
  have pwCase : ∀ L : PwLayer K, L.periodicity = a.periodicity → L.forward y = L.forward x := fun L hL => by
    rw [L.forward_noPeriod y, L.forward_noPeriod x, hL, he]
  have fnCase : ∀ L : FnLayer K, L.periodicity = a.periodicity → L.forward y = L.forward x := fun L hL => by
    unfold FnLayer.forward
    rw [hL, he]
  have prCase : ∀ L : ProductLayer K, L.periodicity = a.periodicity → L.forward y = L.forward x := fun L hL => by
    unfold ProductLayer.forward
    dsimp only
    rw [hL, he]
  have ndCase : ∀ L : PolyNDLayer K, L.periodicity = a.periodicity → L.forward y = L.forward x := fun L hL => by
    unfold PolyNDLayer.forward
    rw [hL, he]
  have fin : ∀ m : Mod K, ms = [m] → (∀ m', m.Trained m' → m'.forward h.forward y = m'.forward h.forward x) → h.forward j y = h.forward j x := by
    rintro m rfl hm
    obtain ⟨m', f1, f2⟩ := e3 0 m rfl
    have hj : j = base + 0 := by simpa using e2
    rw [hj, Heap.forward_eq ho f1]
    exact hm m' f2
  have fnInit : ∀ (L : FnLayer K) {poly : Poly K} {inF outF : ℕ} {rand : ℕ → ℕ → K} {wm : K} {p : Option K}, FnLayer.init poly inF outF rand wm p = .ok L → L.periodicity = p := by
    intro L poly inF outF rand wm p hL
    unfold FnLayer.init at hL
    cases hb : poly.numBasis with
    | error e => rw [hb] at hL; cases hL
    | ok b => rw [hb] at hL; cases hL; rfl
  match kind, hf with
  | .leaf (.pw cls), _ =>
    simp only [fcMods, leafMods] at e1
    split at e1
    · cases e1
      refine fin _ rfl fun m' hm' => ?_
      cases hm' with
      | refl => exact pwCase _ rfl
      | pw L w hs' hw => exact pwCase _ rfl
    · cases e1
  | .leaf .polynomial, _ =>
    simp only [fcMods, leafMods] at e1
    split at e1
    · rename_i n _
      cases hL : polynomialInit n a.inFeatures a.outFeatures ((2 : ℕ) : K) (rng base) 1 a.periodicity with
      | error e => rw [hL] at e1; cases e1
      | ok L =>
        rw [hL] at e1
        cases e1
        have hp := fnInit L hL
        refine fin _ rfl fun m' hm' => ?_
        cases hm' with
        | refl => exact fnCase _ hp
        | fn L w hs' hw => exact fnCase _ hp
    · cases e1
  | .leaf .polynomialProd, _ =>
    simp only [fcMods, leafMods] at e1
    split at e1
    · rename_i n _
      cases hL : polynomialProdInit n a.inFeatures a.outFeatures ((2 : ℕ) : K) (rng base) 1 a.periodicity with
      | error e => rw [hL] at e1; cases e1
      | ok L =>
        rw [hL] at e1
        cases e1
        have hp := fnInit L hL
        refine fin _ rfl fun m' hm' => ?_
        cases hm' with
        | refl => exact fnCase _ hp
        | fn L w hs' hw => exact fnCase _ hp
    · cases e1
  | .leaf .product, _ =>
    simp only [fcMods, leafMods] at e1
    cases e1
    refine fin _ rfl fun m' hm' => ?_
    cases hm' with
    | refl => exact prCase _ rfl
    | product L w b hs hb => exact prCase _ rfl
  | .leaf (.polynomialND d), _ =>
    simp only [fcMods, leafMods] at e1
    cases hL : PolyNDLayer.init a.n a.inFeatures a.outFeatures ((2 : ℕ) : K) (rng base) 1 a.periodicity with
    | error e => rw [hL] at e1; cases e1
    | ok L =>
      rw [hL] at e1
      cases e1
      have hp : L.periodicity = a.periodicity := by
        unfold PolyNDLayer.init at hL
        simp only [bind, Except.bind] at hL
        split at hL <;> cases hL
        rfl
      refine fin _ rfl fun m' hm' => ?_
      cases hm' with
      | refl => exact ndCase _ hp

/-- **C126 (any arithmetic).** A `HighOrderMLP` whose input layer is a piecewise, polynomial or product layer: whatever the options and the training, its result is determined by the folded
inputs. -/
theorem C126_folded_input (rng : Rng K) {c : MLPArgs K} {kind kindIn : FcKind} (hk : fcTable.lookup c.layerType = some kind)
    (hki : fcTable.lookup (orStr c.layerTypeIn c.layerType) = some kindIn) (hI : Usable kindIn c.inputArgs) (hH : Usable kind c.hiddenArgs) (hO : Usable kind c.outputArgs) (hf : Folds kindIn)
    {h0 : Heap K} (hord : h0.Ordered) {nl : Fwd K} (hnl : ∀ j ∈ c.nonLinearity, h0[j]? = some (.other nl)) :
    ∃ net h1, mlpInit rng c h0 = .ok (net, h1) ∧ ∀ h : Heap K, h1.Later h → h.Ordered → ∀ x y : Tensor K, y.map (periodize c.periodicity) = x.map (periodize c.periodicity) →
      h.forward net y = h.forward net x := by
  obtain ⟨net, h1, e1, -, -, inp, out, hid, -, hall⟩ := C57_structure rng hk hki hI hH hO hord hnl
  refine ⟨net, h1, e1, fun h hl ho x y he => ?_⟩
  obtain ⟨l1, -, -, l4, l5⟩ := hall h hl ho
  have hin := l1.forward_folded hf ho (x := x) (y := y) he
  cases hr : c.resnet with
  | false => rw [l4 hr]; unfold compose seqForward; rw [hin]
  | true => rw [l5 hr]; unfold compose seqForward; rw [hin]

/-- **C126 (layers without periodicity).** Linear, Fourier, switch and several-variable piecewise layers are the same for every value of `periodicity`. -/
theorem C126_ignored (rng : Rng K) {kind : FcKind} (hf : ¬ Folds kind) (a : FcArgs K) (p : Option K) (base : ℕ) : fcMods rng kind { a with periodicity := p } base = fcMods rng kind a base := by
  match kind, hf with
  | .leaf .linear, _ => rfl
  | .leaf .linearRelu, _ => rfl
  | .leaf .fourier, _ => rfl
  | .leaf .piecewiseND, _ => rfl
  | .switch cls, _ => rfl
  | .leaf (.pw _), hf => exact absurd trivial hf
  | .leaf .polynomial, hf => exact absurd trivial hf
  | .leaf .polynomialProd, hf => exact absurd trivial hf
  | .leaf .product, hf => exact absurd trivial hf
  | .leaf (.polynomialND _), hf => exact absurd trivial hf

/-- The first module of a convolutional network. -/
theorem convStages_head {factory : String → ConvArgs K → ConvRng K → Py (ConvLayer K)} {a : ConvNetArgs K} {size : ℕ} {rand : ℕ → ConvRng K} {ss : List (ConvStage K)}
    (h : convStages factory a size rand = .ok ss) :
    ∃ (t : String) (b : ConvArgs K) (L : ConvLayer K) (rest : List (ConvStage K)), (a.lists size).layerType[0]? = some t ∧ b.periodicity = a.periodicity ∧ factory t b (rand 0) = .ok L ∧
      ss = .conv L :: rest := by
  unfold convStages at h
  dsimp only at h
  split at h
  · cases h
  rename_i hlen
  split at h
  · cases h
  split at h
  · cases h
  obtain ⟨k, hk⟩ : ∃ k, a.channels.length - 1 = k + 1 := ⟨a.channels.length - 2, by omega⟩
  rw [hk, List.range_succ_eq_map, List.mapM_cons] at h
  have idx : ∀ {α : Type} {l : List α} {i : ℕ} {v : α}, pyIndex l i = .ok v → l[i]? = some v := by
    intro α l i v hv
    unfold pyIndex at hv
    split at hv <;> simp_all
  cases hr : convRound factory a (a.lists size) rand 0 with
  | error e => rw [hr] at h; cases h
  | ok s =>
    rw [hr] at h
    simp only [bind, Except.bind, pure, Except.pure] at h
    split at h
    · cases h
    rename_i v hv
    split at hv
    · cases hv
    cases hv
    cases h
    unfold convRound at hr
    cases g1 : pyIndex (a.lists size).layerType 0 with
    | error e => rw [g1] at hr; cases hr
    | ok t =>
      rw [g1] at hr
      simp only [bind, Except.bind] at hr
      repeat' split at hr
      all_goals first
        | cases hr; done
        | skip
      all_goals
        cases hr
        rename_i hL _ _
        exact ⟨t, _, _, _, idx g1, rfl, by assumption, rfl⟩

/-- Convolutions other than the Fourier convolutions keep the periodicity they are given. -/
theorem convLayer_keeps {t : String} {cls : ConvClass} (ht : convTable.lookup t = some (some cls)) (hc : ConvFolds cls) {b : ConvArgs K} {rand : ConvRng K} {L : ConvLayer K}
    (h : convLayer t b rand = .ok L) : L.periodicity = b.periodicity := by
  unfold convLayer at h
  rw [ht] at h
  dsimp only at h
  unfold convInit at h
  match cls, hc with
  | .polynomial .one, _ => dsimp only at h; split at h <;> cases h; rfl
  | .polynomial .two, _ => dsimp only at h; split at h <;> cases h; rfl
  | .piecewise _ .one, _ => dsimp only at h; split at h <;> cases h; rfl
  | .piecewise _ .two, _ => dsimp only at h; split at h <;> cases h; rfl

theorem convTransposeLayer_keeps {t : String} {b : ConvArgs K} {rand : ConvRng K} {L : ConvLayer K} (h : convTransposeLayer t b rand = .ok L) : L.periodicity = b.periodicity := by
  unfold convTransposeLayer convTransposeInit at h
  dsimp only at h
  split at h
  · split at h <;> cases h
    rfl
  · cases h

theorem ConvLayer.forward_folded (L : ConvLayer K) {x y : Tensor K} (he : y.map (periodize L.periodicity) = x.map (periodize L.periodicity)) : L.forward y = L.forward x := by
  unfold ConvLayer.forward
  dsimp only
  rw [he]

end Any

theorem Spec.Mirrored.fold {p s t : ℝ} (hp : 0 < p) (h : Mirrored p s t) : makePeriodic t p = makePeriodic s p := by
  obtain ⟨k, rfl | rfl⟩ := h
  · exact makePeriodic_add_int hp _ k
  · rw [makePeriodic_add_int hp _ k, makePeriodic_mirror hp]

theorem Spec.Folded.map_eq {p : ℝ} (hp : 0 < p) {x y : Tensor ℝ} (h : Folded p x y) : y.map (periodize (some p)) = x.map (periodize (some p)) :=
  Tensor.map_congr_get h.left h.right h.shape fun idx hidx => (h.entries idx hidx).fold hp

/-- **C126.** A `HighOrderMLP` with periodicity `p` whose input layer is a piecewise, polynomial or product layer does not distinguish inputs whose entries are shifted by multiples of `2 p` or
mirrored at `p / 2`, each entry in its own way: with any weights, hidden layers, normalization, nonlinearity, dropout, with and without `resnet`. -/
theorem C126_network (rng : Rng ℝ) {c : MLPArgs ℝ} {kind kindIn : FcKind} (hk : fcTable.lookup c.layerType = some kind)
    (hki : fcTable.lookup (orStr c.layerTypeIn c.layerType) = some kindIn) (hI : Usable kindIn c.inputArgs) (hH : Usable kind c.hiddenArgs) (hO : Usable kind c.outputArgs) (hf : Folds kindIn)
    {p : ℝ} (hp : c.periodicity = some p) (hp0 : 0 < p) {h0 : Heap ℝ} (hord : h0.Ordered) {nl : Fwd ℝ} (hnl : ∀ j ∈ c.nonLinearity, h0[j]? = some (.other nl)) :
    ∃ net h1, mlpInit rng c h0 = .ok (net, h1) ∧ ∀ h : Heap ℝ, h1.Later h → h.Ordered → ∀ x y : Tensor ℝ, Folded p x y → h.forward net y = h.forward net x := by
  obtain ⟨net, h1, e1, hall⟩ := C126_folded_input rng hk hki hI hH hO hf hord hnl
  refine ⟨net, h1, e1, fun h hl ho x y hxy => hall h hl ho x y ?_⟩
  rw [hp]
  exact hxy.map_eq hp0

/-- **C126 (what cannot be learned).** If such a network is within `ε` of a target at two inputs that differ by shifts and mirror images, then the target differs by at most `2 ε` between them. -/
theorem C126_fit {f : Fwd ℝ} {p : ℝ} (hf : ∀ x y : Tensor ℝ, Folded p x y → f y = f x) {x y u v : Tensor ℝ} (hxy : Folded p x y) (hu : f x = .ok u) (hv : f y = .ok v) {idx : List ℕ}
    {F : Tensor ℝ → ℝ} {ε : ℝ} (h1 : |u.get idx - F x| ≤ ε) (h2 : |v.get idx - F y| ≤ ε) : |F y - F x| ≤ 2 * ε := by
  rw [hf x y hxy, hu] at hv
  cases hv
  have := abs_sub_le (F y) (u.get idx) (F x)
  rw [abs_sub_comm (F y) (u.get idx)] at this
  linarith

/-- **C126 (convolutional networks).** The same for `HighOrderFullyConvolutionalNetwork` when its first layer is not a Fourier convolution: whatever the weights and whatever follows. -/
theorem C126_convolutional {a : ConvNetArgs ℝ} {rand : ℕ → ConvRng ℝ} {N : FCN ℝ} (hN : FCN.init a rand = .ok N) {p : ℝ} (hp : a.periodicity = some p) (hp0 : 0 < p) {t : String} {cls : ConvClass}
    (ht : (a.lists a.kernelSize.length).layerType[0]? = some t) (hc : convTable.lookup t = some (some cls)) (hf : ConvFolds cls) :
    ∃ (L : ConvLayer ℝ) (rest : List (ConvStage ℝ)), N.stages = .conv L :: rest ∧ ∀ (W : Tensor ℝ) (rest' : List (ConvStage ℝ)) (x y : Tensor ℝ), Folded p x y →
      ({ N with stages := .conv { L with weight := W } :: rest' } : FCN ℝ).forward y = ({ N with stages := .conv { L with weight := W } :: rest' } : FCN ℝ).forward x := by
  unfold FCN.init at hN
  cases hs : convStages convLayer a a.kernelSize.length rand with
  | error e => rw [hs] at hN; cases hN
  | ok ss =>
    rw [hs] at hN
    cases hN
    obtain ⟨t', b, L, rest, e1, e2, e3, e4⟩ := convStages_head hs
    rw [ht] at e1
    cases e1
    have hL := (convLayer_keeps hc hf e3).trans (e2.trans hp)
    refine ⟨L, rest, e4, fun W rest' x y hxy => ?_⟩
    have hstep : ({ L with weight := W } : ConvLayer ℝ).forward y = ({ L with weight := W } : ConvLayer ℝ).forward x :=
      ConvLayer.forward_folded _ (by show y.map (periodize L.periodicity) = x.map (periodize L.periodicity); rw [hL]; exact hxy.map_eq hp0)
    unfold FCN.forward
    simp only [runStages, ConvStage.call, hstep]

/-- **C126 (deconvolutional networks).** The same for `HighOrderFullyDeconvolutionalNetwork`. -/
theorem C126_deconvolutional {a : ConvNetArgs ℝ} {rand : ℕ → ConvRng ℝ} {N : Deconv ℝ} (hN : Deconv.init a rand = .ok N) {p : ℝ} (hp : a.periodicity = some p) (hp0 : 0 < p) :
    ∃ (L : ConvLayer ℝ) (rest : List (ConvStage ℝ)), N.stages = .conv L :: rest ∧ ∀ (W : Tensor ℝ) (rest' : List (ConvStage ℝ)) (x y : Tensor ℝ), Folded p x y →
      ({ N with stages := .conv { L with weight := W } :: rest' } : Deconv ℝ).forward y = ({ N with stages := .conv { L with weight := W } :: rest' } : Deconv ℝ).forward x := by
  unfold Deconv.init at hN
  cases hs : convStages convTransposeLayer a a.channels.length rand with
  | error e => rw [hs] at hN; cases hN
  | ok ss =>
    rw [hs] at hN
    cases hN
    obtain ⟨t', b, L, rest, e1, e2, e3, e4⟩ := convStages_head hs
    have hL := (convTransposeLayer_keeps e3).trans (e2.trans hp)
    refine ⟨L, rest, e4, fun W rest' x y hxy => ?_⟩
    have hstep : ({ L with weight := W } : ConvLayer ℝ).forward y = ({ L with weight := W } : ConvLayer ℝ).forward x :=
      ConvLayer.forward_folded _ (by show y.map (periodize L.periodicity) = x.map (periodize L.periodicity); rw [hL]; exact hxy.map_eq hp0)
    unfold Deconv.forward
    simp only [runStages, ConvStage.call, hstep]

/-- **C126 (tail focus networks).** `HighOrderTailFocusNetwork` returns the tail of its input as it is, next to the tails of signals that do not distinguish such inputs: so two inputs with the same
output have the same tail. -/
theorem C126_tail_focus {a : ConvNetArgs ℝ} {cls : ℕ → ConvClass} {m : ℕ} (h : a.Fine a.kernelSize.length .one cls m) {focus : List ℕ}
    (hf : a.focus.map (·.toList a.kernelSize.length) = some focus) (hF : 1 ≤ focus.length) (rand : ℕ → ConvRng ℝ) :
    ∃ (N : TailFocus ℝ) (Ls : ℕ → ConvLayer ℝ), TailFocus.init a rand = .ok N ∧ N.stages = stagesOf m Ls (a.normalization.map fun f i => f i (a.chan (i + 1))) ∧
      ∀ (Ws : ℕ → Tensor ℝ) (g : Option (ℕ → Fwd ℝ)), (∀ i < m, (Ws i).shape = (Ls i).weight.shape) →
      ∀ (B w : ℕ) (x y : Tensor ℝ), x.WF → x.shape = [B, a.chan 0, w] → y.WF → y.shape = [B, a.chan 0, w] →
      (∀ i < m, a.kern i ≤ a.widthAt a.kernelSize.length w i + 2 * a.padding) →
      (∀ f ∈ g, ∀ i < m, KeepsBatch (f i) [B, a.chan (i + 1), a.widthAt a.kernelSize.length w (i + 1)]) →
      let Ls' := fun i => ({ Ls i with weight := Ws i } : ConvLayer ℝ)
      let N' : TailFocus ℝ := { N with stages := stagesOf m Ls' g }
      ∃ u v, N'.forward x = .ok u ∧ N'.forward y = .ok v ∧
        (u = v → ∀ b < B, ∀ c < a.chan 0, ∀ q < tailLen (focus.getD 0 0) w, y.get [b, c, w - tailLen (focus.getD 0 0) w + q] = x.get [b, c, w - tailLen (focus.getD 0 0) w + q]) ∧
        (∀ (p : ℝ) (t : String), a.periodicity = some p → 0 < p → (a.lists a.kernelSize.length).layerType[0]? = some t → convTable.lookup t = some (some (cls 0)) → ConvFolds (cls 0) → Folded p x y →
          ∀ i, 1 ≤ i → runStages (stagesOf i Ls' g) y = runStages (stagesOf i Ls' g) x) := by
  obtain ⟨N, Ls, e1, e2, e3⟩ := C55_forward h hf hF rand
  have hm := h.layers
  refine ⟨N, Ls, e1, by rw [e2], ?_⟩
  intro Ws g hWs B w x y hx hxs hy hys hw hg Ls' N'
  obtain ⟨xs, x0, -, u, u1, -, -, u4, -⟩ := e3 Ws g hWs B w x hx hxs hw hg
  obtain ⟨ys, y0, -, v, v1, -, -, v4, -⟩ := e3 Ws g hWs B w y hy hys hw hg
  refine ⟨u, v, u1, v1, ?_, ?_⟩
  · rintro rfl b hb c hc q hq
    have hT : 0 < (if g.isSome then min (m + 1) focus.length else 1) := by
      split
      · omega
      · norm_num
    have := (u4 b hb 0 hT c hc q hq).symm.trans (v4 b hb 0 hT c hc q hq)
    rw [x0, y0] at this
    exact this.symm
  · intro p t hp hp0 ht hc hfo hxy i hi
    have hL : (Ls 0).periodicity = some p := by
      unfold TailFocus.init at e1
      dsimp only at e1
      cases hs : convStages convLayer a a.kernelSize.length rand with
      | error e => rw [hs] at e1; cases e1
      | ok ss =>
        rw [hs] at e1
        obtain ⟨t', b, L, rest, d1, d2, d3, d4⟩ := convStages_head hs
        rw [ht] at d1
        cases d1
        have hN := Except.ok.inj e1
        rw [e2] at hN
        have hst : ss = stagesOf m Ls (a.normalization.map fun f i => f i (a.chan (i + 1))) := congrArg TailFocus.stages hN
        obtain ⟨k, rfl⟩ : ∃ k, m = k + 1 := ⟨m - 1, by omega⟩
        rw [d4] at hst
        unfold stagesOf at hst
        rw [List.range_succ_eq_map, List.flatMap_cons, List.cons_append] at hst
        have := (List.cons.inj hst).1
        injection this with this
        rw [← this]
        exact (convLayer_keeps hc hfo d3).trans (d2.trans hp)
    have hstep : (Ls' 0).forward y = (Ls' 0).forward x :=
      ConvLayer.forward_folded _ (by show y.map (periodize (Ls 0).periodicity) = x.map (periodize (Ls 0).periodicity); rw [hL]; exact hxy.map_eq hp0)
    obtain ⟨k, rfl⟩ : ∃ k, i = k + 1 := ⟨i - 1, by omega⟩
    unfold stagesOf
    rw [List.range_succ_eq_map, List.flatMap_cons, List.cons_append]
    simp only [runStages, ConvStage.call, hstep]

/-- Two inputs, two hidden layers of width three, periodicity 2: the network gives the same output at (3/2, -1/4) and at (1/2, 15/4). -/
example (rng : Rng ℝ) : ∃ (net : ℕ) (h1 : Heap ℝ), mlpInit rng { exNet "continuous" 2 1 with periodicity := some 2 } [] = .ok (net, h1) ∧
    ∀ h : Heap ℝ, h1.Later h → h.Ordered → h.forward net ⟨[1, 2], [1 / 2, 15 / 4]⟩ = h.forward net ⟨[1, 2], [3 / 2, -1 / 4]⟩ := by
  obtain ⟨net, h1, e1, hall⟩ := C126_network rng (c := { exNet "continuous" 2 1 with periodicity := some 2 }) (kind := .leaf (.pw .continuous)) (kindIn := .leaf (.pw .continuous)) (p := 2) (nl := noFwd)
    (by rfl) (by rfl) ⟨2, 1, rfl, rfl, by norm_num, by norm_num, by show 0 < 2; norm_num, by show 0 < 3; norm_num⟩
    ⟨2, 1, rfl, rfl, by norm_num, by norm_num, by show 0 < 3; norm_num, by show 0 < 3; norm_num⟩
    ⟨2, 1, rfl, rfl, by norm_num, by norm_num, by show 0 < 3; norm_num, by show 0 < 1; norm_num⟩ trivial rfl (by norm_num) ordered_nil (by intro j hj; cases hj)
  refine ⟨net, h1, e1, fun h hl ho => hall h hl ho _ _ ⟨rfl, rfl, rfl, fun idx hidx => ?_⟩⟩
  obtain ⟨b, i, rfl, hb, hi⟩ := inShape2_exists hidx
  obtain rfl : b = 0 := by omega
  interval_cases i
  · exact ⟨0, Or.inr (by simp [Tensor.get, ravel]; norm_num)⟩
  · exact ⟨1, Or.inl (by simp [Tensor.get, ravel, numel]; norm_num)⟩

end HOL
