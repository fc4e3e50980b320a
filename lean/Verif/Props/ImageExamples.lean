import Verif.Lemmas.ImageExamples

/-! # The image classifiers of the example programs (C99, C100) -/

namespace HOL
open TorchScalar Spec

set_option linter.unusedSectionVars false

/-! ## vocabulary -/

section
variable {K : Type} [TorchScalar K]

/-- What training may change about a convolution: the entries of its weights. -/
inductive ExampleConv.Trained : ExampleConv K → ExampleConv K → Prop
  | high (L : ConvLayer K) (w : Tensor K) (hw : w.shape = L.weight.shape) : Trained (.high L) (.high { L with weight := w })
  | plain (g : Geometry) (w b w' b' : Tensor K) (hw : w'.shape = w.shape) : Trained (.plain g w b) (.plain g w' b')

/-- The same for a convolution that may be missing. -/
inductive TrainedAttr : Option (ExampleConv K) → Option (ExampleConv K) → Prop
  | none : TrainedAttr none none
  | some (c c' : ExampleConv K) (h : c.Trained c') : TrainedAttr (some c) (some c')

/-- The network after any training: the same layers with other weights. -/
structure MnistNet.Trained (N N' : MnistNet K) : Prop where
  standard : N'.standard = N.standard
  double : N'.double = N.double
  conv1 : N.conv1.Trained N'.conv1
  conv15 : TrainedAttr N.conv15 N'.conv15
  conv2 : N.conv2.Trained N'.conv2
  conv25 : TrainedAttr N.conv25 N'.conv25
  normalize : N'.normalize = N.normalize
  fc1 : N'.fc1 = N.fc1
  heap : N.heap.Later N'.heap
  ordered : N'.heap.Ordered

structure CifarNet.Trained (N N' : CifarNet K) : Prop where
  standard : N'.standard = N.standard
  conv1 : TrainedAttr N.conv1 N'.conv1
  conv2 : TrainedAttr N.conv2 N'.conv2
  weight : N'.weight.shape = N.weight.shape
  bias : N'.bias.shape = N.bias.shape

/-- The layer type that goes with a convolution. -/
def Spec.autoType (t : String) : String :=
  if t = "continuous2d" then "continuous" else if t = "discontinuous2d" then "discontinuous" else if t = "polynomial2d" then "polynomial" else if t = "fourier2d" then "fourier" else ""

/-- The kind of the output layer. -/
def MnistCfg.outputKind (c : MnistCfg) : Option FcKind :=
  if c.outputLayerType = "linear" then some (.leaf .linear)
  else fcTable.lookup (if c.outputLayerType ≠ "auto" then c.outputLayerType else Spec.autoType c.layerType)

theorem autoType_eq {t : String} {kind : FcKind} (h : fcTable.lookup (Spec.autoType t) = some kind) : dropLastTwo t = Spec.autoType t := by
  unfold Spec.autoType at h ⊢
  split_ifs with h1 h2 h3 h4
  · rw [h1]; decide
  · rw [h2]; decide
  · rw [h3]; decide
  · rw [h4]; decide
  · rw [if_neg h1, if_neg h2, if_neg h3, if_neg h4, show fcTable.lookup "" = none by decide] at h
    cases h

/-- A convolution of `C` to `O` channels with kernel `k`, no padding, stride 1. -/
def ExampleConv.Is (c : ExampleConv K) (C O k : ℕ) : Prop :=
  (∃ L : ConvLayer K, c = .high L ∧ L.Between .two C O k 1 0) ∨ ∃ w b : Tensor K, c = .plain (kernelOnly k) w b ∧ w.shape = [O, C, k, k]

theorem ExampleConv.Is.trained {c c' : ExampleConv K} {C O k : ℕ} (h : c.Is C O k) (ht : c.Trained c') : c'.Is C O k := by
  rcases h with ⟨L, rfl, hL⟩ | ⟨w, b, rfl, hw⟩
  · cases ht with
    | high _ w hw => exact .inl ⟨_, rfl, hL.withWeight hw⟩
  · cases ht with
    | plain _ _ _ w' b' hw' => exact .inr ⟨w', b', rfl, hw'.trans hw⟩

theorem ExampleConv.Is.sampleMap {c : ExampleConv K} {C O k : ℕ} (h : c.Is C O k) (hk : 1 ≤ k) {H W : ℕ} (hH : k ≤ H) (hW : k ≤ W) :
    SampleMap c.call [C, H, W] [O, H - k + 1, W - k + 1] := by
  rcases h with ⟨L, rfl, hL⟩ | ⟨w, b, rfl, hw⟩
  · have := hL.sampleMap hk le_rfl (H := H) (W := W) (by omega) (by omega)
    simp only [convOut, Nat.mul_zero, Nat.add_zero, Nat.div_one] at this
    exact this
  · exact sampleMap_plain hw hk hH hW

theorem ExampleConv.Is.reject {c : ExampleConv K} {C O k : ℕ} (h : c.Is C O k) {H W : ℕ} (hH : H < k ∨ W < k) : RejectsAll c.call [C, H, W] := by
  rcases h with ⟨L, rfl, hL⟩ | ⟨w, b, rfl, hw⟩
  · exact hL.reject hH
  · exact plain_reject hw hH

theorem mnistConv_is (c : MnistCfg) {cls : ConvClass} (hc : convTable.lookup c.layerType = some (some cls)) (h2 : cls.rank = .two) (hn : 1 ≤ c.n) (hs : 1 ≤ c.segments)
    (hk : 1 ≤ c.kernelSize) {C O : ℕ} (hC : 1 ≤ C) (rand : ConvRng K) : ∃ v, mnistConv c C O rand = .ok v ∧ v.Is C O c.kernelSize := by
  obtain ⟨L, e1, e2⟩ := convInit_between cls (exampleConvArgs c.n c.segments C O c.kernelSize) rand (by rintro rfl; cases h2) hn hs hC (k := c.kernelSize) (s := 1) (p := 0) rfl hk
  rw [h2] at e2
  refine ⟨.high L, ?_, .inl ⟨L, rfl, e2⟩⟩
  unfold mnistConv convLayer
  simp only [hc, e1, bind, Except.bind]

end

/-! ## examples/mnist.py -/

/-- The normalizations of the table treat samples separately. -/
theorem mnistNormalization_sampleMap {key : String} {f : Fwd ℝ} (h : mnistNormalization key = .ok f) {s : List ℕ} (hs : 0 < numel s) : SampleMap f s s := by
  unfold mnistNormalization at h
  split at h
  · cases h; exact sampleMap_maxAbs hs
  · split at h
    · cases h; exact sampleMap_maxCenter hs
    · cases h

/-- The network has this output layer, and these convolutions. -/
structure MnistNet.Is (N : MnistNet ℝ) (d : Bool) (i o k : ℕ) (key : String) (kind : FcKind) (a : FcArgs ℝ) : Prop where
  double : N.double = d
  conv1 : N.conv1.Is 1 i k
  conv15 : if d then ∃ c, N.conv15 = some c ∧ c.Is i i k else N.conv15 = none
  conv2 : N.conv2.Is i o k
  conv25 : if d then ∃ c, N.conv25 = some c ∧ c.Is o o k else N.conv25 = none
  normalize : mnistNormalization key = .ok N.normalize
  fc : IsLayer kind a N.heap N.fc1

theorem MnistNet.Is.trained {N N' : MnistNet ℝ} {d : Bool} {i o k : ℕ} {key : String} {kind : FcKind} {a : FcArgs ℝ} (h : N.Is d i o k key kind a)
    (ht : N.Trained N') : N'.Is d i o k key kind a := by
  refine ⟨ht.double.trans h.double, h.conv1.trained ht.conv1, ?_, h.conv2.trained ht.conv2, ?_, by rw [ht.normalize]; exact h.normalize, by rw [ht.fc1]; exact h.fc.later ht.heap⟩
  · have h' := h.conv15
    have t := ht.conv15
    cases d with
    | false =>
      simp only [Bool.false_eq_true, if_false] at h' ⊢
      rw [h'] at t
      generalize N'.conv15 = z at t
      cases t
      rfl
    | true =>
      simp only [if_true] at h' ⊢
      obtain ⟨c, c1, c2⟩ := h'
      rw [c1] at t
      generalize N'.conv15 = z at t
      cases t with
      | some _ c' hc => exact ⟨c', rfl, c2.trained hc⟩
  · have h' := h.conv25
    have t := ht.conv25
    cases d with
    | false =>
      simp only [Bool.false_eq_true, if_false] at h' ⊢
      rw [h'] at t
      generalize N'.conv25 = z at t
      cases t
      rfl
    | true =>
      simp only [if_true] at h' ⊢
      obtain ⟨c, c1, c2⟩ := h'
      rw [c1] at t
      generalize N'.conv25 = z at t
      cases t with
      | some _ c' hc => exact ⟨c', rfl, c2.trained hc⟩

/-- The output layer is built. -/
theorem mnistOutput_ok (rng : Rng ℝ) {c : MnistCfg} {m : ℕ} {kind : FcKind} (hk : c.outputKind = some kind) (hu : Usable kind (mnistOutputArgs (K := ℝ) c m)) :
    ∃ j h, mnistOutput rng c m = .ok (j, h) ∧ h.Ordered ∧ IsLayer kind (mnistOutputArgs c m) h j := by
  obtain ⟨F, hF⟩ := hu.builds rng
  have hlen := hF.len 0
  have hpos := hF.pos
  have hord : Heap.Ordered (F 0) := by
    intro k m hm j hj
    have := hF.ord 0 k m hm j hj
    omega
  have hlay : IsLayer kind (mnistOutputArgs c m) (F 0) (0 + kindSize kind - 1) := IsLayer.of_lookup hF fun k hk => by rw [Nat.zero_add]
  unfold MnistCfg.outputKind at hk
  unfold mnistOutput
  split at hk
  · next hl =>
    cases hk
    rw [if_pos hl]
    have h0 : leafMods rng .linear (mnistOutputArgs c m) 0 = .ok (F 0) := hF.ok 0
    rw [h0]
    exact ⟨0, F 0, rfl, hord, hlay⟩
  · next hl =>
    rw [if_neg hl]
    unfold fcLayer
    have hk' : fcTable.lookup (if c.outputLayerType ≠ "auto" then c.outputLayerType else dropLastTwo c.layerType) = some kind := by
      by_cases ha : c.outputLayerType ≠ "auto"
      · rwa [if_pos ha] at hk ⊢
      · rw [if_neg ha] at hk ⊢
        rw [autoType_eq hk]
        exact hk
    rw [hk']
    have h0 : fcMods rng kind (mnistOutputArgs c m) 0 = .ok (F 0) := hF.ok 0
    simp only [List.length_nil, h0, bind, Except.bind, List.nil_append]
    refine ⟨_, _, rfl, hord, ?_⟩
    rw [hlen]
    exact hlay

/-- What the convolutions compute: everything before the last normalization. -/
noncomputable def MnistNet.maps (N : MnistNet ℝ) (x : Tensor ℝ) : Py (Tensor ℝ) :=
  if N.double = false then do
    let x ← N.conv1.call x
    let x ← pool22 windowMean x
    let x ← N.normalize x
    let x ← N.conv2.call x
    pool22 windowMean x
  else do
    let x ← N.conv1.call x
    let x ← N.normalize x
    let x ← callAttr N.conv15 x
    let x ← pool22 windowMean x
    let x ← N.normalize x
    let x ← N.conv2.call x
    let x ← N.normalize x
    let x ← callAttr N.conv25 x
    pool22 windowMean x

theorem MnistNet.forward_maps (N : MnistNet ℝ) (hs : N.standard = false) (x : Tensor ℝ) :
    N.forward x = N.maps x >>= fun y => N.normalize y >>= fun y => flattenRows y >>= fun y => N.heap.forward N.fc1 y := by
  unfold forward maps
  rw [hs]
  by_cases hd : N.double = false
  · simp only [hd, if_true, Bool.false_eq_true, if_false, bind_assoc]
  · simp only [Bool.not_eq_false] at hd
    simp only [hd, Bool.true_eq_false, if_false, bind_assoc]

/-- The side of the pixel maps. -/
def mnistSide (d : Bool) (k : ℕ) : ℕ :=
  if d then ((28 - k + 1 - k + 1) / 2 - k + 1 - k + 1) / 2 else ((28 - k + 1) / 2 - k + 1) / 2

/-- Every convolution has an input of at least the size of the kernel, and every pooling one of at least 2. -/
def mnistFits (d : Bool) (k : ℕ) : Prop :=
  if d then k ≤ 28 ∧ k ≤ 28 - k + 1 ∧ 2 ≤ 28 - k + 1 - k + 1 ∧ k ≤ (28 - k + 1 - k + 1) / 2 ∧ k ≤ (28 - k + 1 - k + 1) / 2 - k + 1 ∧ 2 ≤ (28 - k + 1 - k + 1) / 2 - k + 1 - k + 1
  else k ≤ 28 ∧ 2 ≤ 28 - k + 1 ∧ k ≤ (28 - k + 1) / 2 ∧ 2 ≤ (28 - k + 1) / 2 - k + 1

theorem numel3_pos {a b c : ℕ} (ha : 1 ≤ a) (hb : 1 ≤ b) (hc : 1 ≤ c) : 0 < numel [a, b, c] := by
  simp only [numel]
  positivity

theorem MnistNet.Is.maps_ok {N : MnistNet ℝ} {d : Bool} {i o k : ℕ} {key : String} {kind : FcKind} {a : FcArgs ℝ} (h : N.Is d i o k key kind a)
    (hi : 1 ≤ i) (ho : 1 ≤ o) (hk : 1 ≤ k) (hf : mnistFits d k) : SampleMap N.maps [1, 28, 28] [o, mnistSide d k, mnistSide d k] := by
  have hc15 := h.conv15
  have hc25 := h.conv25
  cases d with
  | false =>
    obtain ⟨f1, f2, f3, f4⟩ : _ ∧ _ ∧ _ ∧ _ := hf
    unfold maps
    simp only [h.double, if_true]
    refine (h.conv1.sampleMap hk f1 f1).comp ?_
    refine (sampleMap_pool _ f2 f2).comp ?_
    refine (mnistNormalization_sampleMap h.normalize (numel3_pos hi (by omega) (by omega))).comp ?_
    refine (h.conv2.sampleMap hk f3 f3).comp ?_
    exact sampleMap_pool _ f4 f4
  | true =>
    obtain ⟨f1, f2, f3, f4, f5, f6⟩ : _ ∧ _ ∧ _ ∧ _ ∧ _ ∧ _ := hf
    obtain ⟨c15, c1, c2⟩ := hc15
    obtain ⟨c25, c3, c4⟩ := hc25
    unfold maps
    simp only [h.double, c1, c3, Bool.true_eq_false, if_false, callAttr]
    refine (h.conv1.sampleMap hk f1 f1).comp ?_
    refine (mnistNormalization_sampleMap h.normalize (numel3_pos hi (by omega) (by omega))).comp ?_
    refine (c2.sampleMap hk f2 f2).comp ?_
    refine (sampleMap_pool _ f3 f3).comp ?_
    refine (mnistNormalization_sampleMap h.normalize (numel3_pos hi (by omega) (by omega))).comp ?_
    refine (h.conv2.sampleMap hk f4 f4).comp ?_
    refine (mnistNormalization_sampleMap h.normalize (numel3_pos ho (by omega) (by omega))).comp ?_
    refine (c4.sampleMap hk f5 f5).comp ?_
    exact sampleMap_pool _ f6 f6

theorem MnistNet.Is.maps_reject {N : MnistNet ℝ} {d : Bool} {i o k : ℕ} {key : String} {kind : FcKind} {a : FcArgs ℝ} (h : N.Is d i o k key kind a)
    (hi : 1 ≤ i) (ho : 1 ≤ o) (hk : 1 ≤ k) (hf : ¬ mnistFits d k) : RejectsAll N.maps [1, 28, 28] := by
  have hc15 := h.conv15
  have hc25 := h.conv25
  cases d with
  | false =>
    unfold maps
    simp only [h.double, if_true]
    by_cases f1 : k ≤ 28
    swap
    · exact (h.conv1.reject (by omega)).first
    refine (h.conv1.sampleMap hk f1 f1).reject ?_
    by_cases f2 : 2 ≤ 28 - k + 1
    swap
    · exact (pool_reject _ (by omega)).first
    refine (sampleMap_pool _ f2 f2).reject ?_
    refine (mnistNormalization_sampleMap h.normalize (numel3_pos hi (by omega) (by omega))).reject ?_
    by_cases f3 : k ≤ (28 - k + 1) / 2
    swap
    · exact (h.conv2.reject (by omega)).first
    refine (h.conv2.sampleMap hk f3 f3).reject ?_
    by_cases f4 : 2 ≤ (28 - k + 1) / 2 - k + 1
    swap
    · exact pool_reject _ (by omega)
    exact absurd ⟨f1, f2, f3, f4⟩ hf
  | true =>
    obtain ⟨c15, c1, c2⟩ := hc15
    obtain ⟨c25, c3, c4⟩ := hc25
    unfold maps
    simp only [h.double, c1, c3, Bool.true_eq_false, if_false, callAttr]
    by_cases f1 : k ≤ 28
    swap
    · exact (h.conv1.reject (by omega)).first
    refine (h.conv1.sampleMap hk f1 f1).reject ?_
    refine (mnistNormalization_sampleMap h.normalize (numel3_pos hi (by omega) (by omega))).reject ?_
    by_cases f2 : k ≤ 28 - k + 1
    swap
    · exact (c2.reject (by omega)).first
    refine (c2.sampleMap hk f2 f2).reject ?_
    by_cases f3 : 2 ≤ 28 - k + 1 - k + 1
    swap
    · exact (pool_reject _ (by omega)).first
    refine (sampleMap_pool _ f3 f3).reject ?_
    refine (mnistNormalization_sampleMap h.normalize (numel3_pos hi (by omega) (by omega))).reject ?_
    by_cases f4 : k ≤ (28 - k + 1 - k + 1) / 2
    swap
    · exact (h.conv2.reject (by omega)).first
    refine (h.conv2.sampleMap hk f4 f4).reject ?_
    refine (mnistNormalization_sampleMap h.normalize (numel3_pos ho (by omega) (by omega))).reject ?_
    by_cases f5 : k ≤ (28 - k + 1 - k + 1) / 2 - k + 1
    swap
    · exact (c4.reject (by omega)).first
    refine (c4.sampleMap hk f5 f5).reject ?_
    by_cases f6 : 2 ≤ (28 - k + 1 - k + 1) / 2 - k + 1 - k + 1
    swap
    · exact pool_reject _ (by omega)
    exact absurd ⟨f1, f2, f3, f4, f5, f6⟩ hf

/-- The kernel sizes for which the number of inputs of the output layer is right. -/
def mnistKernelOk (d : Bool) (k : ℕ) : Prop := k = 3 ∨ k = 4 ∨ (k = 5 ∧ d = false)

theorem mnistKernelOk_fits {d : Bool} {k o : ℕ} (h : mnistKernelOk d k) : mnistFits d k ∧ numel [o, mnistSide d k, mnistSide d k] = lastLayerSize d k o := by
  rcases h with rfl | rfl | ⟨rfl, rfl⟩
  · cases d <;> exact ⟨by simp [mnistFits], by simp [mnistSide, lastLayerSize, numel]; ring⟩
  · cases d <;> exact ⟨by simp [mnistFits], by simp [mnistSide, lastLayerSize, numel]; ring⟩
  · exact ⟨by simp [mnistFits], by simp [mnistSide, lastLayerSize, numel]; ring⟩

theorem mnistKernelOk_mismatch {d : Bool} {k o : ℕ} (hk : 1 ≤ k) (ho : 1 ≤ o) (h : ¬ mnistKernelOk d k) (hf : mnistFits d k) :
    numel [o, mnistSide d k, mnistSide d k] ≠ lastLayerSize d k o := by
  unfold mnistKernelOk at h
  have h3 : k ≠ 3 := fun e => h (.inl e)
  have h4 : k ≠ 4 := fun e => h (.inr (.inl e))
  have key : ∀ q r : ℕ, q ≠ r → numel [o, q, q] ≠ r * r * o := by
    intro q r hqr e
    simp only [numel, Nat.mul_one] at e
    rw [Nat.mul_comm o] at e
    exact hqr (Nat.mul_self_inj.1 (Nat.eq_of_mul_eq_mul_right ho e))
  unfold lastLayerSize
  cases d with
  | false =>
    have h5 : k ≠ 5 := fun e => h (.inr (.inr ⟨e, rfl⟩))
    simp only [Bool.false_eq_true, if_false, h3]
    apply key
    unfold mnistSide
    simp only [Bool.false_eq_true, if_false]
    omega
  | true =>
    obtain ⟨f1, f2, f3, f4, f5, f6⟩ : _ ∧ _ ∧ _ ∧ _ ∧ _ ∧ _ := hf
    simp only [if_true, h3, if_false]
    apply key
    unfold mnistSide
    simp only [if_true]
    omega

/-- Every untrained network counts as trained (zero steps). -/
theorem ExampleConv.Trained.refl {K : Type} [TorchScalar K] (c : ExampleConv K) : c.Trained c := by
  cases c with
  | high L => exact .high L L.weight rfl
  | plain g w b => exact .plain g w b w b rfl

theorem TrainedAttr.refl {K : Type} [TorchScalar K] (c : Option (ExampleConv K)) : TrainedAttr c c := by
  cases c with
  | none => exact .none
  | some c => exact .some c c (.refl c)

theorem MnistNet.Trained.refl {N : MnistNet ℝ} (h : N.heap.Ordered) : N.Trained N :=
  ⟨rfl, rfl, .refl _, .refl _, .refl _, .refl _, rfl, rfl, fun _ m hm => ⟨m, hm, .refl m⟩, h⟩

theorem MnistNet.Is.forward_ok {N : MnistNet ℝ} {d : Bool} {i o k : ℕ} {key : String} {kind : FcKind} {a : FcArgs ℝ} (h : N.Is d i o k key kind a)
    (hord : N.heap.Ordered) (hst : N.standard = false) (hi : 1 ≤ i) (ho : 1 ≤ o) (hu : Usable kind a) (hper : a.periodicity = none) (hin : a.inFeatures = lastLayerSize d k o)
    (hout : a.outFeatures = 10) (hk : mnistKernelOk d k) : SampleMap N.forward [1, 28, 28] [10] := by
  obtain ⟨hf, hm⟩ := mnistKernelOk_fits (o := o) hk
  have hk1 : 1 ≤ k := by rcases hk with rfl | rfl | ⟨rfl, _⟩ <;> omega
  have hs : 1 ≤ mnistSide d k := by rcases hk with rfl | rfl | ⟨rfl, rfl⟩ <;> first | (cases d <;> decide) | decide
  have e := h.fc.sampleMap hu hper hord
  rw [hin, hout, ← hm] at e
  have := (h.maps_ok hi ho hk1 hf).comp ((mnistNormalization_sampleMap h.normalize (numel3_pos ho hs hs)).comp ((sampleMap_flatten _).comp e))
  exact this.congr fun B x _ _ _ => N.forward_maps hst x

theorem MnistNet.Is.forward_reject {N : MnistNet ℝ} {d : Bool} {i o k : ℕ} {key : String} {a : FcArgs ℝ} (h : N.Is d i o k key (.leaf .linear) a)
    (hord : N.heap.Ordered) (hst : N.standard = false) (hi : 1 ≤ i) (ho : 1 ≤ o) (hk1 : 1 ≤ k) (hin : a.inFeatures = lastLayerSize d k o) (hk : ¬ mnistKernelOk d k) :
    RejectsAll N.forward [1, 28, 28] := by
  have conv : ∀ {f g : Fwd ℝ} {s : List ℕ}, RejectsAll f s → (∀ x, g x = f x) → RejectsAll g s := by
    intro f g s hf hg B x hB hx hs
    rw [hg]
    exact hf B x hB hx hs
  refine conv ?_ (N.forward_maps hst)
  by_cases hf : mnistFits d k
  · have hs : 1 ≤ mnistSide d k := by
      unfold mnistFits at hf
      unfold mnistSide
      cases d <;> simp only [Bool.false_eq_true, if_false, if_true] at hf ⊢ <;> omega
    refine (h.maps_ok hi ho hk1 hf).reject ((mnistNormalization_sampleMap h.normalize (numel3_pos ho hs hs)).reject ((sampleMap_flatten _).reject ?_))
    obtain ⟨rng, base, ms, e1, e2, e3⟩ := h.fc
    cases e1
    have hj : N.fc1 = base + 0 := by simpa using e2
    obtain ⟨m', f1, f2⟩ := e3 0 _ rfl
    rw [hj, Heap.forward_eq hord f1]
    have hne := mnistKernelOk_mismatch hk1 ho hk hf
    rw [← hin] at hne
    cases f2 with
    | refl => exact linear_reject rfl hne
    | linear w b w' b' hs hb => exact linear_reject hs hne
  · exact (h.maps_reject hi ho hk1 hf).first

theorem mnist_init_is (c : MnistCfg) {cls : ConvClass} (hc : convTable.lookup c.layerType = some (some cls)) (h2 : cls.rank = .two) (hn : 1 ≤ c.n) (hs : 1 ≤ c.segments)
    (hk : 1 ≤ c.kernelSize) {i o : ℕ} {rest : List ℕ} (hch : c.channels = i :: o :: rest) (hi : 1 ≤ i) (ho : 1 ≤ o)
    (hnorm : c.normalization = "max_abs" ∨ c.normalization = "max_center") {kind : FcKind} (hout : c.outputKind = some kind)
    (hu : Usable kind (mnistOutputArgs (K := ℝ) c (lastLayerSize c.double c.kernelSize o))) (rand : ℕ → ConvRng ℝ) (rng : Rng ℝ) :
    ∃ N, MnistNet.init c rand rng = .ok N ∧ N.heap.Ordered ∧ N.standard = false ∧
      N.Is c.double i o c.kernelSize c.normalization kind (mnistOutputArgs c (lastLayerSize c.double c.kernelSize o)) := by
  have hstd : c.layerType ≠ "standard" := by
    intro e
    rw [e, show convTable.lookup "standard" = none from by decide] at hc
    cases hc
  obtain ⟨v1, a1, b1⟩ := mnistConv_is c hc h2 hn hs hk (C := 1) (O := i) le_rfl (rand 0)
  obtain ⟨v15, a15, b15⟩ := mnistConv_is c hc h2 hn hs hk (C := i) (O := i) hi (rand 1)
  obtain ⟨v2, a2, b2⟩ := mnistConv_is c hc h2 hn hs hk (C := i) (O := o) hi (rand 2)
  obtain ⟨v25, a25, b25⟩ := mnistConv_is c hc h2 hn hs hk (C := o) (O := o) ho (rand 3)
  obtain ⟨j, h, e1, e2, e3⟩ := mnistOutput_ok rng hout hu
  obtain ⟨f, hf⟩ : ∃ f : Fwd ℝ, mnistNormalization c.normalization = .ok f := by
    rcases hnorm with e | e <;> rw [e] <;> exact ⟨_, rfl⟩
  have hinit : MnistNet.init c rand rng = .ok ⟨decide (c.layerType = "standard"), c.double, v1, if c.double then some v15 else none, v2, if c.double then some v25 else none, f, j, h⟩ := by
    unfold MnistNet.init
    have p0 : pyIndex c.channels 0 = .ok i := by rw [hch]; rfl
    have p1 : pyIndex c.channels 1 = .ok o := by rw [hch]; rfl
    cases hd : c.double with
    | false =>
      rw [hd] at e1
      simp only [p0, p1, hstd, if_false, a1, a2, mnistDouble, hd, Bool.false_eq_true, hf, e1, bind, Except.bind]
    | true =>
      rw [hd] at e1
      simp only [p0, p1, hstd, if_false, if_true, a1, a15, a2, a25, mnistDouble, hd, hf, e1, bind, Except.bind]
  have his : MnistNet.Is (N := ⟨decide (c.layerType = "standard"), c.double, v1, if c.double then some v15 else none, v2, if c.double then some v25 else none, f, j, h⟩) c.double i o c.kernelSize
      c.normalization kind (mnistOutputArgs c (lastLayerSize c.double c.kernelSize o)) := by
    refine ⟨rfl, b1, ?_, b2, ?_, hf, e3⟩
    · cases c.double with
      | false => rfl
      | true => exact ⟨v15, rfl, b15⟩
    · cases c.double with
      | false => rfl
      | true => exact ⟨v25, rfl, b25⟩
  exact ⟨_, hinit, e2, by simpa using hstd, his⟩

/-- **C99 (high order networks).** Built from a configuration with a high order 2d convolution, a known normalization and a usable output layer, the network of the MNIST example, before and after any
training, maps every batch of 28 × 28 images to ten logits per image, each from that image alone, if the kernel size is 3, 4 or (without `double`) 5. With every other kernel size and the default linear
output layer it is built without complaint but raises on every batch. -/
theorem C99_high_order (c : MnistCfg) {cls : ConvClass} (hc : convTable.lookup c.layerType = some (some cls)) (h2 : cls.rank = .two) (hn : 1 ≤ c.n) (hs : 1 ≤ c.segments)
    (hk : 1 ≤ c.kernelSize) {i o : ℕ} {rest : List ℕ} (hch : c.channels = i :: o :: rest) (hi : 1 ≤ i) (ho : 1 ≤ o)
    (hnorm : c.normalization = "max_abs" ∨ c.normalization = "max_center") {kind : FcKind} (hout : c.outputKind = some kind)
    (hu : Usable kind (mnistOutputArgs (K := ℝ) c (lastLayerSize c.double c.kernelSize o))) (rand : ℕ → ConvRng ℝ) (rng : Rng ℝ) :
    ∃ N, MnistNet.init c rand rng = .ok N ∧ N.Trained N ∧ ∀ N', N.Trained N' →
      ((c.kernelSize = 3 ∨ c.kernelSize = 4 ∨ (c.kernelSize = 5 ∧ c.double = false)) → SampleMap N'.forward [1, 28, 28] [10]) ∧
      (¬ (c.kernelSize = 3 ∨ c.kernelSize = 4 ∨ (c.kernelSize = 5 ∧ c.double = false)) → c.outputLayerType = "linear" → RejectsAll N'.forward [1, 28, 28]) := by
  obtain ⟨N, e1, e2, hstd, his⟩ := mnist_init_is c hc h2 hn hs hk hch hi ho hnorm hout hu rand rng
  refine ⟨N, e1, .refl e2, fun N' ht => ?_⟩
  have his' := his.trained ht
  have hst' : N'.standard = false := ht.standard.trans hstd
  refine ⟨fun hk' => his'.forward_ok ht.ordered hst' hi ho hu rfl rfl rfl hk', fun hk' hl => ?_⟩
  have hkind : kind = .leaf .linear := by
    unfold MnistCfg.outputKind at hout
    rw [if_pos hl] at hout
    cases hout
    rfl
  subst hkind
  exact his'.forward_reject ht.ordered hst' hi ho hk rfl hk'

/-! The default configuration (config/mnist_config.yaml), the same with `output_layer_type: auto`, and with a kernel of size 6. -/

def exMnist : MnistCfg := ⟨3, "continuous2d", 2, [6, 16], 5, "max_abs", false, "linear"⟩

example (rand : ℕ → ConvRng ℝ) (rng : Rng ℝ) : ∃ N, MnistNet.init exMnist rand rng = .ok N ∧ SampleMap N.forward [1, 28, 28] [10] := by
  obtain ⟨N, h1, h2, h3⟩ := C99_high_order exMnist (cls := .piecewise true .two) (by decide) rfl (by decide) (by decide) (by decide) (i := 6) (o := 16) rfl (by decide) (by decide)
    (.inl rfl) (kind := .leaf .linear) (by decide) trivial rand rng
  exact ⟨N, h1, (h3 N h2).1 (.inr (.inr ⟨rfl, rfl⟩))⟩

example (rand : ℕ → ConvRng ℝ) (rng : Rng ℝ) : ∃ N, MnistNet.init { exMnist with outputLayerType := "auto", double := true, kernelSize := 3 } rand rng = .ok N ∧
    SampleMap N.forward [1, 28, 28] [10] := by
  obtain ⟨N, h1, h2, h3⟩ := C99_high_order { exMnist with outputLayerType := "auto", double := true, kernelSize := 3 } (cls := .piecewise true .two) (by decide) rfl (by decide) (by decide) (by decide)
    (i := 6) (o := 16) rfl (by decide) (by decide)
    (.inl rfl) (kind := .leaf (.pw .continuous)) (by decide) ⟨3, 2, rfl, rfl, by decide, by decide, by decide, by decide⟩ rand rng
  exact ⟨N, h1, (h3 N h2).1 (.inl rfl)⟩

example (rand : ℕ → ConvRng ℝ) (rng : Rng ℝ) : ∃ N, MnistNet.init { exMnist with kernelSize := 6 } rand rng = .ok N ∧
    N.forward (Tensor.tab4 16 1 28 28 fun _ _ _ _ => 0) = .error .runtimeError := by
  obtain ⟨N, h1, h2, h3⟩ := C99_high_order { exMnist with kernelSize := 6 } (cls := .piecewise true .two) (by decide) rfl (by decide) (by decide) (by decide)
    (i := 6) (o := 16) rfl (by decide) (by decide) (.inl rfl) (kind := .leaf .linear) (by decide) trivial rand rng
  exact ⟨N, h1, (h3 N h2).2 (by decide) rfl 16 _ (by decide) (Tensor.wf_tab4 _ _ _ _ _) rfl⟩

/-- Normalized maps lie in (-1, 1). -/
theorem mnistNormalization_bound {key : String} {f : Fwd ℝ} (h : mnistNormalization key = .ok f) {B : ℕ} {s : List ℕ} (hB : 1 ≤ B) (hs0 : 0 < numel s) {x y : Tensor ℝ} (hx : x.WF)
    (hs : x.shape = B :: s) (hy : f x = .ok y) : ∀ b < B, ∀ i, InShape s i → |y.get (b :: i)| < 1 := by
  have heps : (0 : ℝ) < moduleEps := by
    unfold moduleEps
    positivity
  intro b hb i hi
  unfold mnistNormalization at h
  split at h
  · cases h
    obtain ⟨z, z1, -, z3⟩ := C39_max_abs_nd x moduleEps B s hs hx (by omega) hs0
    beta_reduce at hy
    rw [z1] at hy
    cases hy
    obtain ⟨M, m1, m2⟩ := z3 b hb
    have hle : |x.get (b :: i)| ≤ M := m1.2 ⟨i, hi, rfl⟩
    have h0 := abs_nonneg (x.get (b :: i))
    rw [m2 i hi, abs_div, abs_of_pos (show (0 : ℝ) < M + moduleEps by linarith), div_lt_one (by linarith)]
    linarith
  · split at h
    · cases h
      obtain ⟨z, z1, -, z3⟩ := C39_max_center_nd x moduleEps B s hs (by omega) hs0
      beta_reduce at hy
      rw [z1] at hy
      cases hy
      obtain ⟨M, m, m1, m1', m2⟩ := z3 b hb
      have hle : x.get (b :: i) ≤ M := m1.2 ⟨i, hi, rfl⟩
      have hge : m ≤ x.get (b :: i) := m1'.2 ⟨i, hi, rfl⟩
      rw [m2 i hi, abs_div, abs_of_pos (show (0 : ℝ) < (M - m) / 2 + moduleEps by linarith), div_lt_one (by linarith), abs_lt]
      constructor <;> linarith
    · cases h

theorem MnistNet.Is.features {N : MnistNet ℝ} {d : Bool} {i o k : ℕ} {key : String} {kind : FcKind} {a : FcArgs ℝ} (h : N.Is d i o k key kind a)
    (hst : N.standard = false) (hi : 1 ≤ i) (ho : 1 ≤ o) (hk : mnistKernelOk d k) {B : ℕ} (hB : 1 ≤ B) {x : Tensor ℝ} (hx : x.WF) (hs : x.shape = [B, 1, 28, 28]) :
    ∃ z, z.shape = [B, lastLayerSize d k o] ∧ (∀ b < B, ∀ j < lastLayerSize d k o, |z.get [b, j]| < 1) ∧ N.forward x = N.heap.forward N.fc1 z := by
  obtain ⟨hf, hm⟩ := mnistKernelOk_fits (o := o) hk
  have hk1 : 1 ≤ k := by rcases hk with rfl | rfl | ⟨rfl, _⟩ <;> omega
  have hq : 1 ≤ mnistSide d k := by rcases hk with rfl | rfl | ⟨rfl, rfl⟩ <;> first | (cases d <;> decide) | decide
  have h0 := numel3_pos ho hq hq
  obtain ⟨y, y1, y2, y3⟩ := (h.maps_ok hi ho hk1 hf).accepts B x hB hx hs
  obtain ⟨u, u1, u2, u3⟩ := (mnistNormalization_sampleMap h.normalize h0).accepts B y hB y2 y3
  have hb := mnistNormalization_bound h.normalize hB h0 y2 y3 u1
  have hfl := flattenRows_ok u u3 (by omega)
  refine ⟨u.reshape [B, numel [o, mnistSide d k, mnistSide d k]], by rw [← hm]; rfl, ?_, ?_⟩
  · intro b hb' j hj
    rw [← hm] at hj
    rw [Tensor.get_reshape (idx' := b :: unravel [o, mnistSide d k, mnistSide d k] j)]
    · exact hb b hb' _ (inShape_unravel hj)
    · rw [u3]
      simp [ravel, numel, ravel_unravel hj]
  · rw [N.forward_maps hst, y1]
    simp only [bind, Except.bind, u1, hfl]

/-- **C99 (range).** Whatever the weights and the images, the output layer of a high order network receives features in (-1, 1), the interval its nodes span. -/
theorem C99_features_in_range (c : MnistCfg) {cls : ConvClass} (hc : convTable.lookup c.layerType = some (some cls)) (h2 : cls.rank = .two) (hn : 1 ≤ c.n) (hs : 1 ≤ c.segments)
    (hk : 1 ≤ c.kernelSize) {i o : ℕ} {rest : List ℕ} (hch : c.channels = i :: o :: rest) (hi : 1 ≤ i) (ho : 1 ≤ o)
    (hnorm : c.normalization = "max_abs" ∨ c.normalization = "max_center") {kind : FcKind} (hout : c.outputKind = some kind)
    (hu : Usable kind (mnistOutputArgs (K := ℝ) c (lastLayerSize c.double c.kernelSize o))) (rand : ℕ → ConvRng ℝ) (rng : Rng ℝ) :
    ∃ N, MnistNet.init c rand rng = .ok N ∧ N.Trained N ∧ ∀ N', N.Trained N' → (c.kernelSize = 3 ∨ c.kernelSize = 4 ∨ (c.kernelSize = 5 ∧ c.double = false)) →
      ∀ (B : ℕ) (x : Tensor ℝ), 1 ≤ B → x.WF → x.shape = [B, 1, 28, 28] → ∃ (m : ℕ) (z : Tensor ℝ), z.shape = [B, m] ∧ (∀ b < B, ∀ j < m, |z.get [b, j]| < 1) ∧
        N'.forward x = N'.heap.forward N'.fc1 z := by
  obtain ⟨N, e1, e2, hstd, his⟩ := mnist_init_is c hc h2 hn hs hk hch hi ho hnorm hout hu rand rng
  refine ⟨N, e1, .refl e2, fun N' ht hok B x hB hx hsh => ⟨lastLayerSize c.double c.kernelSize o, ?_⟩⟩
  exact (his.trained ht).features (ht.standard.trans hstd) hi ho hok hB hx hsh

example (rand : ℕ → ConvRng ℝ) (rng : Rng ℝ) : ∃ N, MnistNet.init exMnist rand rng = .ok N ∧ ∃ (m : ℕ) (z : Tensor ℝ), z.shape = [2, m] ∧ (∀ b < 2, ∀ j < m, |z.get [b, j]| < 1) ∧
    N.forward (Tensor.tab4 2 1 28 28 fun b _ i j => (b + i * j : ℕ)) = N.heap.forward N.fc1 z := by
  obtain ⟨N, h1, h2, h3⟩ := C99_features_in_range exMnist (cls := .piecewise true .two) (by decide) rfl (by decide) (by decide) (by decide) (i := 6) (o := 16) rfl (by decide) (by decide)
    (.inl rfl) (kind := .leaf .linear) (by decide) trivial rand rng
  exact ⟨N, h1, h3 N h2 (.inr (.inr ⟨rfl, rfl⟩)) 2 _ (by decide) (Tensor.wf_tab4 _ _ _ _ _) rfl⟩

theorem sampleMap_reluPool {K : Type} [TorchScalar K] (f : List K → K) {C H W : ℕ} (hH : 2 ≤ H) (hW : 2 ≤ W) : SampleMap (fun x => pool22 f (reluT x)) [C, H, W] [C, H / 2, W / 2] :=
  (sampleMap_relu _).comp (sampleMap_pool f hH hW)

theorem ExampleConv.new_is {K : Type} [TorchScalar K] (C O k : ℕ) (rand : ConvRng K) : (ExampleConv.new C O k rand).Is C O k := .inr ⟨_, _, rfl, rfl⟩

theorem mnist_standard_init (c : MnistCfg) (hst : c.layerType = "standard") {i o : ℕ} {rest : List ℕ} (hch : c.channels = i :: o :: rest)
    (hnorm : c.normalization = "max_abs" ∨ c.normalization = "max_center") {kind : FcKind} (hout : c.outputKind = some kind)
    (hu : Usable kind (mnistOutputArgs (K := ℝ) c (lastLayerSize c.double c.kernelSize o))) (rand : ℕ → ConvRng ℝ) (rng : Rng ℝ) :
    ∃ N, MnistNet.init c rand rng = .ok N ∧ N.standard = true ∧ N.double = c.double ∧ N.heap.Ordered ∧ N.conv1.Is 1 i 5 ∧ N.conv15 = none ∧ N.conv2.Is i o 5 ∧
      mnistNormalization c.normalization = .ok N.normalize ∧ IsLayer kind (mnistOutputArgs c (lastLayerSize c.double c.kernelSize o)) N.heap N.fc1 := by
  obtain ⟨j, h, e1, e2, e3⟩ := mnistOutput_ok rng hout hu
  obtain ⟨f, hf⟩ : ∃ f : Fwd ℝ, mnistNormalization c.normalization = .ok f := by
    rcases hnorm with e | e <;> rw [e] <;> exact ⟨_, rfl⟩
  have p0 : pyIndex c.channels 0 = .ok i := by rw [hch]; rfl
  have p1 : pyIndex c.channels 1 = .ok o := by rw [hch]; rfl
  refine ⟨⟨decide (c.layerType = "standard"), c.double, .new 1 i 5 (rand 0), none, .new i o 5 (rand 2), none, f, j, h⟩, ?_, by simpa using hst, rfl, e2, ExampleConv.new_is _ _ _ _, rfl,
    ExampleConv.new_is _ _ _ _, hf, e3⟩
  unfold MnistNet.init
  simp only [p0, p1, hst, if_true, hf, e1, bind, Except.bind]

/-- **C99 (standard networks).** `layer_type: standard` uses kernels of size 5 whatever `kernel_size` says. The network works with every `kernel_size` except 3, for which the linear output layer has the
wrong size and every batch raises. With `double` every batch raises `AttributeError`, the second convolutions being missing. -/
theorem C99_standard (c : MnistCfg) (hst : c.layerType = "standard") {i o : ℕ} {rest : List ℕ} (hch : c.channels = i :: o :: rest) (hi : 1 ≤ i) (ho : 1 ≤ o)
    (hnorm : c.normalization = "max_abs" ∨ c.normalization = "max_center") {kind : FcKind} (hout : c.outputKind = some kind)
    (hu : Usable kind (mnistOutputArgs (K := ℝ) c (lastLayerSize c.double c.kernelSize o))) (rand : ℕ → ConvRng ℝ) (rng : Rng ℝ) :
    ∃ N, MnistNet.init c rand rng = .ok N ∧ N.Trained N ∧ ∀ N', N.Trained N' →
      (c.double = false → c.kernelSize ≠ 3 → SampleMap N'.forward [1, 28, 28] [10]) ∧
      (c.double = false → c.kernelSize = 3 → c.outputLayerType = "linear" → RejectsAll N'.forward [1, 28, 28]) ∧
      (c.double = true → ∀ (B : ℕ) (x : Tensor ℝ), 1 ≤ B → x.WF → x.shape = [B, 1, 28, 28] → N'.forward x = .error .attributeError) := by
  obtain ⟨N, h1, h2, h3, h4, h5, h6, h7, h8, h9⟩ := mnist_standard_init c hst hch hnorm hout hu rand rng
  refine ⟨N, h1, .refl h4, fun N' ht => ?_⟩
  have g5 := h5.trained ht.conv1
  have g7 := h7.trained ht.conv2
  have g9 : IsLayer kind (mnistOutputArgs c (lastLayerSize c.double c.kernelSize o)) N'.heap N'.fc1 := by rw [ht.fc1]; exact h9.later ht.heap
  have gs : N'.standard = true := ht.standard.trans h2
  have gd : N'.double = c.double := ht.double.trans h3
  refine ⟨fun hd hk => ?_, fun hd hk hl => ?_, fun hd B x hB hx hs => ?_⟩
  · unfold MnistNet.forward
    simp only [gd, hd, gs, if_true]
    have e := g9.sampleMap hu rfl ht.ordered
    have hm : (mnistOutputArgs (K := ℝ) c (lastLayerSize c.double c.kernelSize o)).inFeatures = numel [o, 4, 4] := by
      show lastLayerSize c.double c.kernelSize o = _
      simp [lastLayerSize, hd, hk, numel]
      ring
    rw [hm] at e
    exact (g5.sampleMap (H := 28) (W := 28) (by decide) (by decide) (by decide)).comp ((sampleMap_reluPool _ (by decide) (by decide)).comp
      ((g7.sampleMap (H := 12) (W := 12) (by decide) (by decide) (by decide)).comp ((sampleMap_reluPool _ (by decide) (by decide)).comp ((sampleMap_flatten _).comp e))))
  · have hkind : kind = .leaf .linear := by
      unfold MnistCfg.outputKind at hout
      rw [if_pos hl] at hout
      cases hout
      rfl
    subst hkind
    unfold MnistNet.forward
    simp only [gd, hd, gs, if_true]
    refine (g5.sampleMap (H := 28) (W := 28) (by decide) (by decide) (by decide)).reject ((sampleMap_reluPool _ (by decide) (by decide)).reject
      ((g7.sampleMap (H := 12) (W := 12) (by decide) (by decide) (by decide)).reject ((sampleMap_reluPool _ (by decide) (by decide)).reject ((sampleMap_flatten _).reject ?_))))
    obtain ⟨rng', base, ms, e1, e2, e3⟩ := g9
    cases e1
    have hj : N'.fc1 = base + 0 := by simpa using e2
    obtain ⟨m', f1, f2⟩ := e3 0 _ rfl
    rw [hj, Heap.forward_eq ht.ordered f1]
    have hne : numel [o, 4, 4] ≠ (mnistOutputArgs (K := ℝ) c (lastLayerSize c.double c.kernelSize o)).inFeatures := by
      show _ ≠ lastLayerSize c.double c.kernelSize o
      simp [lastLayerSize, hd, hk, numel]
      omega
    cases f2 with
    | refl => exact linear_reject rfl hne
    | linear w b w' b' hs hb => exact linear_reject hs hne
  · unfold MnistNet.forward
    have g15 : N'.conv15 = none := by
      have t := ht.conv15
      rw [h6] at t
      generalize N'.conv15 = z at t
      cases t
      rfl
    have gn : mnistNormalization c.normalization = .ok N'.normalize := by rw [ht.normalize]; exact h8
    obtain ⟨y, y1, y2, y3⟩ := (g5.sampleMap (H := 28) (W := 28) (by decide) (by decide) (by decide)).accepts B x hB hx hs
    obtain ⟨z, z1, z2, z3⟩ := (mnistNormalization_sampleMap gn (numel3_pos hi (by decide) (by decide))).accepts B y hB y2 y3
    simp only [gd, hd, Bool.true_eq_false, if_false, y1, z1, g15, callAttr, bind, Except.bind]

example (rand : ℕ → ConvRng ℝ) (rng : Rng ℝ) : ∃ N, MnistNet.init { exMnist with layerType := "standard" } rand rng = .ok N ∧ SampleMap N.forward [1, 28, 28] [10] := by
  obtain ⟨N, h1, h2, h3⟩ := C99_standard { exMnist with layerType := "standard" } rfl (i := 6) (o := 16) rfl (by decide) (by decide) (.inl rfl) (kind := .leaf .linear) (by decide) trivial rand rng
  exact ⟨N, h1, (h3 N h2).1 rfl (by decide)⟩

example (rand : ℕ → ConvRng ℝ) (rng : Rng ℝ) : ∃ N, MnistNet.init { exMnist with layerType := "standard", double := true } rand rng = .ok N ∧
    N.forward (Tensor.tab4 16 1 28 28 fun _ _ _ _ => 0) = .error .attributeError := by
  obtain ⟨N, h1, h2, h3⟩ := C99_standard { exMnist with layerType := "standard", double := true } rfl (i := 6) (o := 16) rfl (by decide) (by decide) (.inl rfl) (kind := .leaf .linear) (by decide)
    trivial rand rng
  exact ⟨N, h1, (h3 N h2).2.2 rfl 16 _ (by decide) (Tensor.wf_tab4 _ _ _ _ _) rfl⟩

/-- **C99 (normalization).** The network is never built with a normalization other than `max_abs` and `max_center`. -/
theorem C99_normalization_required (c : MnistCfg) (rand : ℕ → ConvRng ℝ) (rng : Rng ℝ) (h1 : c.normalization ≠ "max_abs") (h2 : c.normalization ≠ "max_center") (N : MnistNet ℝ) :
    MnistNet.init c rand rng ≠ .ok N := by
  intro h
  unfold MnistNet.init at h
  simp only [mnistNormalization, h1, h2, if_false] at h
  cases e0 : pyIndex c.channels 0 with
  | error e => rw [e0] at h; cases h
  | ok i =>
    cases e1 : pyIndex c.channels 1 with
    | error e => rw [e0, e1] at h; cases h
    | ok o =>
      simp only [e0, e1, bind, Except.bind] at h
      split at h
      · cases h
      · repeat' split at h
        all_goals cases h

/-- **C99 (configurations that are rejected).** The constructor raises `IndexError` for fewer than two channels, `KeyError` for another normalization, and `ValueError` for an unknown layer type or, with
`layer_type: standard`, for the output layer type `auto`. -/
theorem C99_rejected (c : MnistCfg) (rand : ℕ → ConvRng ℝ) (rng : Rng ℝ) :
    (c.channels.length < 2 → MnistNet.init c rand rng = .error .indexError) ∧
    (2 ≤ c.channels.length → c.layerType = "standard" → c.normalization ≠ "max_abs" → c.normalization ≠ "max_center" → MnistNet.init c rand rng = .error .keyError) ∧
    (2 ≤ c.channels.length → c.layerType ≠ "standard" → convTable.lookup c.layerType = none → MnistNet.init c rand rng = .error .valueError) ∧
    (2 ≤ c.channels.length → c.layerType = "standard" → c.normalization = "max_abs" ∨ c.normalization = "max_center" → c.outputLayerType = "auto" →
      MnistNet.init c rand rng = .error .valueError) := by
  refine ⟨fun h => ?_, fun h hst h1 h2 => ?_, fun h hst hl => ?_, fun h hst hn ha => ?_⟩
  · unfold MnistNet.init
    match hc : c.channels, h with
    | [], _ => rfl
    | [a], _ => rfl
  all_goals
    obtain ⟨i, o, rest, hc⟩ : ∃ i o rest, c.channels = i :: o :: rest := by
      match hc : c.channels, h with
      | i :: o :: rest, _ => exact ⟨i, o, rest, rfl⟩
    have p0 : pyIndex c.channels 0 = .ok i := by rw [hc]; rfl
    have p1 : pyIndex c.channels 1 = .ok o := by rw [hc]; rfl
    unfold MnistNet.init
  · simp only [p0, p1, hst, if_true, mnistNormalization, h1, h2, if_false, bind, Except.bind]
  · simp only [p0, p1, hst, if_false, mnistConv, convLayer, hl, bind, Except.bind]
  · obtain ⟨f, hf⟩ : ∃ f : Fwd ℝ, mnistNormalization c.normalization = .ok f := by
      rcases hn with e | e <;> rw [e] <;> exact ⟨_, rfl⟩
    have hd : fcTable.lookup (dropLastTwo "standard") = none := by decide
    have hne : ¬ ("auto" = "linear") := by decide
    simp only [p0, p1, hst, if_true, hf, mnistOutput, ha, fcLayer, hne, if_false, ne_eq, not_true_eq_false, hd, bind, Except.bind]

example (rand : ℕ → ConvRng ℝ) (rng : Rng ℝ) (N : MnistNet ℝ) : MnistNet.init { exMnist with normalization := "l2" } rand rng ≠ .ok N :=
  C99_normalization_required _ rand rng (by decide) (by decide) N

example (rand : ℕ → ConvRng ℝ) (rng : Rng ℝ) : MnistNet.init { exMnist with layerType := "standard", outputLayerType := "auto" } rand rng = .error .valueError :=
  (C99_rejected { exMnist with layerType := "standard", outputLayerType := "auto" } rand rng).2.2.2 (by decide) rfl (.inl rfl) rfl

/-! ## examples/cifar10.py -/

/-- Side of the pixel maps for images of side `h`. -/
def cifarSide (h : ℕ) : ℕ := ((h - 5 + 1) / 2 - 5 + 1) / 2

/-- The four layer types. -/
def CifarNet.Known (layerType : String) : Prop := layerType = "continuous" ∨ layerType = "piecewise" ∨ layerType = "discontinuous" ∨ layerType = "standard"

theorem cifar_init {n segments : ℕ} (hn : 1 ≤ n) (hs : 1 ≤ segments) {layerType : String} (hl : CifarNet.Known layerType) (rand : ℕ → ConvRng ℝ) (fc : ℕ → ℕ → ℝ) :
    ∃ N m c1 c2, CifarNet.init n segments layerType rand fc = .ok N ∧ N.conv1 = some c1 ∧ N.conv2 = some c2 ∧ c1.Is 3 m 5 ∧ c2.Is m 16 5 ∧ N.weight.shape = [10, 400] ∧ N.bias.shape = [10] := by
  have high : ∀ cls : ConvClass, cifarClass layerType = some cls → cls.rank = .two → ∃ N m c1 c2, CifarNet.init n segments layerType rand fc = .ok N ∧ N.conv1 = some c1 ∧ N.conv2 = some c2 ∧ c1.Is 3 m 5 ∧ c2.Is m 16 5 ∧ N.weight.shape = [10, 400] ∧ N.bias.shape = [10] := by
    intro cls hc h2
    obtain ⟨L1, a1, b1⟩ := convInit_between cls (exampleConvArgs n segments 3 6 5) (rand 0) (by rintro rfl; cases h2) hn hs (Nat.succ_pos _) (k := 5) (s := 1) (p := 0) rfl (by decide)
    obtain ⟨L2, a2, b2⟩ := convInit_between cls (exampleConvArgs n segments 6 16 5) (rand 1) (by rintro rfl; cases h2) hn hs (Nat.succ_pos _) (k := 5) (s := 1) (p := 0) rfl (by decide)
    rw [h2] at b1 b2
    refine ⟨⟨decide (layerType = "standard"), some (.high L1), some (.high L2), Tensor.tab2 10 400 fc, Tensor.tab1 10 fun o => fc o 400⟩, 6, .high L1, .high L2, ?_, rfl, rfl,
      .inl ⟨_, rfl, b1⟩, .inl ⟨_, rfl, b2⟩, rfl, rfl⟩
    unfold CifarNet.init
    simp only [hc, a1, a2, bind, Except.bind]
  rcases hl with rfl | rfl | rfl | rfl
  · exact high (.polynomial .two) (by decide) rfl
  · exact high (.piecewise true .two) (by decide) rfl
  · exact high (.piecewise false .two) (by decide) rfl
  · refine ⟨_, 6 * ((n - 1) * segments + 1), _, _, rfl, rfl, rfl, ExampleConv.new_is _ _ _ _, ExampleConv.new_is _ _ _ _, rfl, rfl⟩

theorem trainedAttr_some_of {K : Type} [TorchScalar K] {c : ExampleConv K} {z : Option (ExampleConv K)} (h : TrainedAttr (some c) z) {C O k : ℕ} (hc : c.Is C O k) :
    ∃ c', z = some c' ∧ c'.Is C O k := by
  cases h with
  | some _ c' h => exact ⟨c', rfl, hc.trained h⟩

/-- What the network does before the output layer. -/
noncomputable def CifarNet.maps (N : CifarNet ℝ) (x : Tensor ℝ) : Py (Tensor ℝ) :=
  if N.standard then do
    let x ← callAttr N.conv1 x
    let x ← pool22 maxL (reluT x)
    let x ← callAttr N.conv2 x
    pool22 maxL (reluT x)
  else do
    let x ← callAttr N.conv1 x
    let x ← pool22 maxL x
    let x ← callAttr N.conv2 x
    pool22 maxL x

theorem CifarNet.forward_maps (N : CifarNet ℝ) (x : Tensor ℝ) : N.forward x = N.maps x >>= fun y => reshapeRows (16 * 5 * 5) y >>= fun y => linearForward N.weight N.bias y := by
  unfold forward maps
  cases N.standard with
  | false => simp only [Bool.false_eq_true, if_false, bind_assoc]
  | true => simp only [if_true, bind_assoc]

theorem reluPool_reject {K : Type} [TorchScalar K] (f : List K → K) {C H W : ℕ} (hH : H < 2 ∨ W < 2) : RejectsAll (fun x => pool22 f (reluT x)) [C, H, W] :=
  (sampleMap_relu _).reject (pool_reject f hH)

theorem cifar_maps_ok {N : CifarNet ℝ} {m : ℕ} {c1 c2 : ExampleConv ℝ} (e1 : N.conv1 = some c1) (e2 : N.conv2 = some c2) (h1 : c1.Is 3 m 5) (h2 : c2.Is m 16 5) {H W : ℕ}
    (hH : 16 ≤ H) (hW : 16 ≤ W) : SampleMap N.maps [3, H, W] [16, cifarSide H, cifarSide W] := by
  unfold CifarNet.maps
  rw [e1, e2]
  simp only [callAttr]
  cases N.standard with
  | false =>
    simp only [Bool.false_eq_true, if_false]
    exact (h1.sampleMap (by decide) (by omega) (by omega)).comp ((sampleMap_pool _ (by omega) (by omega)).comp ((h2.sampleMap (by decide) (by omega) (by omega)).comp
      (sampleMap_pool _ (by omega) (by omega))))
  | true =>
    simp only [if_true]
    exact (h1.sampleMap (by decide) (by omega) (by omega)).comp ((sampleMap_reluPool _ (by omega) (by omega)).comp ((h2.sampleMap (by decide) (by omega) (by omega)).comp
      (sampleMap_reluPool _ (by omega) (by omega))))

/-- **C100.** The network of the CIFAR10 example, with every known layer type, before and after any training: images of height and width 32 to 35 give ten logits per image, each from that image alone.
The rows of the result are not tied to the images for other sizes: with pixel maps of `h' × w'` a batch of `B` images gives `B h' w' / 25` rows if that is a whole number, and raises otherwise. -/
theorem C100_cifar {n segments : ℕ} (hn : 1 ≤ n) (hs : 1 ≤ segments) {layerType : String} (hl : CifarNet.Known layerType) (rand : ℕ → ConvRng ℝ) (fc : ℕ → ℕ → ℝ) :
    ∃ N, CifarNet.init n segments layerType rand fc = .ok N ∧ N.Trained N ∧ ∀ N', N.Trained N' → ∀ H W, 16 ≤ H → 16 ≤ W →
      (32 ≤ H → H ≤ 35 → 32 ≤ W → W ≤ 35 → SampleMap N'.forward [3, H, W] [10]) ∧
      ∀ (B : ℕ) (x : Tensor ℝ), 1 ≤ B → x.WF → x.shape = [B, 3, H, W] →
        (25 ∣ B * (((H - 4) / 2 - 4) / 2) * (((W - 4) / 2 - 4) / 2) →
          ∃ y, N'.forward x = .ok y ∧ y.shape = [B * (((H - 4) / 2 - 4) / 2) * (((W - 4) / 2 - 4) / 2) / 25, 10]) ∧
        (¬ 25 ∣ B * (((H - 4) / 2 - 4) / 2) * (((W - 4) / 2 - 4) / 2) → N'.forward x = .error .runtimeError) := by
  obtain ⟨N, m, c1, c2, h1, h2, h3, h4, h5, h6, h7⟩ := cifar_init hn hs hl rand fc
  refine ⟨N, h1, ⟨rfl, .refl _, .refl _, rfl, rfl⟩, fun N' ht H W hH hW => ?_⟩
  have t1 := ht.conv1
  have t2 := ht.conv2
  rw [h2] at t1
  rw [h3] at t2
  obtain ⟨d1, e1, g1⟩ := trainedAttr_some_of t1 h4
  obtain ⟨d2, e2, g2⟩ := trainedAttr_some_of t2 h5
  have hw : N'.weight.shape = [10, 400] := ht.weight.trans h6
  have hm := cifar_maps_ok e1 e2 g1 g2 hH hW
  have s1 : cifarSide H = ((H - 4) / 2 - 4) / 2 := by unfold cifarSide; omega
  have s2 : cifarSide W = ((W - 4) / 2 - 4) / 2 := by unfold cifarSide; omega
  rw [s1, s2] at hm
  generalize hp : ((H - 4) / 2 - 4) / 2 = p at hm ⊢
  generalize hq : ((W - 4) / 2 - 4) / 2 = q at hm ⊢
  have hnum : ∀ B, numel [B, 16, p, q] = 16 * (B * p * q) := by
    intro B
    simp only [numel]
    ring
  refine ⟨fun a1 a2 a3 a4 => ?_, fun B x hB hx hsh => ⟨fun hdvd => ?_, fun hdvd => ?_⟩⟩
  · have p5 : p = 5 := by omega
    have q5 : q = 5 := by omega
    subst p5 q5
    have hr : SampleMap (K := ℝ) (fun y => reshapeRows (16 * 5 * 5) y) [16, 5, 5] [numel [16, 5, 5]] := by
      refine (sampleMap_flatten [16, 5, 5]).congr fun B x hB hx hsh => ?_
      have hnb := hnum B
      unfold reshapeRows
      rw [flattenRows_ok x hsh (by omega), hsh, hnb, if_neg (by omega)]
      have : 16 * (B * 5 * 5) / (16 * 5 * 5) = B := by omega
      rw [this]
      rfl
    have hlin : SampleMap (fun y => linearForward N'.weight N'.bias y) [400] [10] := by
      obtain ⟨F, hF, -⟩ := pieces_linear (b := N'.bias) hw
      exact hF.sampleMap fun o _ r r' hr => congrArg _ (funext fun i => hr i i.2)
    exact (hm.comp (hr.comp hlin)).congr fun B x _ _ _ => N'.forward_maps x
  · obtain ⟨y, y1, y2, y3⟩ := hm.accepts B x hB hx hsh
    have hdiv : 16 * (B * p * q) / (16 * 5 * 5) = B * p * q / 25 := by omega
    have hre : reshapeRows (16 * 5 * 5) y = .ok (y.reshape [B * p * q / 25, 400]) := by
      unfold reshapeRows
      rw [y3, hnum B, if_neg (by omega), hdiv]
    have hwf : (y.reshape [B * p * q / 25, 400]).WF := Tensor.wf_reshape y2 (by rw [y3, hnum B]; simp only [numel]; omega)
    obtain ⟨z, z1, z2, -⟩ := mapsTo_linear (b := N'.bias) hw (B * p * q / 25) _ rfl hwf
    refine ⟨z, ?_, z2⟩
    rw [N'.forward_maps, y1]
    simp only [bind, Except.bind, hre]
    exact z1
  · obtain ⟨y, y1, y2, y3⟩ := hm.accepts B x hB hx hsh
    have hre : reshapeRows (16 * 5 * 5) y = .error .runtimeError := by
      unfold reshapeRows
      rw [y3, hnum B, if_pos (by omega)]
    rw [N'.forward_maps, y1]
    simp only [bind, Except.bind, hre]

/-- **C100 (small images).** Images with a side below 16 raise, and networks with an unknown layer type are built but raise `AttributeError` on every input. -/
theorem C100_errors {n segments : ℕ} (hn : 1 ≤ n) (hs : 1 ≤ segments) (layerType : String) (rand : ℕ → ConvRng ℝ) (fc : ℕ → ℕ → ℝ) :
    ∃ N, CifarNet.init n segments layerType rand fc = .ok N ∧
      (CifarNet.Known layerType → ∀ H W, H < 16 ∨ W < 16 → RejectsAll N.forward [3, H, W]) ∧
      (¬ CifarNet.Known layerType → ∀ x, N.forward x = .error .attributeError) := by
  by_cases hl : CifarNet.Known layerType
  · obtain ⟨N, m, c1, c2, h1, e1, e2, g1, g2, h6, h7⟩ := cifar_init hn hs hl rand fc
    refine ⟨N, h1, fun _ H W hH => ?_, fun h => absurd hl h⟩
    have hr : RejectsAll N.maps [3, H, W] := by
      unfold CifarNet.maps
      rw [e1, e2]
      simp only [callAttr]
      by_cases f1 : 5 ≤ H ∧ 5 ≤ W
      swap
      · cases N.standard with
        | false => exact (g1.reject (by omega)).first
        | true => exact (g1.reject (by omega)).first
      by_cases f2 : 2 ≤ H - 5 + 1 ∧ 2 ≤ W - 5 + 1
      swap
      · cases N.standard with
        | false => exact (g1.sampleMap (by decide) f1.1 f1.2).reject (pool_reject _ (by omega)).first
        | true => exact (g1.sampleMap (by decide) f1.1 f1.2).reject (reluPool_reject _ (by omega)).first
      by_cases f3 : 5 ≤ (H - 5 + 1) / 2 ∧ 5 ≤ (W - 5 + 1) / 2
      swap
      · cases N.standard with
        | false => exact (g1.sampleMap (by decide) f1.1 f1.2).reject ((sampleMap_pool _ f2.1 f2.2).reject (g2.reject (by omega)).first)
        | true => exact (g1.sampleMap (by decide) f1.1 f1.2).reject ((sampleMap_reluPool _ f2.1 f2.2).reject (g2.reject (by omega)).first)
      cases N.standard with
      | false => exact (g1.sampleMap (by decide) f1.1 f1.2).reject ((sampleMap_pool _ f2.1 f2.2).reject ((g2.sampleMap (by decide) f3.1 f3.2).reject (pool_reject _ (by omega))))
      | true => exact (g1.sampleMap (by decide) f1.1 f1.2).reject ((sampleMap_reluPool _ f2.1 f2.2).reject ((g2.sampleMap (by decide) f3.1 f3.2).reject (reluPool_reject _ (by omega))))
    intro B x hB hx hsh
    rw [N.forward_maps, hr B x hB hx hsh]
    rfl
  · unfold CifarNet.Known at hl
    push Not at hl
    obtain ⟨a1, a2, a3, a4⟩ := hl
    have hcls : cifarClass layerType = none := by simp only [cifarClass, a1, a2, a3, if_false]
    refine ⟨⟨false, none, none, Tensor.tab2 10 400 fc, Tensor.tab1 10 fun o => fc o 400⟩, ?_, fun h => ?_, fun _ x => rfl⟩
    · unfold CifarNet.init
      simp only [hcls, a4, if_false, bind, Except.bind, decide_false]
    · rcases h with h | h | h | h
      · exact absurd h a1
      · exact absurd h a2
      · exact absurd h a3
      · exact absurd h a4

/-- 25 images of 36 × 36 give 36 rows, and one image of that size raises. -/
example (rand : ℕ → ConvRng ℝ) (fc : ℕ → ℕ → ℝ) : ∃ N, CifarNet.init 3 2 "piecewise" rand fc = .ok N ∧ SampleMap N.forward [3, 32, 32] [10] ∧
    (∃ y, N.forward (Tensor.tab4 25 3 36 36 fun _ _ _ _ => 0) = .ok y ∧ y.shape = [36, 10]) ∧ N.forward (Tensor.tab4 1 3 36 36 fun _ _ _ _ => 0) = .error .runtimeError := by
  obtain ⟨N, h1, h2, h3⟩ := C100_cifar (n := 3) (segments := 2) (by decide) (by decide) (layerType := "piecewise") (.inr (.inl rfl)) rand fc
  exact ⟨N, h1, (h3 N h2 32 32 (by decide) (by decide)).1 (by decide) (by decide) (by decide) (by decide),
    ((h3 N h2 36 36 (by decide) (by decide)).2 25 _ (by decide) (Tensor.wf_tab4 _ _ _ _ _) rfl).1 (by decide),
    ((h3 N h2 36 36 (by decide) (by decide)).2 1 _ (by decide) (Tensor.wf_tab4 _ _ _ _ _) rfl).2 (by decide)⟩

example (rand : ℕ → ConvRng ℝ) (fc : ℕ → ℕ → ℝ) : ∃ N, CifarNet.init 3 2 "polynomial" rand fc = .ok N ∧ ∀ x, N.forward x = .error .attributeError := by
  obtain ⟨N, h1, -, h3⟩ := C100_errors (n := 3) (segments := 2) (by decide) (by decide) "polynomial" rand fc
  exact ⟨N, h1, h3 (by unfold CifarNet.Known; decide)⟩

end HOL
