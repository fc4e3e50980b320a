import Verif.Lemmas.ParamCount
import Verif.Props.NetworkExamples

/-! # C113: how many numbers an optimizer trains -/

namespace HOL
open TorchScalar
variable {K : Type} [TorchScalar K]

/-- **C113 (networks).** The number of trainable numbers of `HighOrderMLP`, also after any training: that of the input layer, that of a hidden layer for every hidden layer, and that of the
output layer, whatever normalization (without parameters), nonlinearity and dropout. With `resnet=True` only the first hidden layer counts, so that deeper networks have no more numbers. -/
theorem C113_mlp (rng : Rng K) {c : MLPArgs K} {kind kindIn : FcKind} (hk : fcTable.lookup c.layerType = some kind)
    (hki : fcTable.lookup (orStr c.layerTypeIn c.layerType) = some kindIn) (hI : Usable kindIn c.inputArgs)
    (hH : Usable kind c.hiddenArgs) (hO : Usable kind c.outputArgs) {h0 : Heap K} (hord : h0.Ordered) {nl : Fwd K}
    (hnl : ∀ j ∈ c.nonLinearity, h0[j]? = some (.other nl)) {net : ℕ} {h1 h : Heap K} (hb : mlpInit rng c h0 = .ok (net, h1))
    (hl : h1.Later h) (ho : h.Ordered) :
    h.countParameters net =
      Spec.layerCount kindIn (Spec.intOf c.inputArgs.n) (c.inSegments.elim 0 Spec.intOf) c.inWidth c.hiddenWidth
      + (if c.resnet then min 1 c.hiddenLayers else c.hiddenLayers) *
        Spec.layerCount kind (Spec.intOf c.hiddenArgs.n) (c.hiddenSegments.elim 0 Spec.intOf) c.hiddenWidth c.hiddenWidth
      + Spec.layerCount kind (Spec.intOf c.outputArgs.n) (c.outSegments.elim 0 Spec.intOf) c.hiddenWidth c.outWidth := by
  obtain ⟨g, D, rfl, hsi, hsh, hso, e1, -, -, hn⟩ := mlpInit_net rng hk hki hI hH hO hord hnl
  rw [hb] at e1
  cases e1
  exact (hn.later hl).count ho hI hH hO ⟨rfl, rfl, rfl⟩ hsh

/-- **C113 (low order).** The number of trainable numbers of `LowOrderMLP`, also after any training. -/
theorem C113_low_order (rng : Rng K) {h0 : Heap K} (hord : h0.Ordered) (inW outW H hidW : ℕ) {nonLinearity : Option ℕ}
    (normalization : Option (Fwd K)) {nl : Fwd K} (hnl : ∀ j ∈ nonLinearity, h0[j]? = some (.other nl)) {net : ℕ} {h1 h : Heap K}
    (hb : lowMlpInit rng inW outW H hidW nonLinearity normalization h0 = (net, h1)) (hl : h1.Later h) (ho : h.Ordered) :
    h.countParameters net = (hidW * inW + hidW) + H * (hidW * hidW + hidW) + (outW * hidW + outW) := by
  obtain ⟨-, -, lin, hinj, hlin⟩ := C76_structure rng hord inW outW H hidW normalization hnl hb
  obtain ⟨hs, -, hp⟩ := hlin h hl ho
  have hnet : net < h.length := by
    by_contra hge
    have : h.parameters net = [] := by
      unfold Heap.parameters Heap.modules
      rw [List.getD_eq_default]
      · rfl
      · rw [Heap.fold_length]; omega
    have h0 := (hp (lin 0)).2 ⟨0, by omega, rfl⟩
    rw [this] at h0
    cases h0
  have e : (h.parameters net).toFinset = (Finset.range (H + 2)).image lin := by
    ext j
    rw [List.mem_toFinset, hp, Finset.mem_image]
    constructor
    · rintro ⟨k, hk, rfl⟩; exact ⟨k, Finset.mem_range.2 (by omega), rfl⟩
    · rintro ⟨k, hk, rfl⟩; rw [Finset.mem_range] at hk; exact ⟨k, by omega, rfl⟩
  rw [Heap.countParameters_eq ho hnet, e, Finset.sum_image (by
    intro a ha b hb' he
    simp only [Finset.coe_range, Set.mem_Iio] at ha hb'
    exact hinj a (by omega) b (by omega) he)]
  have key : ∀ k ∈ Finset.range (H + 2), h.numAt (lin k) = lowWidth inW outW H hidW (k + 1) * lowWidth inW outW H hidW k + lowWidth inW outW H hidW (k + 1) := by
    intro k hk
    rw [Finset.mem_range] at hk
    obtain ⟨w, b, hm, hw, hb'⟩ := hs k (by omega)
    rw [Heap.numAt, hm]
    simp [Mod.numParams, Mod.paramShapes, hw, hb', numel]
  rw [Finset.sum_congr rfl key, Finset.sum_range_succ, Finset.sum_range_succ']
  have mid : ∀ k ∈ Finset.range H, lowWidth inW outW H hidW (k + 1 + 1) * lowWidth inW outW H hidW (k + 1) + lowWidth inW outW H hidW (k + 1 + 1) = hidW * hidW + hidW := by
    intro k hk
    rw [Finset.mem_range] at hk
    have h1 : k + 1 + 1 ≤ H + 1 := by omega
    have h2 : k + 1 ≤ H + 1 := by omega
    simp [lowWidth, h1, h2]
  rw [Finset.sum_congr rfl mid]
  have hz : lowWidth inW outW H hidW (0 + 1) * lowWidth inW outW H hidW 0 + lowWidth inW outW H hidW (0 + 1) = hidW * inW + hidW := by
    simp [lowWidth]
  have hl' : lowWidth inW outW H hidW (H + 1 + 1) * lowWidth inW outW H hidW (H + 1) + lowWidth inW outW H hidW (H + 1 + 1) = outW * hidW + outW := by
    simp [lowWidth]
  rw [hz, hl']
  simp
  ring

/-- **C113 (several variables).** The layers of several variables: `Polynomial2D`, ..., `Polynomial5D` have a number for every output, input and node of the grid and `out_features` unused
ones; `PiecewiseND` has a number for every input, output, segment and node of the grid in the segment. -/
theorem C113_several_variables (rng : Rng K) {h : Heap K} (ho : h.Ordered) (a : FcArgs K) (ns : List ℕ) (hn : a.n = .list ns) (hne : ns ≠ []) :
    (∀ t ∈ ["polynomial_2d", "polynomial_3d", "polynomial_4d", "polynomial_5d"],
      ∃ j h', fcLayer rng t a h = .ok (j, h') ∧ h'.countParameters j = a.outFeatures * a.inFeatures * ns.prod + a.outFeatures) ∧
    (∀ ss : List ℕ, a.segments = some (.list ss) → ss.length = ns.length →
      ∃ j h', fcLayer rng "continuous_nd" a h = .ok (j, h') ∧ h'.countParameters j = a.inFeatures * a.outFeatures * (ss.prod * ns.prod)) := by
  have hnum : ∀ l : List ℕ, numel l = l.prod := by
    intro l
    induction l with
    | nil => rfl
    | cons x t ih => rw [List.prod_cons, ← ih]; rfl
  have one : ∀ m : Mod K, m.refs = [] → m.hasParams = true → Heap.countParameters (h ++ [m]) h.length = m.numParams := by
    intro m hr hp
    have ho' : Heap.Ordered (h ++ [m]) := ho.append_one (by rw [hr]; intro j hj; cases hj)
    have hc : m.children = [] := (List.append_eq_nil_iff.1 hr).2
    exact Heap.countParameters_leaf ho' (by simp) hc hp
  constructor
  · intro t ht
    have hlk : ∃ d, fcTable.lookup t = some (.leaf (.polynomialND d)) := by
      simp only [List.mem_cons, List.not_mem_nil, or_false] at ht
      rcases ht with rfl | rfl | rfl | rfl
      · exact ⟨2, by decide⟩
      · exact ⟨3, by decide⟩
      · exact ⟨4, by decide⟩
      · exact ⟨5, by decide⟩
    obtain ⟨d, hlk⟩ := hlk
    have e : ∃ L : PolyNDLayer K, fcMods rng (.leaf (.polynomialND d)) a h.length = .ok [.polyND L] ∧ L.w.shape = [a.outFeatures, a.inFeatures, numel ns] := by
      simp only [fcMods, leafMods, PolyNDLayer.init, BasisND.init, hn, if_neg hne, bind, Except.bind]
      exact ⟨_, rfl, rfl⟩
    obtain ⟨L, e, hs⟩ := e
    refine ⟨h.length, h ++ [.polyND L], ?_, ?_⟩
    · unfold fcLayer
      rw [hlk]
      simp only [e, bind, Except.bind, List.length_singleton, Nat.add_sub_cancel]
    · rw [one _ rfl rfl]
      simp only [Mod.numParams, Mod.paramShapes, hs, ← hnum ns]
      simp [numel, Nat.mul_assoc]
  · intro ss hss hlen
    have e : ∃ L : PwNDLayer K, fcMods rng (.leaf .piecewiseND) a h.length = .ok [.pwND L] ∧ L.w.shape = [a.inFeatures * a.outFeatures * (numel ss * numel ns)] := by
      simp only [fcMods, leafMods, hss, PwNDLayer.init, pwNDDims, hn, bind, Except.bind, IntOrList.toList, hlen, ne_eq, not_true_eq_false, if_false, BasisND.init, if_neg hne]
      exact ⟨_, rfl, rfl⟩
    obtain ⟨L, e, hs⟩ := e
    refine ⟨h.length, h ++ [.pwND L], ?_, ?_⟩
    · unfold fcLayer
      rw [show fcTable.lookup "continuous_nd" = some (.leaf .piecewiseND) by decide]
      simp only [e, bind, Except.bind, List.length_singleton, Nat.add_sub_cancel]
    · rw [one _ rfl rfl]
      simp only [Mod.numParams, Mod.paramShapes, hs, ← hnum ns, ← hnum ss]
      simp [numel]

/-- **C113 (comparison).** Per layer: continuous layers with `s` segments of `n` nodes have as many numbers as one polynomial with `s (n - 1) + 1` nodes per link without its unused ones; letting the segments be discontinuous adds `s - 1`
numbers per link; halving the segments adds `s (n - 1)` numbers per link. -/
theorem C113_comparison (n s i o : ℕ) (hn : 0 < n) (hs : 0 < s) :
    Spec.layerCount (.leaf (.pw .continuous)) n s i o + o = Spec.layerCount (.leaf .polynomial) (s * (n - 1) + 1) s i o ∧
    Spec.layerCount (.leaf (.pw .discontinuous)) n s i o = Spec.layerCount (.leaf (.pw .continuous)) n s i o + o * i * (s - 1) ∧
    Spec.layerCount (.leaf (.pw .continuous)) n (2 * s) i o = Spec.layerCount (.leaf (.pw .continuous)) n s i o + o * i * (s * (n - 1)) := by
  obtain ⟨n, rfl⟩ : ∃ m, n = m + 1 := ⟨n - 1, by omega⟩
  obtain ⟨s, rfl⟩ : ∃ m, s = m + 1 := ⟨s - 1, by omega⟩
  refine ⟨rfl, ?_, ?_⟩
  · simp only [Spec.layerCount, Nat.add_sub_cancel]; ring
  · simp only [Spec.layerCount, Nat.add_sub_cancel]; ring

noncomputable def countArgs (resnet : Bool) : MLPArgs ℝ :=
  { exArgs resnet with layerType := "polynomial", n := .int 3, inWidth := 2, hiddenWidth := 4 }

/-- A network of polynomial layers with 3 nodes, widths 2, 4, 4, 4, 1: the four layers have 28, 52, 52 and 13 numbers; with `resnet` the second hidden layer is not counted. -/
example (resnet : Bool) : ∃ (net : ℕ) (h1 : Heap ℝ), mlpInit (exRng fun _ => 3) (countArgs resnet) [] = .ok (net, h1) ∧
    h1.countParameters net = if resnet then 93 else 145 := by
  have hk : fcTable.lookup (countArgs resnet).layerType = some (.leaf .polynomial) := by show List.lookup "polynomial" _ = _; decide
  have hk' : fcTable.lookup (orStr (countArgs resnet).layerTypeIn (countArgs resnet).layerType) = some (.leaf .polynomial) := by show List.lookup "polynomial" _ = _; decide
  have hI : Usable (.leaf .polynomial) (countArgs resnet).inputArgs := ⟨3, rfl, by omega⟩
  have hH : Usable (.leaf .polynomial) (countArgs resnet).hiddenArgs := ⟨3, rfl, by omega⟩
  have hO : Usable (.leaf .polynomial) (countArgs resnet).outputArgs := ⟨3, rfl, by omega⟩
  have hnl : ∀ j ∈ (countArgs resnet).nonLinearity, ([] : Heap ℝ)[j]? = some (.other noFwd) := by intro j hj; simp [countArgs, exArgs] at hj
  obtain ⟨net, h1, e, -, ho, -⟩ := C57_structure (exRng fun _ => 3) (c := countArgs resnet) (h0 := []) (nl := noFwd) hk hk' hI hH hO (by intro i m hm; simp at hm) hnl
  refine ⟨net, h1, e, ?_⟩
  rw [C113_mlp (exRng fun _ => 3) hk hk' hI hH hO (by intro i m hm; simp at hm) hnl e (fun i m hm => ⟨m, hm, .refl m⟩) ho]
  cases resnet <;> rfl

end HOL
