import Verif.Props.Network

/-! # C34: which weights an optimizer sees -/

namespace HOL
open TorchScalar Relation
variable {K : Type} [TorchScalar K]

theorem mem_parameters {h : Heap K} (ho : h.Ordered) {i : ℕ} (hi : i < h.length) {j : ℕ} :
    j ∈ h.parameters i ↔ ReflTransGen h.Child i j ∧ ∃ m, h[j]? = some m ∧ m.hasParams = true := by
  unfold Heap.parameters
  rw [List.mem_filter, Heap.mem_modules ho hi]
  cases h[j]? with
  | none => simp
  | some m => simp

/-- **C34 (positive).** In a network without switch layers, and without `resnet` (or with at most one hidden layer), every module
with weights that a call of the network reaches is enumerated by `parameters()`, also after any training. -/
theorem C34_trainable (rng : Rng K) {c : MLPArgs K} {kind kindIn : FcKind} (hk : fcTable.lookup c.layerType = some kind)
    (hki : fcTable.lookup (orStr c.layerTypeIn c.layerType) = some kindIn) (hI : Usable kindIn c.inputArgs)
    (hH : Usable kind c.hiddenArgs) (hO : Usable kind c.outputArgs) {h0 : Heap K} (hord : h0.Ordered) {nl : Fwd K}
    (hnl : ∀ j ∈ c.nonLinearity, h0[j]? = some (.other nl)) (hsw : ∀ cls, kind ≠ .switch cls) (hswI : ∀ cls, kindIn ≠ .switch cls)
    (hres : c.resnet = false ∨ c.hiddenLayers ≤ 1) {net : ℕ} {h1 h : Heap K} (hb : mlpInit rng c h0 = .ok (net, h1))
    (hl : h1.Later h) (ho : h.Ordered) {j : ℕ} {m : Mod K} (hj : ReflTransGen h.Uses net j) (hm : h[j]? = some m)
    (hw : m.hasParams = true) : j ∈ h.parameters net := by
  obtain ⟨g, D, -, -, -, -, e1, -, -, hn⟩ := mlpInit_net rng hk hki hI hH hO hord hnl
  rw [hb] at e1
  cases e1
  have hn := hn.later hl
  rw [mem_parameters ho hn.length_lt]
  exact ⟨(hn.plain hI hH hO hsw hswI hres).reach hj, m, hm, hw⟩

/-- **C34 (switch layers, negative).** A network all of whose layers are switch layers has no parameters at all, although every call reaches
the weights of their sublayers. -/
theorem C34_switch_untrainable (rng : Rng K) {c : MLPArgs K} {cls clsIn : PwClass} (hk : fcTable.lookup c.layerType = some (.switch cls))
    (hki : fcTable.lookup (orStr c.layerTypeIn c.layerType) = some (.switch clsIn)) (hI : Usable (.switch clsIn) c.inputArgs)
    (hH : Usable (.switch cls) c.hiddenArgs) (hO : Usable (.switch cls) c.outputArgs) {h0 : Heap K} (hord : h0.Ordered) {nl : Fwd K}
    (hnl : ∀ j ∈ c.nonLinearity, h0[j]? = some (.other nl)) {net : ℕ} {h1 h : Heap K} (hb : mlpInit rng c h0 = .ok (net, h1))
    (hl : h1.Later h) (ho : h.Ordered) :
    h.parameters net = [] ∧ ∃ j L, ReflTransGen h.Uses net j ∧ h[j]? = some (.pw L) := by
  obtain ⟨g, D, -, -, -, -, e1, -, -, hn⟩ := mlpInit_net rng hk hki hI hH hO hord hnl
  rw [hb] at e1
  cases e1
  have hn := hn.later hl
  constructor
  · rw [List.eq_nil_iff_forall_not_mem]
    intro j hj
    rw [mem_parameters ho hn.length_lt] at hj
    obtain ⟨hr, m, hm, hw⟩ := hj
    obtain ⟨m', hm', hP⟩ := (hn.noParams hI hH hO ⟨cls, rfl⟩ ⟨clsIn, rfl⟩).child hr
    rw [hm] at hm'
    cases hm'
    rw [hP] at hw
    cases hw
  · obtain ⟨rng', base, ms, e1, e2, e3⟩ := hn.inp
    obtain ⟨⟨n, s, hn', hs, _⟩, hnum⟩ := hI
    have e1' := (pwF_builds rng' true clsIn c.inputArgs hn' hs hnum).ok base
    rw [show kindOf true clsIn = .switch clsIn from rfl, e1] at e1'
    cases e1'
    obtain ⟨m0, f1, f2⟩ := e3 0 _ rfl
    obtain ⟨m2, f5, f6⟩ := e3 2 _ rfl
    cases f6
    have hj : c.slotId g .inp = base + 2 := by simp [pwF] at e2; omega
    have hL : ∃ L, m0 = .pw L := by cases f2 <;> exact ⟨_, rfl⟩
    obtain ⟨L, rfl⟩ := hL
    refine ⟨base + 0, L, ?_, f1⟩
    refine ReflTransGen.head (b := c.slotId g .inp) ⟨_, hn.net, Or.inr ?_⟩ (ReflTransGen.single ⟨_, hj ▸ f5, Or.inl ?_⟩)
    · simp [Mod.children, MLPArgs.slotId]
    · simp [Mod.hidden]

/-- **C34 (resnet, negative).** With `resnet=True` the weights of all hidden layers but the first are used by every call and missing
from `parameters()`, for every type of layer. -/
theorem C34_resnet_untrainable (rng : Rng K) {c : MLPArgs K} {kind kindIn : FcKind} (hk : fcTable.lookup c.layerType = some kind)
    (hki : fcTable.lookup (orStr c.layerTypeIn c.layerType) = some kindIn) (hI : Usable kindIn c.inputArgs)
    (hH : Usable kind c.hiddenArgs) (hO : Usable kind c.outputArgs) {h0 : Heap K} (hord : h0.Ordered) {nl : Fwd K}
    (hnl : ∀ j ∈ c.nonLinearity, h0[j]? = some (.other nl)) (hr : c.resnet = true) {net : ℕ} {h1 : Heap K}
    (hb : mlpInit rng c h0 = .ok (net, h1)) :
    ∃ hid : ℕ → ℕ, ∀ h : Heap K, h1.Later h → h.Ordered → ∀ i, 0 < i → i < c.hiddenLayers →
      IsLayer kind c.hiddenArgs h (hid i) ∧ ReflTransGen h.Uses net (hid i) ∧
      ∀ j, ReflTransGen h.Uses (hid i) j → j ∉ h.parameters net := by
  obtain ⟨g, D, rfl, hsi, hsh, hso, e1, -, -, hn⟩ := mlpInit_net rng hk hki hI hH hO hord hnl
  rw [hb] at e1
  cases e1
  refine ⟨c.coreId ⟨h0.length, kindSize kindIn, kindSize kind, kindSize kind⟩, fun h hl ho i hi hiH => ?_⟩
  have hn := hn.later hl
  refine ⟨hn.hid i hiH, ?_, ?_⟩
  · have hip : Slot.lay i ∈ c.plan := MLPArgs.mem_plan.2 (Or.inr (Or.inr (Or.inr (Or.inr ⟨i, le_of_lt hiH, rfl⟩))))
    refine ReflTransGen.head ⟨_, hn.net, Or.inr (by simp [Mod.children]; exact Or.inr (Or.inr (Or.inr rfl)))⟩ ?_
    refine ReflTransGen.head ⟨_, hn.seq, Or.inr (List.mem_map_of_mem hip)⟩ ?_
    exact ReflTransGen.single ⟨_, hn.sums hr i hi hiH, Or.inl (by simp [Mod.hidden])⟩
  · intro j hj hp
    obtain ⟨m, hm, q1, q2, -⟩ := ((hn.hid i hiH).hered hH).uses hj
    rw [mem_parameters ho hn.length_lt] at hp
    obtain ⟨m', hm', hP⟩ := (hn.resnet_unregistered hI hH hO ⟨rfl, rfl, rfl⟩ hsi hsh hso
      (fun j hj => (List.getElem?_eq_some_iff.1 (hnl j hj)).1) hr hi hiH).child hp.1
    apply hP
    refine ⟨?_, q2⟩
    simp only [MLPArgs.coreId, MLPArgs.size, if_pos hiH] at q1
    omega

/-- The weights of the input, first hidden and output layer of the network of C35 are trainable, those of the second hidden layer are not: the
parameters belong to the modules 1, 2 and 5, not 3. -/
example (W : ℕ → ℝ) : 1 ∈ (exHeap W).parameters 7 ∧ 2 ∈ (exHeap W).parameters 7 ∧ 5 ∈ (exHeap W).parameters 7 ∧
    3 ∉ (exHeap W).parameters 7 := by
  have e : (exHeap W).parameters 7 = [1, 5, 2] := by
    simp [Heap.parameters, Heap.modules, Heap.fold, exHeap, exLinear, visitor, Mod.children, Mod.hasParams]
  rw [e]
  simp

end HOL
