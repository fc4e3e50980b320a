import Verif.Lemmas.StateDictNet
import Verif.Props.Trainable

/-! # C117: saving and loading weights -/

namespace HOL
open TorchScalar Relation MLPArgs
variable {K : Type} [TorchScalar K]

/-- **C117 (restoring).** Two networks built from the same configuration (no switch layers, no `resnet` or at most one hidden layer), anywhere, with any initial weights, trained or not: loading the saved state of the first into
the second succeeds, and the second then computes the same function, errors included. Modules that are not registered in it are left alone. -/
theorem C117_restored (rngA rngB : Rng K) {c : MLPArgs K} {kind kindIn : FcKind} (hk : fcTable.lookup c.layerType = some kind)
    (hki : fcTable.lookup (orStr c.layerTypeIn c.layerType) = some kindIn) (hI : Usable kindIn c.inputArgs)
    (hH : Usable kind c.hiddenArgs) (hO : Usable kind c.outputArgs) {hA0 hB0 : Heap K} (oA0 : hA0.Ordered) (oB0 : hB0.Ordered) {nl : Fwd K}
    (nlA : ∀ j ∈ c.nonLinearity, hA0[j]? = some (.other nl)) (nlB : ∀ j ∈ c.nonLinearity, hB0[j]? = some (.other nl))
    (hsw : ∀ cls, kind ≠ .switch cls) (hswI : ∀ cls, kindIn ≠ .switch cls) (hres : c.resnet = false ∨ c.hiddenLayers ≤ 1)
    {netA netB : ℕ} {hA1 hB1 hA hB : Heap K} (bA : mlpInit rngA c hA0 = .ok (netA, hA1)) (bB : mlpInit rngB c hB0 = .ok (netB, hB1))
    (lA : hA1.Later hA) (lB : hB1.Later hB) (oA : hA.Ordered) (oB : hB.Ordered) :
    ∃ hB' : Heap K, hB.loadStateDict netB (hA.stateDict netA) = (.ok (), hB') ∧ hB'.forward netB = hA.forward netA ∧ hB'.Ordered ∧
      ∀ j, ¬ ReflTransGen hB.Child netB j → hB'[j]? = hB[j]? := by
  obtain ⟨gA, DA, rfl, p1, p2, p3, eA, -, -, nA⟩ := mlpInit_net rngA hk hki hI hH hO oA0 nlA
  obtain ⟨gB, DB, rfl, -, -, -, eB, -, -, nB⟩ := mlpInit_net rngB hk hki hI hH hO oB0 nlB
  rw [bA] at eA
  rw [bB] at eB
  cases eA
  cases eB
  have hnl' : ∀ j ∈ c.nonLinearity, j < hB0.length := fun j hj => (List.getElem?_eq_some_iff.1 (nlB j hj)).1
  obtain ⟨hm, he⟩ := Net.mirrors ⟨rfl, rfl, rfl⟩ p1 p2 p3 (nA.later lA) (nB.later lB) hnl' hI hH hO hsw hswI hres
  obtain ⟨hB', e1, e2, e3, e4, -⟩ := hm.load oA oB
  rw [he] at e1 e2
  exact ⟨hB', e1, e2, e3, e4⟩

theorem hasParams_own {m : Mod K} : m.hasParams = true ↔ m.ownParams ≠ [] := by
  cases m <;> simp [Mod.hasParams, Mod.ownParams]

/-- Parameters found by `state_dict` belong to the modules of `parameters()`. -/
theorem slots_parameters {h : Heap K} (ho : h.Ordered) {i : ℕ} (hi : i < h.length) {s : ParamSlot} (hs : s ∈ h.slots i) : s.2.1 ∈ h.parameters i := by
  obtain ⟨hr, m, hm, hn⟩ := (Heap.mem_slots ho i s.2.1 s.2.2).1 ⟨s.1, hs⟩
  rw [mem_parameters ho hi]
  refine ⟨hr, m, hm, hasParams_own.2 ?_⟩
  intro e
  rw [e] at hn
  cases hn

/-- **C117 (switch layers, negative).** The state of a network of switch layers is empty, although calls use its weights: loading it into any other such network succeeds and changes nothing. -/
theorem C117_switch_lost (rngA rngB : Rng K) {c : MLPArgs K} {cls clsIn : PwClass} (hk : fcTable.lookup c.layerType = some (.switch cls))
    (hki : fcTable.lookup (orStr c.layerTypeIn c.layerType) = some (.switch clsIn)) (hI : Usable (.switch clsIn) c.inputArgs)
    (hH : Usable (.switch cls) c.hiddenArgs) (hO : Usable (.switch cls) c.outputArgs) {hA0 hB0 : Heap K} (oA0 : hA0.Ordered) (oB0 : hB0.Ordered) {nl : Fwd K}
    (nlA : ∀ j ∈ c.nonLinearity, hA0[j]? = some (.other nl)) (nlB : ∀ j ∈ c.nonLinearity, hB0[j]? = some (.other nl))
    {netA netB : ℕ} {hA1 hB1 hA hB : Heap K} (bA : mlpInit rngA c hA0 = .ok (netA, hA1)) (bB : mlpInit rngB c hB0 = .ok (netB, hB1))
    (lA : hA1.Later hA) (lB : hB1.Later hB) (oA : hA.Ordered) (oB : hB.Ordered) :
    hA.stateDict netA = [] ∧ hB.loadStateDict netB (hA.stateDict netA) = (.ok (), hB) ∧ ∃ j L, ReflTransGen hA.Uses netA j ∧ hA[j]? = some (.pw L) := by
  have empty : ∀ (rng : Rng K) {h0 h1 h : Heap K} {net : ℕ}, h0.Ordered → (∀ j ∈ c.nonLinearity, h0[j]? = some (.other nl)) → mlpInit rng c h0 = .ok (net, h1) → h1.Later h → h.Ordered →
      h.slots net = [] := by
    intro rng h0 h1 h net o0 hnl hb hl ho
    obtain ⟨e, -⟩ := C34_switch_untrainable rng hk hki hI hH hO o0 hnl hb hl ho
    have hlt : net < h.length := by
      obtain ⟨g, D, -, -, -, -, e1, -, -, hn⟩ := mlpInit_net rng hk hki hI hH hO o0 hnl
      rw [hb] at e1
      cases e1
      exact (hn.later hl).length_lt
    rw [List.eq_nil_iff_forall_not_mem]
    intro s hs
    have := slots_parameters ho hlt hs
    rw [e] at this
    cases this
  have sA : hA.stateDict netA = [] := by
    unfold Heap.stateDict
    rw [empty rngA oA0 nlA bA lA oA]
    rfl
  refine ⟨sA, ?_, (C34_switch_untrainable rngA hk hki hI hH hO oA0 nlA bA lA oA).2⟩
  unfold Heap.loadStateDict
  rw [sA, empty rngB oB0 nlB bB lB oB]
  rfl

/-- **C117 (resnet, negative).** With `resnet=True` no state whatsoever changes the hidden layers after the first, which every call uses: all their modules are as before. -/
theorem C117_resnet_kept (rng : Rng K) {c : MLPArgs K} {kind kindIn : FcKind} (hk : fcTable.lookup c.layerType = some kind)
    (hki : fcTable.lookup (orStr c.layerTypeIn c.layerType) = some kindIn) (hI : Usable kindIn c.inputArgs)
    (hH : Usable kind c.hiddenArgs) (hO : Usable kind c.outputArgs) {h0 : Heap K} (hord : h0.Ordered) {nl : Fwd K}
    (hnl : ∀ j ∈ c.nonLinearity, h0[j]? = some (.other nl)) (hr : c.resnet = true) {net : ℕ} {h1 : Heap K}
    (hb : mlpInit rng c h0 = .ok (net, h1)) :
    ∃ hid : ℕ → ℕ, ∀ h : Heap K, h1.Later h → h.Ordered → ∀ i, 0 < i → i < c.hiddenLayers →
      IsLayer kind c.hiddenArgs h (hid i) ∧ ReflTransGen h.Uses net (hid i) ∧
      ∀ (st : List (List Key × Tensor K)) (j : ℕ), ReflTransGen h.Uses (hid i) j → (h.loadStateDict net st).2[j]? = h[j]? := by
  obtain ⟨hid, hh⟩ := C34_resnet_untrainable rng hk hki hI hH hO hord hnl hr hb
  refine ⟨hid, fun h hl ho i hi hiH => ?_⟩
  obtain ⟨e1, e2, e3⟩ := hh h hl ho i hi hiH
  refine ⟨e1, e2, fun st j hj => ?_⟩
  have hlt : net < h.length := by
    obtain ⟨g, D, -, -, -, -, e1, -, -, hn⟩ := mlpInit_net rng hk hki hI hH hO hord hnl
    rw [hb] at e1
    cases e1
    exact (hn.later hl).length_lt
  have : (h.loadStateDict net st).2 = (h.slots net).foldl (loadOne st) h := by
    unfold Heap.loadStateDict
    dsimp only
    split <;> rfl
  rw [this]
  refine loadFold_other st _ h fun s hs e => e3 j hj ?_
  rw [← e]
  exact slots_parameters ho hlt hs

/-- **C117 (errors).** What `load_state_dict` does in general, for any module and any state in which the keys of a shared parameter agree: it succeeds exactly if the state has the keys of the module and all shapes agree; it
raises `RuntimeError` otherwise, and has then still overwritten every parameter whose key is there with a value of its shape. -/
theorem C117_load (h : Heap K) (ho : h.Ordered) (i : ℕ) (st : List (List Key × Tensor K))
    (hst : ∀ s ∈ h.slots i, ∀ t ∈ h.slots i, s.2 = t.2 → st.lookup s.1 = st.lookup t.1) :
    ((h.loadStateDict i st).1 = .ok () ↔ (∀ s ∈ h.slots i, ∃ t, st.lookup s.1 = some t ∧ t.shape = (h.param s.2.1 s.2.2).shape) ∧ ∀ e ∈ st, ∃ s ∈ h.slots i, s.1 = e.1) ∧
    ((h.loadStateDict i st).1 ≠ .ok () → (h.loadStateDict i st).1 = .error .runtimeError) ∧
    (∀ s ∈ h.slots i, ∀ t, st.lookup s.1 = some t → t.shape = (h.param s.2.1 s.2.2).shape → (h.loadStateDict i st).2.param s.2.1 s.2.2 = t) ∧
    ∀ s ∈ h.slots i, (∀ t, st.lookup s.1 = some t → t.shape ≠ (h.param s.2.1 s.2.2).shape) → (h.loadStateDict i st).2.param s.2.1 s.2.2 = h.param s.2.1 s.2.2 := by
  have e2 : (h.loadStateDict i st).2 = (h.slots i).foldl (loadOne st) h := by
    unfold Heap.loadStateDict
    dsimp only
    split <;> rfl
  have e1 : (h.loadStateDict i st).1 = if (h.slots i).any (slotFails st h) || (st.any fun e => (h.slots i).all fun s => decide (s.1 ≠ e.1)) then .error .runtimeError else .ok () := by
    unfold Heap.loadStateDict
    dsimp only
    split <;> rfl
  have param : ∀ s ∈ h.slots i, (h.loadStateDict i st).2.param s.2.1 s.2.2 = (fitting st h s).getD (h.param s.2.1 s.2.2) := by
    intro s hs
    obtain ⟨-, m, hm, hn⟩ := (Heap.mem_slots ho i s.2.1 s.2.2).1 ⟨s.1, hs⟩
    classical
    have hfit : ∀ a ∈ h.slots i, ∀ b ∈ h.slots i, a.2 = b.2 → fitting st h a = fitting st h b := by
      intro a ha b hb e
      unfold fitting
      rw [hst a ha b hb e, e]
    obtain ⟨m', f1, f2, f3⟩ := loadFold_spec st h (fun j n => if hx : ∃ t ∈ h.slots i, t.2 = (j, n) then fitting st h hx.choose else none) (h.slots i) (by
      intro t ht
      refine ⟨((Heap.mem_slots ho i t.2.1 t.2.2).1 ⟨t.1, ht⟩).2, ?_⟩
      have hx : ∃ u ∈ h.slots i, u.2 = (t.2.1, t.2.2) := ⟨t, ht, rfl⟩
      show _ = dite _ _ _
      rw [dif_pos hx]
      exact hfit t ht _ hx.choose_spec.1 hx.choose_spec.2.symm) hm
    obtain ⟨p, hp, e⟩ := List.mem_map.1 hn
    rw [e2]
    have hp' : (p.1, if (s.2.1, p.1) ∈ (h.slots i).map Prod.snd then ((if hx : ∃ t ∈ h.slots i, t.2 = (s.2.1, p.1) then fitting st h hx.choose else none) : Option (Tensor K)).getD p.2 else p.2) ∈ m'.ownParams := by
      rw [f3]
      exact List.mem_map.2 ⟨p, hp, rfl⟩
    have := Heap.param_eq f1 hp'
    dsimp only at this
    rw [← e, this]
    have hx : ∃ t ∈ h.slots i, t.2 = (s.2.1, p.1) := ⟨s, hs, by rw [e]⟩
    rw [if_pos (List.mem_map.2 ⟨s, hs, by rw [e]⟩), dif_pos hx, ← Heap.param_eq hm hp]
    rw [hfit s hs _ hx.choose_spec.1 (by rw [hx.choose_spec.2, e])]
  refine ⟨?_, ?_, ?_, ?_⟩
  · rw [e1]
    constructor
    · intro hok
      split at hok
      · cases hok
      · rename_i hf
        rw [Bool.or_eq_true, not_or, List.any_eq_true, List.any_eq_true] at hf
        constructor
        · intro s hs
          have : slotFails st h s ≠ true := fun e => hf.1 ⟨s, hs, e⟩
          unfold slotFails at this
          split at this
          · rename_i t ht
            exact ⟨t, ht, by simpa using this⟩
          · exact absurd rfl this
        · intro e he
          by_contra hno
          refine hf.2 ⟨e, he, ?_⟩
          rw [List.all_eq_true]
          intro s hs
          exact decide_eq_true fun es => hno ⟨s, hs, es⟩
    · rintro ⟨h1, h2⟩
      rw [if_neg]
      rw [Bool.or_eq_true, not_or, List.any_eq_true, List.any_eq_true]
      constructor
      · rintro ⟨s, hs, hf⟩
        obtain ⟨t, ht, hsh⟩ := h1 s hs
        unfold slotFails at hf
        rw [ht] at hf
        exact absurd hsh (by simpa using hf)
      · rintro ⟨e, he, hall⟩
        obtain ⟨s, hs, es⟩ := h2 e he
        rw [List.all_eq_true] at hall
        exact absurd es (by simpa using hall s hs)
  · intro hne
    rw [e1] at hne ⊢
    split at hne
    · rw [if_pos (by assumption)]
    · exact absurd rfl hne
  · intro s hs t ht hsh
    rw [param s hs]
    unfold fitting
    rw [ht, Option.filter_some, if_pos (decide_eq_true hsh)]
    rfl
  · intro s hs hno
    rw [param s hs]
    have : fitting st h s = none := by
      unfold fitting
      cases ht : st.lookup s.1 with
      | none => rfl
      | some t => rw [Option.filter_some, if_neg (by simpa using hno t ht)]
    rw [this]
    rfl

/-- Keys of the network of C35: parameters of the input and output layer appear twice, those of module 3 not at all. -/
theorem exHeap_slots (W : ℕ → ℝ) : (exHeap W).slots 7 =
    [([.attr "input_layer", .attr "weight"], 1, "weight"), ([.attr "input_layer", .attr "bias"], 1, "bias"), ([.attr "output_layer", .attr "weight"], 5, "weight"), ([.attr "output_layer", .attr "bias"], 5, "bias"),
      ([.attr "model", .item 0, .attr "weight"], 1, "weight"), ([.attr "model", .item 0, .attr "bias"], 1, "bias"), ([.attr "model", .item 1, .attr "weight"], 2, "weight"), ([.attr "model", .item 1, .attr "bias"], 2, "bias"),
      ([.attr "model", .item 3, .attr "weight"], 5, "weight"), ([.attr "model", .item 3, .attr "bias"], 5, "bias")] := rfl

theorem exHeap_eq (W : ℕ → ℝ) : exHeap W = [.other fun x => .ok x, .linear ⟨[1, 1], [W 1]⟩ ⟨[1], [0]⟩, .linear ⟨[1, 1], [W 2]⟩ ⟨[1], [0]⟩, .linear ⟨[1, 1], [W 3]⟩ ⟨[1], [0]⟩, .sum [3, 2],
    .linear ⟨[1, 1], [W 5]⟩ ⟨[1], [0]⟩, .seq [1, 2, 4, 5], .mlp 0 1 5 6] := by
  have e : ∀ m, exLinear W m = .linear ⟨[1, 1], [W m]⟩ ⟨[1], [0]⟩ := by
    intro m
    show Mod.linear ⟨[1, 1], [if (0 : ℕ) = 0 then W m else 0]⟩ ⟨[1], [if (1 : ℕ) = 0 then W m else 0]⟩ = _
    rw [if_pos rfl, if_neg (by decide)]
  unfold exHeap
  rw [e, e, e, e]

/-- Loading into a heap like `exHeap`, for any weights. -/
theorem load_like_exHeap {K : Type} (f : Fwd K) (a1 a2 a3 a5 b1 b2 b3 b5 z : K) :
    let H : K → K → K → K → Heap K := fun x1 x2 x3 x5 => ([.other f, .linear ⟨[1, 1], [x1]⟩ ⟨[1], [z]⟩, .linear ⟨[1, 1], [x2]⟩ ⟨[1], [z]⟩, .linear ⟨[1, 1], [x3]⟩ ⟨[1], [z]⟩, .sum [3, 2],
      .linear ⟨[1, 1], [x5]⟩ ⟨[1], [z]⟩, .seq [1, 2, 4, 5], .mlp 0 1 5 6] : Heap K)
    Heap.loadStateDict (H b1 b2 b3 b5) 7 (Heap.stateDict (H a1 a2 a3 a5) 7) = (.ok (), H a1 a2 b3 a5) := by
  intro H
  have e : ∀ x1 x2 x3 x5 : K, Heap.slots (H x1 x2 x3 x5) 7 =
    [([.attr "input_layer", .attr "weight"], 1, "weight"), ([.attr "input_layer", .attr "bias"], 1, "bias"), ([.attr "output_layer", .attr "weight"], 5, "weight"), ([.attr "output_layer", .attr "bias"], 5, "bias"),
      ([.attr "model", .item 0, .attr "weight"], 1, "weight"), ([.attr "model", .item 0, .attr "bias"], 1, "bias"), ([.attr "model", .item 1, .attr "weight"], 2, "weight"), ([.attr "model", .item 1, .attr "bias"], 2, "bias"),
      ([.attr "model", .item 3, .attr "weight"], 5, "weight"), ([.attr "model", .item 3, .attr "bias"], 5, "bias")] := fun _ _ _ _ => rfl
  unfold Heap.loadStateDict Heap.stateDict
  rw [e, e]
  have hb : ∀ a b : Key, (a == b) = decide (a = b) := fun _ _ => rfl
  simp [H, loadOne, slotFails, Heap.param, List.lookup, Mod.ownParams, Mod.setParam, hb]

/-- **C117 (resnet, counterexample).** The network of C35 with weights `V`, after loading the saved state of the one with weights `W`: no error, and yet it computes another function as soon as the weights `W 3` and `V 3` of
the second hidden layer differ. -/
theorem C117_resnet_lost (W V : ℕ → ℝ) : ∃ h : Heap ℝ, (exHeap V).loadStateDict 7 ((exHeap W).stateDict 7) = (.ok (), h) ∧
    ∀ v, h.forward 7 (one v) = .ok (one ((v * W 1 * W 2 * V 3 + v * W 1 * W 2 * W 2) * W 5)) ∧
      (exHeap W).forward 7 (one v) = .ok (one ((v * W 1 * W 2 * W 3 + v * W 1 * W 2 * W 2) * W 5)) := by
  refine ⟨exHeap fun m => if m = 3 then V 3 else W m, ?_, fun v => ⟨?_, exHeap_forward W v⟩⟩
  · rw [exHeap_eq, exHeap_eq, exHeap_eq, if_pos rfl, if_neg (by decide), if_neg (by decide), if_neg (by decide)]
    exact load_like_exHeap _ (W 1) (W 2) (W 3) (W 5) (V 1) (V 2) (V 3) (V 5) 0
  · have := exHeap_forward (fun m => if m = 3 then V 3 else W m) v
    simpa using this

/-- Without `resnet` the state brings all weights: loading the state of the network with weights `W` into the one with weights `V`. -/
example (W V : ℕ → ℝ) (netA netB : ℕ) (hA hB : Heap ℝ) (bA : mlpInit (exRng W) (exArgs false) [] = .ok (netA, hA)) (bB : mlpInit (exRng V) (exArgs false) [] = .ok (netB, hB)) (oA : hA.Ordered) (oB : hB.Ordered) :
    ∃ hB' : Heap ℝ, hB.loadStateDict netB (hA.stateDict netA) = (.ok (), hB') ∧ hB'.forward netB = hA.forward netA := by
  have hl : fcTable.lookup "baseline" = some (.leaf .linear) := by decide
  obtain ⟨hB', e1, e2, -⟩ := C117_restored (c := exArgs false) (exRng W) (exRng V) hl hl trivial trivial trivial (by intro i m hm; cases hm) (by intro i m hm; cases hm) (nl := fun x => .ok x) (by intro j hj; cases hj) (by intro j hj; cases hj)
    (by intro cls h; cases h) (by intro cls h; cases h) (Or.inl rfl) bA bB (fun _ m hm => ⟨m, hm, .refl m⟩) (fun _ m hm => ⟨m, hm, .refl m⟩) oA oB
  exact ⟨hB', e1, e2⟩

/-- Two linear modules in a row, the second with `n` outputs. -/
def exStacked (a : ℤ) (n : ℕ) : Heap ℤ := [.linear ⟨[1, 1], [a]⟩ ⟨[1], [a]⟩, .linear ⟨[n, 1], List.replicate n a⟩ ⟨[n], List.replicate n a⟩, .seq [0, 1]]

/-- A state with other sizes in the second module: `RuntimeError`, and the first module has been overwritten. -/
example : (exStacked 5 2).loadStateDict 2 ((exStacked 7 3).stateDict 2) =
    (.error .runtimeError, [.linear ⟨[1, 1], [7]⟩ ⟨[1], [7]⟩, .linear ⟨[2, 1], [5, 5]⟩ ⟨[2], [5, 5]⟩, .seq [0, 1]]) := rfl

end HOL
