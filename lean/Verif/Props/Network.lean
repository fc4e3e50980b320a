import Verif.Lemmas.Net

/-! # C33 - C35, C57 - C61: networks -/

namespace HOL
open TorchScalar

section
variable {K : Type} [TorchScalar K]

/-- **C57.** `HighOrderMLP` with usable layer types is built, and then, also after any training, consists of
one input layer, `hidden_layers` hidden layers and one output layer, all different, of the given
types; without `resnet` it computes the input layer, then for each hidden layer and for the output layer
normalization, nonlinearity, dropout (those that are asked for) and the layer, in this order. -/
theorem C57_structure (rng : Rng K) {c : MLPArgs K} {kind kindIn : FcKind} (hk : fcTable.lookup c.layerType = some kind)
    (hki : fcTable.lookup (orStr c.layerTypeIn c.layerType) = some kindIn) (hI : Usable kindIn c.inputArgs)
    (hH : Usable kind c.hiddenArgs) (hO : Usable kind c.outputArgs) {h0 : Heap K} (hord : h0.Ordered) {nl : Fwd K}
    (hnl : ∀ j ∈ c.nonLinearity, h0[j]? = some (.other nl)) :
    ∃ net h1, mlpInit rng c h0 = .ok (net, h1) ∧ (∃ D, h1 = h0 ++ D) ∧ h1.Ordered ∧
      ∃ (inp out : ℕ) (hid : ℕ → ℕ), (inp :: out :: (List.range c.hiddenLayers).map hid).Nodup ∧
        ∀ h : Heap K, h1.Later h → h.Ordered →
          IsLayer kindIn c.inputArgs h inp ∧ (∀ i < c.hiddenLayers, IsLayer kind c.hiddenArgs h (hid i)) ∧
          IsLayer kind c.outputArgs h out ∧
          (c.resnet = false → h.forward net = compose (preFns c nl) (h.forward inp)
            ((List.range c.hiddenLayers).map (fun i => h.forward (hid i)) ++ [h.forward out])) ∧
          (c.resnet = true → h.forward net = compose (preFns c nl) (h.forward inp)
            ((List.range c.hiddenLayers).map (resEntry (preFns c nl) fun i => h.forward (hid i)) ++ [h.forward out])) := by
  obtain ⟨g, D, -, -, hsh, hso, e1, -, e3, hn⟩ := mlpInit_net rng hk hki hI hH hO hord hnl
  refine ⟨_, _, e1, ⟨D, rfl⟩, e3, c.slotId g .inp, c.layId g c.hiddenLayers, c.coreId g, c.layers_nodup hsh hso, ?_⟩
  intro h hl ho
  have hn := hn.later hl
  refine ⟨hn.inp, hn.hid, hn.out, fun hr => ?_, fun hr => ?_⟩
  · rw [hn.forward_compose ho, List.range_succ, List.map_append, List.map_singleton]
    congr 2
    apply List.map_congr_left
    intro i _
    rw [MLPArgs.layId_eq g (Or.inl hr)]
  · rw [hn.forward_compose ho, List.range_succ, List.map_append, List.map_singleton]
    congr 2
    apply List.map_congr_left
    intro i hi
    rw [List.mem_range] at hi
    exact hn.forward_resEntry ho hr i hi

omit [TorchScalar K] in
/-- **C57 (arguments).** What the layers are asked for: widths, periodicity, segments as given; the number of nodes `n_in`, `n_hidden`, `n_out` if given
(and not zero), otherwise `n`. -/
theorem C57_arguments (c : MLPArgs K) :
    (c.inputArgs.inFeatures, c.inputArgs.outFeatures, c.inputArgs.segments, c.inputArgs.periodicity)
      = (c.inWidth, c.hiddenWidth, c.inSegments, c.periodicity) ∧
    (c.hiddenArgs.inFeatures, c.hiddenArgs.outFeatures, c.hiddenArgs.segments, c.hiddenArgs.periodicity)
      = (c.hiddenWidth, c.hiddenWidth, c.hiddenSegments, c.periodicity) ∧
    (c.outputArgs.inFeatures, c.outputArgs.outFeatures, c.outputArgs.segments, c.outputArgs.periodicity)
      = (c.hiddenWidth, c.outWidth, c.outSegments, c.periodicity) ∧
    (c.nIn = none → c.inputArgs.n = c.n) ∧ (c.nHidden = none → c.hiddenArgs.n = c.n) ∧ (c.nOut = none → c.outputArgs.n = c.n) ∧
    (∀ m, 0 < m → (c.nIn = some (.int m) → c.inputArgs.n = .int m) ∧ (c.nHidden = some (.int m) → c.hiddenArgs.n = .int m) ∧
      (c.nOut = some (.int m) → c.outputArgs.n = .int m)) ∧
    (c.nIn = some (.int 0) → c.inputArgs.n = c.n) ∧ (c.nHidden = some (.int 0) → c.hiddenArgs.n = c.n) ∧
    (c.nOut = some (.int 0) → c.outputArgs.n = c.n) := by
  refine ⟨rfl, rfl, rfl, ?_, ?_, ?_, ?_, ?_, ?_, ?_⟩
  · intro h; simp [MLPArgs.inputArgs, h, orElse]
  · intro h; simp [MLPArgs.hiddenArgs, h, orElse]
  · intro h; simp [MLPArgs.outputArgs, h, orElse]
  · intro m hm
    refine ⟨?_, ?_, ?_⟩ <;> intro h <;>
      simp [MLPArgs.inputArgs, MLPArgs.hiddenArgs, MLPArgs.outputArgs, h, orElse, IntOrList.truthy] <;> omega
  · intro h; simp [MLPArgs.inputArgs, h, orElse, IntOrList.truthy]
  · intro h; simp [MLPArgs.hiddenArgs, h, orElse, IntOrList.truthy]
  · intro h; simp [MLPArgs.outputArgs, h, orElse, IntOrList.truthy]

/-- **C57 (errors).** An unknown type of the input layer raises `ValueError`; so does an unknown type of the other layers if the input
layer can be built. -/
theorem C57_unknown_type (rng : Rng K) (c : MLPArgs K) (h : Heap K) :
    (fcTable.lookup (orStr c.layerTypeIn c.layerType) = none → mlpInit rng c h = .error .valueError) ∧
    (∀ kindIn, fcTable.lookup (orStr c.layerTypeIn c.layerType) = some kindIn → Usable kindIn c.inputArgs →
      fcTable.lookup c.layerType = none → mlpInit rng c h = .error .valueError) := by
  constructor
  · intro hk
    simp only [mlpInit, fcLayer, hk, bind, Except.bind]
  · intro kindIn hk hu hn
    obtain ⟨F, hF⟩ := hu.builds rng
    have hstep : ∀ i s, hiddenStep rng c h.length i s = .error .valueError := by
      intro i s
      simp only [hiddenStep, fcLayer, hn, bind, Except.bind]
    have hloop : ∀ k s, hiddenLoop rng c h.length k s = if k = 0 then .ok s else .error .valueError := by
      intro k
      induction k with
      | zero => intro s; rfl
      | succ k ih =>
        intro s
        simp only [hiddenLoop, ih, bind, Except.bind]
        by_cases hk0 : k = 0
        · rw [if_pos hk0]; simp [hstep]
        · rw [if_neg hk0]; simp
    simp only [mlpInit, fcLayer, hk, hn, bind, Except.bind, hF.ok, hloop]
    by_cases hk0 : c.hiddenLayers = 0
    · rw [if_pos hk0]
    · rw [if_neg hk0]

end

/-- **C57 (shapes).** The network takes `[batch, in_width]` to `[batch, out_width]` for all weights, with or without `resnet`, if normalization,
nonlinearity and dropout keep `[batch, hidden_width]`. -/
theorem C57_shape (rng : Rng ℝ) {c : MLPArgs ℝ} {kind kindIn : FcKind} (hk : fcTable.lookup c.layerType = some kind)
    (hki : fcTable.lookup (orStr c.layerTypeIn c.layerType) = some kindIn) (hI : Usable kindIn c.inputArgs)
    (hH : Usable kind c.hiddenArgs) (hO : Usable kind c.outputArgs) {h0 : Heap ℝ} (hord : h0.Ordered) {nl : Fwd ℝ}
    (hnl : ∀ j ∈ c.nonLinearity, h0[j]? = some (.other nl)) (hpre : ∀ f ∈ preFns c nl, MapsTo f c.hiddenWidth c.hiddenWidth)
    {net : ℕ} {h1 : Heap ℝ} (hb : mlpInit rng c h0 = .ok (net, h1)) {h : Heap ℝ} (hl : h1.Later h) (ho : h.Ordered) :
    MapsTo (h.forward net) c.inWidth c.outWidth := by
  obtain ⟨g, D, -, -, -, -, e1, -, -, hn⟩ := mlpInit_net rng hk hki hI hH hO hord hnl
  rw [hb] at e1
  cases e1
  exact (hn.later hl).mapsTo ho hI hH hO hpre

/-! ## C35 -/

theorem seq_flatMap_congr {K : Type} [TorchScalar K] {α : Type} {f g : α → List (Fwd K)} :
    ∀ {l : List α}, (∀ a ∈ l, ∀ x, seqForward (f a) x = seqForward (g a) x) → ∀ (t : List (Fwd K)) (x : Tensor K),
      seqForward (l.flatMap f ++ t) x = seqForward (l.flatMap g ++ t) x
  | [], _, t, x => rfl
  | a :: l, h, t, x => by
    rw [List.flatMap_cons, List.flatMap_cons, List.append_assoc, List.append_assoc, seqForward_append, seqForward_append,
      h a (by simp)]
    congr 1
    funext y
    exact seq_flatMap_congr (fun b hb => h b (by simp [hb])) t y

/-- **C35 (what `resnet` computes).** With `resnet=True` hidden entry `i > 0` outputs `hidden_i(y) + g(y)`, where `y` is its input and `g` is the module
before it in the list: dropout, else nonlinearity, else normalization, else the previous hidden entry itself (applied
a second time). This is the second part of `C57_structure`, unfolded. -/
theorem C35_entry {K : Type} [TorchScalar K] (pre : List (Fwd K)) (hid : ℕ → Fwd K) (y : Tensor K) :
    resEntry pre hid 0 y = hid 0 y ∧
    ∀ i, resEntry pre hid (i + 1) y = (do
      let u ← hid (i + 1) y
      let v ← (if h : pre = [] then resEntry pre hid i else pre.getLast h) y
      zipBcast (· + ·) u v) := by
  refine ⟨rfl, fun i => ?_⟩
  by_cases h : pre = []
  · subst h; rfl
  · rw [dif_neg h]
    simp only [resEntry]
    rw [List.getLastD_eq_getLast?, List.getLast?_eq_some_getLast h]
    rfl

/-- **C35 (true residuals).** If the entry before a hidden layer is a function `f` with `f (f z) = f z` (ReLU, dropout when evaluating), a `resnet` network computes the
composition where every hidden layer after the first is replaced by itself plus its input. -/
theorem C35_residual {K : Type} [TorchScalar K] (rng : Rng K) {c : MLPArgs K} {kind kindIn : FcKind} (hk : fcTable.lookup c.layerType = some kind)
    (hki : fcTable.lookup (orStr c.layerTypeIn c.layerType) = some kindIn) (hI : Usable kindIn c.inputArgs)
    (hH : Usable kind c.hiddenArgs) (hO : Usable kind c.outputArgs) {h0 : Heap K} (hord : h0.Ordered) {nl : Fwd K}
    (hnl : ∀ j ∈ c.nonLinearity, h0[j]? = some (.other nl)) (hr : c.resnet = true)
    {f : Fwd K} (hf : (preFns c nl).getLast? = some f) (hidem : ∀ z y, f z = .ok y → f y = .ok y) :
    ∃ net h1, mlpInit rng c h0 = .ok (net, h1) ∧ ∃ (inp out : ℕ) (hid : ℕ → ℕ),
      ∀ h : Heap K, h1.Later h → h.Ordered →
        IsLayer kindIn c.inputArgs h inp ∧ (∀ i < c.hiddenLayers, IsLayer kind c.hiddenArgs h (hid i)) ∧
        IsLayer kind c.outputArgs h out ∧
        h.forward net = compose (preFns c nl) (h.forward inp)
          ((List.range c.hiddenLayers).map (fun i => if i = 0 then h.forward (hid i) else residual (h.forward (hid i)))
            ++ [h.forward out]) := by
  obtain ⟨net, h1, e1, -, -, inp, out, hid, -, hh⟩ := C57_structure rng hk hki hI hH hO hord hnl
  refine ⟨net, h1, e1, inp, out, hid, fun h hl ho => ?_⟩
  obtain ⟨p1, p2, p3, -, p5⟩ := hh h hl ho
  refine ⟨p1, p2, p3, ?_⟩
  rw [p5 hr]
  unfold compose
  rw [List.flatMap_append, List.flatMap_append, List.flatMap_map, List.flatMap_map]
  funext x
  simp only [seqForward]
  congr 1
  funext y
  refine seq_flatMap_congr (fun i _ x => ?_) _ y
  rw [seqForward_append, seqForward_append]
  cases i with
  | zero => rfl
  | succ i =>
    rw [if_neg (Nat.succ_ne_zero i)]
    obtain ⟨q, hq⟩ : ∃ q, preFns c nl = q ++ [f] := by
      rw [List.getLast?_eq_some_iff] at hf; exact hf
    have hs : seqForward (preFns c nl) x = (seqForward q x >>= f) := by
      rw [hq, seqForward_append]
      congr 1
      funext z
      simp only [seqForward]
      cases f z <;> rfl
    rw [hs]
    cases seqForward q x with
    | error e => rfl
    | ok z =>
      change (f z >>= _) = (f z >>= _)
      cases hfz : f z with
      | error e => rfl
      | ok y =>
        change seqForward [_] y = seqForward [_] y
        simp only [seqForward]
        congr 1
        simp only [resEntry, residual, List.getLastD_eq_getLast?, hf, Option.getD_some, hidem z y hfz, bind, Except.bind]

/-- **C35 (no residuals).** Without normalization, nonlinearity and dropout, hidden entry `i` is not a residual of its input: it outputs the
sum of the first `i + 1` hidden layers applied to its input. -/
theorem C35_sum (hid : ℕ → Fwd ℝ) (B w : ℕ) (y : Tensor ℝ) (v : ℕ → Tensor ℝ) (i : ℕ)
    (hv : ∀ j ≤ i, hid j y = .ok (v j) ∧ (v j).shape = [B, w]) :
    ∃ z, resEntry [] hid i y = .ok z ∧ z.shape = [B, w] ∧
      ∀ b < B, ∀ o < w, z.get [b, o] = ∑ j ∈ Finset.range (i + 1), (v j).get [b, o] := by
  induction i with
  | zero =>
    refine ⟨v 0, (hv 0 le_rfl).1, (hv 0 le_rfl).2, fun b _ o _ => ?_⟩
    simp
  | succ i ih =>
    obtain ⟨z, z1, z2, z3⟩ := ih fun j hj => hv j (by omega)
    obtain ⟨u1, u2⟩ := hv (i + 1) le_rfl
    refine ⟨Tensor.tab2 B w fun b o => (v (i + 1)).get [b, o] + z.get [b, o], ?_, rfl, ?_⟩
    · simp only [resEntry, List.getLastD_nil, u1, z1, bind, Except.bind]
      exact zipBcast_same _ u2 z2
    · intro b hb o ho
      rw [Tensor.get_tab2 hb ho, Finset.sum_range_succ, z3 b hb o ho, add_comm]

/-! A network of linear layers of width one: the weight of module `m` is `W m`, the biases are zero. -/

noncomputable def exRng (W : ℕ → ℝ) : Rng ℝ := fun m _ i => if i = 0 then W m else 0

noncomputable def exArgs (resnet : Bool) : MLPArgs ℝ :=
  { layerType := "baseline", layerTypeIn := none, n := .int 1, nIn := none, nOut := none, nHidden := none
    inWidth := 1, outWidth := 1, hiddenLayers := 2, hiddenWidth := 1, inSegments := none, outSegments := none
    hiddenSegments := none, periodicity := none, normalization := none, nonLinearity := none, resnet := resnet
    dropout := 0, dropoutFn := fun x => .ok x, scale := 1, rescaleOutput := false, initialization := "" }

/-- The number `v` as a `[1, 1]` tensor. -/
noncomputable def one (v : ℝ) : Tensor ℝ := Tensor.tab2 1 1 fun _ _ => v

noncomputable def exLinear (W : ℕ → ℝ) (m : ℕ) : Mod ℝ :=
  .linear (Tensor.tab2 1 1 (exRng W m)) (Tensor.tab1 1 fun o => exRng W m o 1)

noncomputable def exHeap (W : ℕ → ℝ) : Heap ℝ :=
  [.other fun x => .ok x, exLinear W 1, exLinear W 2, exLinear W 3, .sum [3, 2], exLinear W 5, .seq [1, 2, 4, 5], .mlp 0 1 5 6]

theorem exHeap_built (W : ℕ → ℝ) : mlpInit (exRng W) (exArgs true) [] = .ok (7, exHeap W) := by
  have hlt : ltB (0 : ℝ) 0 = false := by simp [ltB]
  have hl : fcTable.lookup "baseline" = some (.leaf .linear) := by decide
  simp only [mlpInit, fcLayer, exArgs, orStr, hl, bind, Except.bind, fcMods, leafMods, hiddenLoop, hiddenStep, appendPre, hlt,
    MLPArgs.inputArgs, MLPArgs.hiddenArgs, MLPArgs.outputArgs, orElse]
  simp [exHeap, exLinear]

theorem exHeap_ordered (W : ℕ → ℝ) : (exHeap W).Ordered := by
  intro i m hm j hj
  rcases i with _ | _ | _ | _ | _ | _ | _ | _ | i <;> simp [exHeap, exLinear] at hm <;> subst hm <;>
    simp [Mod.refs, Mod.hidden, Mod.children] at hj <;> omega

theorem exLinear_forward' (W : ℕ → ℝ) (m : ℕ) (call : ℕ → Fwd ℝ) (v : ℝ) :
    (exLinear W m).forward call (one v) = .ok (one (v * W m)) := by
  simp only [exLinear, Mod.forward]
  unfold linearForward
  change (if (1 : ℕ) = 1 then _ else _) = _
  rw [if_pos rfl]
  unfold one
  congr 1
  apply tab2_congr
  intro b hb o ho
  have hb0 : b = 0 := by omega
  have ho0 : o = 0 := by omega
  subst hb0; subst ho0
  rw [sumL_range, Finset.sum_range_one, Tensor.get_tab2 hb (by omega), Tensor.get_tab2 ho (by omega), Tensor.get_tab1 ho]
  simp [exRng]

theorem exLinear_forward (W : ℕ → ℝ) {m : ℕ} (hm : (exHeap W)[m]? = some (exLinear W m)) (v : ℝ) :
    (exHeap W).forward m (one v) = .ok (one (v * W m)) := by
  rw [Heap.forward_eq (exHeap_ordered W) hm, exLinear_forward']

theorem exHeap_forward (W : ℕ → ℝ) (v : ℝ) : (exHeap W).forward 7 (one v) =
    .ok (one ((v * W 1 * W 2 * W 3 + v * W 1 * W 2 * W 2) * W 5)) := by
  have ho := exHeap_ordered W
  have hsum : ∀ u : ℝ, (exHeap W).forward 4 (one u) = .ok (one (u * W 3 + u * W 2)) := by
    intro u
    rw [Heap.forward_eq ho (show (exHeap W)[4]? = some (.sum [3, 2]) from rfl)]
    simp only [Mod.forward, List.mapM_cons, List.mapM_nil, exLinear_forward W (m := 3) rfl, exLinear_forward W (m := 2) rfl,
      bind, Except.bind, pure, Except.pure, addStar]
    rw [zipBcast_same _ (B := 1) (O := 1) rfl rfl]
    unfold one
    congr 1
  rw [Heap.forward_eq ho (show (exHeap W)[7]? = some (.mlp 0 1 5 6) from rfl)]
  simp only [Mod.forward]
  rw [Heap.forward_eq ho (show (exHeap W)[6]? = some (.seq [1, 2, 4, 5]) from rfl)]
  simp only [Mod.forward, List.map, seqForward, exLinear_forward W (m := 1) rfl, exLinear_forward W (m := 2) rfl, hsum,
    exLinear_forward W (m := 5) rfl, bind, Except.bind]

/-- **C35 (counterexample).** A `resnet` network with input layer, second hidden layer and output layer `y`, `0`, `y` and first hidden
layer `-y` maps `1/2` to `1/2`; adding to the second hidden layer its input would give `-1/2`. -/
theorem C35_not_residual : ∃ (W : ℕ → ℝ) (h : Heap ℝ), mlpInit (exRng W) (exArgs true) [] = .ok (7, h) ∧
    h.forward 7 (one (1 / 2)) = .ok (one (1 / 2)) ∧
    compose (preFns (exArgs true) noFwd) (h.forward 1) [h.forward 2, residual (h.forward 3), h.forward 5] (one (1 / 2))
      = .ok (one (-1 / 2)) ∧ one (1 / 2) ≠ one (-1 / 2) := by
  refine ⟨fun m => if m = 2 then -1 else if m = 3 then 0 else 1, _, exHeap_built _, ?_, ?_, ?_⟩
  · rw [exHeap_forward]
    norm_num
  · have hp : preFns (exArgs true) noFwd = [] := by simp [preFns, exArgs, ltB]
    rw [hp]
    have hres : ∀ W : ℕ → ℝ, ∀ u : ℝ, residual ((exHeap W).forward 3) (one u) = .ok (one (u * W 3 + u)) := by
      intro W u
      simp only [residual, exLinear_forward W (m := 3) rfl, bind, Except.bind]
      rw [zipBcast_same _ (B := 1) (O := 1) rfl rfl]
      unfold one
      congr 1
    simp only [compose, List.flatMap_cons, List.flatMap_nil, List.nil_append, List.append_nil, List.cons_append, seqForward,
      bind, Except.bind, exLinear_forward _ (m := 1) rfl, exLinear_forward _ (m := 2) rfl, hres, exLinear_forward _ (m := 5) rfl]
    norm_num
  · intro e
    have := congrArg (fun t => t.get [0, 0]) e
    simp only [one, Tensor.get_tab2 (Nat.zero_lt_one) (Nat.zero_lt_one)] at this
    norm_num at this

/-- C57 for a concrete network. -/
example : ∃ net h1, mlpInit (exRng fun _ => 3) (exArgs false) [] = .ok (net, h1) ∧ MapsTo (h1.forward net) 1 1 := by
  have hk : fcTable.lookup (exArgs false).layerType = some (.leaf .linear) := by show List.lookup "baseline" _ = _; decide
  obtain ⟨net, h1, e, -, ho, -⟩ := C57_structure (exRng fun _ => 3) (c := exArgs false) (h0 := []) (nl := noFwd) hk hk trivial trivial trivial
    (by intro i m hm; simp at hm) (by intro j hj; simp [exArgs] at hj)
  refine ⟨net, h1, e, C57_shape (exRng fun _ => 3) (nl := noFwd) hk hk trivial trivial trivial (by intro i m hm; simp at hm)
    (by intro j hj; simp [exArgs] at hj) (by intro f hf; simp [preFns, exArgs, ltB] at hf) e ?_ ho⟩
  intro i m hm
  exact ⟨m, hm, .refl m⟩

end HOL
