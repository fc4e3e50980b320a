import Verif.Props.Network
import Verif.Lemmas.SparseLion

/-! # C33, C58, C59, C61: switch layers, other networks, ignored options -/

namespace HOL
open TorchScalar

section
variable {K : Type} [TorchScalar K]

theorem zipBcast_sameShape (f : K → K → K) {s t : Tensor K} {sh : List ℕ} (hs : s.shape = sh) (ht : t.shape = sh) :
    ∃ y, zipBcast f s t = .ok y ∧ y.shape = sh ∧ ∀ idx, InShape sh idx → y.get idx = f (s.get idx) (t.get idx) := by
  by_cases h2 : ∃ a b, sh = [a, b]
  · obtain ⟨a, b, rfl⟩ := h2
    refine ⟨_, zipBcast_same f hs ht, rfl, ?_⟩
    intro idx hidx
    obtain ⟨i, j, rfl⟩ : ∃ i j, idx = [i, j] := by
      match idx, hidx with
      | [i, j], _ => exact ⟨i, j, rfl⟩
      | [], h => simp [InShape] at h
      | [_], h => simp [InShape] at h
      | _ :: _ :: _ :: _, h => simp [InShape] at h
    obtain ⟨hi, hj⟩ := inShape2.1 hidx
    exact Tensor.get_tab2 hi hj
  · refine ⟨Tensor.tabulate sh fun idx => f (s.get idx) (t.get idx), ?_, rfl, fun idx hidx => Tensor.get_tabulate hidx⟩
    unfold zipBcast
    rw [hs, ht]
    split
    · exact absurd ⟨_, _, rfl⟩ h2
    · rw [if_pos rfl]

theorem mulAll_spec {sh : List ℕ} : ∀ (ts : List (Tensor ℝ)) (t : Tensor ℝ), t.shape = sh → (∀ u ∈ ts, u.shape = sh) →
    ∃ y, mulAll t ts = .ok y ∧ y.shape = sh ∧
      ∀ idx, InShape sh idx → y.get idx = t.get idx * (ts.map fun u => u.get idx).prod
  | [], t, ht, _ => ⟨t, rfl, ht, fun idx _ => by simp⟩
  | u :: us, t, ht, hus => by
    obtain ⟨r, r1, r2, r3⟩ := zipBcast_sameShape (· * ·) ht (hus u (by simp))
    obtain ⟨y, y1, y2, y3⟩ := mulAll_spec us r r2 fun v hv => hus v (by simp [hv])
    refine ⟨y, ?_, y2, fun idx hidx => ?_⟩
    · simp only [mulAll, r1, bind, Except.bind]
      rw [if_pos (by rw [r2, ht]), y1]
    · rw [y3 idx hidx, r3 idx hidx, List.map_cons, List.prod_cons, mul_assoc]

end

/-- **C33.** A switch layer with at least one sublayer returns the entrywise product of what its sublayers return (which must have one shape),
passed through the normalization if there is one; without sublayers a call raises `IndexError`. -/
theorem C33_switch {h : Heap ℝ} (ho : h.Ordered) {i I : ℕ} {ls : List ℕ} {norm : Option ℕ} (hi : h[i]? = some (.switch I ls norm))
    (x : Tensor ℝ) :
    (ls = [] → h.forward i x = .error .indexError) ∧
    ∀ (v : ℕ → Tensor ℝ) (sh : List ℕ), ls ≠ [] → (∀ l ∈ ls, h.forward l x = .ok (v l) ∧ (v l).shape = sh) →
      ∃ y, y.shape = sh ∧ (∀ idx, InShape sh idx → y.get idx = (ls.map fun l => (v l).get idx).prod) ∧
        h.forward i x = norm.elim (.ok y) fun n => h.forward n y := by
  rw [Heap.forward_eq ho hi]
  constructor
  · rintro rfl; rfl
  · intro v sh hne hv
    obtain ⟨l, ls, rfl⟩ := List.exists_cons_of_ne_nil hne
    have hm : (l :: ls).mapM (fun k => h.forward k x) = .ok ((l :: ls).map v) := mapM_ok fun k hk => (hv k hk).1
    obtain ⟨y, y1, y2, y3⟩ := mulAll_spec (ls.map v) (v l) (hv l (by simp)).2 (by
      intro u hu
      obtain ⟨k, hk, rfl⟩ := List.mem_map.1 hu
      exact (hv k (by simp [hk])).2)
    refine ⟨y, y2, fun idx hidx => ?_, ?_⟩
    · rw [y3 idx hidx, List.map_cons, List.prod_cons, List.map_map]; rfl
    · simp only [Mod.forward, hm, bind, Except.bind, List.map_cons, y1]
      cases norm <;> rfl

/-- A switch of `x ↦ 3 x` and `x ↦ 5 x` maps `2` to `60`. -/
example : ∃ y, Heap.forward [exLinear (fun _ => 3) 0, exLinear (fun _ => 5) 1, .switch 1 [0, 1] none] 2 (one 2) = .ok y ∧
    y.get [0, 0] = 60 := by
  set h : Heap ℝ := [exLinear (fun _ => 3) 0, exLinear (fun _ => 5) 1, .switch 1 [0, 1] none] with hh
  have ho : h.Ordered := by
    intro i m hm j hj
    rcases i with _ | _ | _ | i <;> simp [hh, exLinear] at hm <;> subst hm <;>
      simp [Mod.refs, Mod.hidden, Mod.children] at hj <;> omega
  have h0 : h.forward 0 (one 2) = .ok (one 6) := by
    rw [Heap.forward_eq ho (show h[0]? = some (exLinear (fun _ => 3) 0) from rfl), exLinear_forward']
    norm_num
  have h1 : h.forward 1 (one 2) = .ok (one 10) := by
    rw [Heap.forward_eq ho (show h[1]? = some (exLinear (fun _ => 5) 1) from rfl), exLinear_forward']
    norm_num
  obtain ⟨y, -, y2, y3⟩ := (C33_switch ho (i := 2) (I := 1) (ls := [0, 1]) (norm := none) rfl (one 2)).2
    (fun l => if l = 0 then one 6 else one 10) [1, 1] (by simp) (by
      intro l hl
      simp at hl
      rcases hl with rfl | rfl
      · exact ⟨h0, rfl⟩
      · exact ⟨h1, rfl⟩)
  refine ⟨y, y3, ?_⟩
  rw [y2 [0, 0] (by simp [InShape])]
  simp only [List.map, one, Nat.one_ne_zero, if_true, if_false, Tensor.get_tab2 Nat.zero_lt_one Nat.zero_lt_one, List.prod_cons, List.prod_nil]
  norm_num

section
variable {K : Type} [TorchScalar K]

/-- **C33 (constructor).** `SwitchLayer(layer_type, num_input_layers, normalization, ...)` builds `num_input_layers` layers of the type with the
given arguments, except that their periodicity is `None`; an unknown type raises `ValueError` (if at least one sublayer is asked for). -/
theorem C33_constructor (rng : Rng K) (t : String) (norm : Option ℕ) (a : FcArgs K) (h : Heap K) :
    (fcTable.lookup t = none → 0 < a.numInputLayers → switchInit rng t norm a h.length = .error .valueError) ∧
    ∀ k : LeafKind, fcTable.lookup t = some (.leaf k) → Usable (.leaf k) { a with periodicity := none } →
      ∃ ms subs, switchInit rng t norm a h.length = .ok (ms ++ [.switch a.inFeatures subs norm]) ∧
        subs.length = a.numInputLayers ∧ subs.Nodup ∧
        ∀ j ∈ subs, IsLayer (.leaf k) { a with periodicity := none } (h ++ ms) j := by
  constructor
  · intro ht hpos
    obtain ⟨m, hm⟩ : ∃ m, a.numInputLayers = m + 1 := ⟨a.numInputLayers - 1, by omega⟩
    simp only [switchInit, switchMods, hm, sublayers, ht, bind, Except.bind]
  · intro k ht hu
    obtain ⟨F, hF⟩ := hu.builds rng
    have hF' : ∀ b, fcMods rng (.leaf k) { a with periodicity := none, rescaleOutput := false } b = .ok (F b) := by
      intro b
      rw [← hF.ok b]
      rfl
    have key : ∀ (num : ℕ) (g : Heap K), ∃ ms subs, sublayers (fun b => fcMods rng (.leaf k) { a with periodicity := none, rescaleOutput := false } b)
        num g.length = .ok (ms, subs) ∧ subs.length = num ∧ subs.Nodup ∧ (∀ j ∈ subs, g.length ≤ j) ∧
        ∀ j ∈ subs, IsLayer (.leaf k) { a with periodicity := none } (g ++ ms) j := by
      intro num
      induction num with
      | zero => intro g; exact ⟨[], [], rfl, rfl, List.nodup_nil, by simp, by simp⟩
      | succ num ih =>
        intro g
        obtain ⟨ms, subs, e1, e2, e3, e4, e5⟩ := ih (g ++ F g.length)
        rw [List.length_append] at e1 e4
        have hpos : 0 < (F g.length).length := by rw [hF.len]; exact hF.pos
        refine ⟨F g.length ++ ms, (g.length + (F g.length).length - 1) :: subs, ?_, by simp [e2], ?_, ?_, ?_⟩
        · simp only [sublayers, hF', bind, Except.bind] at e1 ⊢
          rw [e1]
        · refine List.nodup_cons.2 ⟨fun hmem => ?_, e3⟩
          have := e4 _ hmem
          omega
        · intro j hj
          rcases List.mem_cons.1 hj with rfl | hj
          · omega
          · have := e4 j hj; omega
        · intro j hj
          rcases List.mem_cons.1 hj with rfl | hj
          · refine ⟨rng, g.length, F g.length, hF.ok _, by omega, ?_⟩
            intro q m hm
            refine ⟨m, ?_, .refl m⟩
            have hq := (List.getElem?_eq_some_iff.1 hm).1
            rw [List.getElem?_append_right (by omega), Nat.add_sub_cancel_left, List.getElem?_append_left hq, hm]
          · rw [← List.append_assoc]; exact e5 j hj
    obtain ⟨ms, subs, e1, e2, e3, -, e5⟩ := key a.numInputLayers h
    refine ⟨ms, subs, ?_, e2, e3, e5⟩
    simp only [switchInit, switchMods, ht]
    rw [e1]
    rfl

/-! ## C58 -/

/-- **C58.** `HighOrderMLPList` builds only the first of the layers it is given: a network of `layer_type[0]`, `n[0]`, `segments[0]`, from `width[0]`
to `width[1]` features, whatever else the lists contain. -/
theorem C58_first_layer_only (rng : Rng K) (t : String) (ts : List String) (n0 : IntOrList) (ns : List IntOrList) (w0 w1 : ℕ) (ws : List ℕ)
    (s0 : Option IntOrList) (ss : List (Option IntOrList)) (scale : K) (rescale : Bool) (per : Option K) (h : Heap K)
    (hlen : ws.length = ts.length) :
    mlpListInit rng (t :: ts) (n0 :: ns) (w0 :: w1 :: ws) (s0 :: ss) scale rescale per h
      = mlpListInit rng [t] [n0] [w0, w1] [s0] scale rescale per h := by
  have e1 : ¬ (w0 :: w1 :: ws).length ≠ (t :: ts).length + 1 := by simp [hlen]
  have e2 : ¬ [w0, w1].length ≠ [t].length + 1 := by simp
  unfold mlpListInit
  rw [if_neg e1, if_neg e2]

/-- **C58 (errors).** A wrong number of widths raises `ValueError`; empty lists of types, orders or segments raise `IndexError`. -/
theorem C58_errors (rng : Rng K) (ts : List String) (ns : List IntOrList) (ws : List ℕ)
    (ss : List (Option IntOrList)) (scale : K) (rescale : Bool) (per : Option K) (h : Heap K) :
    (ws.length ≠ ts.length + 1 → mlpListInit rng ts ns ws ss scale rescale per h = .error .valueError) ∧
    (ws.length = ts.length + 1 → (ts = [] ∨ ns = [] ∨ ss = []) → mlpListInit rng ts ns ws ss scale rescale per h = .error .indexError) := by
  constructor
  · intro hl
    unfold mlpListInit
    rw [if_pos hl]
  · intro hl hnil
    unfold mlpListInit
    rw [if_neg (by simpa using hl)]
    rcases hnil with rfl | rfl | rfl
    · rfl
    · cases ts <;> rfl
    · cases ts <;> cases ns <;> rcases ws with _ | ⟨_, _ | ⟨_, _⟩⟩ <;> rfl

end

/-- **C58 (shape).** The network maps `width[0]` to `width[1]` features, not to `width[-1]`. -/
theorem C58_shape (rng : Rng ℝ) (t : String) (ts : List String) (n0 : IntOrList) (ns : List IntOrList) (w0 w1 : ℕ) (ws : List ℕ)
    (s0 : Option IntOrList) (ss : List (Option IntOrList)) (scale : ℝ) (rescale : Bool) (per : Option ℝ) {h0 : Heap ℝ} (hord : h0.Ordered)
    (hlen : ws.length = ts.length) {kind : FcKind} (hk : fcTable.lookup t = some kind)
    (hu : Usable kind { n := n0, inFeatures := w0, outFeatures := w1, segments := s0, periodicity := per, numInputLayers := 2,
                        scale := scale, rescaleOutput := rescale, initialization := "constant_random" }) :
    ∃ net h1, mlpListInit rng (t :: ts) (n0 :: ns) (w0 :: w1 :: ws) (s0 :: ss) scale rescale per h0 = .ok (net, h1) ∧ h1.Ordered ∧
      ∀ h : Heap ℝ, h1.Later h → h.Ordered → MapsTo (h.forward net) w0 w1 := by
  rw [C58_first_layer_only rng t ts n0 ns w0 w1 ws s0 ss scale rescale per h0 hlen]
  obtain ⟨F, hF⟩ := hu.builds rng
  have hfl := fcLayer_eq (h := h0) hk (hF.ok h0.length)
  have hpos : 0 < (F h0.length).length := by rw [hF.len]; exact hF.pos
  have ho1 : (h0 ++ F h0.length : Heap ℝ).Ordered := hord.append fun k m hm j hj => by
    have := hF.ord h0.length k m hm j hj
    omega
  set j := h0.length + (F h0.length).length - 1 with hj
  set g : Heap ℝ := h0 ++ F h0.length with hg
  have hglen : g.length = j + 1 := by rw [hg, List.length_append]; omega
  have ho3 : (g ++ [.seq [j], .wrap g.length] : Heap ℝ).Ordered := ho1.append fun k m hm i hi => by
    rcases k with _ | _ | k
    · simp at hm; subst hm
      simp [Mod.refs, Mod.hidden, Mod.children] at hi
      omega
    · simp at hm; subst hm
      simp [Mod.refs, Mod.hidden, Mod.children] at hi
      omega
    · simp at hm
  refine ⟨g.length + 1, g ++ [.seq [j], .wrap g.length], ?_, ho3, ?_⟩
  · unfold mlpListInit
    rw [if_neg (by simp)]
    simp only [hfl, bind, Except.bind]
    rw [if_pos (by simp)]
  · intro h hl ho
    have hlay := ((IsLayer.of_lookup hF (h := g) (base := h0.length) (by
      intro k hk'
      rw [hg, List.getElem?_append_right (by omega), Nat.add_sub_cancel_left])).later (Heap.Later.append g _)).later hl
    have ej : h0.length + kindSize kind - 1 = j := by rw [hj, hF.len]
    rw [ej] at hlay
    have hseq : h[g.length]? = some (.seq [j]) := hl.same (m := .seq [j]) (by simp) rfl
    have hwrap : h[g.length + 1]? = some (.wrap g.length) := hl.same (m := .wrap g.length) (by simp) rfl
    rw [Heap.forward_eq ho hwrap]
    change MapsTo (fun x => h.forward g.length x) w0 w1
    rw [Heap.forward_eq ho hseq]
    exact MapsTo.cons (hlay.mapsTo hu ho) (MapsTo.nil w1)

/-- A list of two linear layers `1 → 2 → 5` gives a network `1 → 2`. -/
example : ∃ net h1, mlpListInit (exRng fun _ => 3) ["baseline", "baseline"] [.int 1, .int 1] [1, 2, 5] [none, none] 1 false none [] = .ok (net, h1) ∧
    MapsTo (h1.forward net) 1 2 := by
  obtain ⟨net, h1, e1, e2, e3⟩ := C58_shape (exRng fun _ => 3) "baseline" ["baseline"] (.int 1) [.int 1] 1 2 [5] none [none] 1 false none
    (h0 := []) (by intro i m hm; simp at hm) rfl (kind := .leaf .linear) (by decide) trivial
  exact ⟨net, h1, e1, e3 h1 (fun i m hm => ⟨m, hm, .refl m⟩) e2⟩

/-- The lists of widths and types do not fit. -/
example : mlpListInit (exRng fun _ => 3) ["baseline", "baseline"] [.int 1, .int 1] [1, 2] [none, none] 1 false none [] = .error .valueError :=
  (C58_errors _ _ _ _ _ _ _ _ _).1 (by decide)

section
variable {K : Type} [TorchScalar K]

/-! ## C59 -/

/-- **C59.** `HighOrderMultiMLP` cannot be constructed: whatever the arguments and the depth of the Python stack, the constructor
raises. -/
theorem C59_never_constructed (rng : Rng K) (depth replicas : ℕ) (c : MLPArgs K) (h : Heap K) :
    ∃ e, multiMlpInit rng depth replicas c h = .error e := by
  cases depth with
  | zero => exact ⟨_, rfl⟩
  | succ depth =>
    simp only [multiMlpInit, bind, Except.bind]
    split
    · exact ⟨_, rfl⟩
    · split
      · exact ⟨_, rfl⟩
      · split
        · exact ⟨_, rfl⟩
        · exact ⟨_, rfl⟩

omit [TorchScalar K] in
theorem Usable.of_eq {kind : FcKind} {a a' : FcArgs K} (hu : Usable kind a) (hn : a.n.truthy = true → a'.n = a.n)
    (h1 : a'.inFeatures = a.inFeatures) (h2 : a'.outFeatures = a.outFeatures) (h3 : a'.segments = a.segments)
    (h4 : a'.numInputLayers = a.numInputLayers) : Usable kind a' := by
  have hn' : ∀ n, a.n = .int n → 0 < n → a'.n = .int n := by
    intro n e hpos
    rw [hn (by rw [e]; simp [IntOrList.truthy]; omega), e]
  match kind, hu with
  | .leaf .linear, _ => exact trivial
  | .leaf .product, _ => exact trivial
  | .leaf .linearRelu, _ => exact trivial
  | .leaf (.pw cls), ⟨n, s, q1, q2, q3, q4, q5, q6⟩ => exact ⟨n, s, hn' n q1 q3, h3.trans q2, q3, q4, h1 ▸ q5, h2 ▸ q6⟩
  | .switch cls, ⟨⟨n, s, q1, q2, q3, q4, q5, q6⟩, hnum⟩ =>
    exact ⟨⟨n, s, hn' n q1 q3, h3.trans q2, q3, q4, h1 ▸ q5, h2 ▸ q6⟩, h4.trans hnum⟩
  | .leaf .polynomial, ⟨n, q1, q2⟩ => exact ⟨n, hn' n q1 q2, q2⟩
  | .leaf .fourier, ⟨n, q1, q2⟩ => exact ⟨n, hn' n q1 q2, q2⟩

/-- **C59 (no replicas).** With valid layers and no replicas the exception is `AttributeError`. -/
theorem C59_no_replicas (rng : Rng K) (depth : ℕ) (c : MLPArgs K) (h : Heap K) {kind kindIn : FcKind}
    (hk : fcTable.lookup c.layerType = some kind) (hki : fcTable.lookup (orStr c.layerTypeIn c.layerType) = some kindIn)
    (hI : Usable kindIn c.inputArgs) (hO : Usable kind c.outputArgs) :
    multiMlpInit rng (depth + 1) 0 c h = .error .attributeError := by
  obtain ⟨FI, bI⟩ := hI.builds rng
  obtain ⟨FO, bO⟩ := hO.builds rng
  simp only [multiMlpInit, bind, Except.bind]
  rw [fcLayer_eq hki (bI.ok _)]
  simp only [List.range_zero, List.foldlM_nil, pure, Except.pure]
  rw [fcLayer_eq hk (bO.ok _)]

/-- **C59 (replicas).** With valid layers and at least one replica the exception is `RecursionError`, however large the stack: each replica is
again a `HighOrderMultiMLP` with replicas. -/
theorem C59_recursion (rng : Rng K) (replicas : ℕ) (depth : ℕ) : ∀ (c : MLPArgs K) (h : Heap K) {kindIn : FcKind},
    fcTable.lookup (orStr c.layerTypeIn c.layerType) = some kindIn → Usable kindIn c.inputArgs → Usable kindIn c.hiddenArgs →
    multiMlpInit rng depth (replicas + 1) c h = .error .recursionError := by
  induction depth with
  | zero => intro c h kindIn _ _ _; rfl
  | succ depth ih =>
    intro c h kindIn hki hI hH
    obtain ⟨FI, bI⟩ := hI.builds rng
    simp only [multiMlpInit, bind, Except.bind]
    rw [fcLayer_eq hki (bI.ok _)]
    dsimp only
    rw [List.range_succ_eq_map, List.foldlM_cons]
    simp only [bind, Except.bind]
    have horE : (orElse c.nHidden c.n).truthy = true → orElse (some (orElse c.nHidden c.n)) c.n = orElse c.nHidden c.n := by
      intro ht
      rw [orElse, if_pos ht]
    set hid := some (orElse c.nHidden c.n) with hhid
    set c' : MLPArgs K :=
      { c with inWidth := c.hiddenWidth, outWidth := c.hiddenWidth, nIn := hid, nOut := hid, nHidden := hid
               inSegments := c.hiddenSegments, outSegments := c.hiddenSegments } with hc'
    have key : ∀ h, multiMlpInit rng depth (replicas + 1) c' h = .error .recursionError := by
      intro h
      exact ih c' h (kindIn := kindIn) hki (hH.of_eq horE rfl rfl rfl rfl) (hH.of_eq horE rfl rfl rfl rfl)
    rw [key]

/-- One replica and no replicas of a network of linear layers. -/
example : multiMlpInit (exRng fun _ => 3) 1000 1 (exArgs false) [] = .error .recursionError ∧
    multiMlpInit (exRng fun _ => 3) 1000 0 (exArgs false) [] = .error .attributeError := by
  have hk : fcTable.lookup (exArgs false).layerType = some (.leaf .linear) := by show List.lookup "baseline" _ = _; decide
  exact ⟨C59_recursion _ 0 1000 _ _ hk trivial trivial, C59_no_replicas _ 999 _ _ hk hk trivial trivial⟩

/-! ## C61 -/

/-- Two sets of arguments that differ only in the ignored ones. -/
theorem fcMods_ignores (rng : Rng K) (kind : FcKind) (a : FcArgs K) (s : K) (r : Bool) (i : String) (base : ℕ) :
    fcMods rng kind { a with scale := s, rescaleOutput := r, initialization := i } base = fcMods rng kind a base := by
  have leaf : ∀ (k : LeafKind) (a a' : FcArgs K) (base : ℕ), a.n = a'.n → a.inFeatures = a'.inFeatures → a.outFeatures = a'.outFeatures →
      a.segments = a'.segments → a.periodicity = a'.periodicity → leafMods rng k a base = leafMods rng k a' base := by
    intro k a a' base h1 h2 h3 h4 h5
    cases k <;> simp only [leafMods, h1, h2, h3, h4, h5]
  cases kind with
  | leaf k => exact leaf k _ _ base rfl rfl rfl rfl rfl
  | switch cls => rfl

/-- **C61.** The options `scale`, `rescale_output` and `initialization` of `HighOrderMLP` have no effect: with the same random draws the network is the same. -/
theorem C61_options_ignored (rng : Rng K) (c : MLPArgs K) (s : K) (r : Bool) (i : String) (h : Heap K) :
    mlpInit rng { c with scale := s, rescaleOutput := r, initialization := i } h = mlpInit rng c h := by
  set c' : MLPArgs K := { c with scale := s, rescaleOutput := r, initialization := i } with hc'
  have fc : ∀ (t : String) (a : FcArgs K) (s : K) (r : Bool) (i : String) (h : Heap K),
      fcLayer rng t { a with scale := s, rescaleOutput := r, initialization := i } h = fcLayer rng t a h := by
    intro t a s r i h
    unfold fcLayer
    simp only [fcMods_ignores]
  have e1 : ∀ t h, fcLayer rng t c'.inputArgs h = fcLayer rng t c.inputArgs h := fun t h => fc t c.inputArgs s r _ h
  have e2 : ∀ t h, fcLayer rng t c'.hiddenArgs h = fcLayer rng t c.hiddenArgs h := fun t h => fc t c.hiddenArgs s r i h
  have e3 : ∀ t h, fcLayer rng t c'.outputArgs h = fcLayer rng t c.outputArgs h := fun t h => fc t c.outputArgs s r i h
  have hpre : ∀ d b, appendPre c' d b = appendPre c d b := fun d b => rfl
  have hstep : ∀ d k b, hiddenStep rng c' d k b = hiddenStep rng c d k b := by
    intro d k b
    unfold hiddenStep
    simp only [hpre, e2]
    rfl
  have hloop : ∀ d k b, hiddenLoop rng c' d k b = hiddenLoop rng c d k b := by
    intro d k
    induction k with
    | zero => intro b; rfl
    | succ k ih => intro b; simp only [hiddenLoop, ih, hstep]
  unfold mlpInit
  simp only [e1, e3, hloop, hpre]
  rfl

/-- **C61 (switch layers).** Switch layers ignore `periodicity`: with switch layers throughout, the network is the same for every value. -/
theorem C61_switch_periodicity (rng : Rng K) (c : MLPArgs K) (p : Option K) {cls clsIn : PwClass}
    (hk : fcTable.lookup c.layerType = some (.switch cls)) (hki : fcTable.lookup (orStr c.layerTypeIn c.layerType) = some (.switch clsIn))
    (h : Heap K) : mlpInit rng { c with periodicity := p } h = mlpInit rng c h := by
  set c' : MLPArgs K := { c with periodicity := p } with hc'
  have fc : ∀ (t : String) (cls : PwClass) (a : FcArgs K) (h : Heap K), fcTable.lookup t = some (.switch cls) →
      fcLayer rng t { a with periodicity := p } h = fcLayer rng t a h := by
    intro t cls a h ht
    unfold fcLayer
    simp only [ht]
    rfl
  have e1 : ∀ h, fcLayer rng (orStr c.layerTypeIn c.layerType) c'.inputArgs h = fcLayer rng (orStr c.layerTypeIn c.layerType) c.inputArgs h :=
    fun h => fc _ _ c.inputArgs h hki
  have e2 : ∀ h, fcLayer rng c.layerType c'.hiddenArgs h = fcLayer rng c.layerType c.hiddenArgs h := fun h => fc _ _ c.hiddenArgs h hk
  have e3 : ∀ h, fcLayer rng c.layerType c'.outputArgs h = fcLayer rng c.layerType c.outputArgs h := fun h => fc _ _ c.outputArgs h hk
  have hpre : ∀ d b, appendPre c' d b = appendPre c d b := fun d b => rfl
  have t1 : c'.layerType = c.layerType := rfl
  have t2 : c'.layerTypeIn = c.layerTypeIn := rfl
  have hstep : ∀ d k b, hiddenStep rng c' d k b = hiddenStep rng c d k b := by
    intro d k b
    unfold hiddenStep
    simp only [hpre, t1, e2]
    rfl
  have hloop : ∀ d k b, hiddenLoop rng c' d k b = hiddenLoop rng c d k b := by
    intro d k
    induction k with
    | zero => intro b; rfl
    | succ k ih => intro b; simp only [hiddenLoop, ih, hstep]
  unfold mlpInit
  simp only [t1, t2, e1, e3, hloop, hpre]
  rfl

end

example : mlpInit (exRng fun _ => 3) { exArgs false with scale := 7, rescaleOutput := true, initialization := "uniform" } []
    = mlpInit (exRng fun _ => 3) (exArgs false) [] := C61_options_ignored _ _ _ _ _ _

end HOL
