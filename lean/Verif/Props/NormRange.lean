import Verif.Lemmas.NormRange
import Verif.Props.LayerNorm
import Verif.Props.NetworkExamples

/-! # C103: normalization keeps every layer after the first in the interval its segments divide -/

namespace HOL
open TorchScalar Polynomial Spec

/-- **C103 (the normalizations).** The functions behind the keys `max_abs`, `max_center` and `l2` take every `[batch, width]` tensor strictly between -1 and 1. -/
theorem C103_normalizations {w : ℕ} (hw : 0 < w) {key : String} (hkey : key = "max_abs" ∨ key = "max_center" ∨ key = "l2") :
    ∃ N : NormModule ℝ, normalizationLayer key = .ok N ∧ IntoUnit (fun x => (N.forward x).map Prod.fst) w := by
  have heps : (0 : ℝ) < moduleEps := by unfold moduleEps; positivity
  rcases hkey with rfl | rfl | rfl
  · refine ⟨_, rfl, fun B x hx hwf => ?_⟩
    obtain ⟨out, e1, e2, e3⟩ := C36_max_abs x moduleEps heps 1 hwf (by rw [hx]; simp) (by rw [hx]; simpa using hw)
    have e4 := maxAbsNormalization_eq x moduleEps (dim := 1) hwf (by rw [hx]; simp) (by rw [hx]; simpa using hw)
    rw [e1] at e4
    refine ⟨out, by simp only [NormModule.forward, e1, bind, Except.bind]; rfl, e2.trans hx, ?_, fun b hb i hi => (e3 [b, i] (by rw [hx]; exact inShape2.2 ⟨hb, hi⟩)).1⟩
    cases e4
    exact Tensor.wf_tabulate _ _
  · refine ⟨_, rfl, fun B x hx hwf => ?_⟩
    obtain ⟨out, e1, e2, e3⟩ := C37_max_center x moduleEps heps 1 (by rw [hx]; simp) (by rw [hx]; simpa using hw)
    have e4 := maxCenterNormalization_eq x moduleEps (dim := 1) (by rw [hx]; simp) (by rw [hx]; simpa using hw)
    rw [e1] at e4
    refine ⟨out, by simp only [NormModule.forward, e1, bind, Except.bind]; rfl, e2.trans hx, ?_, fun b hb i hi => (e3 [b, i] (by rw [hx]; exact inShape2.2 ⟨hb, hi⟩)).1⟩
    cases e4
    exact Tensor.wf_tabulate _ _
  · refine ⟨_, rfl, fun B x hx hwf => ?_⟩
    obtain ⟨out, e1, e2, e3⟩ := C38_l2 x moduleEps heps (by rw [hx]; simp) (by rw [hx]; simpa using hw)
    have e4 := l2Normalization_eq x moduleEps (by rw [hx]; simp) (by rw [hx]; simpa using hw)
    rw [e1] at e4
    refine ⟨out, by simp only [NormModule.forward, e1, bind, Except.bind]; rfl, e2.trans hx, ?_, fun b hb i hi => ?_⟩
    · cases e4
      exact Tensor.wf_tabulate _ _
    · have h := (e3 [b, i] (by rw [hx]; exact inShape2.2 ⟨hb, hi⟩)).2.2
      rw [hx] at h
      refine lt_of_le_of_lt (Real.abs_le_sqrt ?_) h
      exact Finset.single_le_sum (f := fun q => out.get (List.set [b, i] 1 q) ^ 2) (fun q _ => sq_nonneg _) (Finset.mem_range.2 (by simpa using hi))

/-- **C103 (layers).** In a network with such a normalization (a nonlinearity that keeps the interval, no dropout) every layer after the first receives values strictly between -1 and 1 only: `z l` is what enters
layer `l`, for every input, and all weights. -/
theorem C103_layers_stay_inside (rng : Rng ℝ) {c : MLPArgs ℝ} {kind kindIn : FcKind} (hk : fcTable.lookup c.layerType = some kind)
    (hki : fcTable.lookup (orStr c.layerTypeIn c.layerType) = some kindIn) (hI : Usable kindIn c.inputArgs)
    (hH : Usable kind c.hiddenArgs) (hO : Usable kind c.outputArgs) {h0 : Heap ℝ} (hord : h0.Ordered) {nl norm : Fwd ℝ}
    (hnl : ∀ j ∈ c.nonLinearity, h0[j]? = some (.other nl)) (hkeep : c.nonLinearity.isSome → KeepsUnit nl c.hiddenWidth)
    (hnorm : c.normalization = some norm) (hunit : IntoUnit norm c.hiddenWidth) (hdrop : c.dropout ≤ 0) (hres : c.resnet = false) :
    ∃ (net : ℕ) (h1 : Heap ℝ) (inp : ℕ) (layer : ℕ → ℕ), mlpInit rng c h0 = .ok (net, h1) ∧ IsLayer kindIn c.inputArgs h1 inp ∧
      (∀ l < c.hiddenLayers, IsLayer kind c.hiddenArgs h1 (layer l)) ∧ IsLayer kind c.outputArgs h1 (layer c.hiddenLayers) ∧
      ∀ h : Heap ℝ, h1.Later h → h.Ordered → ∀ (B : ℕ) (x : Tensor ℝ), x.shape = [B, c.inWidth] → x.WF →
        ∃ z : ℕ → Tensor ℝ, (∀ l ≤ c.hiddenLayers, InsideUnit (z l) B c.hiddenWidth) ∧
          (h.forward inp x >>= seqForward (preFns c nl)) = .ok (z 0) ∧
          (∀ l < c.hiddenLayers, (h.forward (layer l) (z l) >>= seqForward (preFns c nl)) = .ok (z (l + 1))) ∧
          h.forward net x = h.forward (layer c.hiddenLayers) (z c.hiddenLayers) := by
  obtain ⟨g, D, -, -, -, -, e1, -, -, hn⟩ := mlpInit_net rng hk hki hI hH hO hord hnl
  have hid : ∀ i, c.layId g i = c.coreId g i := fun i => MLPArgs.layId_eq g (Or.inl hres)
  refine ⟨c.netId g, h0 ++ D, c.slotId g .inp, c.layId g, e1, hn.inp, fun l hl => by rw [hid]; exact hn.hid l hl, hn.out, fun h hl ho B x hx hwf => ?_⟩
  have hpre : IntoUnit (seqForward (preFns c nl)) c.hiddenWidth := by
    unfold preFns
    have hd : ltB 0 c.dropout = false := by
      have : ¬ (0 < c.dropout) := not_lt.2 hdrop
      simpa [TorchScalar.ltB] using this
    rw [hnorm, hd]
    refine IntoUnit.cons hunit fun f hf => ?_
    have : f ∈ (if c.nonLinearity.isSome = true then [nl] else []) := by simpa using hf
    split at this
    · rename_i hs
      rw [List.mem_singleton] at this
      subst this
      exact hkeep hs
    · cases this
  have hn' := hn.later hl
  rw [hn'.forward_compose ho]
  exact compose_trace hpre (hn'.inp.mapsTo hI ho) (fun i hi => by rw [hid]; exact (hn'.hid i hi).mapsTo hH ho) hx hwf

/-- **C103 (outputs).** So the outputs of such networks of piecewise polynomial layers are bounded for all inputs, by the weights of the output layer alone: with `Λ` depending only on the number of nodes (1 for `n ≤ 2`, at most `√(2 n)`) and
weights at most `W`, by `hidden_width * Λ * W` for sum layers and by `(1 + Λ W)^hidden_width - 1` for product layers. -/
theorem C103_outputs_bounded (n : ℕ) (hn : 0 < n) : ∃ Λ : ℝ, 0 < Λ ∧ (n ≤ 2 → Λ = 1) ∧ Λ ≤ √(2 * n) ∧
    ∀ (rng : Rng ℝ) {c : MLPArgs ℝ} {cls : PwClass} {kindIn : FcKind}, fcTable.lookup c.layerType = some (.leaf (.pw cls)) →
      fcTable.lookup (orStr c.layerTypeIn c.layerType) = some kindIn → Usable kindIn c.inputArgs → Usable (.leaf (.pw cls)) c.hiddenArgs →
      Usable (.leaf (.pw cls)) c.outputArgs → c.outputArgs.n = .int n → (∀ p ∈ c.periodicity, 0 < p) → ∀ {h0 : Heap ℝ}, h0.Ordered → ∀ {nl norm : Fwd ℝ},
      (∀ j ∈ c.nonLinearity, h0[j]? = some (.other nl)) → (c.nonLinearity.isSome → KeepsUnit nl c.hiddenWidth) →
      c.normalization = some norm → IntoUnit norm c.hiddenWidth → c.dropout ≤ 0 → c.resnet = false →
      ∃ (net out : ℕ) (h1 : Heap ℝ), mlpInit rng c h0 = .ok (net, h1) ∧ ∀ h : Heap ℝ, h1.Later h → h.Ordered →
        ∃ L : PwLayer ℝ, h[out]? = some (.pw L) ∧ L.cls = cls ∧ L.inFeatures = c.hiddenWidth ∧ L.outFeatures = c.outWidth ∧
          ∀ W : ℝ, (∀ o < c.outWidth, ∀ i < c.hiddenWidth, ∀ r < PwLayer.wSize L.cls L.n L.segments, |L.w.get [o, i, r]| ≤ W) →
            ∀ (B : ℕ) (x : Tensor ℝ), x.shape = [B, c.inWidth] → x.WF → ∃ y, h.forward net x = .ok y ∧ y.shape = [B, c.outWidth] ∧
              ∀ b < B, ∀ o < c.outWidth,
                (cls = .continuous ∨ cls = .discontinuous → |y.get [b, o]| ≤ c.hiddenWidth * (Λ * W)) ∧
                (cls = .continuousProd ∨ cls = .discontinuousProd → |y.get [b, o]| ≤ (1 + Λ * W) ^ c.hiddenWidth - 1) := by
  obtain ⟨Λ, hΛ0, hΛ1, hΛ2, hΛ⟩ := link_stable n hn
  refine ⟨Λ, hΛ0, hΛ1, hΛ2, ?_⟩
  intro rng c cls kindIn hk hki hI hH hO hno hper h0 hord nl norm hnl hkeep hnorm hunit hdrop hres
  obtain ⟨net, h1, inp, layer, e1, -, -, e4, e5⟩ := C103_layers_stay_inside rng hk hki hI hH hO hord hnl hkeep hnorm hunit hdrop hres
  refine ⟨net, layer c.hiddenLayers, h1, e1, fun h hl ho => ?_⟩
  obtain ⟨L, l1, l2, l3, l4, l5, l6, l7, l8, l9⟩ := IsLayer.pwLayer' hO (e4.later hl)
  refine ⟨L, l1, l3, l7, l8, fun W hW B x hx hwf => ?_⟩
  obtain ⟨z, z1, -, -, z4⟩ := e5 h hl ho B x hx hwf
  obtain ⟨y1, y2, y3⟩ := z1 c.hiddenLayers le_rfl
  have hin : L.inFeatures = c.hiddenWidth := l7
  have hout : L.outFeatures = c.outWidth := l8
  have hf := L.forward_combine l2 (x := z c.hiddenLayers) (B := B) (by rw [hin]; exact y1) y2
  rw [Heap.forward_eq ho l1] at z4
  refine ⟨_, z4.trans hf, by rw [hout]; rfl, fun b hb o ho' => ?_⟩
  rw [Tensor.get_tab2 hb (by rw [hout]; exact ho'), hin, l3]
  have hLn : L.n = n := by
    rw [hno] at l5
    injection l5 with h
    exact h.symm
  have hlink : ∀ i < c.hiddenWidth, |L.linkFn o i ((z c.hiddenLayers).get [b, i])| ≤ Λ * W := fun i hi =>
    linkFn_bound hΛ l2 (by rw [l4]; norm_num) (by rw [l9]; exact hper) hLn (hW o ho' i hi) (y3 b hb i hi).le
  constructor
  · rintro (rfl | rfl) <;>
    · refine (Finset.abs_sum_le_sum_abs _ _).trans ((Finset.sum_le_sum fun i hi => hlink i (Finset.mem_range.1 hi)).trans ?_)
      rw [Finset.sum_const, Finset.card_range, nsmul_eq_mul]
  · rintro (rfl | rfl) <;> exact prod_one_add_bound _ hlink

/-- ReLU and tanh keep the interval, so they may follow the normalization. -/
theorem C103_nonlinearities (w : ℕ) : KeepsUnit (fun x => .ok (reluT x)) w ∧ KeepsUnit (fun x => .ok (x.map Real.tanh)) w := by
  constructor
  · rintro B x ⟨h1, h2, h3⟩
    refine ⟨_, rfl, h1, Tensor.wf_map h2 _, fun b hb i hi => ?_⟩
    unfold reluT
    rw [Tensor.get_map h2 (by rw [h1]; exact inShape2.2 ⟨hb, hi⟩)]
    split
    · simp
    · exact h3 b hb i hi
  · rintro B x ⟨h1, h2, h3⟩
    refine ⟨_, rfl, h1, Tensor.wf_map h2 _, fun b hb i hi => ?_⟩
    rw [Tensor.get_map h2 (by rw [h1]; exact inShape2.2 ⟨hb, hi⟩)]
    exact Real.abs_tanh_lt_one _

/-! ## without normalization -/

/-- A network of two `continuous` layers with one input, one hidden unit and one output, without normalization. -/
noncomputable def plainNet : MLPArgs ℝ := { exNet "continuous" 2 1 with inWidth := 1, hiddenWidth := 1, hiddenLayers := 0 }

/-- The layer with the weights -1 and 1 passes every number on. -/
theorem passLayer (t : ℝ) : (lineLayer 1 fun r => 2 * (r : ℝ) - 1).forward (one t) = .ok (one t) := by
  rw [(lineLayer 1 fun r => 2 * (r : ℝ) - 1).forward_sum (lineLayer_wf (by norm_num) _) (Or.inl rfl) (x := one t) (B := 1) rfl (Tensor.wf_tabulate _ _)]
  refine congrArg Except.ok (tab2_congr fun b hb o ho => ?_)
  have hb0 : b = 0 := by omega
  have ho0 : o = 0 := by have : o < 1 := ho; omega
  subst hb0 ho0
  show ∑ i ∈ Finset.range 1, _ = _
  rw [Finset.sum_range_one]
  have hact : IsActive 1 0 t := ⟨by norm_num, Or.inl rfl, Or.inl rfl⟩
  have := (lineLayer 1 fun r => 2 * (r : ℝ) - 1).linkFn_isPiecewise (by norm_num [lineLayer]) rfl rfl 0 0 0 t hact
  have e : (one t).get [0, 0] = t := Tensor.get_tab2 (by norm_num) (by norm_num)
  rw [e, this]
  show (linkPoly 2 _).eval _ = _
  rw [linkPoly_two_eval]
  have w0 : (lineLayer 1 fun r => 2 * (r : ℝ) - 1).w.get [0, 0, 0 * (lineLayer 1 fun r => 2 * (r : ℝ) - 1).stride + 0] = -1 := by
    show (Tensor.tab3 1 1 2 _).get [0, 0, 0] = _
    rw [Tensor.get_tab3 (by norm_num) (by norm_num) (by norm_num)]
    norm_num
  have w1 : (lineLayer 1 fun r => 2 * (r : ℝ) - 1).w.get [0, 0, 0 * (lineLayer 1 fun r => 2 * (r : ℝ) - 1).stride + 1] = 1 := by
    show (Tensor.tab3 1 1 2 _).get [0, 0, 0 * _ + 1] = _
    rw [Nat.zero_mul, Nat.zero_add, Tensor.get_tab3 (by norm_num) (by norm_num) (by norm_num)]
    norm_num
  simp only [w0, w1]
  have hs : (lineLayer 1 fun r => 2 * (r : ℝ) - 1).segments = 1 := rfl
  unfold localCoord
  rw [hs]
  push_cast
  ring

/-- **C103 (without normalization).** Without a normalization there is no such bound: with the weights -1 and 1 in both layers this network returns its input, however large. -/
theorem C103_unbounded_without (rng : Rng ℝ) : ∃ (net inp out : ℕ) (h1 h : Heap ℝ), mlpInit rng plainNet [] = .ok (net, h1) ∧ h1.Later h ∧ h.Ordered ∧
    IsLayer (.leaf (.pw .continuous)) plainNet.inputArgs h1 inp ∧ IsLayer (.leaf (.pw .continuous)) plainNet.outputArgs h1 out ∧
    h[inp]? = some (.pw (lineLayer 1 fun r => 2 * (r : ℝ) - 1)) ∧ h[out]? = some (.pw (lineLayer 1 fun r => 2 * (r : ℝ) - 1)) ∧
    ∀ t : ℝ, h.forward net (one t) = .ok (one t) := by
  have hu : ∀ i o : ℕ, 0 < i → 0 < o → ∀ a : FcArgs ℝ, a.n = .int 2 → a.segments = some (.int 1) → a.inFeatures = i → a.outFeatures = o → Usable (.leaf (.pw .continuous)) a := by
    intro i o hi ho a h1 h2 h3 h4
    exact ⟨2, 1, h1, h2, by norm_num, by norm_num, h3 ▸ hi, h4 ▸ ho⟩
  have hI := hu 1 1 one_pos one_pos plainNet.inputArgs rfl rfl rfl rfl
  have hH := hu 1 1 one_pos one_pos plainNet.hiddenArgs rfl rfl rfl rfl
  have hO := hu 1 1 one_pos one_pos plainNet.outputArgs rfl rfl rfl rfl
  obtain ⟨g, D, -, -, -, -, e1, -, hord1, hn⟩ := mlpInit_net rng (c := plainNet) (nlF := fun x => .ok x) (by decide) (by decide) hI hH hO (h := []) ordered_nil
    (by intro j hj; cases hj)
  set h1 : Heap ℝ := [] ++ D with hh1
  let w : Tensor ℝ := Tensor.tab3 1 1 2 fun _ _ r => 2 * (r : ℝ) - 1
  let P : ℕ → Prop := fun j => j = plainNet.slotId g .inp ∨ j = plainNet.layId g plainNet.hiddenLayers
  classical
  let W : ℕ → Option (Tensor ℝ) := fun j => if P j then some w else none
  have hlay : ∀ j, P j → ∃ L : PwLayer ℝ, h1[j]? = some (.pw L) ∧ L.w.shape = [1, 1, 2] ∧ { L with w := w } = lineLayer 1 fun r => 2 * (r : ℝ) - 1 := by
    have key : ∀ (a : FcArgs ℝ) (j : ℕ), Usable (.leaf (.pw .continuous)) a → a.n = .int 2 → a.segments = some (.int 1) → a.inFeatures = 1 → a.outFeatures = 1 → a.periodicity = none →
        IsLayer (.leaf (.pw .continuous)) a h1 j → ∃ L : PwLayer ℝ, h1[j]? = some (.pw L) ∧ L.w.shape = [1, 1, 2] ∧ { L with w := w } = lineLayer 1 fun r => 2 * (r : ℝ) - 1 := by
      intro a j ha a1 a2 a3 a4 a5 hl
      obtain ⟨L, l1, l2, l3, l4, l5, l6, l7, l8, l9⟩ := IsLayer.pwLayer' ha hl
      have n1 : L.n = 2 := by rw [a1] at l5; injection l5 with h; exact h.symm
      have n2 : L.segments = 1 := by rw [a2] at l6; injection l6 with h; injection h with h; exact h.symm
      have n3 := l7.trans a3
      have n4 := l8.trans a4
      have n5 := l9.trans a5
      have hsh := l2.w_shape
      rw [n1, n2, n3, n4, l3] at hsh
      refine ⟨L, l1, hsh, ?_⟩
      rw [l3, n1, n2, n3, n4, n5, l4]
      unfold lineLayer
      norm_num
      rfl
    rintro j (rfl | rfl)
    · exact key _ _ hI rfl rfl rfl rfl rfl hn.inp
    · exact key _ _ hO rfl rfl rfl rfl rfl hn.out
  have hlat : h1.Later (h1.retune W) := Heap.retune_later fun j L w' hj hW => by
    by_cases hP : P j
    · simp only [W, if_pos hP] at hW
      cases hW
      obtain ⟨L', l1, l2, -⟩ := hlay j hP
      rw [hj] at l1
      cases l1
      exact ⟨l2.symm, Tensor.wf_tabulate _ _⟩
    · simp only [W, if_neg hP] at hW
      cases hW
  have ho : (h1.retune W).Ordered := Heap.retune_ordered hord1
  have hget : ∀ j, P j → (h1.retune W)[j]? = some (.pw (lineLayer 1 fun r => 2 * (r : ℝ) - 1)) := by
    intro j hP
    obtain ⟨L', l1, -, l3⟩ := hlay j hP
    rw [h1.retune_pw W l1 (if_pos hP), l3]
  refine ⟨plainNet.netId g, plainNet.slotId g .inp, plainNet.layId g plainNet.hiddenLayers, h1, h1.retune W, e1, hlat, ho, hn.inp, hn.out, hget _ (Or.inl rfl), hget _ (Or.inr rfl), fun t => ?_⟩
  rw [(hn.later hlat).forward_compose ho]
  have hpre : preFns plainNet (fun x : Tensor ℝ => .ok x) = [] := by
    unfold preFns
    have : ltB (0 : ℝ) (0 : ℝ) = false := by simp [TorchScalar.ltB]
    simp [plainNet, exNet, this]
  rw [hpre]
  show seqForward [(h1.retune W).forward (plainNet.slotId g .inp), (h1.retune W).forward (plainNet.layId g plainNet.hiddenLayers)] (one t) = _
  rw [Heap.forward_eq ho (hget _ (Or.inl rfl)), Heap.forward_eq ho (hget _ (Or.inr rfl))]
  simp only [seqForward, Mod.forward, passLayer, bind, Except.bind]

/-- The three layer `continuous` network with `max_abs`: for all inputs and all weights at most 2 in the output layer, outputs are at most `3 * 2`. -/
noncomputable def normNet : MLPArgs ℝ := { exNet "continuous" 2 3 with normalization := some fun x => maxAbsNormalization x moduleEps 1 }

example (rng : Rng ℝ) : ∃ (net out : ℕ) (h1 : Heap ℝ), mlpInit rng normNet [] = .ok (net, h1) ∧ ∀ h : Heap ℝ, h1.Later h → h.Ordered →
    ∃ L : PwLayer ℝ, h[out]? = some (.pw L) ∧ ((∀ o < 1, ∀ i < 3, ∀ r < PwLayer.wSize L.cls L.n L.segments, |L.w.get [o, i, r]| ≤ 2) →
      ∃ y, h.forward net (Tensor.tab2 1 2 fun _ _ => 1000) = .ok y ∧ |y.get [0, 0]| ≤ 6) := by
  obtain ⟨Λ, -, hΛ, -, H⟩ := C103_outputs_bounded 2 (by norm_num)
  obtain ⟨u1, u2, u3⟩ := exNet_usable "continuous" (n := 2) (s := 3) (by norm_num) (by norm_num) .continuous
  obtain ⟨N, n1, n2⟩ := C103_normalizations (w := 3) (by norm_num) (Or.inl rfl)
  have hunit : IntoUnit (fun x => maxAbsNormalization x moduleEps 1) 3 := by
    cases n1
    intro B x hx hwf
    obtain ⟨y, y1, y2⟩ := n2 B x hx hwf
    refine ⟨y, ?_, y2⟩
    simp only [NormModule.forward, bind, Except.bind] at y1
    cases hm : maxAbsNormalization x (moduleEps : ℝ) 1 with
    | error e => rw [hm] at y1; cases y1
    | ok v => rw [hm] at y1; cases y1; exact hm
  obtain ⟨net, out, h1, e1, e2⟩ := H rng (c := normNet) (cls := .continuous) (nl := fun x => .ok x) (by decide) (by decide) u1 u2 u3 rfl (by intro p hp; cases hp) ordered_nil
    (by intro j hj; cases hj) (by intro h; cases h) rfl hunit le_rfl rfl
  refine ⟨net, out, h1, e1, fun h hl ho => ?_⟩
  obtain ⟨L, l1, -, -, -, l5⟩ := e2 h hl ho
  refine ⟨L, l1, fun hw => ?_⟩
  obtain ⟨y, y1, -, y3⟩ := l5 2 hw 1 (Tensor.tab2 1 2 fun _ _ => 1000) rfl (Tensor.wf_tabulate _ _)
  refine ⟨y, y1, ((y3 0 (by norm_num) 0 Nat.one_pos).1 (Or.inl rfl)).trans ?_⟩
  rw [hΛ le_rfl]
  show ((3 : ℕ) : ℝ) * (1 * 2) ≤ 6
  norm_num

end HOL
