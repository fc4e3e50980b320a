import Verif.Props.Backward
import Verif.Props.Network
import Verif.Props.NetworkExamples
import Verif.Lemmas.Shapes

/-! # C93: backpropagation through `HighOrderMLP` -/

namespace HOL
open TorchScalar Spec

/-- The layers of a fully connected module, in the order in which they are applied. -/
def Heap.glayers {K : Type} (h : Heap K) (j : ℕ) : List (GLayer K) :=
  match h[j]? with
  | some (.pw L) => [.pw L]
  | some (.fn L) => [.fn L]
  | some (.product L) => [.product L]
  | some (.linear w b) => [.linear w b]
  | some (.linearRelu f) => match h[f]? with
    | some (.linear w b) => [.linear w b, .relu]
    | _ => []
  | _ => []

/-- Parameters hold as many entries as their shapes say. -/
def Heap.ParamsWF {K : Type} (h : Heap K) : Prop :=
  (∀ (j : ℕ) (w b : Tensor K), h[j]? = some (.linear w b) → w.WF ∧ b.WF) ∧
  ∀ (j : ℕ) (L : ProductLayer K), h[j]? = some (.product L) → L.weight.WF ∧ ∀ b ∈ L.bias, b.WF

theorem netForward_single {K : Type} [TorchScalar K] (l : GLayer K) : netForward [l] = l.forward := by
  funext x
  show (l.forward x >>= fun y => Except.ok y) = l.forward x
  cases l.forward x <;> rfl

/-- A fully connected layer other than a switch layer computes its list of layers, whose parameters fit. -/
theorem IsLayer.glayers {k : LeafKind} {a : FcArgs ℝ} (hu : Usable (.leaf k) a) (hp : ∀ p, a.periodicity = some p → 0 < p) {h : Heap ℝ} (ho : h.Ordered) (hw : h.ParamsWF)
    {j : ℕ} (hl : IsLayer (.leaf k) a h j) : NetFits (h.glayers j) a.inFeatures a.outFeatures ∧ h.forward j = netForward (h.glayers j) := by
  obtain ⟨rng, base, ms, e1, e2, e3⟩ := hl
  match k, hu with
  | .linear, _ =>
    cases e1
    have hj : j = base + 0 := by simpa using e2
    obtain ⟨m', f1, f2⟩ := e3 0 _ rfl
    rw [hj, Heap.forward_eq ho f1]
    unfold Heap.glayers
    rw [f1]
    generalize hm : Mod.linear (Tensor.tab2 a.outFeatures a.inFeatures (rng base)) (Tensor.tab1 a.outFeatures fun o => rng base o a.inFeatures) = m0 at f2
    cases f2 with
    | refl =>
      subst hm
      exact ⟨⟨_, ⟨rfl, Tensor.wf_tabulate _ _, rfl, Tensor.wf_tabulate _ _⟩, rfl⟩, by dsimp only; rw [netForward_single]; rfl⟩
    | linear w b w' b' hs hb =>
      injection hm with hm1 hm2
      subst hm1 hm2
      obtain ⟨q1, q2⟩ := hw.1 _ _ _ f1
      exact ⟨⟨_, ⟨hs, q1, hb, q2⟩, rfl⟩, by dsimp only; rw [netForward_single]; rfl⟩
    | _ => cases hm
  | .linearRelu, _ =>
    cases e1
    have hj : j = base + 1 := by simp at e2; omega
    obtain ⟨m', f1, f2⟩ := e3 0 _ rfl
    obtain ⟨m'', g1, g2⟩ := e3 1 _ rfl
    cases g2
    subst hj
    have f1' : h[base]? = some m' := by simpa using f1
    obtain ⟨w, b, hm', hws, hww, hbs, hbw⟩ : ∃ w b, m' = .linear w b ∧ w.shape = [a.outFeatures, a.inFeatures] ∧ w.WF ∧ b.shape = [a.outFeatures] ∧ b.WF := by
      cases f2 with
      | refl => exact ⟨_, _, rfl, rfl, Tensor.wf_tabulate _ _, rfl, Tensor.wf_tabulate _ _⟩
      | linear w b w' b' hs hb =>
        obtain ⟨q1, q2⟩ := hw.1 _ _ _ f1
        exact ⟨_, _, rfl, hs, q1, hb, q2⟩
    subst hm'
    have hg : h.glayers (base + 1) = [.linear w b, .relu] := by
      unfold Heap.glayers
      rw [g1]
      dsimp only
      rw [f1']
    rw [hg, Heap.forward_eq ho g1]
    refine ⟨⟨a.outFeatures, ⟨hws, hww, hbs, hbw⟩, _, rfl, rfl⟩, ?_⟩
    funext x
    show (h.forward base x >>= fun y => Except.ok (reluT y)) = (linearForward w b x >>= seqForward [fun x => Except.ok (reluT x)])
    rw [Heap.forward_eq ho f1']
    rfl
  | .product, _ =>
    cases e1
    have hj : j = base + 0 := by simpa using e2
    obtain ⟨m', f1, f2⟩ := e3 0 _ rfl
    rw [hj, Heap.forward_eq ho f1]
    unfold Heap.glayers
    rw [f1]
    cases f2 with
    | refl =>
      exact ⟨⟨_, ⟨⟨rfl, Tensor.wf_tabulate _ _, ⟨_, rfl, rfl, Tensor.wf_tabulate _ _⟩, hp⟩, rfl, rfl⟩, rfl⟩, by dsimp only; rw [netForward_single]; rfl⟩
    | product L w b hs hb =>
      obtain ⟨q1, q2⟩ := hw.2 _ _ f1
      exact ⟨⟨_, ⟨⟨hs, q1, ⟨b, rfl, hb _ rfl, q2 _ rfl⟩, hp⟩, rfl, rfl⟩, rfl⟩, by dsimp only; rw [netForward_single]; rfl⟩
  | .pw cls, ⟨n, s, hn, hs, h1, h2, h3, h4⟩ =>
    simp only [fcMods, leafMods, hn, hs] at e1
    cases e1
    have hj : j = base + 0 := by simpa using e2
    obtain ⟨m', f1, f2⟩ := e3 0 _ rfl
    rw [hj, Heap.forward_eq ho f1]
    unfold Heap.glayers
    rw [f1]
    have hwf := PwLayer.init_wf cls h1 h3 h4 h2 ((2 : ℕ) : ℝ) (rng base) 1 a.periodicity
    have hlen : (0 : ℝ) < ((2 : ℕ) : ℝ) := by norm_num
    cases f2 with
    | refl => exact ⟨⟨_, ⟨hwf, hlen, hp, rfl, rfl⟩, rfl⟩, by dsimp only; rw [netForward_single]; rfl⟩
    | pw L w hs' hw' => exact ⟨⟨_, ⟨hwf.withW hs' hw', hlen, hp, rfl, rfl⟩, rfl⟩, by dsimp only; rw [netForward_single]; rfl⟩
  | .polynomial, ⟨n, hn, hpos⟩ =>
    simp only [fcMods, leafMods, hn, polynomialInit, FnLayer.init] at e1
    rw [lagrangePolyFlat_numBasis hpos] at e1
    cases e1
    have hj : j = base + 0 := by simpa using e2
    obtain ⟨m', f1, f2⟩ := e3 0 _ rfl
    rw [hj, Heap.forward_eq ho f1]
    unfold Heap.glayers
    rw [f1]
    cases f2 with
    | refl => exact ⟨⟨_, ⟨⟨rfl, hpos, rfl, Tensor.wf_tabulate _ _, hp⟩, rfl, rfl⟩, rfl⟩, by dsimp only; rw [netForward_single]; rfl⟩
    | fn L w hs hw' => exact ⟨⟨_, ⟨⟨rfl, hpos, hs, hw', hp⟩, rfl, rfl⟩, rfl⟩, by dsimp only; rw [netForward_single]; rfl⟩
  | .fourier, ⟨n, hn, hpos⟩ =>
    simp only [fcMods, leafMods, hn, fourierSeriesInit, FnLayer.init] at e1
    cases e1
    have hj : j = base + 0 := by simpa using e2
    obtain ⟨m', f1, f2⟩ := e3 0 _ rfl
    rw [hj, Heap.forward_eq ho f1]
    unfold Heap.glayers
    rw [f1]
    cases f2 with
    | refl => exact ⟨⟨_, ⟨⟨rfl, hpos, rfl, Tensor.wf_tabulate _ _, fun q hq => by cases hq⟩, rfl, rfl⟩, rfl⟩, by dsimp only; rw [netForward_single]; rfl⟩
    | fn L w hs hw' => exact ⟨⟨_, ⟨⟨rfl, hpos, hs, hw', fun q hq => by cases hq⟩, rfl, rfl⟩, rfl⟩, by dsimp only; rw [netForward_single]; rfl⟩


theorem netForward_append {K : Type} [TorchScalar K] (ls ls' : List (GLayer K)) (x : Tensor K) : netForward (ls ++ ls') x = netForward ls x >>= netForward ls' := by
  unfold netForward
  rw [List.map_append, seqForward_append]

theorem NetFits.append {ls ls' : List (GLayer ℝ)} {I M O : ℕ} (h : NetFits ls I M) (h' : NetFits ls' M O) : NetFits (ls ++ ls') I O := by
  induction ls generalizing I with
  | nil =>
    obtain rfl : I = M := h
    exact h'
  | cons l ls ih =>
    obtain ⟨N, h1, h2⟩ := h
    exact ⟨N, h1, ih h2⟩

/-- **C93 (`HighOrderMLP`).** Every `HighOrderMLP` of layers other than switch layers, without normalization, dropout and `resnet`, and with no nonlinearity or `relu`, is — when it is built and after any
training — a sequential network of fitting layers, those of the heap: `C93_backpropagation` applies to it. -/
theorem C93_mlp_is_sequential (rng : Rng ℝ) {c : MLPArgs ℝ} {k kIn : LeafKind} (hk : fcTable.lookup c.layerType = some (.leaf k))
    (hki : fcTable.lookup (orStr c.layerTypeIn c.layerType) = some (.leaf kIn)) (hI : Usable (.leaf kIn) c.inputArgs)
    (hH : Usable (.leaf k) c.hiddenArgs) (hO : Usable (.leaf k) c.outputArgs) (hper : ∀ p, c.periodicity = some p → 0 < p)
    (hnorm : c.normalization = none) (hdrop : c.dropout ≤ 0) (hres : c.resnet = false) {h0 : Heap ℝ} (hord : h0.Ordered)
    (hnl : ∀ j ∈ c.nonLinearity, h0[j]? = some (.other fun x => .ok (reluT x))) :
    ∃ net h1 inp out hid, mlpInit rng c h0 = .ok (net, h1) ∧ ∀ h : Heap ℝ, h1.Later h → h.Ordered → h.ParamsWF →
      let pre : List (GLayer ℝ) := if c.nonLinearity.isSome then [.relu] else []
      let ls := h.glayers inp ++ ((List.range c.hiddenLayers).map hid ++ [out]).flatMap fun j => pre ++ h.glayers j
      NetFits ls c.inWidth c.outWidth ∧ h.forward net = netForward ls := by
  obtain ⟨net, h1, e1, -, -, inp, out, hid, -, hall⟩ := C57_structure rng hk hki hI hH hO hord hnl
  refine ⟨net, h1, inp, out, hid, e1, fun h hl ho hw => ?_⟩
  obtain ⟨l1, l2, l3, l4, -⟩ := hall h hl ho
  intro pre ls
  obtain ⟨a1, a2⟩ := l1.glayers hI hper ho hw
  obtain ⟨c1, c2⟩ := l3.glayers hO hper ho hw
  have hpre : ∀ I, NetFits pre I I := by
    intro I
    by_cases hn : c.nonLinearity.isSome
    · simp only [pre, if_pos hn]
      exact ⟨I, rfl, rfl⟩
    · simp only [pre, if_neg hn]
      rfl
  have hpf : preFns c (fun x => .ok (reluT x)) = pre.map GLayer.forward := by
    have hd : ¬ (ltB 0 c.dropout = true) := by
      rw [ltB_real]
      simpa using hdrop
    unfold preFns
    rw [hnorm, if_neg hd]
    by_cases hn : c.nonLinearity.isSome
    · simp only [pre, if_pos hn]
      rfl
    · simp only [pre, if_neg hn]
      rfl
  have hseq : ∀ js : List ℕ, (∀ j ∈ js, h.forward j = netForward (h.glayers j)) →
      seqForward ((js.map h.forward).flatMap fun l => preFns c (fun x => .ok (reluT x)) ++ [l]) = netForward (js.flatMap fun j => pre ++ h.glayers j) := by
    intro js hjs
    induction js with
    | nil => rfl
    | cons j js ih =>
      have ih' := ih fun j' hj' => hjs j' (List.mem_cons_of_mem _ hj')
      funext x
      rw [List.map_cons, List.flatMap_cons, List.flatMap_cons, seqForward_append, netForward_append, ih', seqForward_append, netForward_append, hpf]
      congr 1
      have : seqForward [h.forward j] = netForward (h.glayers j) := by
        rw [← hjs j List.mem_cons_self]
        funext y
        show (h.forward j y >>= fun z => Except.ok z) = h.forward j y
        cases h.forward j y <;> rfl
      rw [this]
      rfl
  have hfits : ∀ n, (∀ i < n, NetFits (h.glayers (hid i)) c.hiddenWidth c.hiddenWidth) →
      NetFits (((List.range n).map hid ++ [out]).flatMap fun j => pre ++ h.glayers j) c.hiddenWidth c.outWidth := by
    intro n hn
    rw [List.flatMap_append]
    have hlast : NetFits ([out].flatMap fun j => pre ++ h.glayers j) c.hiddenWidth c.outWidth := by
      simp only [List.flatMap_cons, List.flatMap_nil, List.append_nil]
      exact (hpre _).append c1
    refine NetFits.append ?_ hlast
    induction n with
    | zero => rfl
    | succ n ih =>
      rw [List.range_succ, List.map_append, List.flatMap_append]
      refine (ih fun i hi => hn i (by omega)).append ?_
      simp only [List.map_cons, List.map_nil, List.flatMap_cons, List.flatMap_nil, List.append_nil]
      exact (hpre _).append (hn n (by omega))
  refine ⟨a1.append (hfits _ fun i hi => (IsLayer.glayers hH hper ho hw (l2 i hi)).1), ?_⟩
  rw [l4 hres]
  funext x
  unfold compose
  show (h.forward inp x >>= _) = _
  rw [netForward_append, a2, ← hseq _ fun j hj => ?_]
  · rw [List.map_append, List.map_map]
    rfl
  · rcases List.mem_append.1 hj with hj | hj
    · obtain ⟨i, hi, rfl⟩ := List.mem_map.1 hj
      exact (IsLayer.glayers hH hper ho hw (l2 i (List.mem_range.1 hi))).2
    · rw [List.mem_singleton.1 hj]
      exact c2

/-! ## examples -/

/-- `relu(2 x + 1)`. -/
noncomputable def exSeq : List (GLayer ℝ) := [.linear (Tensor.tab2 1 1 fun _ _ => 2) (Tensor.tab1 1 fun _ => 1), .relu]

theorem exSeq_fits : NetFits exSeq 1 1 := ⟨1, ⟨rfl, Tensor.wf_tabulate _ _, rfl, Tensor.wf_tabulate _ _⟩, 1, rfl, rfl⟩

theorem exSeq_forward (X : Fin 1 → Fin 1 → ℝ) : linearForward (Tensor.tab2 1 1 fun _ _ => 2) (Tensor.tab1 1 fun _ => (1 : ℝ)) (ofMat X)
    = .ok (ofMat fun (_ _ : Fin 1) => X 0 0 * 2 + 1) := by
  rw [linear_mat (O := 1) (I := 1) rfl]
  congr 2
  funext b r
  have hb : b = 0 := Subsingleton.elim b 0
  have hr : r = 0 := Subsingleton.elim r 0
  subst hb hr
  unfold linearFn
  rw [Fin.sum_univ_one]
  rfl

/-- All inputs but `-1/2` are smooth points of it. -/
theorem exSeq_smooth {X : Fin 1 → Fin 1 → ℝ} (hX : X 0 0 ≠ -1 / 2) : SmoothNet exSeq (ofMat X) := by
  refine ⟨fun _ _ => trivial, fun y hy => ⟨fun idx hin => ?_, fun _ _ => trivial⟩⟩
  obtain rfl := Except.ok.inj ((exSeq_forward X).symm.trans hy)
  change InShape [1, 1] idx at hin
  obtain ⟨b, i, rfl⟩ : ∃ b i, idx = [b, i] := by
    match idx, hin with
    | [b, i], _ => exact ⟨b, i, rfl⟩
  obtain ⟨hb, hi⟩ := inShape2.1 hin
  have e := ofMat_get (fun (_ _ : Fin 1) => X 0 0 * 2 + 1) ⟨b, hb⟩ ⟨i, hi⟩
  simp only at e
  show (ofMat _).get [b, i] ≠ 0
  rw [e]
  intro h0
  exact hX (by linarith)

/-- At `1` the loss `output` has gradient 2 by the input, 1 by the weight and 1 by the bias. -/
example : ∃ gx gw gb, backward exSeq (ofMat fun (_ _ : Fin 1) => 1) (ofMat fun (_ _ : Fin 1) => 1) = .ok (gx, [[gw, gb], []]) ∧
    gx.get [0, 0] = 2 ∧ gw.get [0, 0] = 1 ∧ gb.get [0] = 1 := by
  have hy := exSeq_forward fun _ _ => 1
  set gy := reluGrad (ofMat fun (_ _ : Fin 1) => (1 : ℝ) * 2 + 1) (ofMat fun (_ _ : Fin 1) => 1) with hgy
  have h3 : gy.get [0, 0] = 1 := by
    rw [hgy]
    unfold reluGrad
    have e := ofMat_get (fun (_ _ : Fin 1) => (1 : ℝ) * 2 + 1) 0 0
    have e' := ofMat_get (fun (_ _ : Fin 1) => (1 : ℝ)) 0 0
    change (ofMat _).get [0, 0] = _ at e
    change (ofMat _).get [0, 0] = _ at e'
    have hin : InShape (ofMat fun (_ _ : Fin 1) => (1 : ℝ) * 2 + 1).shape [0, 0] := by rw [ofMat_shape]; exact inShape2.2 ⟨by norm_num, by norm_num⟩
    rw [Tensor.get_tabulate hin, e, e', if_pos (by rw [ltB_real]; norm_num)]
  refine ⟨linearInputGrad (Tensor.tab2 1 1 fun _ _ => 2) (ofMat fun (_ _ : Fin 1) => 1) gy,
    linearWeightGrad (Tensor.tab2 1 1 fun _ _ => 2) (ofMat fun (_ _ : Fin 1) => 1) gy, biasGrad gy, ?_, ?_, ?_, ?_⟩
  · unfold exSeq backward
    simp only [GLayer.forward, bind, Except.bind, hy, backward, GLayer.inputGrad, GLayer.paramGrads]
    rfl
  · show (Tensor.tab2 1 1 _).get [0, 0] = _
    rw [Tensor.get_tab2 (by norm_num) (by norm_num), sumL_range, Finset.sum_range_one, h3, Tensor.get_tab2 (by norm_num) (by norm_num), one_mul]
  · show (Tensor.tab2 1 1 _).get [0, 0] = _
    have e' := ofMat_get (fun (_ _ : Fin 1) => (1 : ℝ)) 0 0
    change (ofMat _).get [0, 0] = _ at e'
    rw [Tensor.get_tab2 (by norm_num) (by norm_num), sumL_range, Finset.sum_range_one, h3, e', one_mul]
  · show (Tensor.tab1 1 _).get [0] = _
    rw [Tensor.get_tab1 (by norm_num), sumL_range, Finset.sum_range_one, h3]

/-- The theorem applies to it at every input but `-1/2`. -/
example {X : Fin 1 → Fin 1 → ℝ} (hX : X 0 0 ≠ -1 / 2) : ∃ F : (Fin 1 → Fin 1 → ℝ) → Fin 1 → Fin 1 → ℝ, ∀ Y, netForward exSeq (ofMat Y) = .ok (ofMat (F Y)) :=
  let ⟨F, h, _⟩ := C93_backpropagation exSeq exSeq_fits X (exSeq_smooth hX)
  ⟨F, h⟩

/-- A network of discontinuous layers with two segments of quadratics. -/
example (rng : Rng ℝ) : ∃ net h1, mlpInit rng (exNet "discontinuous" 3 2) [] = .ok (net, h1) ∧ ∀ h : Heap ℝ, h1.Later h → h.Ordered → h.ParamsWF →
    ∃ ls, NetFits ls 2 1 ∧ h.forward net = netForward ls := by
  obtain ⟨u1, u2, u3⟩ := exNet_usable "discontinuous" (n := 3) (s := 2) (by norm_num) (by norm_num) .discontinuous
  obtain ⟨net, h1, inp, out, hid, e, hall⟩ := C93_mlp_is_sequential rng (c := exNet "discontinuous" 3 2) (k := .pw .discontinuous) (kIn := .pw .discontinuous)
    (by show List.lookup "discontinuous" _ = _; decide) (by show List.lookup "discontinuous" _ = _; decide) u1 u2 u3 (by simp [exNet]) rfl le_rfl rfl ordered_nil
    (by intro j hj; simp [exNet] at hj)
  exact ⟨net, h1, e, fun h a b c => ⟨_, hall h a b c⟩⟩

end HOL
