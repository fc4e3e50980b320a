import Verif.Props.NetworkInit

/-! # C71, C72: smoothing of networks, continuity of networks -/

namespace HOL
open TorchScalar Relation Spec

/-! ## composition -/

theorem Spec.ComputesContinuous.nil (w : ℕ) : ComputesContinuous (seqForward ([] : List (Fwd ℝ))) w w := by
  refine .of_local (F := fun o r => r o) (fun B x hx hwf => ⟨x, rfl, hx, hwf, fun _ _ _ _ => rfl⟩) (fun o _ => continuous_apply o) ?_
  intro o ho r r' h
  exact h o ho

theorem Spec.ComputesContinuous.cons {f : Fwd ℝ} {fs : List (Fwd ℝ)} {w w' w'' : ℕ} (h : ComputesContinuous f w w')
    (hs : ComputesContinuous (seqForward fs) w' w'') : ComputesContinuous (seqForward (f :: fs)) w w'' := by
  obtain ⟨F, hF, hA⟩ := h
  obtain ⟨G, hG, hB⟩ := hs
  refine ⟨fun o v => G o fun k => F k v, fun o => (hG o).comp (continuous_pi fun k => hF k), fun N x hx hwf => ?_⟩
  obtain ⟨y, y1, y2, y3, y4⟩ := hA N x hx hwf
  obtain ⟨z, z1, z2, z3, z4⟩ := hB N y y2 y3
  refine ⟨z, by simp only [seqForward, y1]; exact z1, z2, z3, ?_⟩
  intro n hn o ho
  rw [z4 n hn o ho]
  beta_reduce
  congr 1
  funext k
  rw [y4 n hn k k.2]

theorem Spec.ComputesContinuous.append {fs gs : List (Fwd ℝ)} {w w' w'' : ℕ} (h : ComputesContinuous (seqForward fs) w w')
    (hs : ComputesContinuous (seqForward gs) w' w'') : ComputesContinuous (seqForward (fs ++ gs)) w w'' := by
  have : seqForward (fs ++ gs) = seqForward [seqForward fs, seqForward gs] := by
    funext x
    rw [seqForward_append]
    simp only [seqForward]
    cases seqForward fs x with
    | error e => rfl
    | ok y =>
      simp only [bind, Except.bind]
      cases seqForward gs y <;> rfl
  rw [this]
  exact h.cons (hs.cons (.nil w''))

theorem Spec.ComputesContinuous.all {fs : List (Fwd ℝ)} {w : ℕ} (h : ∀ f ∈ fs, ComputesContinuous f w w) : ComputesContinuous (seqForward fs) w w := by
  induction fs with
  | nil => exact .nil w
  | cons f fs ih => exact .cons (h f (by simp)) (ih fun g hg => h g (by simp [hg]))

theorem Spec.ComputesContinuous.compose {pre : List (Fwd ℝ)} {input : Fwd ℝ} {E : ℕ → Fwd ℝ} {H w0 w w1 : ℕ} (hpre : ∀ f ∈ pre, ComputesContinuous f w w)
    (hin : ComputesContinuous input w0 w) (hE : ∀ i < H, ComputesContinuous (E i) w w) (hO : ComputesContinuous (E H) w w1) :
    ComputesContinuous (compose pre input ((List.range (H + 1)).map E)) w0 w1 := by
  unfold HOL.compose
  apply ComputesContinuous.cons hin
  rw [List.range_succ, List.map_append, List.flatMap_append, List.map_singleton, List.flatMap_singleton]
  have blocks : ∀ k ≤ H, ComputesContinuous (seqForward (((List.range k).map E).flatMap fun l => pre ++ [l])) w w := by
    intro k
    induction k with
    | zero => intro _; exact .nil w
    | succ k ih =>
      intro hk
      rw [List.range_succ, List.map_append, List.flatMap_append, List.map_singleton, List.flatMap_singleton]
      exact (ih (by omega)).append ((ComputesContinuous.all hpre).append (.cons (hE k (by omega)) (.nil w)))
  exact (blocks H le_rfl).append ((ComputesContinuous.all hpre).append (.cons hO (.nil w1)))

theorem Spec.ComputesContinuous.combine {op : ℝ → ℝ → ℝ} (hop : Continuous fun p : ℝ × ℝ => op p.1 p.2) {f g : Fwd ℝ} {w w' : ℕ}
    (hf : ComputesContinuous f w w') (hg : ComputesContinuous g w w') :
    ComputesContinuous (fun y => do
      let u ← f y
      let v ← g y
      zipBcast op u v) w w' := by
  obtain ⟨F, hF, hA⟩ := hf
  obtain ⟨G, hG, hB⟩ := hg
  refine ⟨fun o v => op (F o v) (G o v), fun o => hop.comp ((hF o).prodMk (hG o)), fun N x hx hwf => ?_⟩
  obtain ⟨y, y1, y2, y3, y4⟩ := hA N x hx hwf
  obtain ⟨z, z1, z2, z3, z4⟩ := hB N x hx hwf
  refine ⟨Tensor.tab2 N w' fun b o => op (y.get [b, o]) (z.get [b, o]), ?_, rfl, Tensor.wf_tab2 _ _ _, ?_⟩
  · simp only [y1, z1, bind, Except.bind]
    exact zipBcast_same _ y2 z2
  · intro b hb o ho
    rw [Tensor.get_tab2 hb ho, y4 b hb o ho, z4 b hb o ho]

/-! ## layers -/

/-- The kinds of layers without jumps (and not `polynomial_prod` etc., which are not `Usable`). -/
def FcKind.jumpFree : FcKind → Prop
  | .leaf (.pw cls) | .switch cls => cls = .continuous ∨ cls = .continuousProd
  | _ => True

theorem continuous_linear {w b : Tensor ℝ} {I O : ℕ} (hw : w.shape = [O, I]) : ComputesContinuous (fun x => linearForward w b x) I O := by
  refine .of_local (F := fun o r => ∑ q ∈ Finset.range I, r q * w.get [o, q] + b.get [o]) ?_ ?_ ?_
  · intro B x hx hwf
    unfold linearForward
    simp only [hx, hw, if_true]
    refine ⟨_, rfl, rfl, Tensor.wf_tabulate _ _, ?_⟩
    intro s hs o ho
    rw [Tensor.get_tab2 hs ho, sumL_range]
  · intro o _
    exact (continuous_finsetSum _ fun i _ => (continuous_apply i).mul continuous_const).add continuous_const
  · intro o _ r r' h
    congr 1
    exact Finset.sum_congr rfl fun q hq => by rw [h q (Finset.mem_range.1 hq)]

theorem continuous_product {L : ProductLayer ℝ} {bias : Tensor ℝ} (hbias : L.bias = some bias) (hw : L.weight.shape = [L.outFeatures, L.inFeatures])
    (hp : ∀ q ∈ L.periodicity, 0 < q) : ComputesContinuous L.forward L.inFeatures L.outFeatures := by
  refine .of_local (F := fun o r => ∏ q ∈ Finset.range L.inFeatures, (periodize L.periodicity (r q) * L.weight.get [o, q] + 1)
      - (1 - L.alpha) * ∑ q ∈ Finset.range L.inFeatures, periodize L.periodicity (r q) * L.weight.get [o, q] - 1 + bias.get [o]) ?_ ?_ ?_
  · intro B x hx hwf
    refine ⟨_, L.forward_eq bias hbias hw hx hwf, rfl, Tensor.wf_tabulate _ _, ?_⟩
    intro s hs o ho
    rw [Tensor.get_tab2 hs ho, sumL_range, prodL_range]
  · intro o _
    have hq : ∀ q, Continuous fun r : ℕ → ℝ => periodize L.periodicity (r q) * L.weight.get [o, q] := fun q =>
      ((continuous_periodize hp).comp (continuous_apply q)).mul continuous_const
    exact (((continuous_finsetProd _ fun q _ => (hq q).add continuous_const).sub
      (continuous_const.mul (continuous_finsetSum _ fun q _ => hq q))).sub continuous_const).add continuous_const
  · intro o _ r r' h
    have e1 : ∏ q ∈ Finset.range L.inFeatures, (periodize L.periodicity (r q) * L.weight.get [o, q] + 1)
        = ∏ q ∈ Finset.range L.inFeatures, (periodize L.periodicity (r' q) * L.weight.get [o, q] + 1) :=
      Finset.prod_congr rfl fun q hq => by rw [h q (Finset.mem_range.1 hq)]
    have e2 : ∑ q ∈ Finset.range L.inFeatures, periodize L.periodicity (r q) * L.weight.get [o, q]
        = ∑ q ∈ Finset.range L.inFeatures, periodize L.periodicity (r' q) * L.weight.get [o, q] :=
      Finset.sum_congr rfl fun q hq => by rw [h q (Finset.mem_range.1 hq)]
    simp only [e1, e2]

theorem continuous_lagrange {L : FnLayer ℝ} {n : ℕ} (hn : 0 < n) {length : ℝ} (hp : L.poly = lagrangePolyFlat n length)
    (hw : L.w.shape = [L.outFeatures, L.inFeatures, n]) (hper : ∀ q ∈ L.periodicity, 0 < q) : ComputesContinuous L.forward L.inFeatures L.outFeatures := by
  refine .of_local (F := fun o r => ∑ i ∈ Finset.range L.inFeatures,
        (Lagrange.interpolate (Finset.range n) (fun j => length / 2 * node n j)
          fun k => L.w.get [o, i, k]).eval (periodize L.periodicity (r i))) ?_ ?_ ?_
  · intro B x hx hwf
    refine ⟨_, L.forward_lagrange hn length hp hw hx hwf, rfl, Tensor.wf_tabulate _ _, ?_⟩
    intro s hs o ho
    rw [Tensor.get_tab2 hs ho]
  · intro o _
    exact continuous_finsetSum _ fun i _ => (Polynomial.continuous _).comp ((continuous_periodize hper).comp (continuous_apply i))
  · intro o _ r r' h
    exact Finset.sum_congr rfl fun q hq => by rw [h q (Finset.mem_range.1 hq)]

theorem continuous_fourierSum (n : ℕ) (length : ℝ) (w : ℕ → ℝ) : Continuous (fourierSum n length w) := by
  unfold fourierSum
  refine continuous_finsetSum _ fun j _ => ?_
  cases j with
  | zero => simp only [fourierTerm]; fun_prop
  | succ j =>
    simp only [fourierTerm]
    by_cases h : j % 2 = 0
    · simp only [h, if_true]; fun_prop
    · simp only [h, if_false]; fun_prop

theorem continuous_relu {f : Fwd ℝ} {w w' : ℕ} (hf : ComputesContinuous f w w') : ComputesContinuous (fun x => do .ok (reluT (← f x))) w w' := by
  obtain ⟨F, hF, hA⟩ := hf
  have hr : Continuous fun v : ℝ => if ltB v 0 then 0 else v := by
    have : (fun v : ℝ => if ltB v 0 then 0 else v) = fun v => max v 0 := by
      funext v
      by_cases h : v < 0
      · simp [ltB, h, max_eq_right h.le]
      · simp [ltB, h, max_eq_left (not_lt.1 h)]
    rw [this]
    exact continuous_id.max continuous_const
  refine ⟨fun o v => (fun v : ℝ => if ltB v 0 then 0 else v) (F o v), fun o => hr.comp (hF o), fun N x hx hwf => ?_⟩
  obtain ⟨y, y1, y2, y3, y4⟩ := hA N x hx hwf
  refine ⟨reluT y, by simp only [y1]; rfl, y2, Tensor.wf_map y3 _, ?_⟩
  intro b hb o ho
  unfold reluT
  rw [Tensor.get_map y3 (by rw [y2]; exact inShape2.2 ⟨hb, ho⟩), y4 b hb o ho]

/-- Every usable layer without jumps, trained or not, is continuous. -/
theorem IsLayer.computesContinuous {kind : FcKind} {a : FcArgs ℝ} (hu : Usable kind a) (hj : kind.jumpFree) (hper : ∀ q ∈ a.periodicity, 0 < q)
    {h : Heap ℝ} (ho : h.Ordered) {j : ℕ} (hl : IsLayer kind a h j) : ComputesContinuous (h.forward j) a.inFeatures a.outFeatures := by
  obtain ⟨rng, base, ms, e1, e2, e3⟩ := hl
  have pw : ∀ {cls : PwClass} {n s : ℕ} {r : ℕ → ℕ → ℝ} {p : Option ℝ} {i : ℕ} {m' : Mod ℝ}, (cls = .continuous ∨ cls = .continuousProd) →
      0 < n → 0 < s → 0 < a.inFeatures → 0 < a.outFeatures → (∀ q ∈ p, 0 < q) →
      h[i]? = some m' → (Mod.pw (PwLayer.init cls n a.inFeatures a.outFeatures s ((2 : ℕ) : ℝ) r 1 p)).Trained m' →
      ComputesContinuous (h.forward i) a.inFeatures a.outFeatures := by
    intro cls n s r p i m' hc hn hs hI hO hp hi ht
    have hwf := PwLayer.init_wf cls hn hI hO hs ((2 : ℕ) : ℝ) r 1 p
    have e2 : ((2 : ℕ) : ℝ) = 2 := by norm_num
    rw [Heap.forward_eq ho hi]
    cases ht with
    | refl => exact C11_continuous _ hwf hc e2 hp
    | pw L w hs' hw => exact C11_continuous _ (hwf.withW hs' hw) hc e2 hp
  match kind, hu, hj with
  | .leaf .linear, _, _ =>
    cases e1
    have hj : j = base + 0 := by simpa using e2
    obtain ⟨m', f1, f2⟩ := e3 0 _ rfl
    rw [hj, Heap.forward_eq ho f1]
    cases f2 with
    | refl => exact continuous_linear rfl
    | linear w b w' b' hs hb => exact continuous_linear hs
  | .leaf .linearRelu, _, _ =>
    cases e1
    have hj : j = base + 1 := by simp at e2; omega
    obtain ⟨m', f1, f2⟩ := e3 0 _ rfl
    obtain ⟨m'', g1, g2⟩ := e3 1 _ rfl
    cases g2
    have hlin : ComputesContinuous (h.forward base) a.inFeatures a.outFeatures := by
      rw [Heap.forward_eq ho (i := base) (by simpa using f1)]
      cases f2 with
      | refl => exact continuous_linear rfl
      | linear w b w' b' hs hb => exact continuous_linear hs
    rw [hj, Heap.forward_eq ho g1]
    exact continuous_relu hlin
  | .leaf .product, _, _ =>
    cases e1
    have hj : j = base + 0 := by simpa using e2
    obtain ⟨m', f1, f2⟩ := e3 0 _ rfl
    rw [hj, Heap.forward_eq ho f1]
    cases f2 with
    | refl => exact continuous_product rfl rfl hper
    | product L w b hs hb => exact continuous_product (bias := b) rfl hs hper
  | .leaf (.pw cls), ⟨n, s, hn, hs, h1, h2, h3, h4⟩, hc =>
    simp only [fcMods, leafMods, hn, hs] at e1
    cases e1
    have hj : j = base + 0 := by simpa using e2
    obtain ⟨m', f1, f2⟩ := e3 0 _ rfl
    rw [hj]
    exact pw hc h1 h2 h3 h4 hper f1 f2
  | .switch cls, ⟨⟨n, s, hn, hs, h1, h2, h3, h4⟩, hnum⟩, hc =>
    have hb := pwF_builds rng true cls a hn hs hnum
    have e1' : fcMods rng (.switch cls) a base = .ok (pwF rng true cls a n s base) := hb.ok base
    rw [e1'] at e1
    cases e1
    have hj : j = base + 2 := by simp [pwF] at e2; omega
    obtain ⟨m0, f1, f2⟩ := e3 0 _ rfl
    obtain ⟨m1, f3, f4⟩ := e3 1 _ rfl
    obtain ⟨m2, f5, f6⟩ := e3 2 _ rfl
    cases f6
    rw [hj, Heap.forward_eq ho f5]
    have c0 := pw hc h1 h2 h3 h4 (by intro q hq; cases hq) f1 f2
    have c1 := pw hc h1 h2 h3 h4 (by intro q hq; cases hq) f3 f4
    have := c0.combine (op := (· * ·)) continuous_mul c1
    obtain ⟨F, hF, hA⟩ := this
    refine ⟨F, hF, fun B x hx hwf => ?_⟩
    obtain ⟨y, y1, y2, y3, y4⟩ := hA B x hx hwf
    refine ⟨y, ?_, y2, y3, y4⟩
    obtain ⟨F0, -, hA0⟩ := c0
    obtain ⟨F1, -, hA1⟩ := c1
    obtain ⟨u, u1, u2, u3, -⟩ := hA0 B x hx hwf
    obtain ⟨v, v1, v2, v3, -⟩ := hA1 B x hx hwf
    have := switch2_forward (call := h.forward) (i := base) (I := a.inFeatures) u1 v1 u2 v2
    rw [← y1]
    simp only [u1, v1, bind, Except.bind]
    rw [zipBcast_same _ u2 v2]
    exact this
  | .leaf .polynomial, ⟨n, hn, hpos⟩, _ =>
    simp only [fcMods, leafMods, hn, polynomialInit, FnLayer.init] at e1
    rw [lagrangePolyFlat_numBasis hpos] at e1
    cases e1
    have hj : j = base + 0 := by simpa using e2
    obtain ⟨m', f1, f2⟩ := e3 0 _ rfl
    rw [hj, Heap.forward_eq ho f1]
    cases f2 with
    | refl => exact continuous_lagrange hpos rfl rfl hper
    | fn L w hs hw => exact continuous_lagrange hpos rfl hs hper
  | .leaf .fourier, ⟨n, hn, hpos⟩, _ =>
    simp only [fcMods, leafMods, hn, fourierSeriesInit] at e1
    obtain ⟨L0, q1, q2, q3⟩ := C43_fourier_layer n a.inFeatures a.outFeatures hpos ((2 : ℕ) : ℝ) (rng base) 1 none
    rw [fourierSeriesInit] at q1
    rw [q1] at e1
    cases e1
    have hj : j = base + 0 := by simpa using e2
    obtain ⟨m', f1, f2⟩ := e3 0 _ rfl
    rw [hj, Heap.forward_eq ho f1]
    have key : ∀ w : Tensor ℝ, w.shape = [a.outFeatures, a.inFeatures, n] →
        ComputesContinuous ({ L0 with w := w } : FnLayer ℝ).forward a.inFeatures a.outFeatures := by
      intro w hw
      refine .of_local (q3 w hw) ?_ ?_
      · intro o _
        exact continuous_finsetSum _ fun i _ => (continuous_fourierSum _ _ _).comp (continuous_apply i)
      · intro o _ r r' hr
        exact Finset.sum_congr rfl fun q hq => by rw [hr q (Finset.mem_range.1 hq)]
    cases f2 with
    | refl => exact key L0.w q2
    | fn L w hs hw => exact key w (hs.trans q2)

/-- With continuous layers and continuous functions in between, the hidden entries of a network are continuous (also the sums of `resnet`). -/
theorem Net.entry_continuous {c : MLPArgs ℝ} {kind kindIn : FcKind} {g : Geo} {nlF : Fwd ℝ} {h : Heap ℝ} (hn : Net c kind kindIn g nlF h)
    (ho : h.Ordered) (hH : ∀ i < c.hiddenLayers, ComputesContinuous (h.forward (c.coreId g i)) c.hiddenWidth c.hiddenWidth)
    (hpre : ∀ f ∈ preFns c nlF, ComputesContinuous f c.hiddenWidth c.hiddenWidth) :
    ∀ i < c.hiddenLayers, ComputesContinuous (h.forward (c.layId g i)) c.hiddenWidth c.hiddenWidth := by
  intro i hi
  cases hr : c.resnet with
  | false =>
    rw [MLPArgs.layId_eq g (Or.inl hr)]
    exact hH i hi
  | true =>
    rw [hn.forward_resEntry ho hr i hi]
    induction i with
    | zero => exact hH 0 hi
    | succ i ih =>
      have h1 := ih (by omega)
      have h2 : ComputesContinuous ((preFns c nlF).getLastD (resEntry (preFns c nlF) (fun j => h.forward (c.coreId g j)) i))
          c.hiddenWidth c.hiddenWidth := by
        rcases List.eq_nil_or_concat (preFns c nlF) with e | ⟨l, f, e⟩
        · rw [e] at h1 ⊢
          simpa using h1
        · have hf := hpre f (by rw [e]; simp)
          rw [e]
          simpa using hf
      exact (hH (i + 1) hi).combine (op := (· + ·)) continuous_add h2

/-- **C72.** A `HighOrderMLP` whose layers have no jumps (all types but the discontinuous ones), trained or not, computes a continuous function of its
input row, whatever its depth and with or without `resnet`, as long as the periodicity is positive and normalization, nonlinearity and dropout
act on every row by continuous functions. -/
theorem C72_network_continuous (rng : Rng ℝ) {c : MLPArgs ℝ} {kind kindIn : FcKind} (hk : fcTable.lookup c.layerType = some kind)
    (hki : fcTable.lookup (orStr c.layerTypeIn c.layerType) = some kindIn) (hI : Usable kindIn c.inputArgs)
    (hH : Usable kind c.hiddenArgs) (hO : Usable kind c.outputArgs) (hj : kind.jumpFree) (hji : kindIn.jumpFree) (hper : ∀ q ∈ c.periodicity, 0 < q)
    {h0 : Heap ℝ} (hord : h0.Ordered) {nl : Fwd ℝ} (hnl : ∀ j ∈ c.nonLinearity, h0[j]? = some (.other nl))
    (hpre : ∀ f ∈ preFns c nl, ComputesContinuous f c.hiddenWidth c.hiddenWidth) {net : ℕ} {h1 h : Heap ℝ} (hb : mlpInit rng c h0 = .ok (net, h1))
    (hl : h1.Later h) (ho : h.Ordered) : ComputesContinuous (h.forward net) c.inWidth c.outWidth := by
  obtain ⟨g, D, -, -, -, -, e1, -, -, hn⟩ := mlpInit_net rng hk hki hI hH hO hord hnl
  rw [hb] at e1
  cases e1
  have hn := hn.later hl
  rw [hn.forward_compose ho]
  exact .compose hpre (hn.inp.computesContinuous hI hji hper ho)
    (hn.entry_continuous ho (fun i hi => (hn.hid i hi).computesContinuous hH hj hper ho) hpre) (hn.out.computesContinuous hO hj hper ho)

/-! ## smoothing -/

/-- The layers `smooth_discontinuous_network` is to smooth: the discontinuous ones (sum or product) registered in `network.model`. -/
def SmoothTarget (h : Heap ℝ) (m j : ℕ) : Prop :=
  ReflTransGen h.Child m j ∧ ∃ L : PwLayer ℝ, h[j]? = some (.pw L) ∧ (L.cls = .discontinuous ∨ L.cls = .discontinuousProd)

theorem smoothLoop (f : ℝ) : ∀ (l : List ℕ) (h : Heap ℝ), l.Nodup → (∀ j ∈ l, ∃ L L' : PwLayer ℝ, h[j]? = some (.pw L) ∧ smoothLayer L f = (.ok (), L')) →
    ∃ h', forEach (pwUpdate fun _ L => smoothLayer L f) l h = (.ok (), h') ∧
      ∀ j : ℕ, (j ∈ l → ∃ L L' : PwLayer ℝ, h[j]? = some (.pw L) ∧ smoothLayer L f = (.ok (), L') ∧ h'[j]? = some (.pw L')) ∧ (j ∉ l → h'[j]? = h[j]?)
  | [], h, _, _ => ⟨h, rfl, fun j => ⟨fun hj => (List.not_mem_nil hj).elim, fun _ => rfl⟩⟩
  | i :: l, h, hnd, hl => by
    obtain ⟨L, L', e1, e2⟩ := hl i (by simp)
    have hlt : i < h.length := (List.getElem?_eq_some_iff.1 e1).1
    rw [List.nodup_cons] at hnd
    obtain ⟨h', f1, f2⟩ := smoothLoop f l (h.set i (.pw L')) hnd.2 (by
      intro j hj
      have hne : i ≠ j := fun e => hnd.1 (e ▸ hj)
      rw [List.getElem?_set_ne hne]
      exact hl j (by simp [hj]))
    refine ⟨h', by simp only [forEach, pwUpdate, e1, e2, f1], fun j => ⟨fun hj => ?_, fun hj => ?_⟩⟩
    · rcases List.mem_cons.1 hj with rfl | hj
      · exact ⟨L, L', e1, e2, by rw [(f2 j).2 hnd.1, List.getElem?_set_self hlt]⟩
      · have hne : i ≠ j := fun e => hnd.1 (e ▸ hj)
        have := (f2 j).1 hj
        rwa [List.getElem?_set_ne hne] at this
    · simp only [List.mem_cons, not_or] at hj
      rw [(f2 j).2 hj.2, List.getElem?_set_ne (Ne.symm hj.1)]

/-- **C71.** `smooth_discontinuous_network(network, factor)` smooths (C28) every discontinuous layer registered in `network.model` exactly once,
in particular a layer that occurs twice, and changes nothing else in the program: not the sublayers of switch layers and not the hidden layers inside
the sums of a `resnet`, which are not registered. -/
theorem C71_network_smoothing {h : Heap ℝ} (ho : h.Ordered) {net m : ℕ} (hm : h.model net = .ok m) (hlt : m < h.length)
    (hpw : ∀ (j : ℕ) (L : PwLayer ℝ), ReflTransGen h.Child m j → h[j]? = some (Mod.pw L) → (L.cls = .discontinuous ∨ L.cls = .discontinuousProd) →
      L.WF ∧ 2 ≤ L.n) (f : ℝ) :
    ∃ h', smoothNetwork net f h = (.ok (), h') ∧
      ∀ j, (SmoothTarget h m j → ∃ L L' : PwLayer ℝ, h[j]? = some (.pw L) ∧ smoothLayer L f = (.ok (), L') ∧ h'[j]? = some (.pw L')) ∧
        (¬ SmoothTarget h m j → h'[j]? = h[j]?) := by
  have hmem : ∀ j, j ∈ (h.modules m).filter (fun j => ((h[j]?).map Mod.isPiecewiseDiscontinuous).getD false) ↔ SmoothTarget h m j := by
    intro j
    rw [List.mem_filter, Heap.mem_modules ho hlt]
    unfold SmoothTarget
    refine and_congr_right fun _ => ?_
    constructor
    · intro hj
      cases hh : h[j]? with
      | none => rw [hh] at hj; cases hj
      | some md =>
        rw [hh] at hj
        cases md with
        | pw L =>
          refine ⟨L, rfl, ?_⟩
          change L.cls.isDiscontinuous = true at hj
          cases hc : L.cls <;> rw [hc] at hj <;> simp [PwClass.isDiscontinuous] at hj ⊢
        | _ => cases hj
    · rintro ⟨L, hL, hc⟩
      rw [hL]
      change L.cls.isDiscontinuous = true
      rcases hc with hc | hc <;> rw [hc] <;> rfl
  obtain ⟨h', e1, e2⟩ := smoothLoop f ((h.modules m).filter (fun j => ((h[j]?).map Mod.isPiecewiseDiscontinuous).getD false)) h ((Heap.modules_nodup ho hlt).filter _) (by
    intro j hj
    obtain ⟨hr, L, hL, hc⟩ := (hmem j).1 hj
    obtain ⟨wf, hn⟩ := hpw j L hr hL hc
    obtain ⟨L', q1, -⟩ := C28_smoothing_weights L wf hc hn f
    exact ⟨L, L', hL, q1⟩)
  refine ⟨h', ?_, fun j => ?_⟩
  · simp only [smoothNetwork, hm]
    exact e1
  · have := e2 j
    rw [hmem] at this
    exact this

/-- **C71 (`factor = 1`).** Smoothing with factor 1 makes a `HighOrderMLP` of discontinuous (sum or product) layers, trained or not, without `resnet`
(or at most one hidden layer), a continuous function of its input row; normalization, nonlinearity and dropout as in C72. -/
theorem C71_factor_one_continuous (rng : Rng ℝ) {c : MLPArgs ℝ} {cls clsIn : PwClass} (hk : fcTable.lookup c.layerType = some (.leaf (.pw cls)))
    (hki : fcTable.lookup (orStr c.layerTypeIn c.layerType) = some (.leaf (.pw clsIn))) (hI : Usable (.leaf (.pw clsIn)) c.inputArgs)
    (hH : Usable (.leaf (.pw cls)) c.hiddenArgs) (hO : Usable (.leaf (.pw cls)) c.outputArgs) (h2I : ∀ n, c.inputArgs.n = .int n → 2 ≤ n)
    (h2H : ∀ n, c.hiddenArgs.n = .int n → 2 ≤ n) (h2O : ∀ n, c.outputArgs.n = .int n → 2 ≤ n) (hper : ∀ q ∈ c.periodicity, 0 < q)
    (hres : c.resnet = false ∨ c.hiddenLayers ≤ 1) {h0 : Heap ℝ} (hord : h0.Ordered) {nl : Fwd ℝ}
    (hnl : ∀ j ∈ c.nonLinearity, h0[j]? = some (.other nl))
    (hpre : ∀ f ∈ preFns c nl, ComputesContinuous f c.hiddenWidth c.hiddenWidth) {net : ℕ} {h1 h : Heap ℝ} (hb : mlpInit rng c h0 = .ok (net, h1))
    (hl : h1.Later h) (ho : h.Ordered) :
    ∃ h', smoothNetwork net 1 h = (.ok (), h') ∧ ComputesContinuous (h'.forward net) c.inWidth c.outWidth := by
  obtain ⟨hr, hlt⟩ := regular_network rng hk hki hI hH hO h2I h2H h2O hord hnl hb hl ho
  obtain ⟨g, D, -, -, -, -, e3, -, -, hn⟩ := mlpInit_net rng hk hki hI hH hO hord hnl
  rw [hb] at e3
  cases e3
  have hn := hn.later hl
  have hmodel : h.model (c.netId g) = .ok (c.netId g - 1) := by
    simp only [Heap.model, hn.net]
  have hchild : h.Child (c.netId g) (c.netId g - 1) := ⟨_, hn.net, by simp [Mod.children]⟩
  have hpw : ∀ (j : ℕ) (L : PwLayer ℝ), ReflTransGen h.Child (c.netId g - 1) j → h[j]? = some (Mod.pw L) →
      L.WF ∧ L.length = 2 ∧ 2 ≤ L.n := fun j L hj hL => hr.pw j L (ReflTransGen.head hchild hj) hL
  obtain ⟨h', f1, f2⟩ := C71_network_smoothing ho hmodel (by omega) (fun j L hj hL _ => ⟨(hpw j L hj hL).1, (hpw j L hj hL).2.2⟩) 1
  -- the heap afterwards
  have hlater : h.Later h' := by
    intro j m hm
    by_cases ht : SmoothTarget h (c.netId g - 1) j
    · obtain ⟨L, L', p1, p2, p3⟩ := (f2 j).1 ht
      rw [hm] at p1
      cases p1
      obtain ⟨hreach, L0, q1, q2⟩ := ht
      rw [hm] at q1
      cases q1
      obtain ⟨wf, -, hn2⟩ := hpw j L hreach hm
      obtain ⟨A, a1, ⟨w, w1, w2, w3⟩, -⟩ := C28_smoothing_weights L wf q2 hn2 1
      rw [p2] at a1
      cases a1
      refine ⟨_, p3, ?_⟩
      rw [w3]
      exact .pw L w w1 w2
    · exact ⟨m, by rw [(f2 j).2 ht, hm], .refl m⟩
  have ho' : h'.Ordered := by
    intro i m hm k hk'
    by_cases ht : SmoothTarget h (c.netId g - 1) i
    · obtain ⟨L, L', p1, p2, p3⟩ := (f2 i).1 ht
      rw [hm] at p3
      cases p3
      cases hk'
    · rw [(f2 i).2 ht] at hm
      exact ho i m hm k hk'
  have hn' := hn.later hlater
  refine ⟨h', f1, ?_⟩
  rw [hn'.forward_compose ho']
  have layer : ∀ {cl : PwClass} {a : FcArgs ℝ} {s : Slot}, Usable (.leaf (.pw cl)) a → (∀ q ∈ a.periodicity, 0 < q) →
      IsLayer (.leaf (.pw cl)) a h (c.slotId g s) → s ∈ c.plan → ComputesContinuous (h'.forward (c.slotId g s)) a.inFeatures a.outFeatures := by
    intro cl a s hu hp hlay hs
    obtain ⟨L, p1, -, p2, -, -, p3, p4, p5⟩ := hlay.pwLayer hu
    have hreach : ReflTransGen h.Child (c.netId g - 1) (c.slotId g s) :=
      ReflTransGen.single ⟨_, hn.seq, List.mem_map_of_mem hs⟩
    obtain ⟨wf, hl2, hn2⟩ := hpw _ L hreach p1
    rw [← p3, ← p4]
    by_cases hd : L.cls = .discontinuous ∨ L.cls = .discontinuousProd
    · obtain ⟨L0, L', q1, q2, q3⟩ := (f2 _).1 ⟨hreach, L, p1, hd⟩
      rw [p1] at q1
      cases q1
      rw [Heap.forward_eq ho' q3]
      obtain ⟨L'', r1, r2⟩ := C28_factor_one_continuous L wf hd hl2 (by rw [p5]; exact hp) hn2
      rw [q2] at r1
      cases r1
      exact r2
    · have q3 := (f2 (c.slotId g s)).2 (by
        rintro ⟨-, L', hL', hd'⟩
        rw [p1] at hL'
        cases hL'
        exact hd hd')
      rw [p1] at q3
      rw [Heap.forward_eq ho' q3]
      refine C11_continuous L wf ?_ hl2 (by rw [p5]; exact hp)
      cases hc : L.cls <;> simp [hc] at hd ⊢
  have hplan : ∀ i ≤ c.hiddenLayers, Slot.lay i ∈ c.plan := fun i hi =>
    MLPArgs.mem_plan.2 (Or.inr (Or.inr (Or.inr (Or.inr ⟨i, hi, rfl⟩))))
  apply ComputesContinuous.compose hpre
  · exact layer hI hper hn.inp (MLPArgs.mem_plan.2 (Or.inl rfl))
  · intro i hi
    have e : c.layId g i = c.coreId g i := MLPArgs.layId_eq g (by
      rcases hres with h | h
      · exact Or.inl h
      · exact Or.inr (Or.inl (by omega)))
    have hlay := hn.hid i hi
    rw [← e] at hlay
    exact layer (s := .lay i) hH hper hlay (hplan i (le_of_lt hi))
  · exact layer (s := .lay c.hiddenLayers) hO hper hn.out (hplan _ le_rfl)

end HOL
