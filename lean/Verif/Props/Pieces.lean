import Verif.Lemmas.Pieces
import Verif.Props.BackwardNetwork
import Verif.Props.Stability

/-! # C98: how often the output of a network can bend and oscillate along a line -/

namespace HOL
open TorchScalar Spec Polynomial

/-! ## composition -/

theorem pathBound_append (l l' : List (ℕ × ℕ)) (P : ℕ × ℕ) : pathBound (l ++ l') P = pathBound l' (pathBound l P) := by
  induction l generalizing P with
  | nil => rfl
  | cons q l ih => exact ih _

theorem Spec.ComputesPieces.nil (w : ℕ) : ComputesPieces (seqForward ([] : List (Fwd ℝ))) w w [] := by
  refine ⟨fun o v => if h : o < w then v ⟨o, h⟩ else 0, fun B x hx hwf => ⟨x, rfl, hx, hwf, fun b hb o ho => ?_⟩, fun γ M D h => ?_⟩
  · beta_reduce
    rw [dif_pos ho]
  · have : (fun t (o : Fin w) => if h : (o : ℕ) < w then γ t ⟨o, h⟩ else 0) = γ := by
      funext t o
      rw [dif_pos o.2]
    rw [this]
    exact h

theorem Spec.ComputesPieces.cons {f : Fwd ℝ} {fs : List (Fwd ℝ)} {w w' w'' : ℕ} {bs bs' : List (ℕ × ℕ)} (h : ComputesPieces f w w' bs)
    (hs : ComputesPieces (seqForward fs) w' w'' bs') : ComputesPieces (seqForward (f :: fs)) w w'' (bs ++ bs') := by
  obtain ⟨F, hA, hF⟩ := h
  obtain ⟨G, hB, hG⟩ := hs
  refine ⟨fun o v => G o fun k => F k v, fun N x hx hwf => ?_, fun γ M D hp => ?_⟩
  · obtain ⟨y, y1, y2, y3, y4⟩ := hA N x hx hwf
    obtain ⟨z, z1, z2, z3, z4⟩ := hB N y y2 y3
    refine ⟨z, by simp only [seqForward, y1]; exact z1, z2, z3, ?_⟩
    intro n hn o ho
    rw [z4 n hn o ho]
    beta_reduce
    congr 1
    funext k
    rw [y4 n hn k k.2]
  · rw [pathBound_append]
    exact hG _ _ _ (hF γ M D hp)

theorem Spec.ComputesPieces.append {fs gs : List (Fwd ℝ)} {w w' w'' : ℕ} {bs bs' : List (ℕ × ℕ)} (h : ComputesPieces (seqForward fs) w w' bs)
    (hs : ComputesPieces (seqForward gs) w' w'' bs') : ComputesPieces (seqForward (fs ++ gs)) w w'' (bs ++ bs') := by
  have : seqForward (fs ++ gs) = seqForward [seqForward fs, seqForward gs] := by
    funext x
    rw [seqForward_append]
    simp only [seqForward]
    cases seqForward fs x with
    | error e => rfl
    | ok y =>
      simp only [bind, Except.bind]
      cases seqForward gs y <;> rfl
  rw [this, ← List.append_nil bs']
  exact h.cons (hs.cons (.nil w''))

theorem Spec.ComputesPieces.single {f : Fwd ℝ} {w w' : ℕ} {bs : List (ℕ × ℕ)} (h : ComputesPieces f w w' bs) : ComputesPieces (seqForward [f]) w w' bs := by
  have := h.cons (.nil w')
  rwa [List.append_nil] at this

theorem Spec.ComputesPieces.compose {pre : List (Fwd ℝ)} {input : Fwd ℝ} {E : ℕ → Fwd ℝ} {H w0 w w1 : ℕ} {bp bi bh bo : List (ℕ × ℕ)} (hpre : ComputesPieces (seqForward pre) w w bp)
    (hin : ComputesPieces input w0 w bi) (hE : ∀ i < H, ComputesPieces (E i) w w bh) (hO : ComputesPieces (E H) w w1 bo) :
    ComputesPieces (compose pre input ((List.range (H + 1)).map E)) w0 w1 (bi ++ ((List.replicate H (bp ++ bh)).flatten ++ (bp ++ bo))) := by
  unfold HOL.compose
  apply ComputesPieces.cons hin
  rw [List.range_succ, List.map_append, List.flatMap_append, List.map_singleton, List.flatMap_singleton]
  have blocks : ∀ k ≤ H, ComputesPieces (seqForward (((List.range k).map E).flatMap fun l => pre ++ [l])) w w (List.replicate k (bp ++ bh)).flatten := by
    intro k
    induction k with
    | zero => intro _; exact .nil w
    | succ k ih =>
      intro hk
      rw [List.range_succ, List.map_append, List.flatMap_append, List.map_singleton, List.flatMap_singleton, List.replicate_succ', List.flatten_append, List.flatten_singleton]
      exact (ih (by omega)).append (hpre.append (hE k (by omega)).single)
  exact (blocks H le_rfl).append (hpre.append hO.single)

/-! ## layers -/

theorem pathBound_single (c m : ℕ) (P : ℕ × ℕ) : pathBound [(c, m)] P = (P.1 * (1 + c * P.2), m * P.2) := rfl

theorem Spec.ComputesPieces.of_sum {fwd : Fwd ℝ} {I O k m : ℕ} {κ : Finset ℝ} (hk : κ.card ≤ k) {φ : ℕ → ℕ → ℝ → ℝ} {a : ℕ → ℝ} (hφ : ∀ o i, PolyBetween κ m (φ o i))
    (hF : Computes fwd I O fun o r => ∑ i ∈ Finset.range I, φ o i (r i) + a o) : ComputesPieces fwd I O [(I * k, m)] := by
  refine ⟨fun o v => ∑ i : Fin I, φ o i (v i) + a o, hF.congr fun o _ r => ?_, fun γ M D hp => ?_⟩
  · beta_reduce
    rw [Fin.sum_univ_eq_sum_range (fun i => φ o i (r i))]
  · rw [pathBound_single]
    refine (hp.sum (fun (o : Fin O) (i : Fin I) => φ o i) (fun o i => hφ o i) fun o => a o).mono ?_ le_rfl
    exact Nat.mul_le_mul_left _ (Nat.add_le_add_left (Nat.mul_le_mul_right _ (Nat.mul_le_mul_left _ hk)) _)

theorem Spec.ComputesPieces.of_prod {fwd : Fwd ℝ} {I O k m : ℕ} {κ : Finset ℝ} (hk : κ.card ≤ k) {φ : ℕ → ℕ → ℝ → ℝ} (e : ℝ) {a : ℕ → ℝ} (hφ : ∀ o i, PolyBetween κ m (φ o i))
    (hF : Computes fwd I O fun o r => ∏ i ∈ Finset.range I, (φ o i (r i) + 1) - e * ∑ i ∈ Finset.range I, φ o i (r i) + a o) : ComputesPieces fwd I O [(I * k, I * m)] := by
  refine ⟨fun o v => ∏ i : Fin I, (φ o i (v i) + 1) - e * ∑ i : Fin I, φ o i (v i) + a o, hF.congr fun o _ r => ?_, fun γ M D hp => ?_⟩
  · beta_reduce
    rw [Fin.sum_univ_eq_sum_range (fun i => φ o i (r i)), Fin.prod_univ_eq_prod_range (fun i => φ o i (r i) + 1)]
  · rw [pathBound_single]
    refine (hp.prod (fun (o : Fin O) (i : Fin I) => φ o i) (fun o i => hφ o i) e fun o => a o).mono ?_ le_rfl
    exact Nat.mul_le_mul_left _ (Nat.add_le_add_left (Nat.mul_le_mul_right _ (Nat.mul_le_mul_left _ hk)) _)

theorem pieces_linear {w b : Tensor ℝ} {I O : ℕ} (hw : w.shape = [O, I]) : ComputesPieces (fun x => linearForward w b x) I O [(0, 1)] := by
  have key : ComputesPieces (fun x => linearForward w b x) I O [(I * 0, 1)] := by
    refine .of_sum (κ := ∅) le_rfl (φ := fun o q v => (C (w.get [o, q]) * X).eval v) (a := fun o => b.get [o])
      (fun o q => .of_poly _ ((natDegree_C_mul_le _ _).trans natDegree_X_le)) fun B x hx _ => ?_
    unfold linearForward
    simp only [hx, hw, if_true]
    refine ⟨_, rfl, rfl, Tensor.wf_tabulate _ _, fun s hs o ho => ?_⟩
    rw [Tensor.get_tab2 hs ho, sumL_range]
    congr 1
    exact Finset.sum_congr rfl fun q _ => by rw [eval_mul, eval_C, eval_X, mul_comm]
  exact key

theorem pieces_relu (w : ℕ) : ComputesPieces (fun x => .ok (reluT x)) w w [(w, 1)] := by
  refine ⟨fun o v => if h : o < w then (if ltB (v ⟨o, h⟩) 0 then 0 else v ⟨o, h⟩) else 0, fun B x hx hwf => ⟨reluT x, rfl, hx, Tensor.wf_map hwf _, fun b hb o ho => ?_⟩, fun γ M D hp => ?_⟩
  · beta_reduce
    rw [dif_pos ho]
    unfold reluT
    rw [Tensor.get_map hwf (by rw [hx]; exact inShape2.2 ⟨hb, ho⟩)]
  · rw [pathBound_single]
    obtain ⟨T, hT, h⟩ := hp.link (κ := {0}) (m := 1) (fun (_ : Unit) _ v => if ltB v 0 then 0 else v) fun _ _ => polyBetween_relu
    rw [Finset.card_singleton, mul_one] at hT
    refine ⟨T, hT, fun U hU hUT i => ?_⟩
    obtain ⟨p, p1, p2⟩ := h U hU hUT () i
    exact ⟨p, p1, fun t ht => by beta_reduce; rw [dif_pos i.2]; exact p2 t ht⟩

theorem pieces_product {L : ProductLayer ℝ} {bias : Tensor ℝ} (hbias : L.bias = some bias) (hw : L.weight.shape = [L.outFeatures, L.inFeatures])
    (hp : L.periodicity = none) : ComputesPieces L.forward L.inFeatures L.outFeatures [(0, L.inFeatures)] := by
  have key : ComputesPieces L.forward L.inFeatures L.outFeatures [(L.inFeatures * 0, L.inFeatures * 1)] := by
    refine .of_prod (κ := ∅) le_rfl (φ := fun o q v => (C (L.weight.get [o, q]) * X).eval v) (1 - L.alpha) (a := fun o => -1 + bias.get [o])
      (fun o q => .of_poly _ ((natDegree_C_mul_le _ _).trans natDegree_X_le)) fun B x hx hwf => ?_
    refine ⟨_, L.forward_eq bias hbias hw hx hwf, rfl, Tensor.wf_tabulate _ _, fun s hs o ho => ?_⟩
    rw [Tensor.get_tab2 hs ho, sumL_range, prodL_range, hp]
    simp only [eval_mul, eval_C, eval_X, mul_comm, periodize]
    ring
  rwa [mul_one] at key

theorem pieces_lagrange {L : FnLayer ℝ} {n : ℕ} (hn : 0 < n) {length : ℝ} (hl : length ≠ 0) (hp : L.poly = lagrangePolyFlat n length)
    (hw : L.w.shape = [L.outFeatures, L.inFeatures, n]) (hper : L.periodicity = none) : ComputesPieces L.forward L.inFeatures L.outFeatures [(0, n - 1)] := by
  have key : ComputesPieces L.forward L.inFeatures L.outFeatures [(L.inFeatures * 0, n - 1)] := by
    refine .of_sum (κ := ∅) le_rfl (φ := fun o i v => (Lagrange.interpolate (Finset.range n) (fun j => length / 2 * node n j) fun k => L.w.get [o, i, k]).eval v) (a := fun _ => 0)
      (fun o i => .of_poly _ ?_) fun B x hx hwf => ?_
    · have hd := Lagrange.degree_interpolate_lt (s := Finset.range n) (v := fun j => length / 2 * node n j) (fun k => L.w.get [o, i, k]) (scaled_injOn n hl)
      rw [Finset.card_range] at hd
      by_cases hz : (Lagrange.interpolate (Finset.range n) (fun j => length / 2 * node n j) fun k => L.w.get [o, i, k]) = 0
      · rw [hz, natDegree_zero]
        exact Nat.zero_le _
      · exact Nat.le_sub_one_of_lt ((natDegree_lt_iff_degree_lt hz).2 hd)
    · refine ⟨_, L.forward_lagrange hn length hp hw hx hwf, rfl, Tensor.wf_tabulate _ _, fun s hs o ho => ?_⟩
      rw [Tensor.get_tab2 hs ho, hper]
      beta_reduce
      rw [add_zero]
      rfl
  exact key

/-- Sum layers add up their links, product layers multiply them. -/
def PwClass.isProd : PwClass → Bool
  | .continuous | .discontinuous => false
  | .continuousProd | .discontinuousProd => true

theorem pieces_pw {L : PwLayer ℝ} (h : L.WF) (hl : L.length = 2) (hp : L.periodicity = none) :
    ComputesPieces L.forward L.inFeatures L.outFeatures [(L.inFeatures * (L.segments - 1), (if L.cls.isProd then L.inFeatures else 1) * (L.n - 1))] := by
  have hφ : ∀ o i, PolyBetween (knots L.segments) (L.n - 1) (L.linkFn o i) := fun o i => .of_isPiecewise h.seg_pos (L.linkFn_isPiecewise h.seg_pos hl hp o i)
  have hF := L.computes h
  by_cases hc : L.cls.isProd
  · rw [if_pos hc]
    refine .of_prod (knots_card _) 0 (a := fun _ => -1) hφ (hF.congr fun o _ r => ?_)
    cases hcls : L.cls <;> simp only [hcls, PwClass.isProd, Bool.false_eq_true] at hc <;> simp only [PwClass.combine, zero_mul, sub_zero, add_comm (1 : ℝ), sub_eq_add_neg, neg_zero, add_zero]
  · rw [if_neg hc, one_mul]
    refine .of_sum (knots_card _) (a := fun _ => 0) hφ (hF.congr fun o _ r => ?_)
    cases hcls : L.cls <;> simp only [hcls, PwClass.isProd, not_true_eq_false] at hc <;> simp only [PwClass.combine, add_zero]

/-- How a layer cuts pieces and raises degrees: the pairs of `pathBound`. -/
def LeafKind.bends {K : Type} : LeafKind → FcArgs K → List (ℕ × ℕ)
  | .linear, _ => [(0, 1)]
  | .linearRelu, a => [(0, 1), (a.outFeatures, 1)]
  | .product, a => [(0, a.inFeatures)]
  | .pw cls, a => match a.n, a.segments with
    | .int n, some (.int s) => [(a.inFeatures * (s - 1), (if cls.isProd then a.inFeatures else 1) * (n - 1))]
    | _, _ => []
  | .polynomial, a => match a.n with
    | .int n => [(0, n - 1)]
    | _ => []
  | _, _ => []

/-- Every usable layer but `fourier`, without periodicity, trained or not. -/
theorem IsLayer.computesPieces {k : LeafKind} {a : FcArgs ℝ} (hu : Usable (.leaf k) a) (hk : k ≠ .fourier) (hper : a.periodicity = none)
    {h : Heap ℝ} (ho : h.Ordered) {j : ℕ} (hl : IsLayer (.leaf k) a h j) : ComputesPieces (h.forward j) a.inFeatures a.outFeatures (k.bends a) := by
  obtain ⟨rng, base, ms, e1, e2, e3⟩ := hl
  match k, hu with
  | .linear, _ =>
    cases e1
    have hj : j = base + 0 := by simpa using e2
    obtain ⟨m', f1, f2⟩ := e3 0 _ rfl
    rw [hj, Heap.forward_eq ho f1]
    cases f2 with
    | refl => exact pieces_linear rfl
    | linear w b w' b' hs hb => exact pieces_linear hs
  | .linearRelu, _ =>
    cases e1
    have hj : j = base + 1 := by simp at e2; omega
    obtain ⟨m', f1, f2⟩ := e3 0 _ rfl
    obtain ⟨m'', g1, g2⟩ := e3 1 _ rfl
    cases g2
    have hlin : ComputesPieces (h.forward base) a.inFeatures a.outFeatures [(0, 1)] := by
      rw [Heap.forward_eq ho (i := base) (by simpa using f1)]
      cases f2 with
      | refl => exact pieces_linear rfl
      | linear w b w' b' hs hb => exact pieces_linear hs
    rw [hj, Heap.forward_eq ho g1]
    have := hlin.cons (pieces_relu a.outFeatures).single
    exact this
  | .product, _ =>
    cases e1
    have hj : j = base + 0 := by simpa using e2
    obtain ⟨m', f1, f2⟩ := e3 0 _ rfl
    rw [hj, Heap.forward_eq ho f1]
    cases f2 with
    | refl => exact pieces_product rfl rfl hper
    | product L w b hs hb => exact pieces_product (bias := b) rfl hs hper
  | .pw cls, ⟨n, s, hn, hs, h1, h2, h3, h4⟩ =>
    have hb : LeafKind.bends (.pw cls) a = [(a.inFeatures * (s - 1), (if cls.isProd then a.inFeatures else 1) * (n - 1))] := by
      simp only [LeafKind.bends, hn, hs]
    simp only [fcMods, leafMods, hn, hs] at e1
    cases e1
    have hj : j = base + 0 := by simpa using e2
    obtain ⟨m', f1, f2⟩ := e3 0 _ rfl
    rw [hj, hb, Heap.forward_eq ho f1]
    have hwf := PwLayer.init_wf cls h1 h3 h4 h2 ((2 : ℕ) : ℝ) (rng base) 1 a.periodicity
    have e2 : ((2 : ℕ) : ℝ) = 2 := by norm_num
    cases f2 with
    | refl => exact pieces_pw hwf e2 hper
    | pw L w hs' hw => exact pieces_pw (hwf.withW hs' hw) e2 hper
  | .polynomial, ⟨n, hn, hpos⟩ =>
    have hb : LeafKind.bends .polynomial a = [(0, n - 1)] := by simp only [LeafKind.bends, hn]
    simp only [fcMods, leafMods, hn, polynomialInit, FnLayer.init] at e1
    rw [lagrangePolyFlat_numBasis hpos] at e1
    cases e1
    have hj : j = base + 0 := by simpa using e2
    obtain ⟨m', f1, f2⟩ := e3 0 _ rfl
    rw [hj, hb, Heap.forward_eq ho f1]
    have e2 : ((2 : ℕ) : ℝ) ≠ 0 := by norm_num
    cases f2 with
    | refl => exact pieces_lagrange hpos e2 rfl rfl hper
    | fn L w hs hw => exact pieces_lagrange hpos e2 rfl hs hper
  | .fourier, _ => exact absurd rfl hk

/-! ## networks -/

/-- The pairs of a whole `HighOrderMLP`: input layer, hidden layers and output layer, before each of the latter the nonlinearity if there is one. -/
def MLPArgs.bends {K : Type} (c : MLPArgs K) (kIn k : LeafKind) : List (ℕ × ℕ) :=
  let pre : List (ℕ × ℕ) := if c.nonLinearity.isSome then [(c.hiddenWidth, 1)] else []
  kIn.bends c.inputArgs ++ ((List.replicate c.hiddenLayers (pre ++ k.bends c.hiddenArgs)).flatten ++ (pre ++ k.bends c.outputArgs))

/-- **C98 (networks).** A `HighOrderMLP` of linear, piecewise, polynomial or product layers, without periodicity, normalization, dropout and `resnet`, with no nonlinearity or `relu`, takes — when it is built
and after any training — paths of polynomial pieces to paths of polynomial pieces, with the number of pieces and the degree bounded by the sizes of the network alone. -/
theorem C98_network (rng : Rng ℝ) {c : MLPArgs ℝ} {k kIn : LeafKind} (hk : fcTable.lookup c.layerType = some (.leaf k))
    (hki : fcTable.lookup (orStr c.layerTypeIn c.layerType) = some (.leaf kIn)) (hI : Usable (.leaf kIn) c.inputArgs)
    (hH : Usable (.leaf k) c.hiddenArgs) (hO : Usable (.leaf k) c.outputArgs) (hf : k ≠ .fourier) (hfi : kIn ≠ .fourier) (hper : c.periodicity = none)
    (hnorm : c.normalization = none) (hdrop : c.dropout ≤ 0) (hres : c.resnet = false) {h0 : Heap ℝ} (hord : h0.Ordered)
    (hnl : ∀ j ∈ c.nonLinearity, h0[j]? = some (.other fun x => .ok (reluT x))) :
    ∃ net h1, mlpInit rng c h0 = .ok (net, h1) ∧ ∀ h : Heap ℝ, h1.Later h → h.Ordered →
      ComputesPieces (h.forward net) c.inWidth c.outWidth (c.bends kIn k) := by
  obtain ⟨g, D, -, -, -, -, e1, -, -, hn⟩ := mlpInit_net rng hk hki hI hH hO hord hnl
  refine ⟨_, _, e1, fun h hl ho => ?_⟩
  have hn := hn.later hl
  rw [hn.forward_compose ho]
  have hd : ¬ (ltB 0 c.dropout = true) := by
    rw [ltB_real]
    simpa using hdrop
  have hpre : ComputesPieces (seqForward (preFns c (fun x => .ok (reluT x)))) c.hiddenWidth c.hiddenWidth (if c.nonLinearity.isSome then [(c.hiddenWidth, 1)] else []) := by
    unfold preFns
    rw [hnorm, if_neg hd]
    by_cases hs : c.nonLinearity.isSome
    · rw [if_pos hs, if_pos hs]
      exact (pieces_relu _).single
    · rw [if_neg hs, if_neg hs]
      exact .nil _
  refine .compose hpre (hn.inp.computesPieces hI hfi hper ho) (fun i hi => ?_) (hn.out.computesPieces hO hf hper ho)
  rw [MLPArgs.layId_eq g (Or.inl hres)]
  exact (hn.hid i hi).computesPieces hH hf hper ho

/-- The bound for uniform layers: a first pair, `H` times the same pair, a last pair. -/
theorem pathBound_uniform (c0 m0 c m c1 m1 H : ℕ) : pathBound ((c0, m0) :: (List.replicate H (c, m) ++ [(c1, m1)])) (1, 1)
    = ((1 + c0) * (∏ l ∈ Finset.range H, (1 + c * (m0 * m ^ l))) * (1 + c1 * (m0 * m ^ H)), m0 * m ^ H * m1) := by
  have key : ∀ H M D, pathBound (List.replicate H (c, m)) (M, D) = (M * ∏ l ∈ Finset.range H, (1 + c * (D * m ^ l)), D * m ^ H) := by
    intro H
    induction H with
    | zero => intro M D; simp [pathBound]
    | succ H ih =>
      intro M D
      rw [List.replicate_succ', pathBound_append, ih, pathBound_single, Finset.prod_range_succ, pow_succ]
      ext <;> simp only <;> ring
  show pathBound (List.replicate H (c, m) ++ [(c1, m1)]) (1 * (1 + c0 * 1), m0 * 1) = _
  rw [pathBound_append, key, pathBound_single]
  ext <;> simp only [mul_one, one_mul] <;> ring

theorem polyPath_line {w : ℕ} (a v : Fin w → ℝ) : PolyPath (fun t i => a i + t * v i) 1 1 :=
  ⟨∅, Nat.one_pos, fun U _ _ i => ⟨C (v i) * X + C (a i), by rw [natDegree_add_C]; exact (natDegree_C_mul_le _ _).trans natDegree_X_le,
    fun t _ => by rw [eval_add, eval_mul, eval_C, eval_X, eval_C]; ring⟩⟩

/-- The tensor with the single row `a + t v`. -/
noncomputable def lineRow {w : ℕ} (a v : Fin w → ℝ) (t : ℝ) : Tensor ℝ := ofMat fun (_ : Fin 1) i => a i + t * v i

theorem Spec.ComputesPieces.line {fwd : Fwd ℝ} {I O : ℕ} {bs : List (ℕ × ℕ)} (h : ComputesPieces fwd I O bs) (a v : Fin I → ℝ) :
    ∃ y : ℝ → Fin O → ℝ, (∀ t, fwd (lineRow a v t) = .ok (ofMat fun (_ : Fin 1) o => y t o)) ∧ PolyPath y (pathBound bs (1, 1)).1 (pathBound bs (1, 1)).2 := by
  obtain ⟨F, hA, hF⟩ := h
  refine ⟨_, fun t => ?_, hF _ 1 1 (polyPath_line a v)⟩
  obtain ⟨out, h1, h2, h3, h4⟩ := hA 1 (lineRow a v t) rfl (ofMat_wf _)
  rw [h1, eq_ofMat h2 h3]
  congr 2
  funext b o
  have hb : b = 0 := Subsingleton.elim b 0
  subst hb
  have h4' := h4 0 Nat.one_pos o o.2
  refine Eq.trans h4' (congrArg (F o) ?_)
  funext i
  exact ofMat_get (fun (_ : Fin 1) i => a i + t * v i) 0 i

/-- **C98 (piecewise networks on a line).** Without nonlinearity, for the sum layers `continuous` and `discontinuous` with `n` nodes and `s` segments (possibly different ones for input, hidden and output
layers): on every straight line of inputs every output is piecewise polynomial of degree at most `(n-1)^layers`, and each layer can multiply the number of pieces at most by
`1 + inputs (s-1) (degree of its input)`. -/
theorem C98_piecewise_line (rng : Rng ℝ) {c : MLPArgs ℝ} {cls clsIn : PwClass} (hk : fcTable.lookup c.layerType = some (.leaf (.pw cls)))
    (hki : fcTable.lookup (orStr c.layerTypeIn c.layerType) = some (.leaf (.pw clsIn))) (hcls : cls = .continuous ∨ cls = .discontinuous) (hclsi : clsIn = .continuous ∨ clsIn = .discontinuous)
    {ni si nh sh no so : ℕ} (hni : c.inputArgs.n = .int ni) (hsi : c.inSegments = some (.int si)) (hnh : c.hiddenArgs.n = .int nh) (hsh : c.hiddenSegments = some (.int sh))
    (hno : c.outputArgs.n = .int no) (hso : c.outSegments = some (.int so)) (hpos : 0 < ni ∧ 0 < si ∧ 0 < nh ∧ 0 < sh ∧ 0 < no ∧ 0 < so)
    (hw : 0 < c.inWidth ∧ 0 < c.hiddenWidth ∧ 0 < c.outWidth) (hper : c.periodicity = none) (hnorm : c.normalization = none) (hdrop : c.dropout ≤ 0) (hres : c.resnet = false)
    (hnl : c.nonLinearity = none) {h0 : Heap ℝ} (hord : h0.Ordered) :
    ∃ net h1, mlpInit rng c h0 = .ok (net, h1) ∧ ∀ h : Heap ℝ, h1.Later h → h.Ordered → ∀ a v : Fin c.inWidth → ℝ,
      ∃ y : ℝ → Fin c.outWidth → ℝ, (∀ t, h.forward net (lineRow a v t) = .ok (ofMat fun (_ : Fin 1) o => y t o)) ∧
        PolyPath y ((1 + c.inWidth * (si - 1)) * (∏ l ∈ Finset.range c.hiddenLayers, (1 + c.hiddenWidth * (sh - 1) * ((ni - 1) * (nh - 1) ^ l)))
          * (1 + c.hiddenWidth * (so - 1) * ((ni - 1) * (nh - 1) ^ c.hiddenLayers))) ((ni - 1) * (nh - 1) ^ c.hiddenLayers * (no - 1)) := by
  obtain ⟨p1, p2, p3, p4, p5, p6⟩ := hpos
  obtain ⟨w1, w2, w3⟩ := hw
  obtain ⟨net, h1, e, hall⟩ := C98_network rng hk hki ⟨ni, si, hni, hsi, p1, p2, w1, w2⟩ ⟨nh, sh, hnh, hsh, p3, p4, w2, w2⟩ ⟨no, so, hno, hso, p5, p6, w2, w3⟩
    (by simp) (by simp) hper hnorm hdrop hres hord (by rw [hnl]; intro j hj; cases hj)
  refine ⟨net, h1, e, fun h hl ho a v => ?_⟩
  have key := (hall h hl ho).line a v
  have hp : ∀ {d : PwClass}, (d = .continuous ∨ d = .discontinuous) → d.isProd = false := by
    rintro d (rfl | rfl) <;> rfl
  have hb : c.bends (.pw clsIn) (.pw cls) = (c.inWidth * (si - 1), ni - 1) :: (List.replicate c.hiddenLayers (c.hiddenWidth * (sh - 1), nh - 1) ++ [(c.hiddenWidth * (so - 1), no - 1)]) := by
    have hsi' : c.inputArgs.segments = some (.int si) := hsi
    have hsh' : c.hiddenArgs.segments = some (.int sh) := hsh
    have hso' : c.outputArgs.segments = some (.int so) := hso
    have b1 : LeafKind.bends (.pw clsIn) c.inputArgs = [(c.inWidth * (si - 1), ni - 1)] := by
      simp only [LeafKind.bends, hni, hsi', hp hclsi, Bool.false_eq_true, if_false, one_mul]
      rfl
    have b2 : LeafKind.bends (.pw cls) c.hiddenArgs = [(c.hiddenWidth * (sh - 1), nh - 1)] := by
      simp only [LeafKind.bends, hnh, hsh', hp hcls, Bool.false_eq_true, if_false, one_mul]
      rfl
    have b3 : LeafKind.bends (.pw cls) c.outputArgs = [(c.hiddenWidth * (so - 1), no - 1)] := by
      simp only [LeafKind.bends, hno, hso', hp hcls, Bool.false_eq_true, if_false, one_mul]
      rfl
    unfold MLPArgs.bends
    rw [hnl, b1, b2, b3]
    simp only [Option.isSome_none, Bool.false_eq_true, if_false, List.nil_append, List.singleton_append]
    congr 2
    generalize c.hiddenLayers = H
    induction H with
    | zero => rfl
    | succ H ih => rw [List.replicate_succ, List.flatten_cons, ih]; rfl
  rw [hb, pathBound_uniform] at key
  exact key

/-- **C98 (polynomial networks).** A network of `polynomial` layers computes on every straight line one polynomial, of degree at most `(n-1)^layers`. -/
theorem C98_polynomial_line (rng : Rng ℝ) {c : MLPArgs ℝ} (hk : fcTable.lookup c.layerType = some (.leaf .polynomial))
    (hki : fcTable.lookup (orStr c.layerTypeIn c.layerType) = some (.leaf .polynomial))
    {ni nh no : ℕ} (hni : c.inputArgs.n = .int ni) (hnh : c.hiddenArgs.n = .int nh) (hno : c.outputArgs.n = .int no) (hpos : 0 < ni ∧ 0 < nh ∧ 0 < no)
    (hper : c.periodicity = none) (hnorm : c.normalization = none) (hdrop : c.dropout ≤ 0) (hres : c.resnet = false) (hnl : c.nonLinearity = none) {h0 : Heap ℝ} (hord : h0.Ordered) :
    ∃ net h1, mlpInit rng c h0 = .ok (net, h1) ∧ ∀ h : Heap ℝ, h1.Later h → h.Ordered → ∀ a v : Fin c.inWidth → ℝ,
      ∃ p : Fin c.outWidth → ℝ[X], (∀ o, (p o).natDegree ≤ (ni - 1) * (nh - 1) ^ c.hiddenLayers * (no - 1)) ∧
        ∀ t, h.forward net (lineRow a v t) = .ok (ofMat fun (_ : Fin 1) o => (p o).eval t) := by
  obtain ⟨p1, p2, p3⟩ := hpos
  obtain ⟨net, h1, e, hall⟩ := C98_network rng hk hki ⟨ni, hni, p1⟩ ⟨nh, hnh, p2⟩ ⟨no, hno, p3⟩ (by simp) (by simp) hper hnorm hdrop hres hord (by rw [hnl]; intro j hj; cases hj)
  refine ⟨net, h1, e, fun h hl ho a v => ?_⟩
  obtain ⟨y, hy, hP⟩ := (hall h hl ho).line a v
  have hb : c.bends .polynomial .polynomial = (0, ni - 1) :: (List.replicate c.hiddenLayers (0, nh - 1) ++ [(0, no - 1)]) := by
    unfold MLPArgs.bends
    rw [hnl]
    simp only [LeafKind.bends, hni, hnh, hno, Option.isSome_none, Bool.false_eq_true, if_false, List.nil_append, List.singleton_append]
    congr 2
    generalize c.hiddenLayers = H
    induction H with
    | zero => rfl
    | succ H ih => rw [List.replicate_succ, List.flatten_cons, ih]; rfl
  rw [hb, pathBound_uniform] at hP
  simp only [zero_mul, add_zero, Finset.prod_const_one, mul_one] at hP
  obtain ⟨T, hT, hp⟩ := hP
  obtain rfl : T = ∅ := Finset.card_eq_zero.1 (by omega)
  choose p q1 q2 using hp Set.univ Set.ordConnected_univ (fun _ _ => Finset.notMem_empty _)
  refine ⟨p, q1, fun t => ?_⟩
  rw [hy t]
  congr 2
  funext _ o
  exact q2 o t trivial

/-- **C98 (two nodes).** With `n = 2` a network of `polynomial` layers of any depth is an affine function: on every line the output moves proportionally. -/
theorem C98_two_nodes_affine (rng : Rng ℝ) {c : MLPArgs ℝ} (hk : fcTable.lookup c.layerType = some (.leaf .polynomial))
    (hki : fcTable.lookup (orStr c.layerTypeIn c.layerType) = some (.leaf .polynomial))
    (hni : c.inputArgs.n = .int 2) (hnh : c.hiddenArgs.n = .int 2) (hno : c.outputArgs.n = .int 2)
    (hper : c.periodicity = none) (hnorm : c.normalization = none) (hdrop : c.dropout ≤ 0) (hres : c.resnet = false) (hnl : c.nonLinearity = none) {h0 : Heap ℝ} (hord : h0.Ordered) :
    ∃ net h1, mlpInit rng c h0 = .ok (net, h1) ∧ ∀ h : Heap ℝ, h1.Later h → h.Ordered → ∀ a v : Fin c.inWidth → ℝ,
      ∃ y0 y1 : Fin c.outWidth → ℝ, ∀ t, h.forward net (lineRow a v t) = .ok (ofMat fun (_ : Fin 1) o => (1 - t) * y0 o + t * y1 o) := by
  obtain ⟨net, h1, e, hall⟩ := C98_polynomial_line rng hk hki hni hnh hno ⟨by norm_num, by norm_num, by norm_num⟩ hper hnorm hdrop hres hnl hord
  refine ⟨net, h1, e, fun h hl ho a v => ?_⟩
  obtain ⟨p, p1, p2⟩ := hall h hl ho a v
  refine ⟨fun o => (p o).eval 0, fun o => (p o).eval 1, fun t => ?_⟩
  rw [p2 t]
  congr 2
  funext _ o
  have hd : (p o).natDegree ≤ 1 := (p1 o).trans (by simp)
  obtain ⟨u, u', hu⟩ : ∃ u u', p o = C u * X + C u' := ⟨_, _, eq_X_add_C_of_natDegree_le_one hd⟩
  beta_reduce
  rw [hu]
  simp only [eval_add, eval_mul, eval_C, eval_X]
  ring

/-! ## oscillation -/

/-- **C98 (oscillation).** On a path of at most `M` pieces of degree at most `D`, a coordinate cannot change from one side of a value to the other between consecutive points more than `2 (M - 1) + M D` times. -/
theorem C98_oscillation {w M D : ℕ} {γ : ℝ → Fin w → ℝ} (h : PolyPath γ M D) (i : Fin w) (y : ℝ) {K : ℕ} {t : ℕ → ℝ} (ht : ∀ k < K, t k < t (k + 1))
    (hs : ∀ k < K, (γ (t k) i - y) * (γ (t (k + 1)) i - y) < 0) : K ≤ 2 * (M - 1) + M * D := by
  classical
  obtain ⟨T, hT, hp⟩ := h
  have hmono : ∀ j k, j ≤ k → k ≤ K → t j ≤ t k := by
    intro j k hjk
    induction k, hjk using Nat.le_induction with
    | base => intro _; exact le_rfl
    | succ k hk ih => intro hK; exact (ih (by omega)).trans (ht k (by omega)).le
  choose P hd hP using fun k => hp (piece T k) (piece_ordConnected T k) fun t ht => ht.1
  let R : Finset ℝ := (Finset.range (T.card + 1)).biUnion fun k => (P k i - C y).roots.toFinset
  have hR : R.card ≤ (T.card + 1) * D := by
    refine (Finset.card_biUnion_le_card_mul _ _ _ fun k _ => ?_).trans_eq (by rw [Finset.card_range])
    refine (Multiset.toFinset_card_le _).trans ((card_roots' _).trans ?_)
    rw [natDegree_sub_C]
    exact hd k i
  -- the three kinds of gaps
  let A : Finset ℕ := (Finset.range K).filter fun k => ∃ τ ∈ T, t k ≤ τ ∧ τ < t (k + 1)
  let A' : Finset ℕ := (Finset.range K).filter fun k => ∃ τ ∈ T, t k < τ ∧ τ ≤ t (k + 1)
  let B : Finset ℕ := (Finset.range K).filter fun k => ∃ τ ∈ R, t k < τ ∧ τ < t (k + 1)
  have count : ∀ (S : Finset ℕ) (Q : Finset ℝ) (r : ℕ → ℝ → Prop), S ⊆ Finset.range K → (∀ k ∈ S, ∃ τ ∈ Q, r k τ) →
      (∀ k < K, ∀ τ, r k τ → t k ≤ τ ∧ τ ≤ t (k + 1)) → (∀ k j τ, k < K → j < K → k < j → r k τ → r j τ → False) → S.card ≤ Q.card := by
    intro S Q r hS hex hr hdisj
    choose! f hf1 hf2 using hex
    refine Finset.card_le_card_of_injOn f (fun k hk => hf1 k hk) fun k hk j hj hkj => ?_
    have hk' := Finset.mem_range.1 (hS hk)
    have hj' := Finset.mem_range.1 (hS hj)
    rcases lt_trichotomy k j with hlt | heq | hlt
    · exact (hdisj k j (f k) hk' hj' hlt (hf2 k hk) (by rw [hkj]; exact hf2 j hj)).elim
    · exact heq
    · exact (hdisj j k (f j) hj' hk' hlt (hf2 j hj) (by rw [← hkj]; exact hf2 k hk)).elim
  have cA : A.card ≤ T.card := count A T (fun k τ => t k ≤ τ ∧ τ < t (k + 1)) (Finset.filter_subset _ _) (fun k hk => (Finset.mem_filter.1 hk).2)
    (fun k _ τ h => ⟨h.1, h.2.le⟩) fun k j τ hk hj hkj h1 h2 => absurd (h1.2.trans_le ((hmono (k + 1) j hkj hj.le).trans h2.1)) (lt_irrefl _)
  have cA' : A'.card ≤ T.card := count A' T (fun k τ => t k < τ ∧ τ ≤ t (k + 1)) (Finset.filter_subset _ _) (fun k hk => (Finset.mem_filter.1 hk).2)
    (fun k _ τ h => ⟨h.1.le, h.2⟩) fun k j τ hk hj hkj h1 h2 => absurd ((h1.2.trans (hmono (k + 1) j hkj hj.le)).trans_lt h2.1) (lt_irrefl _)
  have cB : B.card ≤ R.card := count B R (fun k τ => t k < τ ∧ τ < t (k + 1)) (Finset.filter_subset _ _) (fun k hk => (Finset.mem_filter.1 hk).2)
    (fun k _ τ h => ⟨h.1.le, h.2.le⟩) fun k j τ hk hj hkj h1 h2 => absurd ((h1.2.trans_le (hmono (k + 1) j hkj hj.le)).trans h2.1) (lt_irrefl _)
  have cover : Finset.range K ⊆ A ∪ A' ∪ B := by
    intro k hk
    have hkK := Finset.mem_range.1 hk
    by_cases hA : ∃ τ ∈ T, t k ≤ τ ∧ τ < t (k + 1)
    · exact Finset.mem_union_left _ (Finset.mem_union_left _ (Finset.mem_filter.2 ⟨hk, hA⟩))
    by_cases hA' : ∃ τ ∈ T, t k < τ ∧ τ ≤ t (k + 1)
    · exact Finset.mem_union_left _ (Finset.mem_union_right _ (Finset.mem_filter.2 ⟨hk, hA'⟩))
    refine Finset.mem_union_right _ (Finset.mem_filter.2 ⟨hk, ?_⟩)
    have hfree : ∀ τ ∈ Set.Icc (t k) (t (k + 1)), τ ∉ T := by
      intro τ hτ hτT
      rcases hτ.2.lt_or_eq with h | h
      · exact hA ⟨τ, hτT, hτ.1, h⟩
      · exact hA' ⟨τ, hτT, by rw [h]; exact ht k hkK, h.le⟩
    have hsub := subset_piece (Set.ordConnected_Icc) hfree (Set.left_mem_Icc.2 (ht k hkK).le)
    set q := P (pieceRank T (t k)) i with hq
    have e1 : γ (t k) i = q.eval (t k) := hP _ i _ (hsub (Set.left_mem_Icc.2 (ht k hkK).le))
    have e2 : γ (t (k + 1)) i = q.eval (t (k + 1)) := hP _ i _ (hsub (Set.right_mem_Icc.2 (ht k hkK).le))
    have hsk := hs k hkK
    rw [e1, e2] at hsk
    obtain ⟨τ, hτ, hτ0⟩ : ∃ τ ∈ Set.Ioo (t k) (t (k + 1)), q.eval τ = y := by
      have hc : ContinuousOn (fun x => q.eval x) (Set.Icc (t k) (t (k + 1))) := q.continuous.continuousOn
      rcases mul_neg_iff.1 hsk with ⟨h1, h2⟩ | ⟨h1, h2⟩
      · exact intermediate_value_Ioo' (ht k hkK).le hc ⟨sub_neg.1 h2, sub_pos.1 h1⟩
      · exact intermediate_value_Ioo (ht k hkK).le hc ⟨sub_neg.1 h1, sub_pos.1 h2⟩
    refine ⟨τ, Finset.mem_biUnion.2 ⟨pieceRank T (t k), Finset.mem_range.2 (Nat.lt_succ_of_le (pieceRank_le _ _)), ?_⟩, hτ⟩
    rw [Multiset.mem_toFinset, mem_roots, IsRoot, eval_sub, eval_C, ← hq, hτ0, sub_self]
    rw [← hq]
    intro h0
    rw [sub_eq_zero.1 h0] at hsk
    simp at hsk
  have := (Finset.card_le_card cover).trans ((Finset.card_union_le _ _).trans (Nat.add_le_add_right (Finset.card_union_le _ _) _))
  rw [Finset.card_range] at this
  have hM : (T.card + 1) * D ≤ M * D := Nat.mul_le_mul_right _ hT
  omega

/-! ## depth -/

/-- One input, one output, two segments, values -1, 1, -1. -/
noncomputable def tentLayer : PwLayer ℝ := lineLayer 2 fun r => if r = 1 then 1 else -1

theorem tentLayer_forward (x : ℝ) : tentLayer.forward (ofMat fun (_ _ : Fin 1) => x) = .ok (ofMat fun (_ _ : Fin 1) => 1 - 2 * |x|) := by
  have hwf : tentLayer.WF := lineLayer_wf (by norm_num) _
  have hl := tentLayer.linkFn_isPiecewise hwf.seg_pos rfl rfl 0 0
  have hlink : tentLayer.linkFn 0 0 x = 1 - 2 * |x| := by
    have w0 : tentLayer.w.get [0, 0, 0] = -1 := by
      show (Tensor.tab3 1 1 3 _).get [0, 0, 0] = _
      rw [Tensor.get_tab3 (by norm_num) (by norm_num) (by norm_num)]
      norm_num
    have w1 : tentLayer.w.get [0, 0, 1] = 1 := by
      show (Tensor.tab3 1 1 3 _).get [0, 0, 1] = _
      rw [Tensor.get_tab3 (by norm_num) (by norm_num) (by norm_num)]
      norm_num
    have w2 : tentLayer.w.get [0, 0, 2] = -1 := by
      show (Tensor.tab3 1 1 3 _).get [0, 0, 2] = _
      rw [Tensor.get_tab3 (by norm_num) (by norm_num) (by norm_num)]
      norm_num
    have hst : tentLayer.stride = 1 := rfl
    rcases lt_or_ge x 0 with h | h
    · rw [hl 0 x ⟨by show 0 < 2; norm_num, Or.inl rfl, Or.inr (by show x < segLeft 2 1; unfold segLeft; norm_num; exact h)⟩]
      show (linkPoly 2 fun k => tentLayer.w.get [0, 0, 0 * tentLayer.stride + k]).eval (localCoord 2 0 x) = _
      rw [linkPoly_two_eval, hst]
      show tentLayer.w.get [0, 0, 0] + (tentLayer.w.get [0, 0, 1] - tentLayer.w.get [0, 0, 0]) * _ = _
      rw [w0, w1, abs_of_neg h]
      unfold localCoord
      push_cast
      ring
    · rw [hl 1 x ⟨by show 1 < 2; norm_num, Or.inr (by show segLeft 2 1 ≤ x; unfold segLeft; norm_num; exact h), Or.inl rfl⟩]
      show (linkPoly 2 fun k => tentLayer.w.get [0, 0, 1 * tentLayer.stride + k]).eval (localCoord 2 1 x) = _
      rw [linkPoly_two_eval, hst]
      show tentLayer.w.get [0, 0, 1] + (tentLayer.w.get [0, 0, 2] - tentLayer.w.get [0, 0, 1]) * _ = _
      rw [w1, w2, abs_of_nonneg h]
      unfold localCoord
      push_cast
      ring
  rw [tentLayer.forward_sum hwf (Or.inl rfl) (x := ofMat fun (_ _ : Fin 1) => x) (B := 1) rfl (ofMat_wf _)]
  show Except.ok (Tensor.tab2 1 1 _) = _
  rw [tab2_ofMat]
  congr 2
  funext b o
  have hb : b = 0 := Subsingleton.elim b 0
  have ho : o = 0 := Subsingleton.elim o 0
  subst hb ho
  show ∑ i ∈ Finset.range 1, tentLayer.linkFn 0 i ((ofMat fun (_ _ : Fin 1) => x).get [0, i]) = _
  rw [Finset.sum_range_one]
  have := ofMat_get (fun (_ _ : Fin 1) => x) 0 0
  change (ofMat fun (_ _ : Fin 1) => x).get [0, 0] = x at this
  rw [this, hlink]

/-- **C98 (depth).** `d` layers of one input, one output and two linear segments can alternate between -1 and 1 on `2^d + 1` equally spaced points, that is `2^d` times. -/
theorem C98_depth (d j : ℕ) (hj : j ≤ 2 ^ d) :
    seqForward (List.replicate d tentLayer.forward) (ofMat fun (_ _ : Fin 1) => -1 + 2 * (j : ℝ) / 2 ^ d) = .ok (ofMat fun (_ _ : Fin 1) => if j % 2 = 0 then -1 else 1) := by
  induction d generalizing j with
  | zero =>
    show Except.ok _ = _
    have : j = 0 ∨ j = 1 := by simp at hj; omega
    rcases this with rfl | rfl <;> norm_num
  | succ d ih =>
    show (tentLayer.forward _ >>= seqForward (List.replicate d tentLayer.forward)) = _
    rw [tentLayer_forward]
    have h2 : (0 : ℝ) < 2 ^ d := by positivity
    have hpow : 2 ^ (d + 1) = 2 * 2 ^ d := by rw [pow_succ, mul_comm]
    obtain ⟨j', hj', hpar, hval⟩ : ∃ j' ≤ 2 ^ d, j' % 2 = j % 2 ∧ (1 : ℝ) - 2 * |-1 + 2 * (j : ℝ) / 2 ^ (d + 1)| = -1 + 2 * (j' : ℝ) / 2 ^ d := by
      have e : (2 : ℝ) * (j : ℝ) / 2 ^ (d + 1) = j / 2 ^ d := by
        rw [pow_succ]
        field_simp
      rw [e]
      rcases le_total j (2 ^ d) with h | h
      · refine ⟨j, h, rfl, ?_⟩
        have h' : (j : ℝ) ≤ 2 ^ d := by exact_mod_cast h
        rw [abs_of_nonpos (by rw [neg_add_nonpos_iff, div_le_one h2]; exact h')]
        ring
      · refine ⟨2 ^ (d + 1) - j, by omega, by omega, ?_⟩
        have h' : (2 ^ d : ℝ) ≤ j := by exact_mod_cast h
        rw [abs_of_nonneg (by rw [le_neg_add_iff_add_le, add_zero, one_le_div h2]; exact h'), Nat.cast_sub hj]
        push_cast
        rw [pow_succ]
        field_simp
        ring
    rw [hval, ← hpar]
    exact ih j' hj'

/-- **C98 (one layer instead).** A single sum layer of one input with the same signs on these points needs `segments (n + 1) ≥ 2^d + 2`. -/
theorem C98_single_layer_needs_segments (L : PwLayer ℝ) (h : L.WF) (hc : L.cls = .continuous ∨ L.cls = .discontinuous) (hl : L.length = 2) (hp : L.periodicity = none)
    (hI : L.inFeatures = 1) {o : ℕ} (ho : o < L.outFeatures) (d : ℕ)
    (hs : ∀ j : ℕ, j ≤ 2 ^ d → ∃ out, L.forward (ofMat fun (_ _ : Fin 1) => -1 + 2 * (j : ℝ) / 2 ^ d) = .ok out ∧ (if j % 2 = 0 then out.get [0, o] < 0 else 0 < out.get [0, o])) :
    2 ^ d + 2 ≤ L.segments * (L.n + 1) := by
  have hpieces := pieces_pw h hl hp
  have hprod : L.cls.isProd = false := by rcases hc with hc | hc <;> rw [hc] <;> rfl
  rw [hprod, if_neg (by simp), one_mul, hI, one_mul] at hpieces
  obtain ⟨y, hy, hP⟩ := hpieces.line (fun _ => 0) fun _ => 1
  rw [pathBound_single] at hP
  simp only [one_mul, mul_one] at hP
  have hrow : ∀ t : ℝ, lineRow (w := 1) (fun _ => 0) (fun _ => 1) t = ofMat fun (_ _ : Fin 1) => t := fun t => by
    unfold lineRow
    congr 1
    funext _ _
    ring
  have hval : ∀ j : ℕ, j ≤ 2 ^ d → if j % 2 = 0 then y (-1 + 2 * (j : ℝ) / 2 ^ d) ⟨o, ho⟩ < 0 else 0 < y (-1 + 2 * (j : ℝ) / 2 ^ d) ⟨o, ho⟩ := by
    intro j hj
    obtain ⟨out, h1, h2⟩ := hs j hj
    have h3 := hy (-1 + 2 * (j : ℝ) / 2 ^ d)
    rw [hrow, h1] at h3
    have h4 := Except.ok.inj h3
    have h5 := ofMat_get (fun (_ : Fin 1) (o : Fin L.outFeatures) => y (-1 + 2 * (j : ℝ) / 2 ^ d) o) 0 ⟨o, ho⟩
    rw [← h4] at h5
    change out.get [0, o] = _ at h5
    rw [h5] at h2
    exact h2
  have key := C98_oscillation hP ⟨o, ho⟩ 0 (K := 2 ^ d) (t := fun j => -1 + 2 * (j : ℝ) / 2 ^ d) (fun k _ => by
      have h2 : (0 : ℝ) < 2 ^ d := by positivity
      push_cast
      have : 2 * (k : ℝ) / 2 ^ d < 2 * ((k : ℝ) + 1) / 2 ^ d := div_lt_div_of_pos_right (by linarith) h2
      linarith) fun k hk => by
      have a := hval k hk.le
      have b := hval (k + 1) hk
      rw [sub_zero, sub_zero]
      rcases Nat.mod_two_eq_zero_or_one k with e | e
      · rw [if_pos e] at a
        rw [if_neg (by omega)] at b
        exact mul_neg_of_neg_of_pos a b
      · rw [if_neg (by omega)] at a
        rw [if_pos (by omega)] at b
        exact mul_neg_of_pos_of_neg a b
  obtain ⟨S, hS⟩ : ∃ S, L.segments = S + 1 := ⟨L.segments - 1, by have := h.seg_pos; omega⟩
  obtain ⟨n, hn⟩ : ∃ n, L.n = n + 1 := ⟨L.n - 1, by have := h.n_pos; omega⟩
  rw [hS, hn] at key ⊢
  simp only [Nat.add_sub_cancel] at key
  have e1 : (S + 1) * (n + 1 + 1) = (1 + S) * n + 2 * (S + 1) := by ring
  have e2 : 1 + S - 1 = S := by omega
  rw [e2] at key
  omega

/-! ## examples -/

/-- The network of examples with two inputs, two hidden layers of width three, discontinuous quadratics on two segments: on every line at most `3·7·13·25` pieces of degree at most 16. -/
example (rng : Rng ℝ) : ∃ net h1, mlpInit rng (exNet "discontinuous" 3 2) [] = .ok (net, h1) ∧ ∀ h : Heap ℝ, h1.Later h → h.Ordered → ∀ a v : Fin 2 → ℝ,
    ∃ y : ℝ → Fin 1 → ℝ, (∀ t, h.forward net (lineRow a v t) = .ok (ofMat fun (_ : Fin 1) o => y t o)) ∧ PolyPath y (3 * (7 * 13) * 25) 16 := by
  obtain ⟨net, h1, e, hall⟩ := C98_piecewise_line rng (c := exNet "discontinuous" 3 2) (cls := .discontinuous) (clsIn := .discontinuous)
    (by show List.lookup "discontinuous" _ = _; decide) (by show List.lookup "discontinuous" _ = _; decide) (Or.inr rfl) (Or.inr rfl) rfl rfl rfl rfl rfl rfl
    (by norm_num) ⟨by norm_num [exNet], by norm_num [exNet], by norm_num [exNet]⟩ rfl rfl le_rfl rfl rfl ordered_nil
  refine ⟨net, h1, e, fun h hl ho a v => ?_⟩
  obtain ⟨y, hy, hP⟩ := hall h hl ho a v
  refine ⟨y, hy, hP.mono ?_ ?_⟩ <;> simp [exNet, Finset.prod_range_succ]

/-- With `n = 2` polynomial layers make a linear function. -/
example (rng : Rng ℝ) : ∃ net h1, mlpInit rng (exNet "polynomial" 2 1) [] = .ok (net, h1) ∧ ∀ h : Heap ℝ, h1.Later h → h.Ordered → ∀ a v : Fin 2 → ℝ,
    ∃ y0 y1 : Fin 1 → ℝ, ∀ t, h.forward net (lineRow a v t) = .ok (ofMat fun (_ : Fin 1) o => (1 - t) * y0 o + t * y1 o) :=
  C98_two_nodes_affine rng (c := exNet "polynomial" 2 1) (by show List.lookup "polynomial" _ = _; decide) (by show List.lookup "polynomial" _ = _; decide)
    rfl rfl rfl rfl rfl le_rfl rfl rfl ordered_nil

/-- Three tents: the output at `-1, -3/4, ..., 1` is `-1, 1, -1, 1, ...`. -/
example : seqForward [tentLayer.forward, tentLayer.forward, tentLayer.forward] (ofMat fun (_ _ : Fin 1) => -1 + 2 * ((5 : ℕ) : ℝ) / 2 ^ 3) = .ok (ofMat fun (_ _ : Fin 1) => (1 : ℝ)) :=
  C98_depth 3 5 (by norm_num)

/-- The tent itself (`d = 1`) meets the hypotheses of the single layer theorem: `2 · (2 + 1) ≥ 2^1 + 2`. -/
example : 2 ^ 1 + 2 ≤ tentLayer.segments * (tentLayer.n + 1) :=
  C98_single_layer_needs_segments tentLayer (lineLayer_wf (by norm_num) _) (Or.inl rfl) rfl rfl rfl (o := 0) (by show 0 < 1; norm_num) 1 fun j hj => by
    have h := C98_depth 1 j hj
    have e : ∀ x, seqForward (List.replicate 1 tentLayer.forward) x = tentLayer.forward x := fun x => by
      show (tentLayer.forward x >>= fun y => Except.ok y) = _
      cases tentLayer.forward x <;> rfl
    rw [e] at h
    refine ⟨_, h, ?_⟩
    have hg := ofMat_get (fun (_ _ : Fin 1) => if j % 2 = 0 then (-1 : ℝ) else 1) 0 0
    change (ofMat _).get [0, 0] = _ at hg
    rw [hg]
    split <;> norm_num

end HOL
