import Verif.Props.SharedGradient
import Verif.Lemmas.RefineExample

/-! # C122: the gradients of `HighOrderMLP` with `resnet` and with switch layers -/

namespace HOL
open TorchScalar Spec

/-- The modules of a heap that have parameters. -/
def Heap.store {K : Type} (h : Heap K) (j : ℕ) : GLayer K :=
  match h[j]? with
  | some (.pw L) => .pw L
  | some (.fn L) => .fn L
  | some (.product L) => .product L
  | some (.linear w b) => .linear w b
  | _ => .relu

/-- What a fully connected module computes from the modules it refers to. -/
def Heap.expr {K : Type} (h : Heap K) (j : ℕ) : GExpr K :=
  match h[j]? with
  | some (.linearRelu f) => .comp (.leaf f) (.fixed (.base (.dense .relu)))
  | some (.switch _ [a, b] none) => .mul (.leaf a) (.leaf b)
  | _ => .leaf j

/-- `e`, then the others in order. -/
def GExpr.chain {K : Type} (e : GExpr K) (es : List (GExpr K)) : GExpr K := es.foldl .comp e

theorem GExpr.chain_forward {K : Type} [TorchScalar K] (σ : ℕ → GLayer K) (es : List (GExpr K)) : ∀ e : GExpr K,
    (e.chain es).forward σ = seqForward (e.forward σ :: es.map (forward σ)) := by
  induction es with
  | nil =>
    intro e
    funext x
    show e.forward σ x = (e.forward σ x >>= fun y => Except.ok y)
    cases e.forward σ x <;> rfl
  | cons e' es ih =>
    intro e
    funext x
    show (((e.comp e').chain es).forward σ) x = (e.forward σ x >>= fun y => e'.forward σ y >>= seqForward (es.map (forward σ)))
    rw [ih]
    show ((e.forward σ x >>= e'.forward σ) >>= seqForward (es.map (forward σ))) = _
    cases e.forward σ x <;> rfl

/-- The shapes of a chain match. -/
theorem GExpr.chain_takes {σ : ℕ → GLayer ℝ} {S M T : List ℕ} {es : List (GExpr ℝ)} : ∀ {e : GExpr ℝ}, e.Takes σ S M →
    (match es.getLast? with | none => M = T | some l => l.Takes σ M T) → (∀ f ∈ es.dropLast, f.Takes σ M M) → (e.chain es).Takes σ S T := by
  induction es with
  | nil =>
    intro e he hl _
    obtain rfl : M = T := hl
    exact he
  | cons e' es ih =>
    intro e he hl hd
    cases es with
    | nil => exact ⟨M, he, hl⟩
    | cons e'' es =>
      exact ih (e := e.comp e') ⟨M, he, hd e' List.mem_cons_self⟩ (by rw [List.getLast?_cons_cons] at hl; exact hl) fun f hf => hd f (List.mem_cons_of_mem _ hf)

/-- A fully connected layer computes its expression, whose shapes match. -/
theorem IsLayer.expr {kind : FcKind} {a : FcArgs ℝ} (hu : Usable kind a) (hp : ∀ p, a.periodicity = some p → 0 < p) {h : Heap ℝ} (ho : h.Ordered) (hw : h.ParamsWF)
    {j : ℕ} (hl : IsLayer kind a h j) : h.forward j = (h.expr j).forward h.store ∧ ∀ B, (h.expr j).Takes h.store [B, a.inFeatures] [B, a.outFeatures] := by
  -- modules that are a single layer
  have single : ∀ l : GLayer ℝ, h.expr j = .leaf j → h.store j = l → NetFits [l] a.inFeatures a.outFeatures ∧ h.forward j = netForward [l] →
      h.forward j = (h.expr j).forward h.store ∧ ∀ B, (h.expr j).Takes h.store [B, a.inFeatures] [B, a.outFeatures] := by
    rintro l he rfl ⟨⟨O, h1, rfl⟩, h2⟩
    rw [he, h2, netForward_single]
    exact ⟨rfl, fun B => ⟨B, _, _, rfl, rfl, h1⟩⟩
  have hl0 := hl
  obtain ⟨rng, base, ms, e1, e2, e3⟩ := hl
  match kind, hu with
  | .leaf .linearRelu, hu =>
    obtain ⟨g1, g2⟩ := hl0.glayers hu hp ho hw
    cases e1
    have hj : j = base + 1 := by simp at e2; omega
    obtain ⟨m', f1, f2⟩ := e3 0 _ rfl
    obtain ⟨m'', q1, q2⟩ := e3 1 _ rfl
    cases q2
    subst hj
    have f1' : h[base]? = some m' := by simpa using f1
    obtain ⟨w, b, rfl⟩ : ∃ w b, m' = .linear w b := by cases f2 <;> exact ⟨_, _, rfl⟩
    have hg : h.glayers (base + 1) = [.linear w b, .relu] := by
      unfold Heap.glayers
      rw [q1]
      dsimp only
      rw [f1']
    have he : h.expr (base + 1) = .comp (.leaf base) (.fixed (.base (.dense .relu))) := by
      unfold Heap.expr
      rw [q1]
    have hst : h.store base = .linear w b := by
      unfold Heap.store
      rw [f1']
    rw [hg] at g1 g2
    obtain ⟨M, t1, M', t2, t3⟩ := g1
    obtain rfl : M' = a.outFeatures := t3
    refine ⟨?_, fun B => ?_⟩
    · rw [g2, he]
      funext x
      show (linearForward w b x >>= fun y => Except.ok (reluT y) >>= fun z => Except.ok z) = ((h.store base).forward x >>= fun y => _)
      rw [hst]
      rfl
    · rw [he]
      refine ⟨[B, M], ⟨B, _, _, rfl, rfl, by rw [hst]; exact t1⟩, B, _, _, rfl, rfl, t2⟩
  | .switch cls, ⟨⟨n, s, hn, hs, h1, h2, h3, h4⟩, hnum⟩ =>
    have hb := pwF_builds rng true cls a hn hs hnum
    have e1' : fcMods rng (.switch cls) a base = .ok (pwF rng true cls a n s base) := hb.ok base
    rw [e1'] at e1
    cases e1
    have hj : j = base + 2 := by simp [pwF] at e2; omega
    obtain ⟨m0, f1, f2⟩ := e3 0 _ rfl
    obtain ⟨m1, f3, f4⟩ := e3 1 _ rfl
    obtain ⟨m2, f5, f6⟩ := e3 2 _ rfl
    cases f6
    have he : h.expr j = .mul (.leaf base) (.leaf (base + 1)) := by
      unfold Heap.expr
      rw [hj, f5]
    have pw : ∀ {i m} (r : ℕ → ℕ → ℝ), h[i]? = some m → (Mod.pw (PwLayer.init cls n a.inFeatures a.outFeatures s ((2 : ℕ) : ℝ) r 1 none)).Trained m →
        h.forward i = (h.store i).forward ∧ (h.store i).Fits a.inFeatures a.outFeatures := by
      intro i m r hm ht
      have hwf := PwLayer.init_wf cls h1 h3 h4 h2 ((2 : ℕ) : ℝ) r 1 none
      have hlen : (0 : ℝ) < ((2 : ℕ) : ℝ) := by norm_num
      rw [Heap.forward_eq ho hm]
      unfold Heap.store
      rw [hm]
      cases ht with
      | refl => exact ⟨rfl, hwf, hlen, (fun q hq => by cases hq), rfl, rfl⟩
      | pw L w hs' hw' => exact ⟨rfl, hwf.withW hs' hw', hlen, (fun q hq => by cases hq), rfl, rfl⟩
    obtain ⟨p1, p2⟩ := pw _ f1 f2
    obtain ⟨p3, p4⟩ := pw _ f3 f4
    refine ⟨?_, fun B => ?_⟩
    · rw [he, hj, Heap.forward_eq ho f5]
      funext x
      show (Mod.switch a.inFeatures [base, base + 1] none : Mod ℝ).forward h.forward x = ((h.store base).forward x >>= fun u => (h.store (base + 1)).forward x >>= fun v => _)
      have p1' : h.forward base = (h.store base).forward := by simpa using p1
      rw [← p1', ← p3]
      simp only [Mod.forward, List.mapM_cons, List.mapM_nil, bind, Except.bind, pure, Except.pure, mulAll]
      cases h.forward base x with
      | error e => rfl
      | ok u =>
        cases h.forward (base + 1) x with
        | error e => rfl
        | ok v =>
          have hq : ∀ q : Py (Tensor ℝ), (q >>= fun r => Except.ok r) = q := by
            intro q
            cases q <;> rfl
          exact hq (zipBcast (· * ·) u v >>= fun r => if r.shape = u.shape then Except.ok r else Except.error PyErr.runtimeError)
    · rw [he]
      exact ⟨⟨B, _, _, rfl, rfl, p2⟩, B, _, _, rfl, rfl, p4⟩
  | .leaf .linear, hu =>
    have hg := hl0.glayers hu hp ho hw
    cases e1
    have hj : j = base + 0 := by simpa using e2
    obtain ⟨m', f1, f2⟩ := e3 0 _ rfl
    rw [← hj] at f1
    obtain ⟨w, b, rfl⟩ : ∃ w b, m' = .linear w b := by cases f2 <;> exact ⟨_, _, rfl⟩
    refine single _ (by unfold Heap.expr; rw [f1]) (by unfold Heap.store; rw [f1]) ?_
    unfold Heap.glayers at hg
    rw [f1] at hg
    exact hg
  | .leaf .product, hu =>
    have hg := hl0.glayers hu hp ho hw
    cases e1
    have hj : j = base + 0 := by simpa using e2
    obtain ⟨m', f1, f2⟩ := e3 0 _ rfl
    rw [← hj] at f1
    obtain ⟨L, rfl⟩ : ∃ L, m' = .product L := by cases f2 <;> exact ⟨_, rfl⟩
    refine single _ (by unfold Heap.expr; rw [f1]) (by unfold Heap.store; rw [f1]) ?_
    unfold Heap.glayers at hg
    rw [f1] at hg
    exact hg
  | .leaf (.pw cls), hu =>
    have hg := hl0.glayers hu hp ho hw
    obtain ⟨n, s, hn, hs, h1, h2, h3, h4⟩ := hu
    simp only [fcMods, leafMods, hn, hs] at e1
    cases e1
    have hj : j = base + 0 := by simpa using e2
    obtain ⟨m', f1, f2⟩ := e3 0 _ rfl
    rw [← hj] at f1
    obtain ⟨L, rfl⟩ : ∃ L, m' = .pw L := by cases f2 <;> exact ⟨_, rfl⟩
    refine single _ (by unfold Heap.expr; rw [f1]) (by unfold Heap.store; rw [f1]) ?_
    unfold Heap.glayers at hg
    rw [f1] at hg
    exact hg
  | .leaf .polynomial, hu =>
    have hg := hl0.glayers hu hp ho hw
    obtain ⟨n, hn, hpos⟩ := hu
    simp only [fcMods, leafMods, hn, polynomialInit, FnLayer.init] at e1
    rw [lagrangePolyFlat_numBasis hpos] at e1
    cases e1
    have hj : j = base + 0 := by simpa using e2
    obtain ⟨m', f1, f2⟩ := e3 0 _ rfl
    rw [← hj] at f1
    obtain ⟨L, rfl⟩ : ∃ L, m' = .fn L := by cases f2 <;> exact ⟨_, rfl⟩
    refine single _ (by unfold Heap.expr; rw [f1]) (by unfold Heap.store; rw [f1]) ?_
    unfold Heap.glayers at hg
    rw [f1] at hg
    exact hg
  | .leaf .fourier, hu =>
    have hg := hl0.glayers hu hp ho hw
    obtain ⟨n, hn, hpos⟩ := hu
    simp only [fcMods, leafMods, hn, fourierSeriesInit, FnLayer.init] at e1
    cases e1
    have hj : j = base + 0 := by simpa using e2
    obtain ⟨m', f1, f2⟩ := e3 0 _ rfl
    rw [← hj] at f1
    obtain ⟨L, rfl⟩ : ∃ L, m' = .fn L := by cases f2 <;> exact ⟨_, rfl⟩
    refine single _ (by unfold Heap.expr; rw [f1]) (by unfold Heap.store; rw [f1]) ?_
    unfold Heap.glayers at hg
    rw [f1] at hg
    exact hg

/-- Hidden entry `i` of a `resnet` network, as `resEntry`. -/
def resExpr {K : Type} (pre : List (GExpr K)) (hid : ℕ → GExpr K) : ℕ → GExpr K
  | 0 => hid 0
  | i + 1 => .add (hid (i + 1)) (pre.getLastD (resExpr pre hid i))

/-- The expression of a network: input layer, then for every hidden entry and the output layer the modules `pre` and the layer. -/
def netExpr {K : Type} (pre : List (GExpr K)) (inp : GExpr K) (layers : List (GExpr K)) : GExpr K := inp.chain (layers.flatMap fun l => pre ++ [l])

theorem netExpr_forward {K : Type} [TorchScalar K] (σ : ℕ → GLayer K) (pre layers : List (GExpr K)) (inp : GExpr K) :
    (netExpr pre inp layers).forward σ = compose (pre.map (GExpr.forward σ)) (inp.forward σ) (layers.map (GExpr.forward σ)) := by
  unfold netExpr compose
  rw [GExpr.chain_forward, List.map_flatMap, List.flatMap_map]
  simp only [List.map_append, List.map_singleton]

theorem resExpr_forward {K : Type} [TorchScalar K] (σ : ℕ → GLayer K) (pre : List (GExpr K)) (hid : ℕ → GExpr K) : ∀ i,
    (resExpr pre hid i).forward σ = resEntry (pre.map (GExpr.forward σ)) (fun i => (hid i).forward σ) i
  | 0 => rfl
  | i + 1 => by
    have : (pre.getLastD (resExpr pre hid i)).forward σ = (pre.map (GExpr.forward σ)).getLastD (resEntry (pre.map (GExpr.forward σ)) (fun i => (hid i).forward σ) i) := by
      rw [← resExpr_forward σ pre hid i]
      cases pre using List.reverseRecOn with
      | nil => rfl
      | append_singleton l a _ => simp
    funext y
    show ((hid (i + 1)).forward σ y >>= fun u => (pre.getLastD (resExpr pre hid i)).forward σ y >>= fun v => zipBcast (· + ·) u v) = _
    rw [this]
    rfl

theorem resExpr_takes {σ : ℕ → GLayer ℝ} {pre : List (GExpr ℝ)} {hid : ℕ → GExpr ℝ} {M : List ℕ} {n : ℕ} (hpre : ∀ e ∈ pre, e.Takes σ M M) (hh : ∀ i < n, (hid i).Takes σ M M) :
    ∀ i < n, (resExpr pre hid i).Takes σ M M
  | 0, hi => hh 0 hi
  | i + 1, hi => by
    refine ⟨hh _ hi, ?_⟩
    have := resExpr_takes hpre hh i (by omega)
    cases pre using List.reverseRecOn with
    | nil => exact this
    | append_singleton l a _ =>
      rw [List.getLastD_concat]
      exact hpre a (by simp)

theorem netExpr_takes {σ : ℕ → GLayer ℝ} {pre layers : List (GExpr ℝ)} {inp out : GExpr ℝ} {S M T : List ℕ} (hi : inp.Takes σ S M) (hpre : ∀ e ∈ pre, e.Takes σ M M)
    (hl : ∀ e ∈ layers, e.Takes σ M M) (ho : out.Takes σ M T) : (netExpr pre inp (layers ++ [out])).Takes σ S T := by
  unfold netExpr
  have hsplit : ((layers ++ [out]).flatMap fun l => pre ++ [l]) = ((layers.flatMap fun l => pre ++ [l]) ++ pre) ++ [out] := by simp
  rw [hsplit]
  refine GExpr.chain_takes hi (by rw [List.getLast?_concat]; exact ho) fun f hf => ?_
  rw [List.dropLast_concat] at hf
  rcases List.mem_append.1 hf with hf | hf
  · obtain ⟨l, hl', hf⟩ := List.mem_flatMap.1 hf
    rcases List.mem_append.1 hf with hf | hf
    · exact hpre f hf
    · rw [List.mem_singleton.1 hf]
      exact hl l hl'
  · exact hpre f hf

/-- The expression of `C122_mlp`. -/
def Heap.mlpExpr {K : Type} (c : MLPArgs K) (N : Option (NormModule K)) (h : Heap K) (inp out : ℕ) (hid : ℕ → ℕ) : GExpr K :=
  let pre : List (GExpr K) := N.toList.map (fun n => .fixed (.norm n)) ++ if c.nonLinearity.isSome then [.fixed (.base (.dense .relu))] else []
  let entry : ℕ → GExpr K := if c.resnet then resExpr pre fun i => h.expr (hid i) else fun i => h.expr (hid i)
  netExpr pre (h.expr inp) ((List.range c.hiddenLayers).map entry ++ [h.expr out])

/-- The network as a network of modules, with different layers. -/
theorem mlp_shared (rng : Rng ℝ) {c : MLPArgs ℝ} {kind kindIn : FcKind} (hk : fcTable.lookup c.layerType = some kind)
    (hki : fcTable.lookup (orStr c.layerTypeIn c.layerType) = some kindIn) (hI : Usable kindIn c.inputArgs)
    (hH : Usable kind c.hiddenArgs) (hO : Usable kind c.outputArgs) (hper : ∀ p, c.periodicity = some p → 0 < p)
    {N : Option (NormModule ℝ)} (hnorm : c.normalization = N.map NormModule.apply) (hdrop : c.dropout ≤ 0) {h0 : Heap ℝ} (hord : h0.Ordered)
    (hnl : ∀ j ∈ c.nonLinearity, h0[j]? = some (.other fun x => .ok (reluT x))) :
    ∃ (net : ℕ) (h1 : Heap ℝ) (inp out : ℕ) (hid : ℕ → ℕ), mlpInit rng c h0 = .ok (net, h1) ∧ (inp :: out :: (List.range c.hiddenLayers).map hid).Nodup ∧ ∀ h : Heap ℝ, h1.Later h → h.Ordered → h.ParamsWF →
      IsLayer kindIn c.inputArgs h inp ∧ (∀ i < c.hiddenLayers, IsLayer kind c.hiddenArgs h (hid i)) ∧ IsLayer kind c.outputArgs h out ∧
      h.forward net = (h.mlpExpr c N inp out hid).forward h.store ∧
      ∀ B, (∀ n ∈ N, n.Takes [B, c.hiddenWidth]) → (h.mlpExpr c N inp out hid).Takes h.store [B, c.inWidth] [B, c.outWidth] := by
  obtain ⟨net, h1, e1, -, -, inp, out, hid, hnd, hall⟩ := C57_structure rng hk hki hI hH hO hord hnl
  refine ⟨net, h1, inp, out, hid, e1, hnd, fun h hl ho hw => ?_⟩
  obtain ⟨l1, l2, l3, l4, l5⟩ := hall h hl ho
  refine ⟨l1, l2, l3, ?_⟩
  have hexp : ∀ pre : List (GExpr ℝ), pre = N.toList.map (fun n => .fixed (.norm n)) ++ (if c.nonLinearity.isSome then [.fixed (.base (.dense .relu))] else []) →
      h.mlpExpr c N inp out hid = netExpr pre (h.expr inp) ((List.range c.hiddenLayers).map (if c.resnet then resExpr pre fun i => h.expr (hid i) else fun i => h.expr (hid i)) ++ [h.expr out]) := by
    rintro pre rfl
    rfl
  obtain ⟨pre, hpreq⟩ : ∃ pre : List (GExpr ℝ), pre = N.toList.map (fun n => .fixed (.norm n)) ++ (if c.nonLinearity.isSome then [.fixed (.base (.dense .relu))] else []) := ⟨_, rfl⟩
  rw [hexp pre hpreq]
  obtain ⟨a1, a2⟩ := l1.expr hI hper ho hw
  obtain ⟨c1, c2⟩ := l3.expr hO hper ho hw
  have hpf : preFns c (fun x => .ok (reluT x)) = pre.map (GExpr.forward h.store) := by
    have hd : ¬ (ltB 0 c.dropout = true) := by
      rw [ltB_real]
      simpa using hdrop
    unfold preFns
    rw [hnorm, if_neg hd, List.append_nil]
    rw [hpreq, List.map_append]
    congr 1
    · cases N <;> rfl
    · by_cases hn : c.nonLinearity.isSome
      · rw [if_pos hn, if_pos hn]; rfl
      · rw [if_neg hn, if_neg hn]; rfl
  constructor
  · rw [netExpr_forward, ← hpf, ← a1, List.map_append, List.map_map, List.map_singleton, ← c1]
    cases hr : c.resnet with
    | false =>
      rw [l4 hr]
      congr 2
      refine List.map_congr_left fun i hi => ?_
      simp only [Bool.false_eq_true, if_false, Function.comp]
      exact ((l2 i (List.mem_range.1 hi)).expr hH hper ho hw).1
    | true =>
      rw [l5 hr]
      congr 2
      refine List.map_congr_left fun i hi => ?_
      simp only [if_true, Function.comp]
      rw [resExpr_forward, ← hpf]
      have : ∀ i < c.hiddenLayers, resEntry (preFns c fun x => .ok (reluT x)) (fun i => h.forward (hid i)) i
          = resEntry (preFns c fun x => .ok (reluT x)) (fun i => (h.expr (hid i)).forward h.store) i := by
        intro i hi
        induction i with
        | zero => exact ((l2 0 hi).expr hH hper ho hw).1
        | succ i ih =>
          funext y
          unfold resEntry
          rw [ih (by omega), ((l2 _ hi).expr hH hper ho hw).1]
      exact this i (List.mem_range.1 hi)
  · intro B hB
    have hpre : ∀ f ∈ pre, f.Takes h.store [B, c.hiddenWidth] [B, c.hiddenWidth] := by
      intro f hf
      rw [hpreq] at hf
      rcases List.mem_append.1 hf with hf | hf
      · obtain ⟨n, hn, rfl⟩ := List.mem_map.1 hf
        exact ⟨rfl, hB n (Option.mem_toList.1 hn)⟩
      · by_cases hn : c.nonLinearity.isSome
        · rw [if_pos hn] at hf
          rw [List.mem_singleton.1 hf]
          exact ⟨B, _, _, rfl, rfl, rfl⟩
        · rw [if_neg hn] at hf
          cases hf
    have hhid : ∀ i < c.hiddenLayers, (h.expr (hid i)).Takes h.store [B, c.hiddenWidth] [B, c.hiddenWidth] := fun i hi => ((l2 i hi).expr hH hper ho hw).2 B
    refine netExpr_takes (a2 B) hpre (fun f hf => ?_) (c2 B)
    obtain ⟨i, hi, rfl⟩ := List.mem_map.1 hf
    rw [List.mem_range] at hi
    by_cases hr : c.resnet = true
    · simp only [hr, if_true]
      exact resExpr_takes hpre hhid i hi
    · simp only [hr, Bool.false_eq_true, if_false]
      exact hhid i hi

/-- Every `HighOrderMLP` without dropout, with `resnet` or without, with switch layers of two layers or other layers, with no normalization or one of the normalizations of the library and with no nonlinearity
or `relu`, is — when it is built and after any training — such a network of modules of the heap, for every batch size: `C122_backpropagation` applies to it. -/
theorem C122_mlp (rng : Rng ℝ) {c : MLPArgs ℝ} {kind kindIn : FcKind} (hk : fcTable.lookup c.layerType = some kind)
    (hki : fcTable.lookup (orStr c.layerTypeIn c.layerType) = some kindIn) (hI : Usable kindIn c.inputArgs)
    (hH : Usable kind c.hiddenArgs) (hO : Usable kind c.outputArgs) (hper : ∀ p, c.periodicity = some p → 0 < p)
    {N : Option (NormModule ℝ)} (hnorm : c.normalization = N.map NormModule.apply) (hdrop : c.dropout ≤ 0) {h0 : Heap ℝ} (hord : h0.Ordered)
    (hnl : ∀ j ∈ c.nonLinearity, h0[j]? = some (.other fun x => .ok (reluT x))) :
    ∃ (net : ℕ) (h1 : Heap ℝ) (inp out : ℕ) (hid : ℕ → ℕ), mlpInit rng c h0 = .ok (net, h1) ∧ ∀ h : Heap ℝ, h1.Later h → h.Ordered → h.ParamsWF →
      h.forward net = (h.mlpExpr c N inp out hid).forward h.store ∧
      ∀ B, (∀ n ∈ N, n.Takes [B, c.hiddenWidth]) → (h.mlpExpr c N inp out hid).Takes h.store [B, c.inWidth] [B, c.outWidth] := by
  obtain ⟨net, h1, inp, out, hid, e1, -, hall⟩ := mlp_shared rng hk hki hI hH hO hper hnorm hdrop hord hnl
  exact ⟨net, h1, inp, out, hid, e1, fun h hl ho hw => (hall h hl ho hw).2.2.2⟩

/-! ## changing one parameter of a network -/

/-- The module with another value of its parameter `k` (in the order of `GLayer.params`). -/
def Mod.withParam {K : Type} (m : Mod K) (k : ℕ) (p : Tensor K) : Mod K :=
  match m, k with
  | .pw L, _ => .pw { L with w := p }
  | .fn L, _ => .fn { L with w := p }
  | .product L, 0 => .product { L with weight := p }
  | .product L, _ => .product { L with bias := some p }
  | .linear _ b, 0 => .linear p b
  | .linear w _, _ => .linear w p
  | m, _ => m

/-- Another value of parameter `k` of module `m`, as after `p.data = ...`. -/
def Heap.withParam {K : Type} (h : Heap K) (m k : ℕ) (p : Tensor K) : Heap K := h.modify m fun x => x.withParam k p

theorem Heap.withParam_get {K : Type} (h : Heap K) (m k : ℕ) (p : Tensor K) (j : ℕ) :
    (h.withParam m k p)[j]? = h[j]?.map fun x => if m = j then x.withParam k p else x := List.getElem?_modify _ _ _ _

theorem Heap.withParam_store {K : Type} (h : Heap K) (m k : ℕ) (p : Tensor K) : (h.withParam m k p).store = Function.update h.store m ((h.store m).setParam k p) := by
  funext j
  by_cases hj : j = m
  · subst hj
    rw [Function.update_self]
    unfold Heap.store
    rw [Heap.withParam_get]
    cases h[j]? with
    | none => rfl
    | some x =>
      simp only [Option.map_some, if_true]
      cases x <;> cases k <;> rfl
  · rw [Function.update_of_ne hj]
    unfold Heap.store
    rw [Heap.withParam_get]
    cases h[j]? with
    | none => rfl
    | some x => simp only [Option.map_some, if_neg (Ne.symm hj)]

theorem Heap.withParam_expr {K : Type} (h : Heap K) (m k : ℕ) (p : Tensor K) : (h.withParam m k p).expr = h.expr := by
  funext j
  unfold Heap.expr
  rw [Heap.withParam_get]
  by_cases hj : m = j
  · cases h[j]? with
    | none => rfl
    | some x =>
      simp only [Option.map_some, if_pos hj]
      cases x <;> cases k <;> rfl
  · cases h[j]? with
    | none => rfl
    | some x => simp only [Option.map_some, if_neg hj]

/-- Changing a parameter is something training may do. -/
theorem Heap.withParam_later {h : Heap ℝ} (ho : h.Ordered) (hw : h.ParamsWF) {m k I O : ℕ} (hf : (h.store m).Fits I O) {p q : Tensor ℝ} (hk : (h.store m).params[k]? = some p)
    (hs : q.shape = p.shape) (hq : q.WF) : h.Later (h.withParam m k q) ∧ (h.withParam m k q).Ordered ∧ (h.withParam m k q).ParamsWF := by
  have hl : h.Later (h.withParam m k q) := by
    intro j x hx
    rw [Heap.withParam_get, hx]
    refine ⟨_, rfl, ?_⟩
    beta_reduce
    by_cases hj : m = j
    · subst hj
      rw [if_pos rfl]
      unfold Heap.store at hf hk
      rw [hx] at hf hk
      cases x with
      | pw L =>
        match k, hk with
        | 0, hk => 
          obtain rfl := Option.some.inj hk
          exact .pw L q hs hq
      | fn L =>
        match k, hk with
        | 0, hk => 
          obtain rfl := Option.some.inj hk
          exact .fn L q hs hq
      | product L =>
        obtain ⟨⟨-, -, ⟨b, hb, hb1, hb2⟩, -⟩, -, -⟩ := hf
        match k, hk with
        | 0, hk =>
          obtain rfl := Option.some.inj hk
          have : ({ L with weight := q } : ProductLayer ℝ) = { L with weight := q, bias := L.bias.map fun _ => b } := by
            rw [hb]
            cases L
            cases hb
            rfl
          show Mod.Trained _ (.product { L with weight := q })
          rw [this]
          exact .product L q b hs (by rw [hb]; rintro _ ⟨⟩; rfl)
        | 1, hk =>
          obtain rfl := Option.some.inj hk
          have : ({ L with bias := some q } : ProductLayer ℝ) = { L with weight := L.weight, bias := L.bias.map fun _ => q } := by
            rw [hb]
            rfl
          show Mod.Trained _ (.product { L with bias := some q })
          rw [this]
          refine .product L L.weight q rfl ?_
          rw [hb] at hs ⊢
          rintro _ ⟨⟩
          exact hs
      | linear w b =>
        match k, hk with
        | 0, hk =>
          obtain rfl := Option.some.inj hk
          exact .linear w b q b hs rfl
        | 1, hk =>
          obtain rfl := Option.some.inj hk
          exact .linear w b w q rfl hs
      | _ => cases k <;> exact .refl _
    · rw [if_neg hj]
      exact .refl _
  refine ⟨hl, hl.ordered (List.length_modify _ _ _) ho, fun j w b hj => ?_, fun j L hj => ?_⟩
  · rw [Heap.withParam_get] at hj
    obtain ⟨x, hx, hj⟩ := Option.map_eq_some_iff.1 hj
    by_cases hm : m = j
    · rw [if_pos hm] at hj
      cases x with
      | linear w0 b0 =>
        obtain ⟨q1, q2⟩ := hw.1 _ _ _ hx
        cases k with
        | zero => cases hj; exact ⟨hq, q2⟩
        | succ k => cases hj; exact ⟨q1, hq⟩
      | product L => cases k <;> cases hj
      | _ => cases k <;> cases hj
    · rw [if_neg hm] at hj
      subst hj
      exact hw.1 _ _ _ hx
  · rw [Heap.withParam_get] at hj
    obtain ⟨x, hx, hj⟩ := Option.map_eq_some_iff.1 hj
    by_cases hm : m = j
    · rw [if_pos hm] at hj
      cases x with
      | product L0 =>
        obtain ⟨q1, q2⟩ := hw.2 _ _ hx
        cases k with
        | zero => cases hj; exact ⟨hq, q2⟩
        | succ k =>
          cases hj
          refine ⟨q1, ?_⟩
          rintro _ ⟨⟩
          exact hq
      | linear w0 b0 => cases k <;> cases hj
      | _ => cases k <;> cases hj
    · rw [if_neg hm] at hj
      subst hj
      exact hw.2 _ _ hx

/-- **C122 (networks).** For such a network, a batch of smooth points and a differentiable loss of the output, the backward pass returns the gradient of the loss by the input, and for every entry of a parameter
of a module it uses it accumulates the derivative of the loss of the network by that entry. Modules it does not use get no gradient. -/
theorem C122_mlp_gradients (rng : Rng ℝ) {c : MLPArgs ℝ} {kind kindIn : FcKind} (hk : fcTable.lookup c.layerType = some kind)
    (hki : fcTable.lookup (orStr c.layerTypeIn c.layerType) = some kindIn) (hI : Usable kindIn c.inputArgs)
    (hH : Usable kind c.hiddenArgs) (hO : Usable kind c.outputArgs) (hper : ∀ p, c.periodicity = some p → 0 < p)
    {N : Option (NormModule ℝ)} (hnorm : c.normalization = N.map NormModule.apply) (hdrop : c.dropout ≤ 0) {h0 : Heap ℝ} (hord : h0.Ordered)
    (hnl : ∀ j ∈ c.nonLinearity, h0[j]? = some (.other fun x => .ok (reluT x))) {P : Picks ℝ} (hP : P.Valid) :
    ∃ (net : ℕ) (h1 : Heap ℝ) (inp out : ℕ) (hid : ℕ → ℕ), mlpInit rng c h0 = .ok (net, h1) ∧ ∀ h : Heap ℝ, h1.Later h → h.Ordered → h.ParamsWF →
      ∀ (B : ℕ) (X : Fin (numel [B, c.inWidth]) → ℝ), (∀ n ∈ N, n.Takes [B, c.hiddenWidth]) → (h.mlpExpr c N inp out hid).Smooth h.store (ofVec [B, c.inWidth] X) →
      ∃ F : (Fin (numel [B, c.inWidth]) → ℝ) → Fin (numel [B, c.outWidth]) → ℝ, (∀ Y, h.forward net (ofVec [B, c.inWidth] Y) = .ok (ofVec [B, c.outWidth] (F Y))) ∧
        ∀ (loss : (Fin (numel [B, c.outWidth]) → ℝ) → ℝ) (D : (Fin (numel [B, c.outWidth]) → ℝ) →L[ℝ] ℝ) (g : Tensor ℝ), HasFDerivAt loss D (F X) → GradVec [B, c.outWidth] D g →
          ∃ gx cs, (h.mlpExpr c N inp out hid).backward P h.store (ofVec [B, c.inWidth] X) g = .ok (gx, cs) ∧
            (∃ D', HasFDerivAt (fun Y => loss (F Y)) D' X ∧ GradVec [B, c.inWidth] D' gx) ∧
            (∀ m ∉ (h.mlpExpr c N inp out hid).modules, ∀ k, accumulated cs m k = none) ∧
            ∀ m k p idx, m ∈ (h.mlpExpr c N inp out hid).modules → (h.store m).params[k]? = some p → InShape p.shape idx →
              ∃ (gp : Tensor ℝ) (Q : ℝ → Fin (numel [B, c.outWidth]) → ℝ), accumulated cs m k = some gp ∧ gp.shape = p.shape ∧
                (∀ t, (h.withParam m k (p.set idx t)).forward net (ofVec [B, c.inWidth] X) = .ok (ofVec [B, c.outWidth] (Q t))) ∧
                HasDerivAt (fun t => loss (Q t)) (gp.get idx) (p.get idx) := by
  obtain ⟨net, h1, inp, out, hid, e1, hall⟩ := C122_mlp rng hk hki hI hH hO hper hnorm hdrop hord hnl
  refine ⟨net, h1, inp, out, hid, e1, fun h hl ho hw B X hB hX => ?_⟩
  obtain ⟨r1, r2⟩ := hall h hl ho hw
  obtain ⟨F, f1, f2⟩ := C122_backpropagation hP h.store _ (r2 B hB) X hX
  refine ⟨F, fun Y => by rw [r1]; exact f1 Y, fun loss D g hD hg => ?_⟩
  obtain ⟨gx, cs, b1, b2, b3, b4⟩ := f2 loss D g hD hg
  refine ⟨gx, cs, b1, b2, b3, fun m k p idx hm hp hin => ?_⟩
  obtain ⟨gp, Q, q1, q2, q3, q4⟩ := b4 m k p idx hm hp hin
  refine ⟨gp, Q, q1, q2, fun t => ?_, q4⟩
  obtain ⟨I, O, hf⟩ := GExpr.Takes.fits _ (r2 B hB) hm
  obtain ⟨l1, l2, l3⟩ := Heap.withParam_later ho hw hf hp (q := p.set idx t) rfl (Tensor.wf_set (GLayer.params_wf hf hp) _ _)
  rw [(hall _ (hl.trans l1) l2 l3).1, Heap.withParam_store]
  have : (h.withParam m k (p.set idx t)).mlpExpr c N inp out hid = h.mlpExpr c N inp out hid := by
    unfold Heap.mlpExpr
    rw [Heap.withParam_expr]
  rw [this]
  exact q3 t

/-! ## examples -/

/-- `x ↦ 2 x`. -/
noncomputable def exTwice : ℕ → GLayer ℝ := fun _ => .linear (Tensor.tab2 1 1 fun _ _ => 2) (Tensor.tab1 1 fun _ => 0)

/-- A module called twice, `w (w x + b) + b` with `w = 2`, `b = 0`: at `x = 1` the gradient is 4 for the input, `2 w x + b = 4` for the weight and `w + 1 = 3` for the bias. -/
theorem exTwice_gradients {P : Picks ℝ} : ∃ gx cs gw gb, (GExpr.comp (.leaf 0) (.leaf 0)).backward P exTwice (Tensor.tab2 1 1 fun _ _ => 1) (Tensor.tab2 1 1 fun _ _ => 1) = .ok (gx, cs) ∧
    gx.get [0, 0] = 4 ∧ accumulated cs 0 0 = some gw ∧ gw.get [0, 0] = 4 ∧ accumulated cs 0 1 = some gb ∧ gb.get [0] = 3 := by
  have get : ∀ v : ℝ, (Tensor.tab2 1 1 fun _ _ => v).get [0, 0] = v := fun v => Tensor.get_tab2 (by norm_num) (by norm_num)
  have hy : (exTwice 0).forward (Tensor.tab2 1 1 fun _ _ => 1) = .ok (Tensor.tab2 1 1 fun _ _ => 2) := by
    refine congrArg Except.ok (tab2_congr fun s hs r hr => ?_)
    obtain rfl : s = 0 := by omega
    obtain rfl : r = 0 := by omega
    rw [sumL_range, Finset.sum_range_one, get, get, Tensor.get_tab1 (by norm_num)]
    norm_num
  have hin : ∀ u v : ℝ, linearInputGrad (Tensor.tab2 1 1 fun _ _ => (2 : ℝ)) (Tensor.tab2 1 1 fun _ _ => u) (Tensor.tab2 1 1 fun _ _ => v) = Tensor.tab2 1 1 fun _ _ => 2 * v := by
    intro u v
    unfold linearInputGrad
    rw [show (Tensor.tab2 1 1 fun _ _ => u).shape = [1, 1] from rfl, show (Tensor.tab2 1 1 fun _ _ => (2 : ℝ)).shape = [1, 1] from rfl]
    dsimp only
    refine tab2_congr fun s hs r hr => ?_
    obtain rfl : s = 0 := by omega
    obtain rfl : r = 0 := by omega
    rw [sumL_range, Finset.sum_range_one, get, get, mul_comm]
  have hwt : ∀ u v : ℝ, linearWeightGrad (Tensor.tab2 1 1 fun _ _ => (2 : ℝ)) (Tensor.tab2 1 1 fun _ _ => u) (Tensor.tab2 1 1 fun _ _ => v) = Tensor.tab2 1 1 fun _ _ => v * u := by
    intro u v
    unfold linearWeightGrad
    rw [show (Tensor.tab2 1 1 fun _ _ => u).shape = [1, 1] from rfl, show (Tensor.tab2 1 1 fun _ _ => (2 : ℝ)).shape = [1, 1] from rfl]
    dsimp only
    refine tab2_congr fun s hs r hr => ?_
    obtain rfl : s = 0 := by omega
    obtain rfl : r = 0 := by omega
    rw [sumL_range, Finset.sum_range_one, get, get]
  have hbg : ∀ v : ℝ, (biasGrad (Tensor.tab2 1 1 fun _ _ => v)).get [0] = v := by
    intro v
    show (Tensor.tab1 1 _).get [0] = v
    rw [Tensor.get_tab1 (by norm_num), sumL_range, Finset.sum_range_one, get]
  refine ⟨Tensor.tab2 1 1 fun _ _ => 2 * (2 * 1), [(0, [Tensor.tab2 1 1 fun _ _ => 2 * 1 * 1, biasGrad (Tensor.tab2 1 1 fun _ _ => 2 * 1)]),
      (0, [Tensor.tab2 1 1 fun _ _ => 1 * 2, biasGrad (Tensor.tab2 1 1 fun _ _ => 1)])],
    addT (Tensor.tab2 1 1 fun _ _ => 2 * 1 * 1) (Tensor.tab2 1 1 fun _ _ => 1 * 2), addT (biasGrad (Tensor.tab2 1 1 fun _ _ => 2 * 1)) (biasGrad (Tensor.tab2 1 1 fun _ _ => 1)), ?_, ?_, rfl, ?_, rfl, ?_⟩
  · show ((exTwice 0).forward (Tensor.tab2 1 1 fun _ _ => 1) >>= fun y => _) = _
    rw [hy]
    simp only [GExpr.backward, bind, Except.bind, exTwice, GLayer.inputGrad, GLayer.paramGrads, hin, hwt]
    rfl
  · rw [get]
    norm_num
  · unfold addT
    show (Tensor.tabulate [1, 1] _).get [0, 0] = _
    rw [Tensor.get_tabulate (s := [1, 1]) (idx := [0, 0]) (inShape2.2 ⟨by norm_num, by norm_num⟩), get, get]
    norm_num
  · unfold addT
    show (Tensor.tabulate [1] _).get [0] = _
    rw [Tensor.get_tabulate (s := [1]) (idx := [0]) (inShape1.2 (by norm_num)), hbg, hbg]
    norm_num

/-- The theorem applies to it at every batch, and to sums and products built from it. -/
example {P : Picks ℝ} (hP : P.Valid) (B : ℕ) (X : Fin (numel [B, 1]) → ℝ) : ∀ e ∈ ([.comp (.leaf 0) (.leaf 0), .add (.leaf 0) (.comp (.leaf 1) (.leaf 0)), .mul (.leaf 0) (.leaf 0)] : List (GExpr ℝ)),
    ∃ F : (Fin (numel [B, 1]) → ℝ) → Fin (numel [B, 1]) → ℝ, ∀ Y, e.forward exTwice (ofVec [B, 1] Y) = .ok (ofVec [B, 1] (F Y)) := by
  have hfit : (exTwice 0).Fits 1 1 := ⟨rfl, Tensor.wf_tabulate _ _, rfl, Tensor.wf_tabulate _ _⟩
  have hleaf : ∀ j, (GExpr.leaf j).Takes exTwice [B, 1] [B, 1] := fun j => ⟨B, 1, 1, rfl, rfl, hfit⟩
  have hsm : ∀ j x, (GExpr.leaf j).Smooth exTwice x := fun j x idx _ => trivial
  have hcomp : ∀ i j, (GExpr.comp (.leaf i) (.leaf j)).Takes exTwice [B, 1] [B, 1] := fun i j => ⟨_, hleaf i, hleaf j⟩
  have hcs : ∀ i j x, (GExpr.comp (.leaf i) (.leaf j)).Smooth exTwice x := fun i j x => ⟨hsm i x, fun y _ => hsm j y⟩
  have use : ∀ e : GExpr ℝ, e.Takes exTwice [B, 1] [B, 1] → e.Smooth exTwice (ofVec [B, 1] X) →
      ∃ F : (Fin (numel [B, 1]) → ℝ) → Fin (numel [B, 1]) → ℝ, ∀ Y, e.forward exTwice (ofVec [B, 1] Y) = .ok (ofVec [B, 1] (F Y)) := fun e h1 h2 =>
    let ⟨F, h, _⟩ := C122_backpropagation hP exTwice e h1 X h2
    ⟨F, h⟩
  intro e he
  simp only [List.mem_cons, List.not_mem_nil, or_false] at he
  rcases he with rfl | rfl | rfl
  · exact use _ (hcomp 0 0) (hcs 0 0 _)
  · exact use _ ⟨hleaf 0, hcomp 1 0⟩ ⟨hsm 0 _, hcs 1 0 _⟩
  · exact use _ ⟨hleaf 0, hleaf 0⟩ ⟨hsm 0 _, hsm 0 _⟩

/-- Two hidden layers with residual sums, `relu` before every layer. -/
noncomputable def exResNet : MLPArgs ℝ := { exNet "continuous" 3 2 with resnet := true, nonLinearity := some 0 }

/-- Sums of two modules: with two hidden layers the second entry adds the output of `relu` to its layer. -/
example (rng : Rng ℝ) : ∃ net h1, mlpInit rng exResNet [.other fun x => .ok (reluT x)] = .ok (net, h1) ∧ ∀ h : Heap ℝ, h1.Later h → h.Ordered → h.ParamsWF →
    ∃ e : GExpr ℝ, h.forward net = e.forward h.store ∧ ∀ B, e.Takes h.store [B, 2] [B, 1] := by
  obtain ⟨u1, u2, u3⟩ := exNet_usable "continuous" (n := 3) (s := 2) (by norm_num) (by norm_num) .continuous
  obtain ⟨net, h1, inp, out, hid, e, hall⟩ := C122_mlp rng (c := exResNet) (kind := .leaf (.pw .continuous)) (kindIn := .leaf (.pw .continuous)) (N := none) (h0 := [.other fun x => .ok (reluT x)])
    (by show List.lookup "continuous" _ = _; decide) (by show List.lookup "continuous" _ = _; decide) u1 u2 u3 (by simp [exResNet, exNet]) rfl le_rfl
    (by intro i m hm j hj; match i, hm with | 0, hm => cases hm; cases hj) (by rintro j ⟨⟩; rfl)
  exact ⟨net, h1, e, fun h a b c => ⟨_, (hall h a b c).1, fun B => (hall h a b c).2 B (by rintro n ⟨⟩)⟩⟩

/-- Products of two modules: a network of switch layers. -/
example (rng : Rng ℝ) : ∃ net h1, mlpInit rng (exNet "switch_discontinuous" 3 2) [] = .ok (net, h1) ∧ ∀ h : Heap ℝ, h1.Later h → h.Ordered → h.ParamsWF →
    ∃ e : GExpr ℝ, h.forward net = e.forward h.store ∧ ∀ B, e.Takes h.store [B, 2] [B, 1] := by
  obtain ⟨u1, u2, u3⟩ := exNet_usable "switch_discontinuous" (n := 3) (s := 2) (by norm_num) (by norm_num) .discontinuous
  obtain ⟨net, h1, inp, out, hid, e, hall⟩ := C122_mlp rng (c := exNet "switch_discontinuous" 3 2) (kind := .switch .discontinuous) (kindIn := .switch .discontinuous) (N := none) 
    (by show List.lookup "switch_discontinuous" _ = _; decide) (by show List.lookup "switch_discontinuous" _ = _; decide) ⟨u1, rfl⟩ ⟨u2, rfl⟩ ⟨u3, rfl⟩ (by simp [exNet]) rfl le_rfl
    ordered_nil (by intro j hj; simp [exNet] at hj)
  exact ⟨net, h1, e, fun h a b c => ⟨_, (hall h a b c).1, fun B => (hall h a b c).2 B (by rintro n ⟨⟩)⟩⟩

end HOL
