import Verif.Lemmas.RefineExample

/-! # C104: the refinement schedule of examples/invariant_mnist.py -/

namespace HOL
open TorchScalar
variable {K : Type} [TorchScalar K]

/-- `trainer.fit` changes nothing but the entries of parameters. -/
def OnlyTrains (fit : ℕ → ℕ → ℤ → Heap K → Heap K) : Prop :=
  ∀ order net e h, h.Later (fit order net e h) ∧ (fit order net e h).length = h.length

/-- The configuration makes sense: positive order, numbers of segments and widths; normalization and dropout keep shapes. -/
structure RefineCfg.Proper (c : RefineCfg K) : Prop where
  n : 0 < c.n
  segments : 0 < c.inSegments ∧ 0 < c.hiddenSegments ∧ 0 < c.outSegments
  widths : 0 < c.inWidth ∧ 0 < c.hiddenWidth ∧ 0 < c.outWidth
  normalization : ∀ f ∈ c.normalization, KeepsShape f c.hiddenWidth
  dropout : KeepsShape c.dropoutFn c.hiddenWidth

/-- The network and the modules with which training goes on after run `k`: the next run, or the final test. -/
def ScheduleOutcome.goesOn (o : ScheduleOutcome K) (k : ℕ) : ℕ × Heap K :=
  match o.runs[k + 1]? with
  | some r => (r.net, r.before)
  | none => (o.net, o.heap)

/-- In heap `h`, module `net` is a network of the configuration with this order, later or not. -/
def RefineCfg.IsNet (c : RefineCfg K) (order net : ℕ) (h : Heap K) : Prop :=
  ∃ (rng : Rng K) (h0 h1 : Heap K), h0.Ordered ∧ mlpInit rng (c.args order) h0 = .ok (net, h1) ∧ h1.Later h

/-- In heap `h`, module `net` is a network of the configuration with this order, with the random numbers `rng` it was created with as weights. -/
def RefineCfg.IsFresh (c : RefineCfg K) (rng : Rng K) (order net : ℕ) (h : Heap K) : Prop :=
  ∃ h0 : Heap K, h0.Ordered ∧ mlpInit rng (c.args order) h0 = .ok (net, h)

theorem RefineCfg.hasOrders (c : RefineCfg K) (hc : c.Proper) {m : ℕ} (hm : 0 < m) :
    (c.args m).HasOrders ⟨m, c.inSegments, m, c.hiddenSegments, m, c.outSegments⟩ :=
  ⟨rfl, rfl, rfl, rfl, rfl, rfl, ⟨hm, hm, hm, hc.segments⟩, hc.widths⟩

theorem RefineCfg.keepShapes (c : RefineCfg K) (hc : c.Proper) (m : ℕ) (h : Heap K) : (c.args m).KeepShapes h :=
  ⟨hc.normalization, (by intro j hj; cases hj), hc.dropout⟩

theorem RefineCfg.same (c : RefineCfg K) (m m' : ℕ) : (c.args m).SameArchitecture (c.args m') :=
  ⟨rfl, rfl, rfl, rfl, rfl, rfl, rfl, rfl, rfl, rfl, rfl, rfl⟩

/-- Networks of the configuration can be built. -/
theorem RefineCfg.builds (c : RefineCfg K) (hc : c.Proper) {sw : Bool} {cls : PwClass} (hk : fcTable.lookup c.layerType = some (kindOf sw cls))
    {m : ℕ} (hm : 0 < m) (rng : Rng K) {h : Heap K} (ho : h.Ordered) :
    ∃ net D, mlpInit rng (c.args m) h = .ok (net, h ++ D) ∧ (h ++ D : Heap K).Ordered ∧ net < (h ++ D).length := by
  obtain ⟨D, e1, e2, e3, -⟩ := mlpInit_pwNet (rng := rng) (c := c.args m) (nlF := noFwd) hk hk (c.hasOrders hc hm) (Or.inl rfl) ho
    (by intro j hj; cases hj)
  exact ⟨_, D, e1, e3, by omega⟩

theorem refineLoop_exact {c : RefineCfg ℝ} (hc : c.Proper) (ht : PRefinable c.layerType) (rng : ℕ → Rng ℝ)
    {fit : ℕ → ℕ → ℤ → Heap ℝ → Heap ℝ} (hfit : OnlyTrains fit) {diff : ℤ} (hd : diff ≠ 0) (he : -1 ≤ c.maxEpochs.fdiv diff) :
    ∀ (len m : ℕ), 0 < m → ∀ (net : ℕ) (h : Heap ℝ), c.IsNet m net h → h.Ordered → h.Proper →
    ∃ out, refineLoop c rng fit diff (List.range' m len) net h = .ok out ∧ out.runs.length = len ∧
      (0 < len → ∃ r, out.runs[0]? = some r ∧ r.net = net ∧ r.before = h) ∧ (len = 0 → out.net = net ∧ out.heap = h) ∧
      c.IsNet (m + len) out.net out.heap ∧
      ∀ k r, out.runs[k]? = some r → r.order = m + k ∧ r.epochs = c.maxEpochs.fdiv diff ∧
        r.after = fit r.order r.net r.epochs r.before ∧ c.IsNet r.order r.net r.before ∧
        ∀ (B : ℕ) (x : Tensor ℝ), x.shape = [B, c.inWidth] → x.WF →
          (out.goesOn k).2.forward (out.goesOn k).1 x = r.after.forward r.net x := by
  obtain ⟨sw, cls, hk, -⟩ := ht.kind
  intro len
  induction len with
  | zero =>
    intro m hm net h hn ho hp
    exact ⟨⟨[], net, h⟩, rfl, rfl, by simp, fun _ => ⟨rfl, rfl⟩, hn, by simp⟩
  | succ len ih =>
    intro m hm net h hn ho hp
    obtain ⟨rng0, h0, h1, o0, e0, l0⟩ := hn
    set e := c.maxEpochs.fdiv diff with hee
    obtain ⟨f1, f2⟩ := hfit m net e h
    set hf := fit m net e h with hhf
    have of := f1.ordered f2 ho
    have pf := f1.proper f2 hp
    obtain ⟨nx, D, en, on, -⟩ := c.builds hc hk (m := m + 1) (by omega) (rng (m + 1)) of
    have pn := mlpInit_proper en pf
    have two : TwoNetworks (c.args m) (c.args (m + 1)) net nx (hf ++ D) :=
      ⟨rng0, rng (m + 1), h0, h1, hf, hf ++ D, o0, of, on, e0, en, c.keepShapes hc _ _, c.keepShapes hc _ _,
        Or.inl ⟨l0.trans f1, fun _ m hm => ⟨m, hm, .refl m⟩⟩⟩
    obtain ⟨h2, i1, i2, i3⟩ := C26_network_p_refinement two (c.same _ _) ht ht (Or.inl rfl) (c.hasOrders hc hm)
      (c.hasOrders hc (m := m + 1) (by omega)) ⟨⟨by simp, rfl⟩, ⟨by simp, rfl⟩, ⟨by simp, rfl⟩⟩
    have kept := transferNetwork_kept interpolateLayer_reweights pn net nx
    have i1' : transferNetwork interpolateLayer net nx (hf ++ D) = (.ok (), h2) := i1
    rw [i1'] at kept
    obtain ⟨out, q1, q2, q3, q4, q5, q6⟩ := ih (m + 1) (by omega) nx h2 ⟨rng (m + 1), hf, hf ++ D, of, en, kept.later⟩
      (kept.later.ordered kept.len on) kept.proper
    refine ⟨{ out with runs := ⟨m, net, e, h, hf⟩ :: out.runs }, ?_, ?_, ?_, ?_, ?_, ?_⟩
    · rw [List.range'_succ]
      simp only [refineLoop, floorDiv, if_neg hd, newTrainer, bind, Except.bind]
      rw [← hee, if_neg (by omega)]
      simp only [← hhf, en, i1, q1]
    · simp [q2]
    · intro _; exact ⟨_, rfl, rfl, rfl⟩
    · intro h; omega
    · have : m + (len + 1) = m + 1 + len := by omega
      rw [this]; exact q5
    · intro k r hr
      cases k with
      | zero =>
        simp only [List.getElem?_cons_zero, Option.some.injEq] at hr
        subst hr
        refine ⟨rfl, rfl, rfl, ⟨rng0, h0, h1, o0, e0, l0⟩, ?_⟩
        intro B x hx hwf
        have goes : (({ out with runs := ⟨m, net, e, h, hf⟩ :: out.runs } : ScheduleOutcome ℝ).goesOn 0) = (nx, h2) := by
          unfold ScheduleOutcome.goesOn
          simp only [List.getElem?_cons_succ]
          rcases Nat.eq_zero_or_pos len with hl | hl
          · have : out.runs = [] := List.eq_nil_of_length_eq_zero (q2.trans hl)
            obtain ⟨a1, a2⟩ := q4 hl
            rw [this]
            simp only [List.getElem?_nil, a1, a2]
          · obtain ⟨r, a1, a2, a3⟩ := q3 hl
            rw [a1]
            simp only [a2, a3]
        rw [goes]
        dsimp only
        rw [i2 B x hx hwf]
        obtain ⟨net', D0, a1, -, a2⟩ := c.builds hc hk hm rng0 o0
        rw [e0] at a1
        cases a1
        have := l0.length_le
        rw [Heap.forward_append _ _ (by omega)]
      | succ k =>
        simp only [List.getElem?_cons_succ] at hr
        obtain ⟨a1, a2, a3, a4, a5⟩ := q6 k r hr
        exact ⟨by omega, a2, a3, a4, a5⟩

/-- **C104 (schedule).** With `p_refine`, `n < target_n` and layers that can be interpolated, `invariant_mnist` trains networks of the
orders `n, …, target_n - 1` (and no others), each for `max_epochs // (target_n - n)` epochs, at most `max_epochs` in all. The first
starts from its random weights; each further one computes, before it is trained, what the one before computed after its training. The
network tested at the end has order `target_n`, was never trained, and computes what the network of order `target_n - 1` computed after
its training. Whatever training does to the weights. -/
theorem C104_schedule {c : RefineCfg ℝ} (hc : c.Proper) (ht : PRefinable c.layerType) (hp : c.pRefine = true) (hlt : c.n < c.targetN)
    (hmax : 0 ≤ c.maxEpochs) (rng : ℕ → Rng ℝ) {fit : ℕ → ℕ → ℤ → Heap ℝ → Heap ℝ} (hfit : OnlyTrains fit) :
    ∃ out, invariantMnist c rng fit = .ok out ∧ out.runs.map FitRun.order = List.range' c.n (c.targetN - c.n) ∧
      (out.runs.map FitRun.epochs).sum ≤ c.maxEpochs ∧ c.maxEpochs - (c.targetN - c.n : ℕ) < (out.runs.map FitRun.epochs).sum ∧
      (∃ r, out.runs[0]? = some r ∧ c.IsFresh (rng c.n) c.n r.net r.before) ∧ c.IsNet c.targetN out.net out.heap ∧
      ∀ k r, out.runs[k]? = some r → r.epochs = c.maxEpochs / (c.targetN - c.n : ℕ) ∧
        r.after = fit r.order r.net r.epochs r.before ∧ c.IsNet r.order r.net r.before ∧
        ∀ (B : ℕ) (x : Tensor ℝ), x.shape = [B, c.inWidth] → x.WF →
          (out.goesOn k).2.forward (out.goesOn k).1 x = r.after.forward r.net x := by
  obtain ⟨sw, cls, hk, -⟩ := ht.kind
  set d := c.targetN - c.n with hd
  have hdz : (c.targetN : ℤ) - (c.n : ℤ) = (d : ℤ) := by omega
  have hdpos : (0 : ℤ) < (d : ℤ) := by omega
  have hfd : c.maxEpochs.fdiv (d : ℤ) = c.maxEpochs / (d : ℤ) := Int.fdiv_eq_ediv_of_nonneg _ hdpos.le
  have hq : 0 ≤ c.maxEpochs / (d : ℤ) := Int.ediv_nonneg hmax hdpos.le
  obtain ⟨net, D, e1, e2, e3⟩ := c.builds hc hk hc.n (rng c.n) (orderedEmpty (K := ℝ))
  obtain ⟨out, q1, q2, q3, q4, q5, q6⟩ := refineLoop_exact hc ht rng hfit (diff := (d : ℤ)) (by omega) (by omega) d c.n hc.n net _
    ⟨rng c.n, [], _, orderedEmpty, e1, fun _ m hm => ⟨m, hm, .refl m⟩⟩ e2 (mlpInit_proper e1 proper_nil)
  have hsum : (out.runs.map FitRun.epochs).sum = (d : ℤ) * (c.maxEpochs / (d : ℤ)) := by
    have : out.runs.map FitRun.epochs = List.replicate d (c.maxEpochs / (d : ℤ)) := by
      rw [List.eq_replicate_iff]
      refine ⟨by rw [List.length_map, q2], fun e he => ?_⟩
      obtain ⟨r, hr, rfl⟩ := List.mem_map.1 he
      obtain ⟨k, hk⟩ := List.mem_iff_getElem?.1 hr
      rw [← hfd]; exact (q6 k r hk).2.1
    rw [this, List.sum_replicate, nsmul_eq_mul]
  refine ⟨out, ?_, ?_, ?_, ?_, ?_, ?_, ?_⟩
  · simp only [invariantMnist, hp, Bool.true_eq_false, if_false, bind, Except.bind, e1]
    rw [hdz, ← hd, q1]
    simp only [floorDiv, newTrainer, if_neg hdpos.ne']
    rw [if_neg (by omega)]
  · apply List.ext_getElem?
    intro k
    rw [List.getElem?_map]
    cases hr : out.runs[k]? with
    | none =>
      have : d ≤ k := by rw [← q2]; exact List.getElem?_eq_none_iff.1 hr
      rw [List.getElem?_eq_none (by rw [List.length_range']; exact this)]; rfl
    | some r =>
      have hk : k < d := by rw [← q2]; exact (List.getElem?_eq_some_iff.1 hr).1
      rw [List.getElem?_range' hk]
      simp [(q6 k r hr).1]
  · rw [hsum, mul_comm]; exact Int.ediv_mul_le _ hdpos.ne'
  · rw [hsum]
    have := Int.emod_add_mul_ediv c.maxEpochs (d : ℤ)
    have := Int.emod_lt_of_pos c.maxEpochs hdpos
    linarith
  · obtain ⟨r, a1, a2, a3⟩ := q3 (by omega)
    refine ⟨r, a1, [], orderedEmpty, ?_⟩
    rw [a2, a3]; exact e1
  · have : c.n + d = c.targetN := by omega
    rw [← this]; exact q5
  · intro k r hr
    obtain ⟨a1, a2, a3, a4, a5⟩ := q6 k r hr
    exact ⟨by rw [a2, hfd], a3, a4, a5⟩

/-! ## layers that cannot be interpolated -/

theorem RefineCfg.usable (c : RefineCfg K) {kind : FcKind} (hk : kind.NoMethods) {m : ℕ} (hm : 0 < m) :
    Usable kind (c.args m).inputArgs ∧ Usable kind (c.args m).hiddenArgs ∧ Usable kind (c.args m).outputArgs := by
  rcases hk with rfl | rfl | rfl | rfl | rfl
  · exact ⟨trivial, trivial, trivial⟩
  · exact ⟨trivial, trivial, trivial⟩
  · exact ⟨trivial, trivial, trivial⟩
  · exact ⟨⟨m, rfl, hm⟩, ⟨m, rfl, hm⟩, ⟨m, rfl, hm⟩⟩
  · exact ⟨⟨m, rfl, hm⟩, ⟨m, rfl, hm⟩, ⟨m, rfl, hm⟩⟩

theorem RefineCfg.builds' (c : RefineCfg K) {kind : FcKind} (hk : fcTable.lookup c.layerType = some kind) (hm : kind.NoMethods)
    {m : ℕ} (hpos : 0 < m) (rng : Rng K) {h : Heap K} (ho : h.Ordered) :
    ∃ net D mo, mlpInit rng (c.args m) h = .ok (net, h ++ D) ∧ (h ++ D : Heap K).Ordered ∧ (h ++ D : Heap K).model net = .ok mo := by
  obtain ⟨u1, u2, u3⟩ := c.usable hm hpos
  obtain ⟨g, D, -, -, -, -, e1, -, e2, hn⟩ := mlpInit_net rng (c := c.args m) (nlF := noFwd) hk hk u1 u2 u3 ho (by intro j hj; cases hj)
  exact ⟨_, D, _, e1, e2, by unfold Heap.model; rw [hn.net]⟩

theorem refineLoop_fresh {c : RefineCfg K} {kind : FcKind} (hk : fcTable.lookup c.layerType = some kind) (hnm : kind.NoMethods)
    (rng : ℕ → Rng K) {fit : ℕ → ℕ → ℤ → Heap K → Heap K} (hfit : OnlyTrains fit) {diff : ℤ} (hd : diff ≠ 0)
    (he : -1 ≤ c.maxEpochs.fdiv diff) :
    ∀ (len m : ℕ), 0 < m → ∀ (net : ℕ) (h : Heap K), c.IsFresh (rng m) m net h → h.Ordered →
    ∃ out, refineLoop c rng fit diff (List.range' m len) net h = .ok out ∧ out.runs.length = len ∧
      c.IsFresh (rng (m + len)) (m + len) out.net out.heap ∧
      ∀ k r, out.runs[k]? = some r → r.order = m + k ∧ r.epochs = c.maxEpochs.fdiv diff ∧
        r.after = fit r.order r.net r.epochs r.before ∧ c.IsFresh (rng r.order) r.order r.net r.before := by
  intro len
  induction len with
  | zero =>
    intro m hm net h hn ho
    exact ⟨⟨[], net, h⟩, rfl, rfl, hn, by simp⟩
  | succ len ih =>
    intro m hm net h hn ho
    obtain ⟨h0, o0, e0⟩ := hn
    set e := c.maxEpochs.fdiv diff with hee
    obtain ⟨f1, f2⟩ := hfit m net e h
    set hf := fit m net e h with hhf
    have of := f1.ordered f2 ho
    obtain ⟨nx, D, mo, en, on, hmo⟩ := c.builds' hk hnm (m := m + 1) (by omega) (rng (m + 1)) of
    obtain ⟨u1, u2, u3⟩ := c.usable hnm hm
    have i1 := (C26_unsupported_types (rng m) (c := c.args m) hk hk hnm hnm u1 u2 u3 o0 (nl := noFwd) (by intro j hj; cases hj) e0 (hf ++ D)
      (f1.trans (Heap.Later.append _ _)) on nx mo hmo).1
    obtain ⟨out, q1, q2, q3, q4⟩ := ih (m + 1) (by omega) nx (hf ++ D) ⟨hf, of, en⟩ on
    refine ⟨{ out with runs := ⟨m, net, e, h, hf⟩ :: out.runs }, ?_, ?_, ?_, ?_⟩
    · rw [List.range'_succ]
      simp only [refineLoop, floorDiv, if_neg hd, newTrainer, bind, Except.bind]
      rw [← hee, if_neg (by omega)]
      simp only [← hhf, en, i1, q1]
    · simp [q2]
    · have : m + (len + 1) = m + 1 + len := by omega
      rw [this]; exact q3
    · intro k r hr
      cases k with
      | zero =>
        simp only [List.getElem?_cons_zero, Option.some.injEq] at hr
        subst hr
        exact ⟨rfl, rfl, rfl, h0, o0, e0⟩
      | succ k =>
        simp only [List.getElem?_cons_succ] at hr
        obtain ⟨a1, a2, a3, a4⟩ := q4 k r hr
        exact ⟨by omega, a2, a3, a4⟩

/-- **C104 (layers without `interpolate`).** With polynomial layers (the configured default), Fourier, product, linear or relu layers
nothing is carried over: every run starts from newly drawn random weights, and the network tested at the end has the random weights it
was created with, whatever the training did. -/
theorem C104_nothing_carried_over {c : RefineCfg K} {kind : FcKind} (hk : fcTable.lookup c.layerType = some kind) (hnm : kind.NoMethods)
    (hn : 0 < c.n) (hp : c.pRefine = true) (hlt : c.n < c.targetN) (hmax : 0 ≤ c.maxEpochs) (rng : ℕ → Rng K)
    {fit : ℕ → ℕ → ℤ → Heap K → Heap K} (hfit : OnlyTrains fit) :
    ∃ out, invariantMnist c rng fit = .ok out ∧ out.runs.length = c.targetN - c.n ∧
      c.IsFresh (rng c.targetN) c.targetN out.net out.heap ∧
      ∀ k r, out.runs[k]? = some r → r.order = c.n + k ∧ r.epochs = c.maxEpochs / (c.targetN - c.n : ℕ) ∧
        r.after = fit r.order r.net r.epochs r.before ∧ c.IsFresh (rng r.order) r.order r.net r.before := by
  set d := c.targetN - c.n with hd
  have hdz : (c.targetN : ℤ) - (c.n : ℤ) = (d : ℤ) := by omega
  have hdpos : (0 : ℤ) < (d : ℤ) := by omega
  have hfd : c.maxEpochs.fdiv (d : ℤ) = c.maxEpochs / (d : ℤ) := Int.fdiv_eq_ediv_of_nonneg _ hdpos.le
  have hq : 0 ≤ c.maxEpochs / (d : ℤ) := Int.ediv_nonneg hmax hdpos.le
  obtain ⟨net, D, mo, e1, e2, -⟩ := c.builds' hk hnm hn (rng c.n) (orderedEmpty (K := K))
  obtain ⟨out, q1, q2, q3, q4⟩ := refineLoop_fresh hk hnm rng hfit (diff := (d : ℤ)) (by omega) (by omega) d c.n hn net _
    ⟨[], orderedEmpty, e1⟩ e2
  refine ⟨out, ?_, q2, ?_, ?_⟩
  · simp only [invariantMnist, hp, Bool.true_eq_false, if_false, bind, Except.bind, e1]
    rw [hdz, ← hd, q1]
    simp only [floorDiv, newTrainer, if_neg hdpos.ne']
    rw [if_neg (by omega)]
  · have : c.n + d = c.targetN := by omega
    rw [← this]; exact q3
  · intro k r hr
    obtain ⟨a1, a2, a3, a4⟩ := q4 k r hr
    exact ⟨a1, by rw [a2, hfd], a3, a4⟩

/-! ## product layers -/

theorem PwNet.layers_head {c : MLPArgs K} {g : Geo} {o : Orders} {swI sw : Bool} {clsI cls : PwClass} {nlF : Fwd K} {h : Heap K}
    (hn : PwNet c g o swI sw clsI cls nlF h) (ho : h.Ordered) : ∃ t, h.layers (c.netId g - 1) = c.slotId g .inp :: t := by
  have hch : ∀ j ∈ c.plan.map (c.slotId g), ∃ m, h[j]? = some m ∧ m.children = [] ∧ m.isSeq = false := by
    intro j hj
    obtain ⟨s, hs, rfl⟩ := List.mem_map.1 hj
    have := hn.slots s hs
    cases he : c.fcInfo o swI sw clsI cls s with
    | some t =>
      rw [he] at this
      dsimp only at this
      unfold IsFc at this
      split at this
      · exact ⟨_, this.2.1, rfl, rfl⟩
      · obtain ⟨L, e, _⟩ := this
        exact ⟨_, e, rfl, rfl⟩
    | none => rw [he] at this; exact ⟨_, this, rfl, rfl⟩
  have hplan : c.plan = .inp :: c.plan.tail := rfl
  have hne : c.slotId g .inp ≠ c.netId g - 1 := by
    have := ho _ _ hn.seq (c.slotId g .inp) (by
      simp only [Mod.refs, Mod.hidden, Mod.children, List.nil_append]
      exact List.mem_map_of_mem (by rw [hplan]; simp))
    omega
  obtain ⟨t, ht⟩ := firsts_prefix (c.plan.tail.map (c.slotId g)) ([c.netId g - 1] ++ [c.slotId g .inp])
  refine ⟨t, Heap.layers_seq ho hn.seq hch ?_⟩
  rw [hplan, List.map_cons, firsts_cons, if_neg (by simpa using hne)]
  rw [ht]; rfl

/-- **C104 (product layers).** With `continuous_prod` or `discontinuous_prod` layers `invariant_mnist` raises `UnboundLocalError` when the
network of order `n` is to be interpolated (after it was trained). -/
theorem C104_product_layers {c : RefineCfg ℝ} (hc : c.Proper) (ht : c.layerType = "continuous_prod" ∨ c.layerType = "discontinuous_prod")
    (hp : c.pRefine = true) (hlt : c.n < c.targetN) (hmax : 0 ≤ c.maxEpochs) (rng : ℕ → Rng ℝ) {fit : ℕ → ℕ → ℤ → Heap ℝ → Heap ℝ}
    (hfit : OnlyTrains fit) : invariantMnist c rng fit = .error .unboundLocalError := by
  obtain ⟨cls, hk, hcls⟩ : ∃ cls, fcTable.lookup c.layerType = some (kindOf false cls) ∧ (cls = .continuousProd ∨ cls = .discontinuousProd) := by
    rcases ht with h | h <;> rw [h]
    · exact ⟨.continuousProd, by decide, Or.inl rfl⟩
    · exact ⟨.discontinuousProd, by decide, Or.inr rfl⟩
  set d := c.targetN - c.n with hd
  have hdz : (c.targetN : ℤ) - (c.n : ℤ) = (d : ℤ) := by omega
  have hdpos : (0 : ℤ) < (d : ℤ) := by omega
  have hfd : c.maxEpochs.fdiv (d : ℤ) = c.maxEpochs / (d : ℤ) := Int.fdiv_eq_ediv_of_nonneg _ hdpos.le
  have hq : 0 ≤ c.maxEpochs / (d : ℤ) := Int.ediv_nonneg hmax hdpos.le
  obtain ⟨D, e1, -, o1, n1⟩ := mlpInit_pwNet (rng := rng c.n) (c := c.args c.n) (nlF := noFwd) hk hk (c.hasOrders hc hc.n) (Or.inl rfl)
    (orderedEmpty (K := ℝ)) (by intro j hj; cases hj)
  set net := (c.args c.n).netId (geoOf false false ([] : Heap ℝ).length) with hnet
  set e := c.maxEpochs.fdiv (d : ℤ) with he
  obtain ⟨f1, f2⟩ := hfit c.n net e ([] ++ D)
  set hf := fit c.n net e ([] ++ D) with hhf
  have of := f1.ordered f2 o1
  obtain ⟨D', e2, -, o2, n2⟩ := mlpInit_pwNet (rng := rng (c.n + 1)) (c := c.args (c.n + 1)) (nlF := noFwd) hk hk
    (c.hasOrders hc (m := c.n + 1) (by omega)) (Or.inl rfl) of (by intro j hj; cases hj)
  have n1' := n1.trained (f1.trans (Heap.Later.append hf D'))
  obtain ⟨ta, la⟩ := n1'.layers_head o2
  obtain ⟨tb, lb⟩ := n2.layers_head o2
  have sa := n1'.slots .inp (by simp [MLPArgs.plan])
  have sb := n2.slots .inp (by simp [MLPArgs.plan])
  simp only [MLPArgs.fcInfo, IsFc, Bool.false_eq_true, if_false] at sa sb
  obtain ⟨La, a1, a2, a3, a4, a5, a6⟩ := sa
  obtain ⟨Lb, b1, b2, b3, b4, b5, b6⟩ := sb
  have hop := C20_product_classes_raise La Lb a2 ((columnX_poly La).imp fun _ h => h.1) ((columnX_poly Lb).imp fun _ h => h.1) (by rw [a3]; exact hcls) (b5.trans a5.symm)
  have hint : (interpolateNetwork net ((c.args (c.n + 1)).netId (geoOf false false hf.length)) (hf ++ D')).1 = .error .unboundLocalError := by
    have ma : (hf ++ D' : Heap ℝ).model net = .ok (net - 1) := by unfold Heap.model; rw [n1'.net]
    have mb : (hf ++ D' : Heap ℝ).model ((c.args (c.n + 1)).netId (geoOf false false hf.length))
        = .ok ((c.args (c.n + 1)).netId (geoOf false false hf.length) - 1) := by unfold Heap.model; rw [n2.net]
    unfold interpolateNetwork transferNetwork
    rw [ma, mb]
    dsimp only
    rw [la, lb, List.zip_cons_cons]
    simp only [forEach]
    rw [a1]
    simp only [Option.map_some, Mod.hasMethod, Option.getD_some, if_true, Heap.method]
    rw [method_pw _ a1]
    simp only [pairOp, a1, b1, hop]
  have hloop : refineLoop c rng fit (d : ℤ) (List.range' c.n d) net ([] ++ D) = .error .unboundLocalError := by
    obtain ⟨d', hd'⟩ : ∃ d', d = d' + 1 := ⟨d - 1, by omega⟩
    have hr : List.range' c.n d = c.n :: List.range' (c.n + 1) d' := by rw [hd', List.range'_succ]
    rw [hr]
    simp only [refineLoop, floorDiv, if_neg hdpos.ne', newTrainer, bind, Except.bind]
    rw [← he, if_neg (by omega)]
    simp only [← hhf, e2]
    rcases hi : interpolateNetwork net ((c.args (c.n + 1)).netId (geoOf false false hf.length)) (hf ++ D') with ⟨r, h2⟩
    rw [hi] at hint
    dsimp only at hint
    subst hint
    rfl
  simp only [invariantMnist, hp, Bool.true_eq_false, if_false, bind, Except.bind, e1]
  rw [hdz, ← hd, hloop]

/-- **C104 (nothing to refine).** If `target_n` is `n`, the division raises after the network was built and before anything was trained; if it
is smaller, nothing is trained either, and the untrained network of order `n` is tested, unless the (negative) number of epochs is below -1. -/
theorem C104_no_room {c : RefineCfg K} (hp : c.pRefine = true) (hle : c.targetN ≤ c.n) (rng : ℕ → Rng K)
    (fit : ℕ → ℕ → ℤ → Heap K → Heap K) {net : ℕ} {h : Heap K} (hb : mlpInit (rng c.n) (c.args c.n) [] = .ok (net, h)) :
    (c.targetN = c.n → invariantMnist c rng fit = .error .zeroDivisionError) ∧
    (c.targetN < c.n → c.maxEpochs ≤ (c.n - c.targetN : ℕ) → invariantMnist c rng fit = .ok ⟨[], net, h⟩) ∧
    (c.targetN < c.n → (c.n - c.targetN : ℕ) < c.maxEpochs → invariantMnist c rng fit = .error .exception) := by
  have h0 : c.targetN - c.n = 0 := by omega
  have start : invariantMnist c rng fit = (do
      let e ← floorDiv c.maxEpochs ((c.targetN : ℤ) - c.n)
      let _ ← newTrainer e
      .ok ⟨[], net, h⟩) := by
    simp only [invariantMnist, hp, Bool.true_eq_false, if_false, bind, Except.bind, hb, h0, List.range'_zero, refineLoop]
  have hneg : ∀ d : ℕ, 0 < d → (-1 ≤ c.maxEpochs.fdiv (-(d : ℤ)) ↔ c.maxEpochs ≤ d) := by
    intro d hd
    have e : c.maxEpochs.fdiv (-(d : ℤ)) = (-c.maxEpochs) / (d : ℤ) := by
      rw [← Int.fdiv_eq_ediv_of_nonneg _ (by omega : (0 : ℤ) ≤ (d : ℤ))]
      have := Int.neg_fdiv_neg (-c.maxEpochs) (d : ℤ)
      rw [neg_neg] at this
      exact this
    rw [e, Int.le_ediv_iff_mul_le (by omega)]
    constructor <;> intro h <;> linarith
  rw [start]
  refine ⟨fun he => ?_, fun hlt hm => ?_, fun hlt hm => ?_⟩
  · simp [floorDiv, he, bind, Except.bind]
  · obtain ⟨d, hd, hdz⟩ : ∃ d : ℕ, 0 < d ∧ c.n = c.targetN + d := ⟨c.n - c.targetN, by omega, by omega⟩
    have hz : (c.targetN : ℤ) - c.n = -(d : ℤ) := by omega
    rw [hz]
    have := (hneg d hd).2 (by omega)
    simp only [floorDiv, newTrainer, bind, Except.bind]
    rw [if_neg (by omega)]
    dsimp only
    rw [if_neg (by omega)]
  · obtain ⟨d, hd, hdz⟩ : ∃ d : ℕ, 0 < d ∧ c.n = c.targetN + d := ⟨c.n - c.targetN, by omega, by omega⟩
    have hz : (c.targetN : ℤ) - c.n = -(d : ℤ) := by omega
    rw [hz]
    have := mt (hneg d hd).1 (by omega)
    simp only [floorDiv, newTrainer, bind, Except.bind]
    rw [if_neg (by omega)]
    dsimp only
    rw [if_pos (by omega)]

/-- **C104 (without refinement).** One network of order `n` is built, trained for `max_epochs` epochs and tested. -/
theorem C104_plain {c : RefineCfg K} (hp : c.pRefine = false) (hmax : -1 ≤ c.maxEpochs) (rng : ℕ → Rng K)
    (fit : ℕ → ℕ → ℤ → Heap K → Heap K) {net : ℕ} {h : Heap K} (hb : mlpInit (rng c.n) (c.args c.n) [] = .ok (net, h)) :
    invariantMnist c rng fit = .ok ⟨[⟨c.n, net, c.maxEpochs, h, fit c.n net c.maxEpochs h⟩], net, fit c.n net c.maxEpochs h⟩ := by
  simp only [invariantMnist, hp, if_true, newTrainer, bind, Except.bind, hb]
  rw [if_neg (by omega)]

/-! ## examples -/

/-- The configuration file, with refinement and continuous layers. -/
noncomputable def refineExample (layerType : String) : RefineCfg ℝ :=
  { layerType := layerType, n := 2, targetN := 5, pRefine := true, maxEpochs := 100, inWidth := 784, outWidth := 10, hiddenLayers := 1
    hiddenWidth := 20, inSegments := 2, outSegments := 2, hiddenSegments := 2, periodicity := some 2, normalization := none, dropout := 0
    dropoutFn := fun x => .ok x }

theorem refineExample_proper (t : String) : (refineExample t).Proper :=
  ⟨by norm_num [refineExample], by norm_num [refineExample], by norm_num [refineExample], (by intro f hf; cases hf),
    (by intro B x y hx hwf e; cases e; exact ⟨hx, hwf⟩)⟩

/-- Three networks are trained, of orders 2, 3 and 4, for 33 epochs each (one of the 100 is lost). -/
example (rng : ℕ → Rng ℝ) (fit : ℕ → ℕ → ℤ → Heap ℝ → Heap ℝ) (hfit : OnlyTrains fit) :
    ∃ out, invariantMnist (refineExample "continuous") rng fit = .ok out ∧ out.runs.map FitRun.order = [2, 3, 4] ∧
      ∀ r ∈ out.runs, r.epochs = 33 := by
  obtain ⟨out, h1, h2, -, -, -, -, h3⟩ := C104_schedule (refineExample_proper "continuous") (Or.inl rfl) rfl (by decide) (by decide) rng hfit
  refine ⟨out, h1, h2, fun r hr => ?_⟩
  obtain ⟨k, hk⟩ := List.mem_iff_getElem?.1 hr
  exact (h3 k r hk).1

/-- With the layer type of the configuration file the network tested is a new one. -/
example (rng : ℕ → Rng ℝ) (fit : ℕ → ℕ → ℤ → Heap ℝ → Heap ℝ) (hfit : OnlyTrains fit) :
    ∃ out, invariantMnist (refineExample "polynomial") rng fit = .ok out ∧ out.runs.length = 3 ∧
      (refineExample "polynomial").IsFresh (rng 5) 5 out.net out.heap := by
  obtain ⟨out, h1, h2, h3, -⟩ := C104_nothing_carried_over (c := refineExample "polynomial") (kind := .leaf .polynomial) (by decide)
    (Or.inr (Or.inr (Or.inr (Or.inl rfl)))) (by decide) rfl (by decide) (by decide) rng hfit
  exact ⟨out, h1, h2, h3⟩

/-- Training that really changes something is covered: all weights of the linear layers doubled. -/
example : OnlyTrains (fun _ _ _ (h : Heap ℝ) => h.map fun m => match m with
    | .linear w b => .linear (w.map (2 * ·)) (b.map (2 * ·))
    | m => m) := by
  intro _ _ _ h
  refine ⟨fun i m hm => ?_, List.length_map _⟩
  refine ⟨_, by rw [List.getElem?_map, hm]; rfl, ?_⟩
  cases m with
  | linear w b => exact .linear _ _ _ _ rfl rfl
  | _ => exact .refl _

end HOL
