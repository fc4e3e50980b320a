import Verif.Lemmas.Smooth
import Verif.Props.Forward
import Mathlib.Analysis.SpecificLimits.Basic

/-! # C28 - C30: smoothing of discontinuous layers, line initialization -/

namespace HOL
open TorchScalar Polynomial Spec

/-- Jump of the weights at the boundary between segments `s` and `s + 1` of a discontinuous layer. -/
noncomputable def jump (L : PwLayer ℝ) (o i s : ℕ) : ℝ :=
  L.w.get [o, i, (s + 1) * L.n] - L.w.get [o, i, s * L.n + (L.n - 1)]

/-- **C28.** `smooth_discontinuous_layer(layer, f)` multiplies each jump by `1 - f`, keeps the sum of the two sides
and leaves every weight that is not next to an interior boundary unchanged. -/
theorem C28_smoothing_weights (L : PwLayer ℝ) (h : L.WF)
    (hc : L.cls = .discontinuous ∨ L.cls = .discontinuousProd) (hn : 2 ≤ L.n) (f : ℝ) :
    ∃ L', smoothLayer L f = (.ok (), L') ∧ (∃ w, w.shape = L.w.shape ∧ w.WF ∧ L' = { L with w := w }) ∧
      ∀ o < L.outFeatures, ∀ i < L.inFeatures,
        (∀ s, s + 1 < L.segments →
          jump L' o i s = (1 - f) * jump L o i s ∧
          L'.w.get [o, i, (s + 1) * L.n] + L'.w.get [o, i, s * L.n + (L.n - 1)]
            = L.w.get [o, i, (s + 1) * L.n] + L.w.get [o, i, s * L.n + (L.n - 1)]) ∧
        ∀ q < L.n * L.segments,
          (∀ s, s + 1 < L.segments → q ≠ (s + 1) * L.n ∧ q ≠ s * L.n + (L.n - 1)) →
          L'.w.get [o, i, q] = L.w.get [o, i, q] := by
  have hsh : L.cls.shared = false := by rcases hc with h | h <;> rw [h] <;> rfl
  obtain ⟨L', e, hf, hw⟩ := smoothLayer_weights h hsh hn f
  refine ⟨L', e, ⟨L'.w, hf.shape, hf.wf, hf.eq⟩, ?_⟩
  intro o ho i hi
  have fn : L'.n = L.n := by rw [hf.eq]
  constructor
  · intro s hs
    have h1 := hw o ho i hi s (by omega) (L.n - 1) (by omega)
    have h2 := hw o ho i hi (s + 1) hs 0 (by omega)
    rw [if_pos ⟨rfl, hs⟩] at h1
    rw [if_neg (by rintro ⟨h, -⟩; omega), if_pos ⟨rfl, by omega⟩] at h2
    simp only [Nat.add_zero, Nat.add_sub_cancel] at h2
    unfold jump
    rw [fn, h1, h2]
    constructor <;> ring
  · intro q hq hne
    obtain ⟨s, hs, k, hk, rfl⟩ : ∃ s < L.segments, ∃ k < L.n, q = s * L.n + k := by
      have hn0 : 0 < L.n := h.n_pos
      refine ⟨q / L.n, ?_, q % L.n, Nat.mod_lt _ hn0, ?_⟩
      · rw [Nat.div_lt_iff_lt_mul hn0, Nat.mul_comm]; exact hq
      · rw [Nat.mul_comm]; exact (Nat.div_add_mod q L.n).symm
    rw [hw o ho i hi s hs k hk, if_neg, if_neg]
    · rintro ⟨rfl, hs0⟩
      obtain ⟨t, rfl⟩ : ∃ t, s = t + 1 := ⟨s - 1, by omega⟩
      exact (hne t hs).1 rfl
    · rintro ⟨rfl, hs1⟩
      exact (hne s hs1).2 rfl

example : ∃ L', smoothLayer exD (1 / 2) = (.ok (), L') ∧ jump L' 0 1 2 = (1 - 1 / 2) * jump exD 0 1 2 := by
  obtain ⟨L', h1, _, h3⟩ := C28_smoothing_weights exD exD_wf (Or.inl rfl) (by show 2 ≤ 3; norm_num) (1 / 2)
  exact ⟨L', h1, ((h3 0 (by show 0 < 1; norm_num) 1 (by show 1 < 2; norm_num)).1 2 (by show 3 < 4; norm_num)).1⟩

/-- **C28 (functions).** The same for the functions the links compute: value minus left limit
at each interior boundary. -/
theorem C28_smoothing_functions (L : PwLayer ℝ) (h : L.WF) (hc : L.cls = .discontinuous)
    (hl : L.length = 2) (hp : L.periodicity = none) (hn : 2 ≤ L.n) (f : ℝ) :
    ∃ (L' : PwLayer ℝ) (g g' : ℕ → ℕ → ℝ → ℝ), smoothLayer L f = (.ok (), L') ∧
      (Computes L.forward L.inFeatures L.outFeatures
        fun o r => ∑ i ∈ Finset.range L.inFeatures, g o i (r i)) ∧
      (Computes L'.forward L.inFeatures L.outFeatures
        fun o r => ∑ i ∈ Finset.range L.inFeatures, g' o i (r i)) ∧
      ∀ o < L.outFeatures, ∀ i < L.inFeatures, ∀ s, s + 1 < L.segments → ∃ l l' : ℝ,
        Filter.Tendsto (g o i) (nhdsWithin (segLeft L.segments (s + 1)) (Set.Iio (segLeft L.segments (s + 1))))
          (nhds l) ∧
        Filter.Tendsto (g' o i) (nhdsWithin (segLeft L.segments (s + 1)) (Set.Iio (segLeft L.segments (s + 1))))
          (nhds l') ∧
        g' o i (segLeft L.segments (s + 1)) - l' = (1 - f) * (g o i (segLeft L.segments (s + 1)) - l) ∧
        g' o i (segLeft L.segments (s + 1)) + l' = g o i (segLeft L.segments (s + 1)) + l := by
  obtain ⟨L', e, ⟨w, hws, hww, hL'⟩, hv⟩ := C28_smoothing_weights L h (Or.inl hc) hn f
  have hL'wf : L'.WF := by rw [hL']; exact h.withW hws hww
  obtain ⟨g, hg1, hg2, -⟩ := C16_discontinuous_layer L h hc hl hp
  obtain ⟨g', hg1', hg2', -⟩ := C16_discontinuous_layer L' hL'wf (by rw [hL']; exact hc)
    (by rw [hL']; exact hl) (by rw [hL']; exact hp)
  have fn : L'.n = L.n := by rw [hL']
  have fs : L'.segments = L.segments := by rw [hL']
  have fI : L'.inFeatures = L.inFeatures := by rw [hL']
  have fO : L'.outFeatures = L.outFeatures := by rw [hL']
  rw [fI, fO] at hg2'
  refine ⟨L', g, g', e, hg2, hg2', ?_⟩
  intro o ho i hi s hs
  have h1 := hg1' o i
  rw [fn, fs] at h1
  obtain ⟨a1, a2⟩ := C16_one_sided_limits _ _ hn _ _ (hg1 o i) s hs
  obtain ⟨b1, b2⟩ := C16_one_sided_limits _ _ hn _ _ h1 s hs
  obtain ⟨c1, c2⟩ := (hv o ho i hi).1 s hs
  refine ⟨_, _, a2, b2, ?_, ?_⟩
  · rw [a1, b1]
    unfold jump at c1
    rw [fn] at c1
    exact c1
  · rw [a1, b1]; exact c2

example : ∃ (L' : PwLayer ℝ) (g g' : ℕ → ℕ → ℝ → ℝ), smoothLayer exD (1 / 4) = (.ok (), L') ∧
    (Computes exD.forward 2 1 fun o r => ∑ i ∈ Finset.range 2, g o i (r i)) ∧
    (Computes L'.forward 2 1 fun o r => ∑ i ∈ Finset.range 2, g' o i (r i)) := by
  obtain ⟨L', g, g', h1, h2, h3, _⟩ := C28_smoothing_functions exD exD_wf rfl rfl rfl
    (by show 2 ≤ 3; norm_num) (1 / 4)
  exact ⟨L', g, g', h1, h2, h3⟩

/-- **C28 (`f = 1`).** Smoothing with factor 1 makes every output a continuous function of the input row. -/
theorem C28_factor_one_continuous (L : PwLayer ℝ) (h : L.WF)
    (hc : L.cls = .discontinuous ∨ L.cls = .discontinuousProd) (hl : L.length = 2)
    (hp : ∀ q ∈ L.periodicity, 0 < q) (hn : 2 ≤ L.n) :
    ∃ L', smoothLayer L 1 = (.ok (), L') ∧ ComputesContinuous L'.forward L.inFeatures L.outFeatures := by
  obtain ⟨L', e, ⟨w, hws, hww, hL'⟩, hv⟩ := C28_smoothing_weights L h hc hn 1
  have hL'wf : L'.WF := by rw [hL']; exact h.withW hws hww
  have fI : L'.inFeatures = L.inFeatures := by rw [hL']
  have fO : L'.outFeatures = L.outFeatures := by rw [hL']
  have fn : L'.n = L.n := by rw [hL']
  have fs : L'.segments = L.segments := by rw [hL']
  have fl : L'.length = 2 := by rw [hL']; exact hl
  have fc : L'.cls = L.cls := by rw [hL']
  have fp : L'.periodicity = L.periodicity := by rw [hL']
  have hcomp := L'.computes hL'wf
  rw [fI, fO] at hcomp
  have hsh : L.cls.shared = false := by rcases hc with h | h <;> rw [h] <;> rfl
  have hlink : ∀ o < L.outFeatures, ∀ i < L.inFeatures, Continuous (L'.linkFn o i) := by
    intro o ho i hi
    have h1 := L'.noPeriod.linkFn_isPiecewise hL'wf.seg_pos fl rfl o i
    have hst : L'.noPeriod.stride = L.n := by
      show (if L'.cls.shared then L'.n - 1 else L'.n) = _
      rw [fc, hsh, fn]; rfl
    rw [hst] at h1
    change IsPiecewisePoly L'.n L'.segments L.n (fun q => L'.w.get [o, i, q]) _ at h1
    rw [fn, fs] at h1
    obtain ⟨V, hV⟩ := lift_nodes (n := L.n) h.n_pos true (fun s k =>
      if s < L.segments then L'.w.get [o, i, s * L.n + k]
      else L'.w.get [o, i, (L.segments - 1) * L.n + (L.n - 1)]) (by
        intro _ s
        rcases Nat.lt_or_ge (s + 1) L.segments with hs | hs
        · rw [if_pos (by omega), if_pos hs]
          have := ((hv o ho i hi).1 s hs).1
          unfold jump at this
          rw [fn] at this
          rw [Nat.add_zero]
          linarith
        · rw [if_neg (show ¬ (s + 1 < L.segments) by omega)]
          by_cases hs' : s < L.segments
          · rw [if_pos hs']
            have : s = L.segments - 1 := by omega
            rw [this]
          · rw [if_neg hs'])
    have h2 : IsPiecewisePoly L.n L.segments (L.n - 1) V (L'.noPeriod.linkFn o i) := by
      intro s x hx
      rw [h1 s x hx]
      congr 1
      apply linkPoly_congr
      intro k hk
      have := hV s k hk
      rw [if_pos rfl, if_pos hx.1] at this
      exact this.symm
    have h3 := continuous_of_isPiecewise h.n_pos h.seg_pos h2
    have h4 : L'.linkFn o i = fun v => L'.noPeriod.linkFn o i (periodize L'.periodicity v) := by
      funext v; exact L'.linkFn_periodic o i v
    rw [h4]
    exact h3.comp (continuous_periodize (by rw [fp]; exact hp))
  refine ⟨L', e, .of_local hcomp ?_ fun o _ r r' hr => PwClass.combine_congr _ fun i hi => by rw [hr i hi]⟩
  intro o ho
  rw [fc]
  rcases hc with hc | hc
  · rw [hc]
    exact continuous_finsetSum _ fun i hi =>
      (hlink o ho i (Finset.mem_range.1 hi)).comp (continuous_apply i)
  · rw [hc]
    exact (continuous_finsetProd _ fun i hi => continuous_const.add
      ((hlink o ho i (Finset.mem_range.1 hi)).comp (continuous_apply i))).sub continuous_const

example : ∃ L', smoothLayer exD 1 = (.ok (), L') ∧ ComputesContinuous L'.forward 2 1 :=
  C28_factor_one_continuous exD exD_wf (Or.inl rfl) rfl
    (by intro q hq; simp [exD, PwLayer.init] at hq) (by show 2 ≤ 3; norm_num)

/-- **C28 (limits of the claim).** With one node per segment smoothing raises instead: the interior boundaries
are doubled up by the slices. -/
theorem C28_one_node_raises {K : Type} [TorchScalar K] (L : PwLayer K) (h : L.WF)
    (hc : L.cls = .discontinuous ∨ L.cls = .discontinuousProd) (hn : L.n = 1) (hS : 4 ≤ L.segments) (f : K) :
    smoothLayer L f = (.error .runtimeError, L) :=
  smoothLayer_one h (by rcases hc with h | h <;> rw [h] <;> rfl) hn hS f

example : smoothLayer (PwLayer.init .discontinuous 1 2 1 5 (2 : ℝ) (fun _ _ => 0) 1 none) (1 / 2)
    = (.error .runtimeError, PwLayer.init .discontinuous 1 2 1 5 (2 : ℝ) (fun _ _ => 0) 1 none) :=
  C28_one_node_raises _ (PwLayer.init_wf _ (by norm_num) (by norm_num) (by norm_num) (by norm_num) _ _ _ _)
    (Or.inl rfl) rfl (by show 4 ≤ 5; norm_num) _

/-- `k` successive calls with factors `f 0, ..., f (k - 1)` lead from `L` to `L'`. -/
inductive SmoothedBy (f : ℕ → ℝ) : ℕ → PwLayer ℝ → PwLayer ℝ → Prop where
  | zero (L) : SmoothedBy f 0 L L
  | succ {k L L' L''} : SmoothedBy f k L L' → smoothLayer L' (f k) = (.ok (), L'') →
      SmoothedBy f (k + 1) L L''

/-- **C29.** Any number of calls succeeds, and any history of `k` calls with factors `f 0, f 1, ...` multiplies
every jump by `(1 - f 0) * ... * (1 - f (k - 1))`. -/
theorem C29_repeated_smoothing (L : PwLayer ℝ) (h : L.WF)
    (hc : L.cls = .discontinuous ∨ L.cls = .discontinuousProd) (hn : 2 ≤ L.n) (f : ℕ → ℝ) (k : ℕ) :
    (∃ L', SmoothedBy f k L L') ∧
    ∀ L', SmoothedBy f k L L' → ∀ o < L.outFeatures, ∀ i < L.inFeatures, ∀ s, s + 1 < L.segments →
      jump L' o i s = (∏ j ∈ Finset.range k, (1 - f j)) * jump L o i s := by
  have key : ∀ k, (∃ L', SmoothedBy f k L L') ∧ ∀ L', SmoothedBy f k L L' →
      (∃ w, w.shape = L.w.shape ∧ w.WF ∧ L' = { L with w := w }) ∧
      ∀ o < L.outFeatures, ∀ i < L.inFeatures, ∀ s, s + 1 < L.segments →
        jump L' o i s = (∏ j ∈ Finset.range k, (1 - f j)) * jump L o i s := by
    intro k
    induction k with
    | zero =>
      refine ⟨⟨L, .zero L⟩, ?_⟩
      intro L' hL'
      cases hL'
      exact ⟨⟨L.w, rfl, h.w_wf, rfl⟩, by simp⟩
    | succ k ih =>
      obtain ⟨⟨L1, h1⟩, ih2⟩ := ih
      have step : ∀ L1, SmoothedBy f k L L1 → ∃ L', smoothLayer L1 (f k) = (.ok (), L') ∧
          (∃ w, w.shape = L.w.shape ∧ w.WF ∧ L' = { L with w := w }) ∧
          ∀ o < L.outFeatures, ∀ i < L.inFeatures, ∀ s, s + 1 < L.segments →
            jump L' o i s = (∏ j ∈ Finset.range (k + 1), (1 - f j)) * jump L o i s := by
        intro L1 h1
        obtain ⟨⟨w1, hw1, hww1, rfl⟩, hj⟩ := ih2 L1 h1
        obtain ⟨L', e, ⟨w2, hw2, hww2, rfl⟩, hv⟩ := C28_smoothing_weights
          ({ L with w := w1 } : PwLayer ℝ) (h.withW hw1 hww1) hc hn (f k)
        refine ⟨_, e, ⟨w2, hw2.trans hw1, hww2, rfl⟩, ?_⟩
        intro o ho i hi s hs
        rw [((hv o ho i hi).1 s hs).1, hj o ho i hi s hs, Finset.prod_range_succ]
        ring
      constructor
      · obtain ⟨L', e, _⟩ := step L1 h1
        exact ⟨L', .succ h1 e⟩
      · intro L' hL'
        cases hL' with
        | succ h1 e =>
          obtain ⟨L2, e2, h2, h3⟩ := step _ h1
          rw [e] at e2
          have : L' = L2 := by injection e2
          subst this
          exact ⟨h2, h3⟩
  exact ⟨(key k).1, fun L' hL' => ((key k).2 L' hL').2⟩

/-- **C29 (limit).** For a constant factor `0 < f < 2` the jumps tend to 0. -/
theorem C29_jumps_vanish (L : PwLayer ℝ) (h : L.WF)
    (hc : L.cls = .discontinuous ∨ L.cls = .discontinuousProd) (hn : 2 ≤ L.n) (f : ℝ) (h0 : 0 < f) (h2 : f < 2)
    (Ls : ℕ → PwLayer ℝ) (hLs : ∀ k, SmoothedBy (fun _ => f) k L (Ls k))
    {o i s : ℕ} (ho : o < L.outFeatures) (hi : i < L.inFeatures) (hs : s + 1 < L.segments) :
    (∀ k, jump (Ls k) o i s = (1 - f) ^ k * jump L o i s) ∧
    Filter.Tendsto (fun k => jump (Ls k) o i s) Filter.atTop (nhds 0) := by
  have e : ∀ k, jump (Ls k) o i s = (1 - f) ^ k * jump L o i s := by
    intro k
    rw [(C29_repeated_smoothing L h hc hn _ k).2 _ (hLs k) o ho i hi s hs]
    simp
  refine ⟨e, ?_⟩
  have := (tendsto_pow_atTop_nhds_zero_of_abs_lt_one
    (show |1 - f| < 1 by rw [abs_lt]; constructor <;> linarith)).mul_const (jump L o i s)
  rw [zero_mul] at this
  exact this.congr fun k => (e k).symm

/-- Such a sequence of layers exists for the example layer. -/
example : ∃ Ls : ℕ → PwLayer ℝ, (∀ k, SmoothedBy (fun _ => 1 / 2) k exD (Ls k)) ∧
    Filter.Tendsto (fun k => jump (Ls k) 0 0 0) Filter.atTop (nhds 0) := by
  have hex := fun k => (C29_repeated_smoothing exD exD_wf (Or.inl rfl) (by show 2 ≤ 3; norm_num)
    (fun _ => 1 / 2) k).1
  choose Ls hLs using hex
  exact ⟨Ls, hLs, (C29_jumps_vanish exD exD_wf (Or.inl rfl) (by show 2 ≤ 3; norm_num) (1 / 2) (by norm_num)
    (by norm_num) Ls hLs (by show 0 < 1; norm_num) (by show 0 < 2; norm_num) (by show 1 < 4; norm_num)).2⟩

/-- Through the nodes of a line passes the line, on every segment and beyond. -/
theorem linkPoly_line {n S s : ℕ} (hn : 2 ≤ n) (hS : 0 < S) (a b x : ℝ) :
    (linkPoly n fun k => a * nodePos n S s k + b).eval (localCoord S s x) = a * x + b := by
  have hSr : (S : ℝ) ≠ 0 := by positivity
  have hp : (linkPoly n fun k => a * nodePos n S s k + b)
      = C (a / S) * X + C (a * segLeft S s + a / S + b) := by
    rw [← linkPoly_eq_of_degree_lt (n := n) (P := C (a / S) * X + C (a * segLeft S s + a / S + b))]
    · apply linkPoly_congr
      intro k _
      simp only [eval_add, eval_mul, eval_C, eval_X, nodePos]
      field_simp
      ring
    · exact lt_of_le_of_lt degree_linear_le (by exact_mod_cast hn)
  rw [hp]
  simp only [eval_add, eval_mul, eval_C, eval_X, localCoord, segLeft]
  field_simp
  ring

/-- **C30.** `initialize_polynomial_layer(layer, max_slope, max_offset)` with `n ≥ 2`: every link becomes one line
`a * x + b` on the whole real axis with `|a| ≤ max_slope` and `|b| ≤ max_offset`, whatever the draws in `[0, 1)`. -/
theorem C30_linear_initialization (L : PwLayer ℝ) (h : L.WF)
    (hc : L.cls = .continuous ∨ L.cls = .discontinuous) (hl : L.length = 2) (hp : L.periodicity = none)
    (hn : 2 ≤ L.n) (ms mo : ℝ) (hms : 0 ≤ ms) (hmo : 0 ≤ mo) (r1 r2 : ℕ → ℕ → ℝ)
    (hr1 : ∀ o i, 0 ≤ r1 o i ∧ r1 o i < 1) (hr2 : ∀ o i, 0 ≤ r2 o i ∧ r2 o i < 1) :
    ∃ (L' : PwLayer ℝ) (a b : ℕ → ℕ → ℝ), initializePolynomialLayer L ms mo r1 r2 = (.ok (), L') ∧
      (∃ w, w.shape = L.w.shape ∧ L' = { L with w := w }) ∧
      (∀ o i, |a o i| ≤ ms ∧ |b o i| ≤ mo) ∧
      Computes L'.forward L.inFeatures L.outFeatures
        fun o r => ∑ i ∈ Finset.range L.inFeatures, (a o i * r i + b o i) := by
  have hgen := fun o i => lift_nodes (n := L.n) h.n_pos L.cls.shared (fun s k =>
    ms * (r1 o i * 2 - 1) * nodePos L.n L.segments s k + mo * (r2 o i * 2 - 1)) (by
      intro _ s
      rw [nodePos_shared hn])
  choose V hV using hgen
  obtain ⟨L', e, hf, hw⟩ := initializeLayer_weights h
    (by rcases hc with h | h <;> rw [h] <;> decide) hl ms mo r1 r2 V (fun o i s k hk => hV o i s k hk)
  have bound : ∀ {m r : ℝ}, 0 ≤ m → 0 ≤ r → r < 1 → |m * (r * 2 - 1)| ≤ m := by
    intro m r hm h0 h1
    rw [abs_mul, abs_of_nonneg hm]
    exact mul_le_of_le_one_right hm (by rw [abs_le]; constructor <;> linarith)
  refine ⟨L', fun o i => ms * (r1 o i * 2 - 1), fun o i => mo * (r2 o i * 2 - 1), e,
    ⟨L'.w, hf.shape, hf.eq⟩, fun o i => ⟨bound hms (hr1 o i).1 (hr1 o i).2, bound hmo (hr2 o i).1 (hr2 o i).2⟩, ?_⟩
  have hL' : L'.WF := hf.wf' h
  intro B x hx hwf
  have fI : L'.inFeatures = L.inFeatures := by rw [hf.eq]
  have fO : L'.outFeatures = L.outFeatures := by rw [hf.eq]
  have fwd := L'.forward_sum hL' (by rw [hf.eq]; exact hc) (x := x) (B := B) (by rw [fI]; exact hx) hwf
  refine ⟨_, fwd, by rw [fO]; rfl, Tensor.wf_tabulate _ _, ?_⟩
  intro b hb o ho
  have hget := Tensor.get_tab2 (a := B) (b := L'.outFeatures) (f := fun b o =>
      ∑ i ∈ Finset.range L'.inFeatures, L'.linkFn o i (x.get [b, i])) hb (by rw [fO]; exact ho)
  refine hget.trans ?_
  rw [fI]
  apply Finset.sum_congr rfl
  intro i hi
  have hi' := Finset.mem_range.1 hi
  set v := x.get [b, i]
  obtain ⟨s, hs⟩ := isActive_exists h.seg_pos v
  have hpw := L'.linkFn_isPiecewise hL'.seg_pos (by rw [hf.eq]; exact hl) (by rw [hf.eq]; exact hp) o i
  have e1 : L'.segments = L.segments := by rw [hf.eq]
  have e2 : L'.n = L.n := by rw [hf.eq]
  have e3 : L'.stride = L.stride := by rw [hf.eq]; rfl
  rw [e1, e2, e3] at hpw
  rw [hpw s v hs, ← linkPoly_line hn h.seg_pos (s := s)]
  congr 1
  apply linkPoly_congr
  intro k hk
  refine (hw o ho i hi' _ (L.widx_lt h.n_pos hs.1 hk)).trans ?_
  exact hV o i s k hk

example : ∃ (L' : PwLayer ℝ) (a b : ℕ → ℕ → ℝ), initializePolynomialLayer exC 1 (1 / 2) (fun _ _ => 3 / 4) (fun _ _ => 0) = (.ok (), L') ∧
    (∀ o i, |a o i| ≤ 1 ∧ |b o i| ≤ 1 / 2) ∧
    Computes L'.forward 2 1 fun o r => ∑ i ∈ Finset.range 2, (a o i * r i + b o i) := by
  obtain ⟨L', a, b, h1, _, h2, h3⟩ := C30_linear_initialization exC exC_wf (Or.inl rfl) rfl rfl
    (by show 2 ≤ 3; norm_num) 1 (1 / 2) (by norm_num) (by norm_num) (fun _ _ => 3 / 4) (fun _ _ => 0)
    (fun _ _ => by norm_num) (fun _ _ => by norm_num)
  exact ⟨L', a, b, h1, h2, h3⟩

/-- **C30 (product class).** The continuous product layer is left as it is. -/
theorem C30_product_layer_unchanged {K : Type} [TorchScalar K] (L : PwLayer K) (hc : L.cls = .continuousProd)
    (ms mo : K) (r1 r2 : ℕ → ℕ → K) : initializePolynomialLayer L ms mo r1 r2 = (.ok (), L) := by
  unfold initializePolynomialLayer
  rw [hc]

end HOL
