import Verif.Lemmas.RefineSizes
import Verif.Props.Refinement
import Verif.Props.Stability

/-! # C118: refining into a layer of another width or class

`interpolate` and `refine` compare neither the widths nor the classes of the two layers. -/

namespace HOL
open TorchScalar Polynomial Spec

/-- The links of the target that are reached: those of the source, or those of output 0 when the source has more inputs. -/
def Spec.Reached (Lin Lout : PwLayer ℝ) (o i : ℕ) : Prop :=
  i < Lin.inFeatures ∧ o < (if Lin.inFeatures ≤ Lout.inFeatures then Lin.outFeatures else 1)

instance (Lin Lout : PwLayer ℝ) (o i : ℕ) : Decidable (Reached Lin Lout o i) := by unfold Reached; infer_instance

/-- How the call ends: `IndexError` if the source has more inputs or outputs. -/
def Spec.endsWith (Lin Lout : PwLayer ℝ) : Py Unit :=
  if Lin.outFeatures ≤ Lout.outFeatures ∧ Lin.inFeatures ≤ Lout.inFeatures then .ok () else .error .indexError

/-- `L'` is the target after the links reached were replaced by those of the source, whatever the outcome. -/
structure Spec.Replaced (Lin Lout L' : PwLayer ℝ) : Prop where
  eq : ∃ w, w.shape = Lout.w.shape ∧ w.WF ∧ L' = { Lout with w := w }
  reached : ∀ o < Lout.outFeatures, ∀ i < Lout.inFeatures, Reached Lin Lout o i → ∀ v, L'.linkFn o i v = Lin.linkFn o i v
  kept : ∀ o < Lout.outFeatures, ∀ i < Lout.inFeatures, ¬ Reached Lin Lout o i →
    (∀ r < PwLayer.wSize Lout.cls Lout.n Lout.segments, L'.w.get [o, i, r] = Lout.w.get [o, i, r]) ∧
    ∀ v, L'.linkFn o i v = Lout.linkFn o i v

/-- Links with the same weights compute the same function. -/
theorem linkFn_of_weights {L L' : PwLayer ℝ} (h : L.WF) (hf : Frame L L') {o i : ℕ}
    (hw : ∀ r < PwLayer.wSize L.cls L.n L.segments, L'.w.get [o, i, r] = L.w.get [o, i, r]) (v : ℝ) :
    L'.linkFn o i v = L.linkFn o i v := by
  obtain ⟨s1, s2⟩ := PwLayer.seg_congr (L := L) (L' := L') (by rw [hf.eq]) (by rw [hf.eq]) (by rw [hf.eq]) v
  have fn : L'.n = L.n := by rw [hf.eq]
  have fst : L'.stride = L.stride := by rw [hf.eq]; rfl
  unfold PwLayer.linkFn
  rw [s1, s2, fn, fst]
  congr 1
  apply linkPoly_congr
  intro k hk
  exact hw _ (L.widx_lt h.n_pos (L.seg_lt h.seg_pos v) hk)

/-- **C118 (interpolate).** For any widths of the two layers, a source of class `PiecewisePolynomial` or `PiecewiseDiscontinuousPolynomial`, a target that is a sum or a
product of links of the same kind, the same segments, length and periodicity, and `n_in ≤ n_out`: the call succeeds exactly when the target has at least the inputs and outputs of the
source and otherwise raises `IndexError`, and in either case the links reached before are those of the source and the others are as before. -/
theorem C118_interpolate (Lin Lout : PwLayer ℝ) (hin : Lin.WF) (hout : Lout.WF)
    (hc : Lin.cls = .continuous ∨ Lin.cls = .discontinuous) (hcls : Lout.cls.shared = Lin.cls.shared)
    (hseg : Lout.segments = Lin.segments) (hlen : Lout.length = Lin.length)
    (hper : Lout.periodicity = Lin.periodicity) (hn : Lin.n ≤ Lout.n) :
    ∃ L', interpolateLayer Lin Lout = (endsWith Lin Lout, L') ∧ Replaced Lin Lout L' := by
  have hst : ∀ s, s * Lout.stride = s * (if Lin.cls.shared then Lout.n - 1 else Lout.n) := by
    intro s; unfold PwLayer.stride; rw [hcls]
  have hgood : Lin.cls.shared = true → 2 ≤ Lout.n ∨ Lin.n = 1 := by
    intro _
    have := hin.n_pos
    rcases Nat.lt_or_ge Lout.n 2 with h | h
    · right; omega
    · exact Or.inl h
  have hex := fun o i => lift_nodes hout.n_pos Lin.cls.shared (fun s k =>
    (linkPoly Lin.n fun q => Lin.w.get [o, i, s * Lin.stride + q]).eval (node Lout.n k))
    (fun hsh s => interpolate_consistent Lin hin.n_pos hin.seg_pos (hgood hsh) hsh o i s)
  choose V hV using hex
  obtain ⟨L', e, hf, hw⟩ := interpolateLayer_any hin hout hc hcls hseg.symm V
    (fun o i s k hk => by rw [hst]; exact hV o i s k hk)
  refine ⟨L', e, ⟨L'.w, hf.shape, hf.wf, hf.eq⟩, ?_, ?_⟩
  · intro o ho i hi hr v
    unfold Reached at hr
    have fn : L'.n = Lout.n := by rw [hf.eq]
    have fst : L'.stride = Lout.stride := by rw [hf.eq]; rfl
    obtain ⟨s1, s2⟩ := PwLayer.seg_congr (L := Lin) (L' := L') (by rw [hf.eq]; exact hseg)
      (by rw [hf.eq]; exact hlen) (by rw [hf.eq]; exact hper) v
    unfold PwLayer.linkFn
    rw [s1, s2, fn, fst]
    congr 1
    have e2 : (linkPoly Lout.n fun k => L'.w.get [o, i, Lin.seg v * Lout.stride + k])
        = linkPoly Lout.n fun k => (linkPoly Lin.n fun q =>
            Lin.w.get [o, i, Lin.seg v * Lin.stride + q]).eval (node Lout.n k) := by
      apply linkPoly_congr
      intro k hk
      rw [hw o ho i hi _ (Lout.widx_lt hout.n_pos (by rw [hseg]; exact Lin.seg_lt hin.seg_pos v) hk), if_pos hr, hst, hV _ _ _ _ hk]
    rw [e2]
    apply linkPoly_eq_of_degree_lt
    exact lt_of_lt_of_le (linkPoly_degree_lt _ _) (by exact_mod_cast hn)
  · intro o ho i hi hr
    unfold Reached at hr
    have h : ∀ r < PwLayer.wSize Lout.cls Lout.n Lout.segments, L'.w.get [o, i, r] = Lout.w.get [o, i, r] := by
      intro r hlt
      rw [hw o ho i hi r hlt, if_neg hr]
    exact ⟨h, linkFn_of_weights hout hf h⟩

/-- Quadratic with two inputs and one output into degree three with three inputs and two outputs. -/
example : ∃ L', interpolateLayer exC (PwLayer.init .continuous 4 3 2 4 2 (fun _ _ => 0) 1 none) = (.ok (), L') ∧
    Replaced exC (PwLayer.init .continuous 4 3 2 4 2 (fun _ _ => 0) 1 none) L' :=
  C118_interpolate exC _ exC_wf (PwLayer.init_wf _ (by norm_num) (by norm_num) (by norm_num) (by norm_num) _ _ _ _)
    (Or.inl rfl) rfl rfl rfl rfl (by show 3 ≤ 4; norm_num)

/-- **C118 (refine).** The same for `refine` of the continuous classes, when the target has a multiple of the segments of the source. -/
theorem C118_refine (Lin Lout : PwLayer ℝ) (hin : Lin.WF) (hout : Lout.WF)
    (hsh : Lin.cls.shared = true) (hsh' : Lout.cls.shared = true)
    {m : ℕ} (hm : 0 < m) (hseg : Lout.segments = m * Lin.segments)
    (hlen : Lin.length = 2) (hlen' : Lout.length = 2)
    (hper : Lout.periodicity = Lin.periodicity) (hp : ∀ p ∈ Lin.periodicity, 2 ≤ p) (hn : Lin.n ≤ Lout.n) :
    ∃ L', Lin.refine Lout = (endsWith Lin Lout, L') ∧ Replaced Lin Lout L' := by
  have hgood : 2 ≤ Lout.n ∨ Lin.n = 1 := by
    have := hin.n_pos
    rcases Nat.lt_or_ge Lout.n 2 with h | h
    · right; omega
    · exact Or.inl h
  obtain ⟨V, hV⟩ := refine_target Lin Lout hout.n_pos hsh hgood
  obtain ⟨L', e, hf, hw⟩ := refineLayer_any hin hout hsh hsh' hlen' V (by
    intro o i s k hs hk
    obtain ⟨h1, h2⟩ := nodePos_mem (n := Lout.n) hs k
    rw [hV o i s k hk, refineVal_eq hin hsh hp o i h1 h2])
  refine ⟨L', by unfold PwLayer.refine; rw [if_pos hsh]; exact e, ⟨L'.w, hf.shape, hf.wf, hf.eq⟩, ?_, ?_⟩
  · intro o ho i hi hr v
    unfold Reached at hr
    have hL' : L'.WF := hf.wf' hout
    have fn : L'.n = Lout.n := by rw [hf.eq]
    have fc : L'.cls.shared = true := by rw [hf.eq]; exact hsh'
    have fs : L'.segments = m * Lin.segments := by rw [hf.eq]; exact hseg
    have fl : L'.length = 2 := by rw [hf.eq]; exact hlen'
    have fp : L'.periodicity = Lin.periodicity := by rw [hf.eq]; exact hper
    have hst : Lin.noPeriod.stride = Lin.n - 1 := by
      show (if Lin.cls.shared then Lin.n - 1 else Lin.n) = _; rw [hsh]; rfl
    have hst' : L'.noPeriod.stride = L'.n - 1 := by
      show (if L'.cls.shared then L'.n - 1 else L'.n) = _; rw [fc]; rfl
    rw [L'.linkFn_periodic, Lin.linkFn_periodic, fp]
    have h1 := Lin.noPeriod.linkFn_isPiecewise hin.seg_pos hlen rfl o i
    have h2 := L'.noPeriod.linkFn_isPiecewise hL'.seg_pos fl rfl o i
    rw [hst] at h1
    rw [hst'] at h2
    change IsPiecewisePoly Lin.n Lin.segments (Lin.n - 1) _ _ at h1
    change IsPiecewisePoly L'.n L'.segments (L'.n - 1) (fun q => L'.w.get [o, i, q]) _ at h2
    rw [fn, fs] at h2
    have := refined_eq hin.n_pos hn hin.seg_pos hm h1 h2 (by
      intro s k hs hk
      have hr' := Lout.widx_lt hout.n_pos (s := s) (k := k) (by rw [hseg]; exact hs) hk
      have hst2 : Lout.stride = Lout.n - 1 := by unfold PwLayer.stride; rw [hsh']; rfl
      rw [hst2] at hr'
      rw [hw o ho i hi _ hr', if_pos hr, hV _ _ _ _ hk, hseg])
    rw [this]
  · intro o ho i hi hr
    unfold Reached at hr
    have h : ∀ r < PwLayer.wSize Lout.cls Lout.n Lout.segments, L'.w.get [o, i, r] = Lout.w.get [o, i, r] := by
      intro r hlt
      rw [hw o ho i hi r hlt, if_neg hr]
    exact ⟨h, linkFn_of_weights hout hf h⟩

/-- From 4 to 8 segments, but with one input instead of two. -/
example : ∃ L', exC.refine (PwLayer.init .continuous 3 1 1 8 2 (fun _ _ => 0) 1 none) = (.error .indexError, L') ∧
    Replaced exC (PwLayer.init .continuous 3 1 1 8 2 (fun _ _ => 0) 1 none) L' :=
  C118_refine exC _ exC_wf (PwLayer.init_wf _ (by norm_num) (by norm_num) (by norm_num) (by norm_num) _ _ _ _)
    rfl rfl (m := 2) (by norm_num) rfl rfl rfl rfl (by intro p hp; simp [exC, PwLayer.init] at hp) (by show 3 ≤ 3; norm_num)

theorem Spec.Replaced.wf {Lin Lout L' : PwLayer ℝ} (h : Replaced Lin Lout L') (hout : Lout.WF) : L'.WF := by
  obtain ⟨w, h1, h2, rfl⟩ := h.eq
  exact hout.withW h1 h2

/-- The first `n` columns of a batch. -/
def Spec.firstColumns (B n : ℕ) (x : Tensor ℝ) : Tensor ℝ := Tensor.tab2 B n fun b i => x.get [b, i]

/-- **C118 (a larger target).** Into a target with at least the inputs and outputs of the source both calls succeed. Each output of the source is then found in the
target with the contribution of the additional inputs, through the weights they had before, on top; additional outputs are as before. -/
theorem C118_larger (Lin Lout L' : PwLayer ℝ) (hin : Lin.WF) (hout : Lout.WF)
    (hs : Lin.cls = .continuous ∨ Lin.cls = .discontinuous) (hs' : Lout.cls = .continuous ∨ Lout.cls = .discontinuous)
    (hI : Lin.inFeatures ≤ Lout.inFeatures) (hO : Lin.outFeatures ≤ Lout.outFeatures) (h : Replaced Lin Lout L') :
    endsWith Lin Lout = .ok () ∧
    ∀ (B : ℕ) (x : Tensor ℝ), x.shape = [B, Lout.inFeatures] → x.WF → ∃ y yin yout, L'.forward x = .ok y ∧
      Lin.forward (firstColumns B Lin.inFeatures x) = .ok yin ∧ Lout.forward x = .ok yout ∧ y.shape = [B, Lout.outFeatures] ∧
      ∀ b < B, (∀ o < Lin.outFeatures, y.get [b, o] = yin.get [b, o]
          + ∑ i ∈ Finset.range (Lout.inFeatures - Lin.inFeatures), Lout.linkFn o (Lin.inFeatures + i) (x.get [b, Lin.inFeatures + i])) ∧
        ∀ o < Lout.outFeatures, Lin.outFeatures ≤ o → y.get [b, o] = yout.get [b, o] := by
  have hL' := h.wf hout
  obtain ⟨w, hw1, hw2, he⟩ := h.eq
  have fI : L'.inFeatures = Lout.inFeatures := by rw [he]
  have fO : L'.outFeatures = Lout.outFeatures := by rw [he]
  have fc : L'.cls = Lout.cls := by rw [he]
  refine ⟨if_pos ⟨hO, hI⟩, fun B x hx hwf => ?_⟩
  refine ⟨_, _, _, L'.forward_sum hL' (fc ▸ hs') (by rw [fI]; exact hx) hwf,
    Lin.forward_sum hin hs (x := firstColumns B Lin.inFeatures x) (B := B) rfl (Tensor.wf_tabulate _ _),
    Lout.forward_sum hout hs' hx hwf, by rw [fO]; rfl, fun b hb => ⟨fun o ho => ?_, fun o ho ho' => ?_⟩⟩
  · rw [fO, fI, Tensor.get_tab2 hb (by omega), Tensor.get_tab2 hb ho]
    obtain ⟨d, hd⟩ : ∃ d, Lout.inFeatures = Lin.inFeatures + d := ⟨_, (Nat.add_sub_cancel' hI).symm⟩
    rw [hd, Finset.sum_range_add, Nat.add_sub_cancel_left]
    congr 1
    · refine Finset.sum_congr rfl fun i hi => ?_
      have hi := Finset.mem_range.1 hi
      rw [h.reached o (by omega) i (by omega) ⟨hi, by rw [if_pos hI]; exact ho⟩]
      congr 1
      exact (Tensor.get_tab2 (f := fun b i => x.get [b, i]) hb hi).symm
    · refine Finset.sum_congr rfl fun i hi => ?_
      have hi := Finset.mem_range.1 hi
      exact (h.kept o (by omega) _ (by omega) fun hr => absurd hr.1 (by omega)).2 _
  · rw [fO, fI, Tensor.get_tab2 hb ho, Tensor.get_tab2 hb ho]
    refine Finset.sum_congr rfl fun i hi => ?_
    have hi := Finset.mem_range.1 hi
    exact (h.kept o ho i hi fun hr => by
      have := hr.2; rw [if_pos hI] at this; omega).2 _

/-- One additional input and one additional output. -/
example : ∃ L', interpolateLayer exC (PwLayer.init .continuous 3 3 2 4 2 (fun _ _ => 0) 1 none) = (.ok (), L') ∧
    ∀ (B : ℕ) (x : Tensor ℝ), x.shape = [B, 3] → x.WF → ∃ y yin, L'.forward x = .ok y ∧ exC.forward (firstColumns B 2 x) = .ok yin ∧
      ∀ b < B, y.get [b, 0] = yin.get [b, 0] + (PwLayer.init .continuous 3 3 2 4 2 (fun _ _ => 0) 1 none : PwLayer ℝ).linkFn 0 2 (x.get [b, 2]) := by
  have hout := PwLayer.init_wf .continuous (n := 3) (inF := 3) (outF := 2) (segments := 4) (by norm_num) (by norm_num) (by norm_num) (by norm_num) (2 : ℝ) (fun _ _ => 0) 1 none
  obtain ⟨L', e, h⟩ := C118_interpolate exC (PwLayer.init .continuous 3 3 2 4 2 (fun _ _ => 0) 1 none) exC_wf hout (Or.inl rfl) rfl rfl rfl rfl (by show 3 ≤ 3; norm_num)
  obtain ⟨h1, h2⟩ := C118_larger exC _ L' exC_wf hout (Or.inl rfl) (Or.inl rfl) (by show 2 ≤ 3; norm_num) (by show 1 ≤ 2; norm_num) h
  refine ⟨L', by rw [e, h1], fun B x hx hwf => ?_⟩
  obtain ⟨y, yin, _, y1, y2, -, -, y3⟩ := h2 B x hx hwf
  refine ⟨y, yin, y1, y2, fun b hb => ?_⟩
  have := (y3 b hb).1 0 (by show 0 < 1; norm_num)
  rw [this]
  congr 1
  exact Finset.sum_range_one _

/-- **C118 (fewer outputs).** Into a target with the inputs but fewer of the outputs of the source both calls raise `IndexError`, and the target left behind computes the
first outputs of the source. -/
theorem C118_fewer_outputs (Lin Lout L' : PwLayer ℝ) (hin : Lin.WF) (hout : Lout.WF) (hcls : Lout.cls = Lin.cls)
    (hI : Lout.inFeatures = Lin.inFeatures) (hO : Lout.outFeatures < Lin.outFeatures) (h : Replaced Lin Lout L') :
    endsWith Lin Lout = .error .indexError ∧
    ∀ (B : ℕ) (x : Tensor ℝ), x.shape = [B, Lin.inFeatures] → x.WF → ∃ yin, Lin.forward x = .ok yin ∧
      L'.forward x = .ok (firstColumns B Lout.outFeatures yin) := by
  have hL' := h.wf hout
  obtain ⟨w, hw1, hw2, he⟩ := h.eq
  have fI : L'.inFeatures = Lin.inFeatures := by rw [he]; exact hI
  have fO : L'.outFeatures = Lout.outFeatures := by rw [he]
  have fc : L'.cls = Lin.cls := by rw [he]; exact hcls
  refine ⟨if_neg fun hc => by omega, fun B x hx hwf => ?_⟩
  refine ⟨_, Lin.forward_combine hin hx hwf, ?_⟩
  rw [L'.forward_combine hL' (by rw [fI]; exact hx) hwf, fO, fI, fc]
  congr 1
  unfold firstColumns
  apply tab2_congr
  intro b hb o ho
  rw [Tensor.get_tab2 hb (by omega)]
  apply PwClass.combine_congr
  intro i hi
  exact h.reached o ho i (by omega) ⟨hi, by rw [if_pos hI.ge]; omega⟩ _

/-- **C118 (fewer inputs).** Into a target with fewer inputs both calls raise `IndexError` with output 0 of the target changed to the first links of the source and
all other outputs as before. -/
theorem C118_fewer_inputs (Lin Lout L' : PwLayer ℝ) (hout : Lout.WF) (hI : Lout.inFeatures < Lin.inFeatures) (h : Replaced Lin Lout L') :
    endsWith Lin Lout = .error .indexError ∧
    ∀ (B : ℕ) (x : Tensor ℝ), x.shape = [B, Lout.inFeatures] → x.WF → ∃ y yout, L'.forward x = .ok y ∧ Lout.forward x = .ok yout ∧
      ∀ b < B, y.get [b, 0] = Lout.cls.combine Lout.inFeatures (fun i => Lin.linkFn 0 i (x.get [b, i])) ∧
        ∀ o < Lout.outFeatures, 1 ≤ o → y.get [b, o] = yout.get [b, o] := by
  have hL' := h.wf hout
  obtain ⟨w, hw1, hw2, he⟩ := h.eq
  have fI : L'.inFeatures = Lout.inFeatures := by rw [he]
  have fO : L'.outFeatures = Lout.outFeatures := by rw [he]
  have fc : L'.cls = Lout.cls := by rw [he]
  refine ⟨if_neg fun hc => by omega, fun B x hx hwf => ?_⟩
  refine ⟨_, _, L'.forward_combine hL' (by rw [fI]; exact hx) hwf, Lout.forward_combine hout hx hwf, fun b hb => ⟨?_, fun o ho ho1 => ?_⟩⟩
  · rw [fO, fI, fc, Tensor.get_tab2 hb hout.out_pos]
    apply PwClass.combine_congr
    intro i hi
    exact h.reached 0 hout.out_pos i hi ⟨by omega, by rw [if_neg (by omega)]; omega⟩ _
  · rw [fO, fI, fc, Tensor.get_tab2 hb ho, Tensor.get_tab2 hb ho]
    apply PwClass.combine_congr
    intro i hi
    exact (h.kept o ho i hi fun hr => by
      have := hr.2; rw [if_neg (by omega)] at this; omega).2 _

/-- The value of segment `s` of link `(o, i)` of a layer at node `k` of a polynomial with `n` nodes. -/
noncomputable def Spec.pieceAt (L : PwLayer ℝ) (n o i s k : ℕ) : ℝ :=
  (linkPoly L.n fun q => L.w.get [o, i, s * L.stride + q]).eval (node n k)

/-- **C118 (discontinuous into continuous).** With two or more segments `interpolate` raises `RuntimeError`; the first segment of link `(0, 0)` is overwritten by then and
all other links are as before. -/
theorem C118_to_continuous (Lin Lout : PwLayer ℝ) (hin : Lin.WF) (hout : Lout.WF) (hc : Lin.cls = .discontinuous)
    (hsh' : Lout.cls.shared = true) (hseg : Lout.segments = Lin.segments) (hS : 2 ≤ Lin.segments) (hn : 2 ≤ Lout.n) :
    ∃ L', interpolateLayer Lin Lout = (.error .runtimeError, L') ∧ (∃ w, w.shape = Lout.w.shape ∧ L' = { Lout with w := w }) ∧
      (∀ k < Lout.n, L'.w.get [0, 0, k] = pieceAt Lin Lout.n 0 0 0 k) ∧
      ∀ o < Lout.outFeatures, ∀ i < Lout.inFeatures, ¬ (o = 0 ∧ i = 0) → ∀ r < PwLayer.wSize Lout.cls Lout.n Lout.segments,
        L'.w.get [o, i, r] = Lout.w.get [o, i, r] := by
  obtain ⟨X, hXs, hXg, e⟩ := interpolateLayer_loops' hin hseg.symm
  rw [e]
  have hc' : Lin.cls = .continuous ∨ Lin.cls = .discontinuous := Or.inr hc
  have hst : (if Lin.cls.shared then Lout.n - 1 else Lout.n) = Lout.n := by rw [hc]; rfl
  have hsize : PwLayer.wSize Lout.cls Lout.n Lout.segments = (Lout.n - 1) * Lin.segments + 1 := by
    unfold PwLayer.wSize; rw [if_pos hsh', hseg]
  have hex := fun o i => lift_nodes hout.n_pos false (fun s k => pieceAt Lin Lout.n o i s k) (by simp)
  choose V hV using hex
  simp only [Bool.false_eq_true, if_false] at hV
  have hn0 : 0 < Lout.n := by omega
  -- the first segment that does not fit
  let M := ((Lout.n - 1) * Lin.segments + 1) / Lout.n
  have hM1 : M * Lout.n ≤ (Lout.n - 1) * Lin.segments + 1 := Nat.div_mul_le_self _ _
  have hM2 : (Lout.n - 1) * Lin.segments + 1 < (M + 1) * Lout.n := by
    rw [Nat.mul_comm (M + 1)]; exact Nat.lt_mul_div_succ _ hn0
  have hbig : (Lout.n - 1) * Lin.segments + 1 < Lin.segments * Lout.n := by
    obtain ⟨d, hd⟩ : ∃ d, Lout.n = d + 1 := ⟨Lout.n - 1, by omega⟩
    rw [hd, Nat.add_sub_cancel, Nat.mul_add, Nat.mul_comm d]
    omega
  have hMS : M < Lin.segments := by
    by_contra hcon
    have : Lin.segments * Lout.n ≤ M * Lout.n := Nat.mul_le_mul_right _ (by omega)
    omega
  have hM0 : 0 < M := by
    refine Nat.div_pos ?_ hn0
    have : (Lout.n - 1) * 2 ≤ (Lout.n - 1) * Lin.segments := Nat.mul_le_mul_left _ hS
    omega
  have seg : WritesRaise Lout V (fun p q r => p = 0 ∧ q = 0 ∧ r < M * Lout.n) .runtimeError
      (forLoop Lin.segments fun i => interpolateStep Lin X Lin.n Lout.n 0 0 i) := by
    refine WritesRaise.mono (WritesRaise.loop (M := M)
      (W := fun j p q r => j < M ∧ p = 0 ∧ q = 0 ∧ ∃ k < Lout.n, r = j * Lout.n + k)
      (body := fun i => interpolateStep Lin X Lin.n Lout.n 0 0 i) hMS ?_ ?_) ?_
    · intro j hj
      refine Writes.mono (interpolateStep_fits hin hout hc' hXs hXg hst V (fun k hk => hV 0 0 j k hk) hin.out_pos hin.in_pos
        hout.out_pos hout.in_pos (by omega) ?_) fun p q r => by simp [hj]
      rw [hsize]
      have : (j + 1) * Lout.n ≤ M * Lout.n := Nat.mul_le_mul_right _ (by omega)
      rw [Nat.add_mul] at this
      omega
    · refine WritesRaise.mono (WritesRaise.now fun L hL => ?_) (W := fun _ _ _ => False) fun p q r => by simp
      rw [interpolateStep_assign hin hout hc' hXs hin.out_pos hin.in_pos hMS, hst]
      unfold sliceAssign
      rw [hL.shape.trans hout.w_shape, hsize]
      rw [Nat.add_mul] at hM2
      have hm : ¬ (numel (Tensor.tab2 Lout.n 1 fun k _ => (linkPoly Lin.n fun q =>
          Lin.w.get [0, 0, M * Lin.stride + q]).eval (X.get [k, 0])).shape
          = min (M * Lout.n + Lout.n) ((Lout.n - 1) * Lin.segments + 1) - M * Lout.n ∨
          numel (Tensor.tab2 Lout.n 1 fun k _ => (linkPoly Lin.n fun q =>
          Lin.w.get [0, 0, M * Lin.stride + q]).eval (X.get [k, 0])).shape = 1) := by
        have : numel (Tensor.tab2 Lout.n 1 fun k _ => (linkPoly Lin.n fun q =>
          Lin.w.get [0, 0, M * Lin.stride + q]).eval (X.get [k, 0])).shape = Lout.n := by simp [numel]
        rw [this]
        omega
      simp only [hout.out_pos, hout.in_pos, and_self, if_true, if_neg hm]
      rfl
    · intro p q r
      constructor
      · rintro ⟨t, _, ht, rfl, rfl, k, hk, rfl⟩
        refine ⟨rfl, rfl, ?_⟩
        have : (t + 1) * Lout.n ≤ M * Lout.n := Nat.mul_le_mul_right _ (by omega)
        rw [Nat.add_mul] at this
        omega
      · rintro ⟨rfl, rfl, hr⟩
        have hd : r / Lout.n < M := by rw [Nat.div_lt_iff_lt_mul hn0]; exact hr
        exact ⟨r / Lout.n, by omega, hd, rfl, rfl, r % Lout.n, Nat.mod_lt _ hn0, by rw [Nat.mul_comm]; exact (Nat.div_add_mod r Lout.n).symm⟩
  have row : WritesRaise Lout V (fun p q r => p = 0 ∧ q = 0 ∧ r < M * Lout.n) .runtimeError
      (forLoop Lin.inFeatures fun b => forLoop Lin.segments fun i => interpolateStep Lin X Lin.n Lout.n 0 b i) :=
    WritesRaise.mono (WritesRaise.loop (M := 0) (W := fun _ p q r => p = 0 ∧ q = 0 ∧ r < M * Lout.n)
      (body := fun b => forLoop Lin.segments fun i => interpolateStep Lin X Lin.n Lout.n 0 b i) hin.in_pos
      (fun t ht => absurd ht (by omega)) seg) fun p q r => ⟨fun ⟨_, _, h⟩ => h, fun h => ⟨0, le_refl _, h⟩⟩
  obtain ⟨L', e', hf, hv⟩ := WritesRaise.loop (M := 0) (W := fun _ p q r => p = 0 ∧ q = 0 ∧ r < M * Lout.n)
      (body := fun a => forLoop Lin.inFeatures fun b => forLoop Lin.segments fun i => interpolateStep Lin X Lin.n Lout.n a b i) hin.out_pos
      (fun t ht => absurd ht (by omega)) row Lout (Frame.refl hout.w_wf)
  have hfin : ∀ o i r, o < Lout.outFeatures → i < Lout.inFeatures → r < PwLayer.wSize Lout.cls Lout.n Lout.segments →
      InShape Lout.w.shape [o, i, r] := by
    intro o i r ho hi hr
    rw [hout.w_shape]; exact inShape3.2 ⟨ho, hi, hr⟩
  have hone : Lout.n ≤ M * Lout.n := Nat.le_mul_of_pos_left _ hM0
  refine ⟨L', e', ⟨L'.w, hf.shape, hf.eq⟩, fun k hk => ?_, fun o ho i hi hno r hr => ?_⟩
  · rw [(hv 0 0 k (hfin 0 0 k hout.out_pos hout.in_pos (by rw [hsize]; omega))).1 ⟨0, le_refl _, rfl, rfl, by omega⟩]
    have := hV 0 0 0 k hk
    rwa [Nat.zero_mul, Nat.zero_add] at this
  · exact (hv o i r (hfin o i r ho hi hr)).2 fun ⟨_, _, h1, h2, _⟩ => hno ⟨h1, h2⟩

example : ∃ L', interpolateLayer (PwLayer.init .discontinuous 3 2 1 4 2 (fun _ _ => 1) 1 none) exC = (.error .runtimeError, L') := by
  obtain ⟨L', e, -⟩ := C118_to_continuous (PwLayer.init .discontinuous 3 2 1 4 2 (fun _ _ => 1) 1 none) exC
    (PwLayer.init_wf _ (by norm_num) (by norm_num) (by norm_num) (by norm_num) _ _ _ _) exC_wf rfl rfl rfl (by show 2 ≤ 4; norm_num)
    (by show 2 ≤ 3; norm_num)
  exact ⟨L', e⟩

/-- **C118 (continuous into discontinuous).** `interpolate` succeeds, but writes the values in the layout of the source: node `k` of segment `s` goes to weight
`s (n - 1) + k` of each link, which the target reads as that of another node for `s ≥ 1`, and the last `segments - 1` weights of each link keep their values. -/
theorem C118_to_discontinuous (Lin Lout : PwLayer ℝ) (hin : Lin.WF) (hout : Lout.WF) (hc : Lin.cls = .continuous)
    (hsh' : Lout.cls.shared = false) (hseg : Lout.segments = Lin.segments) (hI : Lout.inFeatures = Lin.inFeatures)
    (hO : Lout.outFeatures = Lin.outFeatures) (hn : 2 ≤ Lout.n) :
    ∃ L', interpolateLayer Lin Lout = (.ok (), L') ∧ (∃ w, w.shape = Lout.w.shape ∧ w.WF ∧ L' = { Lout with w := w }) ∧
      ∀ o < Lout.outFeatures, ∀ i < Lout.inFeatures,
        (∀ s < Lout.segments, ∀ k < Lout.n, L'.w.get [o, i, s * (Lout.n - 1) + k] = pieceAt Lin Lout.n o i s k) ∧
        ∀ r, Lout.segments * (Lout.n - 1) < r → r < Lout.segments * Lout.n → L'.w.get [o, i, r] = Lout.w.get [o, i, r] := by
  obtain ⟨X, hXs, hXg, e⟩ := interpolateLayer_loops' hin hseg.symm
  rw [e]
  have hc' : Lin.cls = .continuous ∨ Lin.cls = .discontinuous := Or.inl hc
  have hsh : Lin.cls.shared = true := by rw [hc]; rfl
  have hst : (if Lin.cls.shared then Lout.n - 1 else Lout.n) = Lout.n - 1 := by rw [if_pos hsh]
  have hsize : PwLayer.wSize Lout.cls Lout.n Lout.segments = Lout.segments * Lout.n := by
    unfold PwLayer.wSize; rw [if_neg (by rw [hsh']; simp), Nat.mul_comm]
  have hex := fun o i => lift_nodes hout.n_pos true (fun s k => pieceAt Lin Lout.n o i s k)
    (fun _ s => interpolate_consistent Lin hin.n_pos hin.seg_pos (Or.inl hn) hsh o i s)
  choose V hV using hex
  simp only [if_true] at hV
  have hsplit : Lout.segments * Lout.n = Lout.segments * (Lout.n - 1) + Lout.segments := by
    obtain ⟨d, hd⟩ : ∃ d, Lout.n = d + 1 := ⟨Lout.n - 1, by omega⟩
    rw [hd, Nat.add_sub_cancel, Nat.mul_add, Nat.mul_one]
  have hup : ∀ s < Lout.segments, s * (Lout.n - 1) + (Lout.n - 1) ≤ Lout.segments * (Lout.n - 1) := by
    intro s hs
    have : (s + 1) * (Lout.n - 1) ≤ Lout.segments * (Lout.n - 1) := Nat.mul_le_mul_right _ hs
    rwa [Nat.add_mul, Nat.one_mul] at this
  have hS := hout.seg_pos
  obtain ⟨L', e', hf, hv⟩ := Writes.loop (N := Lin.outFeatures) (fun a ha => Writes.loop (N := Lin.inFeatures) fun b hb =>
    Writes.loop (N := Lin.segments) fun j hj => interpolateStep_fits hin hout hc' hXs hXg hst V (fun k hk => hV a b j k hk) ha hb (by omega) (by omega) hj (by
      have := hup j (by omega)
      rw [hsize]; omega)) Lout (Frame.refl hout.w_wf)
  refine ⟨L', e', ⟨L'.w, hf.shape, hf.wf, hf.eq⟩, fun o ho i hi => ⟨fun s hs k hk => ?_, fun r h1 h2 => ?_⟩⟩
  · have := hup s hs
    rw [(hv o i _ (by rw [hout.w_shape, hsize]; exact inShape3.2 ⟨ho, hi, by omega⟩)).1
      ⟨o, by omega, i, by omega, s, by omega, rfl, rfl, k, hk, rfl⟩]
    exact hV o i s k hk
  · refine (hv o i r (by rw [hout.w_shape, hsize]; exact inShape3.2 ⟨ho, hi, by omega⟩)).2 ?_
    rintro ⟨_, _, _, _, s, hs, _, _, k, hk, rfl⟩
    have := hup s (by omega)
    omega

/-- **C118 (one segment).** With a single segment the two layouts agree and `interpolate` between the classes of sums is exact. -/
theorem C118_one_segment (Lin Lout : PwLayer ℝ) (hin : Lin.WF) (hout : Lout.WF) (hc : Lin.cls = .continuous ∨ Lin.cls = .discontinuous)
    (hc' : Lout.cls = .continuous ∨ Lout.cls = .discontinuous) (h1 : Lin.segments = 1) (h1' : Lout.segments = 1)
    (hI : Lout.inFeatures = Lin.inFeatures) (hO : Lout.outFeatures = Lin.outFeatures) (hlen : Lout.length = Lin.length)
    (hper : Lout.periodicity = Lin.periodicity) (hn : Lin.n ≤ Lout.n) :
    ∃ L', interpolateLayer Lin Lout = (.ok (), L') ∧ (∃ w, w.shape = Lout.w.shape ∧ L' = { Lout with w := w }) ∧
      ∀ (B : ℕ) (x : Tensor ℝ), x.shape = [B, Lin.inFeatures] → x.WF → L'.forward x = Lin.forward x := by
  obtain ⟨X, hXs, hXg, e⟩ := interpolateLayer_loops' hin (h1.trans h1'.symm)
  rw [e]
  have hsize : PwLayer.wSize Lout.cls Lout.n Lout.segments = Lout.n := by
    have := hout.n_pos
    unfold PwLayer.wSize; rw [h1']; split <;> omega
  let V : ℕ → ℕ → ℕ → ℝ := fun o i k => pieceAt Lin Lout.n o i 0 k
  obtain ⟨L', e', hf, hv⟩ := Writes.loop (N := Lin.outFeatures) (fun a ha => Writes.loop (N := Lin.inFeatures) fun b hb =>
    Writes.loop (N := Lin.segments) fun j hj => interpolateStep_fits hin hout hc hXs hXg rfl V (fun k hk => by
      obtain rfl : j = 0 := by omega
      show pieceAt Lin Lout.n a b 0 (0 * _ + k) = pieceAt Lin Lout.n a b 0 k
      rw [Nat.zero_mul, Nat.zero_add]) ha hb (by omega) (by omega) hj (by
      obtain rfl : j = 0 := by omega
      rw [hsize]; omega)) Lout (Frame.refl hout.w_wf)
  refine ⟨L', e', ⟨L'.w, hf.shape, hf.eq⟩, ?_⟩
  intro B x hx hwf
  have hL' : L'.WF := hf.wf' hout
  have fn : L'.n = Lout.n := by rw [hf.eq]
  have fst : L'.stride = Lout.stride := by rw [hf.eq]; rfl
  have fI : L'.inFeatures = Lin.inFeatures := by rw [hf.eq]; exact hI
  have fO : L'.outFeatures = Lin.outFeatures := by rw [hf.eq]; exact hO
  have fc : L'.cls = .continuous ∨ L'.cls = .discontinuous := by rw [hf.eq]; exact hc'
  have fs : L'.segments = Lin.segments := by rw [hf.eq]; exact h1'.trans h1.symm
  rw [Lin.forward_sum hin hc hx hwf, L'.forward_sum hL' fc (by rw [fI]; exact hx) hwf, fO, fI]
  congr 1
  apply tab2_congr
  intro b hb o ho
  refine Finset.sum_congr rfl fun i hi => ?_
  have hi := Finset.mem_range.1 hi
  generalize x.get [b, i] = v
  obtain ⟨s1, s2⟩ := PwLayer.seg_congr (L := Lin) (L' := L') fs
    (by rw [hf.eq]; exact hlen) (by rw [hf.eq]; exact hper) v
  have hz : Lin.seg v = 0 := by have := Lin.seg_lt hin.seg_pos v; omega
  unfold PwLayer.linkFn
  rw [s1, s2, fn, fst, hz]
  congr 1
  have e2 : (linkPoly Lout.n fun k => L'.w.get [o, i, 0 * Lout.stride + k])
      = linkPoly Lout.n fun k => (linkPoly Lin.n fun q => Lin.w.get [o, i, 0 * Lin.stride + q]).eval (node Lout.n k) := by
    apply linkPoly_congr
    intro k hk
    rw [Nat.zero_mul, Nat.zero_add, (hv o i k (by rw [hout.w_shape, hsize]; exact inShape3.2 ⟨by omega, by omega, hk⟩)).1
      ⟨o, ho, i, hi, 0, by omega, rfl, rfl, k, hk, by omega⟩]
    rfl
  rw [e2]
  apply linkPoly_eq_of_degree_lt
  exact lt_of_lt_of_le (linkPoly_degree_lt _ _) (by exact_mod_cast hn)

/-- A line on one segment from one class to the other. -/
example : ∃ L', interpolateLayer (lineLayer 1 fun r => 2 * (r : ℝ) - 1) (PwLayer.init .discontinuous 3 1 1 1 2 (fun _ _ => 0) 1 none) = (.ok (), L') ∧
    ∀ (B : ℕ) (x : Tensor ℝ), x.shape = [B, 1] → x.WF → L'.forward x = (lineLayer 1 fun r => 2 * (r : ℝ) - 1).forward x := by
  obtain ⟨L', e, -, h⟩ := C118_one_segment (lineLayer 1 fun r => 2 * (r : ℝ) - 1) (PwLayer.init .discontinuous 3 1 1 1 2 (fun _ _ => 0) 1 none)
    (lineLayer_wf (by norm_num) _) (PwLayer.init_wf _ (by norm_num) (by norm_num) (by norm_num) (by norm_num) _ _ _ _)
    (Or.inl rfl) (Or.inr rfl) rfl rfl rfl rfl rfl rfl (by show 2 ≤ 3; norm_num)
  exact ⟨L', e, h⟩

/-- **C118 (continuous into discontinuous, counterexample).** The line `x` on two segments interpolated into a discontinuous layer of the same order with zero weights:
the call succeeds and the target answers 0 at 1 instead of 1. -/
theorem C118_classes_differ : ∃ Lin Lout L' : PwLayer ℝ, Lin.cls = .continuous ∧ Lout.cls = .discontinuous ∧ Lin.n = 2 ∧ Lout.n = 2 ∧
    Lin.segments = 2 ∧ Lout.segments = 2 ∧ interpolateLayer Lin Lout = (.ok (), L') ∧
    Lin.forward (Tensor.tab2 1 1 fun _ _ => 1) = .ok (Tensor.tab2 1 1 fun _ _ => 1) ∧
    L'.forward (Tensor.tab2 1 1 fun _ _ => 1) = .ok (Tensor.tab2 1 1 fun _ _ => 0) := by
  let Lin : PwLayer ℝ := lineLayer 2 fun r => (r : ℝ) - 1
  let Lout : PwLayer ℝ := 
    { cls := .discontinuous, n := 2, segments := 2, inFeatures := 1, outFeatures := 1, length := 2, periodicity := none, w := Tensor.tab3 1 1 4 fun _ _ _ => 0 }
  have hin : Lin.WF := lineLayer_wf (by norm_num) _
  have hout : Lout.WF := ⟨by norm_num [Lout], by norm_num [Lout], by norm_num [Lout], by norm_num [Lout], by simp [Lout, PwLayer.wSize, PwClass.shared], Tensor.wf_tabulate _ _⟩
  obtain ⟨L', e, ⟨w, hw1, hw2, he⟩, hv⟩ := C118_to_discontinuous Lin Lout hin hout rfl rfl rfl rfl rfl (le_refl 2)
  have hL' : L'.WF := by rw [he]; exact hout.withW hw1 hw2
  have act : IsActive 2 1 (1 : ℝ) := ⟨by norm_num, Or.inr (by norm_num [segLeft]), Or.inl rfl⟩
  have hloc : localCoord 2 1 (1 : ℝ) = node 2 1 := by
    rw [show node 2 1 = 1 from node_last (n := 2) (le_refl 2)]
    norm_num [localCoord]
  have key : ∀ (L : PwLayer ℝ) (v : ℝ), L.WF → L.cls = .continuous ∨ L.cls = .discontinuous → L.inFeatures = 1 → L.outFeatures = 1 → L.n = 2 → L.segments = 2 →
      L.length = 2 → L.periodicity = none → L.w.get [0, 0, 1 * L.stride + 1] = v →
      L.forward (Tensor.tab2 1 1 fun _ _ => 1) = .ok (Tensor.tab2 1 1 fun _ _ => v) := by
    intro L v hL hcl h1 h2 h3 h4 h5 h6 h7
    rw [L.forward_sum hL hcl (B := 1) (x := Tensor.tab2 1 1 fun _ _ => 1) (by rw [h1]; rfl) (Tensor.wf_tabulate _ _), h1, h2]
    congr 1
    apply tab2_congr
    intro b hb o ho
    obtain rfl : b = 0 := by omega
    obtain rfl : o = 0 := by omega
    rw [Finset.sum_range_one, Tensor.get_tab2 (by norm_num) (by norm_num)]
    have := L.linkFn_isPiecewise hL.seg_pos h5 h6 0 0 1 1 (by rw [h4]; exact act)
    rw [this, h4, hloc, h3, linkPoly_eval_node (by norm_num)]
    exact h7
  refine ⟨Lin, Lout, L', rfl, rfl, rfl, rfl, rfl, rfl, e, key Lin 1 hin (Or.inl rfl) rfl rfl rfl rfl rfl rfl ?_, ?_⟩
  · show (Tensor.tab3 1 1 3 fun _ _ r => ((r : ℝ) - 1)).get [0, 0, 2] = 1
    rw [Tensor.get_tab3 (by norm_num) (by norm_num) (by norm_num)]
    norm_num
  · refine key L' 0 hL' (by rw [he]; exact Or.inr rfl) (by rw [he]) (by rw [he]) (by rw [he]) (by rw [he]) (by rw [he]) (by rw [he]) ?_
    have hs : L'.stride = 2 := by rw [he]; rfl
    rw [hs]
    have h3 := (hv 0 (by norm_num [Lout]) 0 (by norm_num [Lout])).2 3 (by norm_num [Lout]) (by norm_num [Lout])
    refine h3.trans ?_
    exact Tensor.get_tab3 (f := fun _ _ _ => (0 : ℝ)) (by norm_num) (by norm_num) (by norm_num)

end HOL
