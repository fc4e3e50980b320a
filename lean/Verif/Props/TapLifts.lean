import Verif.Props.TapLevels

/-! # C134: the function does not depend on the differences of levels; levels at the border; an example -/

namespace HOL
open TorchScalar Spec

/-! ## why: the differences of levels do not matter for the function -/

/-- The weights with `ε` added to those that make up the level of one link. -/
noncomputable def Spec.lift (L : ConvLayer ℝ) (ε : ℝ) (o c : ℕ) (pos : List ℕ) (w : Tensor ℝ) : Tensor ℝ :=
  Tensor.tabulate w.shape fun idx => w.get idx + ∑ v ∈ L.expander.levelVariables, if idx = L.weightIdx o (c * L.expander.variables + v) pos then ε else 0

theorem lift_sum {l : List ConvTerm} {E : List ℕ → ℝ} {w w' : List ℕ → ℝ} {vs : Finset ℕ} {idx : ℕ → List ℕ} {ε : ℝ} (h : ∀ t ∈ l, w' t.2 = w t.2 + ∑ v ∈ vs, if t.2 = idx v then ε else 0) :
    sumL (l.map fun t => t.1.elim 0 E * w' t.2) = sumL (l.map fun t => t.1.elim 0 E * w t.2) + (∑ v ∈ vs, sumL ((l.filter fun t => t.2 == idx v).map fun t => t.1.elim 0 E)) * ε := by
  induction l with
  | nil => simp [sumL_nil]
  | cons t l ih =>
    rw [List.map_cons, List.map_cons, sumL_cons, sumL_cons, ih fun t ht => h t (List.mem_cons_of_mem _ ht), h t List.mem_cons_self]
    have : ∀ v, sumL (((t :: l).filter fun t => t.2 == idx v).map fun t => t.1.elim 0 E) = (if t.2 = idx v then t.1.elim 0 E else 0) + sumL ((l.filter fun t => t.2 == idx v).map fun t => t.1.elim 0 E) := by
      intro v
      rw [List.filter_cons]
      by_cases hv : t.2 = idx v
      · rw [if_pos (beq_iff_eq.2 hv), if_pos hv, List.map_cons, sumL_cons]
      · rw [if_neg (by simpa using hv), if_neg hv, zero_add]
    simp only [this]
    have hs : ∑ v ∈ vs, (t.1.elim 0 E * if t.2 = idx v then ε else 0) = ∑ v ∈ vs, (if t.2 = idx v then t.1.elim 0 E else 0) * ε :=
      Finset.sum_congr rfl fun v _ => by split <;> ring
    rw [Finset.sum_add_distrib, add_mul, mul_add, Finset.mul_sum, hs, ← Finset.sum_mul]
    ring

/-- What lifting a link by `ε` adds to the outputs. -/
theorem lift_vec (L : ConvLayer ℝ) {B C : ℕ} {R T : List ℕ} {r : Rank} (h : L.Takes (B :: C :: R) T) (hst : L.Staged B C R T r) {κ : ℝ} (hκ : ∀ t, ∑ v ∈ L.expander.levelVariables, L.expander.val v t = κ)
    {w : Tensor ℝ} (hw : w.shape = L.weight.shape) (ε : ℝ) {o c : ℕ} {pos : List ℕ} (hpos : L.IsTap o c pos) (X : Fin (numel (B :: C :: R)) → ℝ) (m : Fin (numel T)) :
    L.vecFn hst (lift L ε o c pos w) X m = L.vecFn hst w X m + (if (unravel T m).getD 1 0 = o then (if (L.reach R (unravel T m) pos).isSome then κ else 0) else 0) * ε * L.rescale := by
  have hx : X = fun p : Fin (numel (B :: C :: R)) => (ofVec (B :: C :: R) X).get (unravel (B :: C :: R) p) := by
    funext p
    rw [ofVec_get _ (inShape_unravel p.2)]
    congr 1
    exact Fin.ext (ravel_unravel p.2).symm
  have hl := L.level_terms h hst hκ (ofVec (B :: C :: R) X) (E := ofVec (B :: (C * L.expander.variables) :: R) (expandFn L.expander hst.fits.variables_pos B C R fun p => periodize L.periodicity (X p)))
    (by conv_lhs => rw [hx]) hpos (inShape_unravel m.2)
  unfold ConvLayer.vecFn
  beta_reduce
  rw [← hl]
  unfold termsFn
  rw [lift_sum (w := w.get) (w' := (lift L ε o c pos w).get) (vs := L.expander.levelVariables) (idx := fun v => L.weightIdx o (c * L.expander.variables + v) pos) (ε := ε) fun t ht => ?_]
  · ring
  · exact Tensor.get_tabulate (by rw [hw]; exact hst.weights _ (inShape_unravel m.2) t ht)

/-- **C134 (same function).** Adding a number to the weights of one link and subtracting it from those of another one of the same output channel that reads pixels at the same places changes no output, whatever the pixels. -/
theorem C134_same_function (L : ConvLayer ℝ) {S T : List ℕ} (h : L.Takes S T) (hk : L.expander.Known) (ε : ℝ) {o c c' : ℕ} {pos pos' : List ℕ} (hp : L.IsTap o c pos) (hp' : L.IsTap o c' pos') (hr : ReadAlike L pos pos')
    {x : Tensor ℝ} (hx : x.shape = S) (hwx : x.WF) :
    ({ L with weight := lift L (-ε) o c' pos' (lift L ε o c pos L.weight) } : ConvLayer ℝ).forward x = L.forward x := by
  obtain ⟨B, C, R, r, rfl, hst⟩ := L.staged h
  obtain ⟨κ, -, hκ⟩ := levelVariables_sum hst.fits hk
  rw [eq_ofVec hx hwx]
  generalize (fun p : Fin (numel (B :: C :: R)) => x.get (unravel (B :: C :: R) p)) = X
  have hv : L.vecFn hst (lift L (-ε) o c' pos' (lift L ε o c pos L.weight)) X = L.vecFn hst L.weight X := by
    funext m
    rw [lift_vec L h hst hκ (w := lift L ε o c pos L.weight) rfl (-ε) hp', lift_vec L h hst hκ rfl ε hp]
    have : (L.reach R (unravel T m) pos).isSome = (L.reach R (unravel T m) pos').isSome := by
      rcases hr with rfl | ⟨hr1, hr2⟩
      · rfl
      · rw [(L.picked h (inShape_unravel m.2) (hp 0 hst.fits.variables_pos) fun _ => 0).2.2.2.2 hr1 hr2, (L.picked h (inShape_unravel m.2) (hp' 0 hst.fits.variables_pos) fun _ => 0).2.2.2.2 hr1 hr2]
    rw [this]
    ring
  have h1 := L.forward_vec hst (lift L (-ε) o c' pos' (lift L ε o c pos L.weight)) rfl X
  have h2 := L.forward_vec hst L.weight rfl X
  rw [h1, hv]
  exact h2.symm

/-! ## links that read the padding -/

/-- Kernels of three pixels with padding on both sides, for lines of pixels; polynomials of degree one. -/
noncomputable def exBorderConv : ConvLayer ℝ :=
  { expander := .plain 2 (getLagrangeBasis 2 2), kind := .conv1d, geometry := ⟨3, 1, 1, 1, 0⟩, weight := Tensor.tab3 1 2 3 fun _ _ _ => 0, periodicity := none, rescale := 1 }

theorem exBorderConv_takes : exBorderConv.Takes [1, 1, 1] [1, 1, 1] :=
  ⟨Tensor.wf_tab3 _ _ _ _, fun q hq => (by cases hq), 1, 1, 1, 1, 1, rfl, rfl, Nat.two_pos, rfl, rfl⟩

theorem exBorderConv_known : exBorderConv.expander.Known := .inl ⟨2, two_ne_zero, rfl⟩

theorem exBorderConv_tap (d : ℕ) (hd : d < 3) : exBorderConv.IsTap 0 0 [d] := fun v hv => inShape3.2 ⟨Nat.one_pos, (by change v < 2 at hv; omega), hd⟩

/-- **C134 (padding).** With padding the gradients of the levels differ between positions of the kernel: on a line of one pixel only the middle one reads it. -/
theorem C134_padding : ∃ x g gw : Tensor ℝ, exBorderConv.weightGrad x g = .ok gw ∧ tapLevel exBorderConv gw 0 0 [1] ≠ tapLevel exBorderConv gw 0 0 [0] := by
  obtain ⟨gw, h1, -, κ, h0, h2⟩ := exBorderConv.tap_gradient exBorderConv_takes exBorderConv_known (x := ofVec [1, 1, 1] fun _ => 1) (g := ofVec [1, 1, 1] fun _ => 1) rfl (ofVec_wf _ _) rfl
  refine ⟨_, _, gw, h1, ?_⟩
  rw [h2 0 0 [1] (exBorderConv_tap 1 (by norm_num)), h2 0 0 [0] (exBorderConv_tap 0 (by norm_num))]
  change (∑ m : Fin 1, _) ≠ ∑ m : Fin 1, _
  rw [Fin.sum_univ_one, Fin.sum_univ_one]
  have e1 : (exBorderConv.reach [1] [0, 0, 0] [1]).isSome = true := rfl
  have e0 : (exBorderConv.reach [1] [0, 0, 0] [0]).isSome = false := rfl
  show (1 * 1 : ℝ) * (if (0 : ℕ) = 0 then (if (exBorderConv.reach [1] [0, 0, 0] [1]).isSome then κ else 0) else 0) ≠ (1 * 1 : ℝ) * (if (0 : ℕ) = 0 then (if (exBorderConv.reach [1] [0, 0, 0] [0]).isSome then κ else 0) else 0)
  rw [e1, e0]
  simpa using h0

/-! ## an example -/

/-- Two input channels and one output channel, one pixel per kernel, two segments with two points each; the weights are 0, 1, 2 for the first input channel and 3, 4, 5 for the second. -/
noncomputable def exTwoChannels : ConvLayer ℝ :=
  { expander := .piecewise true .two 2 2 2, kind := .conv2d, geometry := ⟨1, 1, 0, 1, 0⟩, weight := Tensor.tab4 1 6 1 1 fun _ q _ _ => (q : ℝ), periodicity := none, rescale := 1 }

theorem exTwoChannels_takes (B : ℕ) : exTwoChannels.Takes [B, 2, 4, 4] [B, 1, 4, 4] :=
  ⟨Tensor.wf_tab4 _ _ _ _ _, fun q hq => (by cases hq), B, 2, 4, 4, 1, 4, 4, rfl, rfl, ⟨rfl, by norm_num, by norm_num⟩, rfl, rfl, rfl⟩

theorem exTwoChannels_tap {c : ℕ} (hc : c < 2) : exTwoChannels.IsTap 0 c [0, 0] := fun v hv => inShape4.2 ⟨Nat.one_pos, (by
  change v < 3 at hv
  change c * 3 + v < 6
  omega), Nat.one_pos, Nat.one_pos⟩

theorem exTwoChannels_level {c : ℕ} (hc : c < 2) : tapLevel exTwoChannels exTwoChannels.weight 0 c [0, 0] = 9 * c + 3 := by
  have hg : ∀ q < 6, exTwoChannels.weight.get [0, q, 0, 0] = q := fun q hq => Tensor.get_tab4 Nat.one_pos hq Nat.one_pos Nat.one_pos
  show ∑ v ∈ Finset.range 3, exTwoChannels.weight.get [0, c * 3 + v, 0, 0] = _
  rw [Finset.sum_congr rfl fun v hv => hg _ (by have := Finset.mem_range.1 hv; omega)]
  simp only [Finset.sum_range_succ, Finset.sum_range_zero]
  push_cast
  ring

/-- The levels are 3 and 12; whatever the images, the losses and the learning rates, after any number of steps they still differ by 9. -/
example (P : Picks ℝ) {bs : List (Batch ℝ)} (hbs : ∀ b ∈ bs, b.x.WF ∧ (∃ B, b.x.shape = [B, 2, 4, 4]) ∧ ∀ y, (b.lossGrad y).shape = y.shape) {ss' : List (NStage ℝ)}
    (ht : stageTrain P [0] [.base (.conv exTwoChannels)] bs = .ok ss') :
    ∃ L', ss'[0]? = some (NStage.base (.conv L')) ∧ tapLevel L' L'.weight 0 1 [0, 0] - tapLevel L' L'.weight 0 0 [0, 0] = 9 := by
  obtain ⟨L', h1, -, h2⟩ := C134_training (k := 0) (L := exTwoChannels) P [0] (fun b hb => by
    obtain ⟨b1, ⟨B, b2⟩, b3⟩ := hbs b hb
    rw [b2]
    exact ⟨b1, ⟨_, _, exTwoChannels_takes B, rfl⟩, b3⟩) rfl (show (2 : ℝ) ≠ 0 from two_ne_zero) (Tensor.wf_tab4 _ _ _ _ _) ht
  refine ⟨L', h1, ?_⟩
  rw [h2 0 1 0 [0, 0] [0, 0] (exTwoChannels_tap (by norm_num)) (exTwoChannels_tap (by norm_num)) (.inl rfl), exTwoChannels_level (by norm_num), exTwoChannels_level (by norm_num)]
  norm_num

/-- Moving 5 from the second channel to the first changes no output. -/
example (x : Tensor ℝ) (hx : x.shape = [3, 2, 4, 4]) (hwx : x.WF) :
    ({ exTwoChannels with weight := lift exTwoChannels (-5) 0 1 [0, 0] (lift exTwoChannels 5 0 0 [0, 0] exTwoChannels.weight) } : ConvLayer ℝ).forward x = exTwoChannels.forward x :=
  C134_same_function exTwoChannels (exTwoChannels_takes 3) (show (2 : ℝ) ≠ 0 from two_ne_zero) 5 (exTwoChannels_tap (by norm_num)) (exTwoChannels_tap (by norm_num)) (.inl rfl) hx hwx

end HOL
