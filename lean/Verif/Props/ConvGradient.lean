import Verif.Lemmas.ConvBackward
import Verif.Props.ConvNet
import Verif.Props.Deconv

/-!
# C120: gradients of convolutional networks

`GradVec T D g` says that `g` holds the derivatives by the entries of a tensor of shape `T`; `ofVec S Y` is the tensor of shape `S` with the entries `Y`.
-/

namespace HOL
open TorchScalar Spec Filter

namespace IStage

/-- The module accepts inputs of shape `S` and returns outputs of shape `T`. -/
def Takes (s : IStage ℝ) (S T : List ℕ) : Prop :=
  match s with
  | .conv L => L.Takes S T
  | .norm two training channels N => T = S ∧ ∃ B R, S = B :: channels :: R ∧ NormAxes two R ∧
      if training then B * numel R ≠ 1 ∧ 0 < N.eps else ∀ c < channels, 0 < N.runningVar c + N.eps
  | .pool d => (S.length = d + 1 ∨ S.length = d + 2) ∧ 0 < numel (S.drop (S.length - d)) ∧ T = S.take (S.length - d) ++ List.replicate d 1
  | .flatten => ∃ B C R, S = B :: C :: R ∧ T = [B, numel (C :: R)]
  | .dense l => ∃ B I O, S = [B, I] ∧ T = [B, O] ∧ l.Fits I O

/-- The module is differentiable at inputs with this entry: layers with segments away from the inner boundaries, periodic ones away from the turning points. -/
def SmoothAt (s : IStage ℝ) (v : ℝ) : Prop :=
  match s with
  | .conv L => L.SmoothAt v
  | .dense l => l.SmoothAt v
  | _ => True

/-- `gps` are the derivatives by the parameters of the module. -/
def ParamGrads (s : IStage ℝ) (S T : List ℕ) (X : Fin (numel S) → ℝ) (loss : (Fin (numel T) → ℝ) → ℝ) (gps : List (Tensor ℝ)) : Prop :=
  ∀ j p idx, s.params[j]? = some p → InShape p.shape idx →
    ∃ (gp : Tensor ℝ) (P : ℝ → Fin (numel T) → ℝ), gps[j]? = some gp ∧ gp.shape = p.shape ∧
      (∀ t, (s.setParam j (p.set idx t)).forward (ofVec S X) = .ok (ofVec T (P t))) ∧ HasDerivAt (fun t => loss (P t)) (gp.get idx) (p.get idx)

end IStage

/-! ## modules -/

theorem inShape1_exists {n : ℕ} {idx : List ℕ} (h : InShape [n] idx) : ∃ i, idx = [i] ∧ i < n := by
  match idx, h with
  | [i], h => exact ⟨i, rfl, h.1⟩

theorem norm_params (N : BatchNorm ℝ) (two training : Bool) {B C : ℕ} {R : List ℕ} (hR : NormAxes two R) (hn : training = true → B * numel R ≠ 1)
    (X : Fin (numel (B :: C :: R)) → ℝ) {loss : (Fin (numel (B :: C :: R)) → ℝ) → ℝ} {D : (Fin (numel (B :: C :: R)) → ℝ) →L[ℝ] ℝ} {g : Tensor ℝ}
    (hD : HasFDerivAt loss D (fun p => vNorm N training (B :: C :: R) (chanSize B R) X p * N.weight (chanOf (B :: C :: R) p) + N.bias (chanOf (B :: C :: R) p)))
    (hg : GradVec (B :: C :: R) D g) :
    (IStage.norm two training C N).ParamGrads (B :: C :: R) (B :: C :: R) X loss [N.weightGrad training C (ofVec (B :: C :: R) X) g, BatchNorm.biasGrad C g] := by
  have hset : ∀ (f : ℕ → ℝ) (c : ℕ), c < C → ∀ t, ∀ i < C, ((Tensor.tab1 C f).set [c] t).get [i] = if i = c then t else f i := by
    intro f c hc t i hi
    by_cases h : i = c
    · subst h
      rw [if_pos rfl, Tensor.get_set_self (Tensor.wf_tab1 _ _) (inShape1.2 hc)]
    · rw [if_neg h, Tensor.get_set_ne (inShape1.2 hc) (inShape1.2 hi) (by simpa using fun e : c = i => h e.symm), Tensor.get_tab1 hi]
  intro j p idx hj hin
  match j with
  | 0 =>
    obtain rfl : Tensor.tab1 C N.weight = p := Option.some.inj hj
    obtain ⟨c, rfl, hc⟩ := inShape1_exists hin
    refine ⟨_, fun t p => vNorm N training (B :: C :: R) (chanSize B R) X p * ((Tensor.tab1 C N.weight).set [c] t).get [chanOf (B :: C :: R) p] + N.bias (chanOf (B :: C :: R) p), rfl, rfl, fun t => ?_, ?_⟩
    · exact norm_vec { N with weight := fun i => ((Tensor.tab1 C N.weight).set [c] t).get [i] } two training C B C R hR hn X
    · have key := GradVec.affine hD hg (fun m => if chanOf (B :: C :: R) m = c then vNorm N training (B :: C :: R) (chanSize B R) X m else 0) (N.weight c)
        (fun t p => vNorm N training (B :: C :: R) (chanSize B R) X p * ((Tensor.tab1 C N.weight).set [c] t).get [chanOf (B :: C :: R) p] + N.bias (chanOf (B :: C :: R) p)) (by
          intro t m
          rw [hset _ _ hc t _ (chanOf_lt m)]
          by_cases h : chanOf (B :: C :: R) m = c
          · rw [if_pos h, if_pos h, h]
            ring
          · rw [if_neg h, if_neg h]
            ring)
      rw [Tensor.get_tab1 hc]
      unfold BatchNorm.weightGrad
      rw [Tensor.get_tab1 hc, hg.1, sumL_channelEntries rfl hc]
      refine key.congr_deriv ?_
      rw [← sum_same]
      refine Finset.sum_congr rfl fun m _ => ?_
      by_cases h : chanOf (B :: C :: R) m = c
      · rw [if_pos h, if_pos h, Tensor.get_tabulate (inShape_unravel m.2), hat_get]
      · rw [if_neg h, if_neg h, mul_zero]
  | 1 =>
    obtain rfl : Tensor.tab1 C N.bias = p := Option.some.inj hj
    obtain ⟨c, rfl, hc⟩ := inShape1_exists hin
    refine ⟨_, fun t p => vNorm N training (B :: C :: R) (chanSize B R) X p * N.weight (chanOf (B :: C :: R) p) + ((Tensor.tab1 C N.bias).set [c] t).get [chanOf (B :: C :: R) p], rfl, rfl, fun t => ?_, ?_⟩
    · exact norm_vec { N with bias := fun i => ((Tensor.tab1 C N.bias).set [c] t).get [i] } two training C B C R hR hn X
    · have key := GradVec.affine hD hg (fun m => if chanOf (B :: C :: R) m = c then 1 else 0) (N.bias c)
        (fun t p => vNorm N training (B :: C :: R) (chanSize B R) X p * N.weight (chanOf (B :: C :: R) p) + ((Tensor.tab1 C N.bias).set [c] t).get [chanOf (B :: C :: R) p]) (by
          intro t m
          rw [hset _ _ hc t _ (chanOf_lt m)]
          by_cases h : chanOf (B :: C :: R) m = c
          · rw [if_pos h, if_pos h, h]
            ring
          · rw [if_neg h, if_neg h]
            ring)
      rw [Tensor.get_tab1 hc]
      unfold BatchNorm.biasGrad
      rw [Tensor.get_tab1 hc, sumL_channelEntries hg.1 hc]
      refine key.congr_deriv ?_
      rw [← sum_same]
      refine Finset.sum_congr rfl fun m _ => ?_
      by_cases h : chanOf (B :: C :: R) m = c
      · rw [if_pos h, if_pos h, mul_one]
      · rw [if_neg h, if_neg h, mul_zero]
  | j + 2 => cases hj

/-- Every module: for a differentiable loss of the output whose gradient is `g`, the backward pass returns the gradient of the input and of every entry of every parameter. -/
theorem C120_modules (s : IStage ℝ) {S T : List ℕ} (h : s.Takes S T) (X : Fin (numel S) → ℝ) (hX : ∀ p, s.SmoothAt (X p)) :
    ∃ F : (Fin (numel S) → ℝ) → Fin (numel T) → ℝ, (∀ Y, s.forward (ofVec S Y) = .ok (ofVec T (F Y))) ∧
      ∀ (loss : (Fin (numel T) → ℝ) → ℝ) (D : (Fin (numel T) → ℝ) →L[ℝ] ℝ) (g : Tensor ℝ), HasFDerivAt loss D (F X) → GradVec T D g →
        ∃ gx gps, s.inputGrad (ofVec S X) g = .ok gx ∧ s.paramGrads (ofVec S X) g = .ok gps ∧
          (∃ D', HasFDerivAt (fun Y => loss (F Y)) D' X ∧ GradVec S D' gx) ∧ s.ParamGrads S T X loss gps := by
  cases s with
  | conv L =>
    have hT : L.Takes S T := h
    obtain ⟨B, C, R, r, rfl, hst⟩ := L.staged hT
    have hb := L.backprop hst hT.2.1 X hX
    refine ⟨_, hb.run, fun loss D g hD hg => ?_⟩
    obtain ⟨D', gx, e1, e2, e3⟩ := hb.grad loss D g hD hg
    obtain ⟨gw, w1, w2, w3, w4⟩ := L.weight_deriv hst hT.1 X hD hg
    refine ⟨gx, [gw], e1, ?_, ⟨D', e2, e3⟩, ?_⟩
    · show (L.weightGrad _ g >>= fun w => Except.ok [w]) = _
      rw [w1]
      rfl
    · intro j p idx hj hin
      match j with
      | 0 =>
        obtain rfl : L.weight = p := Option.some.inj hj
        exact ⟨gw, fun t => L.vecFn hst (L.weight.set idx t) X, rfl, w2, fun t => L.forward_vec hst (L.weight.set idx t) rfl X, w4 idx hin⟩
      | j + 1 => cases hj
  | norm two training channels N =>
    obtain ⟨rfl, B, R, rfl, hR, ht⟩ := h
    have hn : training = true → B * numel R ≠ 1 := fun e => by rw [if_pos e] at ht; exact ht.1
    have he : training = true → 0 < N.eps := fun e => by rw [if_pos e] at ht; exact ht.2
    have hb := backprop_norm N two training channels B channels R hR hn he X
    refine ⟨_, hb.run, fun loss D g hD hg => ?_⟩
    obtain ⟨D', gx, e1, e2, e3⟩ := hb.grad loss D g hD hg
    exact ⟨gx, _, e1, rfl, ⟨D', e2, e3⟩, norm_params N two training hR hn X hD hg⟩
  | pool d =>
    obtain ⟨hr, hN, rfl⟩ := h
    obtain ⟨F, hb⟩ := backprop_pool d hr hN X
    refine ⟨F, hb.run, fun loss D g hD hg => ?_⟩
    obtain ⟨D', gx, e1, e2, e3⟩ := hb.grad loss D g hD hg
    exact ⟨gx, [], e1, rfl, ⟨D', e2, e3⟩, fun j p idx hj => by cases hj⟩
  | flatten =>
    obtain ⟨B, C, R, rfl, rfl⟩ := h
    have hb := backprop_reshape (f := flatten1) (S := B :: C :: R) (T := [B, numel (C :: R)]) (by simp [numel]) (fun x hx => by unfold flatten1; rw [hx]) X
    refine ⟨_, hb.run, fun loss D g hD hg => ?_⟩
    obtain ⟨D', gx, e1, e2, e3⟩ := hb.grad loss D g hD hg
    exact ⟨gx, [], e1, rfl, ⟨D', e2, e3⟩, fun j p idx hj => by cases hj⟩
  | dense l =>
    obtain ⟨B, I, O, rfl, rfl, hl⟩ := h
    obtain ⟨F, hF, hB⟩ := C92_layer_gradients l hl (matVec B I X) fun b i => hX _
    refine ⟨fun Y => vecMat B O (F (matVec B I Y)), fun Y => ?_, fun loss D g hD hg => ?_⟩
    · show l.forward _ = _
      rw [ofVec_ofMat, hF, ofMat_ofVec]
    · obtain ⟨⟨D', e1, e2⟩, hp⟩ := hB (fun M => loss (vecMat B O M)) (D.comp (vecMat B O)) g (hD.comp _ (vecMat B O).hasFDerivAt) hg.gradOf
      refine ⟨l.inputGrad (ofVec [B, I] X) g, l.paramGrads (ofVec [B, I] X) g, rfl, rfl, ⟨D'.comp (matVec B I), ?_, ?_⟩, ?_⟩
      · exact HasFDerivAt.comp (g := fun Z => loss (vecMat B O (F Z))) X e1 (matVec B I).hasFDerivAt
      · rw [ofVec_ofMat]
        exact e2.gradVec (l.inputGrad_wf hl _ g)
      · intro j p idx hj hin
        obtain ⟨gp, P, a, b, c, d⟩ := hp j p idx hj hin
        refine ⟨gp, fun t => vecMat B O (P t), ?_, b, fun t => ?_, d⟩
        · rw [ofVec_ofMat]
          exact a
        · show (l.setParam j (p.set idx t)).forward _ = _
          rw [ofVec_ofMat, c, ofMat_ofVec]

/-! ## networks -/

/-- Modules with matching shapes. -/
def TakesAll : List (IStage ℝ) → List ℕ → List ℕ → Prop
  | [], S, T => S = T
  | s :: ss, S, T => ∃ M, s.Takes S M ∧ TakesAll ss M T

/-- All intermediate values of the forward pass on `x` are smooth points of the modules that read them. -/
def SmoothAll : List (IStage ℝ) → Tensor ℝ → Prop
  | [], _ => True
  | s :: ss, x => (∀ idx, InShape x.shape idx → s.SmoothAt (x.get idx)) ∧ ∀ y, s.forward x = .ok y → SmoothAll ss y

theorem imageForward_cons {K : Type} [TorchScalar K] {s : IStage K} {ss : List (IStage K)} {x y : Tensor K} (h : s.forward x = .ok y) :
    imageForward (s :: ss) x = imageForward ss y := by
  show (s.forward x >>= imageForward ss) = _
  rw [h]
  rfl

/-- The backward pass of a network: the gradients of the input and of all parameters of all modules. -/
theorem C120_backpropagation (ss : List (IStage ℝ)) {S T : List ℕ} (h : TakesAll ss S T) (X : Fin (numel S) → ℝ) (hX : SmoothAll ss (ofVec S X)) :
    ∃ F : (Fin (numel S) → ℝ) → Fin (numel T) → ℝ, (∀ Y, imageForward ss (ofVec S Y) = .ok (ofVec T (F Y))) ∧
      ∀ (loss : (Fin (numel T) → ℝ) → ℝ) (D : (Fin (numel T) → ℝ) →L[ℝ] ℝ) (g : Tensor ℝ), HasFDerivAt loss D (F X) → GradVec T D g →
        ∃ gx gps, imageBackward ss (ofVec S X) g = .ok (gx, gps) ∧
          (∃ D', HasFDerivAt (fun Y => loss (F Y)) D' X ∧ GradVec S D' gx) ∧
          ∀ k s j p idx, ss[k]? = some s → s.params[j]? = some p → InShape p.shape idx →
            ∃ (gs : List (Tensor ℝ)) (gp : Tensor ℝ) (P : ℝ → Fin (numel T) → ℝ), gps[k]? = some gs ∧ gs[j]? = some gp ∧ gp.shape = p.shape ∧
              (∀ t, imageForward (ss.set k (s.setParam j (p.set idx t))) (ofVec S X) = .ok (ofVec T (P t))) ∧
              HasDerivAt (fun t => loss (P t)) (gp.get idx) (p.get idx) := by
  induction ss generalizing S with
  | nil =>
    obtain rfl : S = T := h
    refine ⟨fun Y => Y, fun Y => rfl, fun loss D g hD hg => ⟨g, [], rfl, ⟨D, hD, hg⟩, ?_⟩⟩
    intro k s j p idx hk
    simp at hk
  | cons s ss ih =>
    obtain ⟨M, h1, h2⟩ := h
    obtain ⟨F1, hF1, hB1⟩ := C120_modules s h1 X fun p => by
      have := hX.1 (unravel S p) (inShape_unravel p.2)
      rwa [ofVec_get_unravel] at this
    obtain ⟨F2, hF2, hB2⟩ := ih h2 (F1 X) (hX.2 _ (hF1 X))
    refine ⟨fun Y => F2 (F1 Y), fun Y => (imageForward_cons (hF1 Y)).trans (hF2 _), fun loss D g hD hg => ?_⟩
    obtain ⟨gy, gps, e1, ⟨D2, hD2, hg2⟩, hp2⟩ := hB2 loss D g hD hg
    obtain ⟨gx, gp, e2, e3, hD1, hp1⟩ := hB1 (fun Z => loss (F2 Z)) D2 gy hD2 hg2
    refine ⟨gx, gp :: gps, ?_, hD1, ?_⟩
    · unfold imageBackward
      rw [hF1 X]
      show (imageBackward ss (ofVec M (F1 X)) g >>= _) = _
      rw [e1]
      show (s.inputGrad (ofVec S X) gy >>= fun gx => s.paramGrads (ofVec S X) gy >>= fun gp => Except.ok (gx, gp :: gps)) = _
      rw [e2, e3]
      rfl
    · intro k s' j p idx hk hj hin
      match k with
      | 0 =>
        obtain rfl := Option.some.inj hk
        obtain ⟨gp', P, a, b, c, d⟩ := hp1 j p idx hj hin
        exact ⟨_, gp', fun t => F2 (P t), rfl, a, b, fun t => (imageForward_cons (c t)).trans (hF2 _), d⟩
      | k + 1 =>
        obtain ⟨gs, gp', P, a, b, c, d, e⟩ := hp2 k s' j p idx hk hj hin
        exact ⟨gs, gp', P, a, b, c, fun t => (imageForward_cons (hF1 X)).trans (d t), e⟩

/-! ## weights that nothing reads -/

theorem ConvLayer.terms_channel (L : ConvLayer ℝ) (shape m : List ℕ) (t : ConvTerm) (ht : t ∈ L.terms shape m) (src : List ℕ) (hs : t.1 = some src) :
    src.getD 1 0 = t.2.getD (if L.kind = .convTranspose2d then 0 else 1) 0 := by
  have two : ∀ (tap1 tap2 : ℕ → ℕ → Option ℕ) (w : ℕ → ℕ → ℕ → List ℕ) (s i j c k : ℕ),
      t ∈ (List.range c).flatMap (fun q => (List.range k).flatMap fun d => (List.range k).map fun e =>
        (((tap1 i d).bind fun y => (tap2 j e).map fun z => [s, q, y, z], w q d e) : ConvTerm)) →
      ∃ q d e, src.getD 1 0 = q ∧ t.2 = w q d e := by
    intro tap1 tap2 w s i j c k ht
    simp only [List.mem_flatMap, List.mem_map] at ht
    obtain ⟨q, -, d, -, e, -, rfl⟩ := ht
    simp only [Option.bind_eq_some_iff, Option.map_eq_some_iff] at hs
    obtain ⟨y, -, z, -, rfl⟩ := hs
    exact ⟨q, d, e, rfl, rfl⟩
  unfold ConvLayer.terms at ht
  cases hk : L.kind with
  | conv2d =>
    rw [hk] at ht
    match shape, ht with
    | [b, c, h, v], ht =>
      match m, ht with
      | [s, r, i, j], ht =>
        obtain ⟨q, d, e, h1, h2⟩ := two (tap L.geometry h) (tap L.geometry v) (fun q d e => [r, q, d, e]) s i j c L.geometry.kernel ht
        rw [h1, h2]
        rfl
  | conv1d =>
    rw [hk] at ht
    match shape, ht with
    | [b, c, h], ht =>
      match m, ht with
      | [s, r, i], ht =>
        have ht' : t ∈ (List.range c).flatMap fun q => (List.range L.geometry.kernel).map fun d => (((tap L.geometry h i d).map fun y => [s, q, y], [r, q, d]) : ConvTerm) := ht
        simp only [List.mem_flatMap, List.mem_map] at ht'
        obtain ⟨q, -, d, -, rfl⟩ := ht'
        simp only [Option.map_eq_some_iff] at hs
        obtain ⟨y, -, rfl⟩ := hs
        rfl
  | convTranspose2d =>
    rw [hk] at ht
    match shape, ht with
    | [b, c, h, v], ht =>
      match m, ht with
      | [s, r, i, j], ht =>
        obtain ⟨q, d, e, h1, h2⟩ := two (tapTranspose L.geometry h) (tapTranspose L.geometry v) (fun q d e => [q, r, d, e]) s i j c L.geometry.kernel ht
        rw [h1, h2]
        rfl

/-- Variable `v` of a piecewise expansion belongs to the segment of `t`. -/
def OwnVariable (shared : Bool) (n segments : ℕ) (length : ℝ) (v : ℕ) (t : ℝ) : Prop :=
  ∃ s, IsActive segments s (2 * t / length) ∧ s * (if shared then n - 1 else n) ≤ v ∧ v < s * (if shared then n - 1 else n) + n

theorem val_zero {shared : Bool} {rank : Rank} {n segments : ℕ} {length : ℝ} (hs : 0 < segments) (hl : 0 < length) {v : ℕ} {t : ℝ} (h : ¬ OwnVariable shared n segments length v t) :
    (Expander.piecewise shared rank n segments length).val v t = 0 := by
  unfold Expander.val
  dsimp only
  refine if_neg fun hc => h ?_
  refine ⟨(expandSegment shared rank segments length t).toNat, ?_, hc.1, hc.2⟩
  have hact := (expandTwin shared 1 segments length).isActive_seg_any hs hl rfl t
  have : (expandSegment shared rank segments length t).toNat = (expandTwin shared 1 segments length).seg t := by
    have e := (expandTwin shared 1 segments length).whichSegment_eq_seg hs t
    have e' := expandSegment_twin shared rank (n := 1) hs length t
    have e'' : expandSegment shared rank segments length t = ((expandTwin shared 1 segments length).seg t : ℤ) := e'.trans e
    rw [e'', Int.toNat_natCast]
  rw [this]
  exact hact

theorem val_zero' {e : Expander ℝ} {shared : Bool} {rank : Rank} {n segments : ℕ} {length : ℝ} (he : e = .piecewise shared rank n segments length) (hs : 0 < segments) (hl : 0 < length)
    {v : ℕ} {t : ℝ} (h : ¬ OwnVariable shared n segments length v t) : e.val v t = 0 := by
  subst he
  exact val_zero hs hl h

/-- Weights of channel `c` whose segment no pixel of channel `c` of the batch visits get the gradient 0, whatever the loss. -/
theorem C120_unused (L : ConvLayer ℝ) {shared : Bool} {rank : Rank} {n segments : ℕ} {length : ℝ} (he : L.expander = .piecewise shared rank n segments length) (hl : 0 < length)
    {S T : List ℕ} (h : L.Takes S T) (x g : Tensor ℝ) (hx : x.WF) (hxs : x.shape = S) (hg : g.shape = T) {c v : ℕ} (hv : v < L.expander.variables)
    (hun : ∀ idx, InShape S idx → idx.getD 1 0 = c → ¬ OwnVariable shared n segments length v (periodize L.periodicity (x.get idx))) :
    ∃ gw, L.weightGrad x g = .ok gw ∧ gw.shape = L.weight.shape ∧ ∀ idx, InShape L.weight.shape idx →
      idx.getD (if L.kind = .convTranspose2d then 0 else 1) 0 = c * L.expander.variables + v → gw.get idx = 0 := by
  obtain ⟨B, C, R, r, rfl, hst⟩ := L.staged h
  have hseg : 0 < segments := by
    have := hst.fits
    rw [he] at this
    exact this.2.2
  rw [eq_ofVec hxs hx]
  refine ⟨convWeightGrad (L.terms (B :: (C * L.expander.variables) :: R))
    (ofVec (B :: (C * L.expander.variables) :: R) (expandFn L.expander hst.fits.variables_pos B C R fun p => periodize L.periodicity (x.get (unravel (B :: C :: R) p)))) L.weight.shape (g.map (· * L.rescale)),
    ?_, rfl, fun idx hi hq => ?_⟩
  · unfold ConvLayer.weightGrad
    rw [ConvLayer.expanded_call, map_ofVec, hst.expand]
    rfl
  · rw [convWeightGrad_get _ _ (show (g.map (· * L.rescale)).shape = T from hg) hi]
    refine Finset.sum_eq_zero fun m _ => ?_
    rw [show sumL _ = (0 : ℝ) from ?_, mul_zero]
    show List.sum _ = _
    refine List.sum_eq_zero fun a ha => ?_
    obtain ⟨t, ht, rfl⟩ := List.mem_map.1 ha
    obtain ⟨ht1, ht2⟩ := List.mem_filter.1 ht
    have hti : t.2 = idx := by simpa using ht2
    cases hsrc : t.1 with
    | none => rfl
    | some src =>
      have hin := hst.sites _ (inShape_unravel m.2) t ht1 src hsrc
      have hch := L.terms_channel _ _ t ht1 src hsrc
      rw [hti, hq] at hch
      show (ofVec (B :: (C * L.expander.variables) :: R) _).get src = 0
      rw [ofVec_get _ hin]
      have hV := hst.fits.variables_pos
      have hvar : sourceVar (V := L.expander.variables) B C R (flatPos _ src hin) = v := by
        unfold sourceVar
        show (unravel _ (ravel _ src)).getD 1 0 % _ = v
        rw [unravel_ravel hin, hch, Nat.mul_comm, Nat.mul_add_mod, Nat.mod_eq_of_lt hv]
      have hpos : unravel (B :: C :: R) (sourcePos hV B C R (flatPos _ src hin)) = sourceIdx L.expander.variables src := by
        have := (sourcePos_iff hV (flatPos _ src hin) (sourcePos hV B C R (flatPos _ src hin))).1 rfl
        rw [← this]
        show sourceIdx _ (unravel _ (ravel _ src)) = _
        rw [unravel_ravel hin]
      unfold expandFn
      rw [hvar]
      beta_reduce
      rw [hpos]
      refine val_zero' he hseg hl (hun _ (sourceIdx_in hV hin) ?_)
      match src, hin, hch with
      | s :: q :: rest, _, hch =>
        show q / L.expander.variables = c
        have : q = c * L.expander.variables + v := hch
        rw [this, Nat.mul_comm, Nat.mul_add_div hV, Nat.div_eq_of_lt hv, Nat.add_zero]

/-! ## the networks of the library -/

theorem imageForward_append {K : Type} [TorchScalar K] (s t : List (IStage K)) (x : Tensor K) : imageForward (s ++ t) x = (imageForward s x >>= imageForward t) := by
  induction s generalizing x with
  | nil => rfl
  | cons a s ih =>
    show (a.forward x >>= imageForward (s ++ t)) = ((a.forward x >>= imageForward s) >>= imageForward t)
    cases a.forward x with
    | error e => rfl
    | ok y => exact ih y

theorem TakesAll.append {s t : List (IStage ℝ)} {S M T : List ℕ} (h1 : TakesAll s S M) (h2 : TakesAll t M T) : TakesAll (s ++ t) S T := by
  induction s generalizing S with
  | nil =>
    obtain rfl : S = M := h1
    exact h2
  | cons a s ih =>
    obtain ⟨N, a1, a2⟩ := h1
    exact ⟨N, a1, ih a2⟩

/-- Convolutions, each followed by the normalization if there is one. -/
def imageStages {K : Type} (m : ℕ) (Ls : ℕ → ConvLayer K) (Ns : Option (ℕ → IStage K)) : List (IStage K) :=
  (List.range m).flatMap fun i => .conv (Ls i) :: (Ns.map fun f => f i).toList

theorem imageStages_succ {K : Type} (m : ℕ) (Ls : ℕ → ConvLayer K) (Ns : Option (ℕ → IStage K)) :
    imageStages (m + 1) Ls Ns = imageStages m Ls Ns ++ (.conv (Ls m) :: (Ns.map fun f => f m).toList) := by
  unfold imageStages
  rw [List.range_succ, List.flatMap_append]
  simp

theorem imageStages_run {K : Type} [TorchScalar K] (m : ℕ) (Ls : ℕ → ConvLayer K) (Ns : Option (ℕ → IStage K)) (x : Tensor K) :
    imageForward (imageStages m Ls Ns) x = runStages (stagesOf m Ls (Ns.map fun f i => (f i).forward)) x := by
  induction m generalizing x with
  | zero => rfl
  | succ m ih =>
    rw [imageStages_succ, stagesOf_succ, imageForward_append, runStages_append, ih]
    cases Ns <;> rfl

theorem imageStages_takes {m : ℕ} {Ls : ℕ → ConvLayer ℝ} {Ns : Option (ℕ → IStage ℝ)} {S : ℕ → List ℕ} (hL : ∀ i < m, (Ls i).Takes (S i) (S (i + 1)))
    (hN : ∀ f ∈ Ns, ∀ i < m, (f i).Takes (S (i + 1)) (S (i + 1))) : TakesAll (imageStages m Ls Ns) (S 0) (S m) := by
  induction m with
  | zero => exact rfl
  | succ m ih =>
    rw [imageStages_succ]
    refine (ih (fun i hi => hL i (by omega)) fun f hf i hi => hN f hf i (by omega)).append ?_
    cases Ns with
    | none => exact ⟨_, hL m (by omega), rfl⟩
    | some f => exact ⟨_, hL m (by omega), _, hN f rfl m (by omega), rfl⟩

theorem mapM_mem {α β : Type} {f : α → Py β} : ∀ {l : List α} {r : List β}, l.mapM f = .ok r → ∀ y ∈ r, ∃ x ∈ l, f x = .ok y
  | [], r, h, y, hy => by
    cases h
    cases hy
  | a :: l, r, h, y, hy => by
    rw [List.mapM_cons] at h
    cases ha : f a with
    | error e =>
      rw [ha] at h
      cases h
    | ok b =>
      cases hl : l.mapM f with
      | error e =>
        rw [ha, hl] at h
        cases h
      | ok bs =>
        rw [ha, hl] at h
        cases h
        rcases List.mem_cons.1 hy with rfl | hy
        · exact ⟨a, by simp, ha⟩
        · obtain ⟨x, hx, hf⟩ := mapM_mem hl y hy
          exact ⟨x, by simp [hx], hf⟩

/-- All layers have the periodicity of the arguments or none. -/
theorem convStages_periodicity {factory : String → ConvArgs ℝ → ConvRng ℝ → Py (ConvLayer ℝ)}
    (hf : ∀ t a r L, factory t a r = .ok L → L.periodicity = none ∨ L.periodicity = a.periodicity) {a : ConvNetArgs ℝ} {size : ℕ} {rand : ℕ → ConvRng ℝ} {stages : List (ConvStage ℝ)}
    (h : convStages factory a size rand = .ok stages) (L : ConvLayer ℝ) (hL : ConvStage.conv L ∈ stages) : L.periodicity = none ∨ L.periodicity = a.periodicity := by
  unfold convStages at h
  dsimp only at h
  split at h
  · cases h
  split at h
  · cases h
  split at h
  · cases h
  cases hm : (List.range (a.channels.length - 1)).mapM (convRound factory a (a.lists size) rand) with
  | error e =>
    rw [hm] at h
    cases h
  | ok ss =>
    rw [hm] at h
    cases h
    obtain ⟨l, hl, hLl⟩ := List.mem_flatten.1 hL
    obtain ⟨i, -, hi⟩ := mapM_mem hm l hl
    unfold convRound at hi
    simp only [Bind.bind, Except.bind] at hi
    repeat' split at hi
    all_goals first
      | cases hi; done
      | skip
    all_goals
      cases hi
      simp only [List.mem_cons, ConvStage.conv.injEq, List.not_mem_nil, or_false, reduceCtorEq] at hLl
      subst hLl
      exact hf _ _ _ _ (by assumption)

theorem convLayer_periodicity (t : String) (a : ConvArgs ℝ) (r : ConvRng ℝ) (L : ConvLayer ℝ) (h : convLayer t a r = .ok L) : L.periodicity = none ∨ L.periodicity = a.periodicity := by
  unfold convLayer at h
  split at h
  · cases h
  · cases h
  · rename_i cls _
    unfold convInit at h
    dsimp only at h
    split at h
    · cases h
    all_goals
      split at h
      · cases h
      · cases h
        first
          | exact .inl rfl
          | exact .inr rfl

theorem convTransposeLayer_periodicity (t : String) (a : ConvArgs ℝ) (r : ConvRng ℝ) (L : ConvLayer ℝ) (h : convTransposeLayer t a r = .ok L) :
    L.periodicity = none ∨ L.periodicity = a.periodicity := by
  unfold convTransposeLayer at h
  split at h
  · unfold convTransposeInit at h
    dsimp only at h
    split at h
    · cases h
    · cases h
      exact .inr rfl
  · cases h

theorem mem_stagesOf {m : ℕ} {Ls : ℕ → ConvLayer ℝ} {g : Option (ℕ → Fwd ℝ)} {i : ℕ} (hi : i < m) : ConvStage.conv (Ls i) ∈ stagesOf m Ls g := by
  unfold stagesOf
  exact List.mem_flatMap.2 ⟨i, List.mem_range.2 hi, by simp⟩

theorem ConvLayer.Between.takes {L : ConvLayer ℝ} {r : Rank} {C O k s p : ℕ} (h : L.Between r C O k s p) (hw : L.weight.WF) (hp : ∀ q, L.periodicity = some q → 0 < q) (hk : 1 ≤ k) (hs : 1 ≤ s)
    {H W : ℕ} (hH : k ≤ H + 2 * p) (hW : r = .two → k ≤ W + 2 * p) (B : ℕ) : L.Takes (B :: imageShape r C H W) (B :: imageShape r O (convOut k s p H) (convOut k s p W)) := by
  refine ⟨hw, hp, ?_⟩
  have hg := h.geometry
  cases r with
  | two =>
    rw [show L.kind = .conv2d by simpa using h.kind]
    refine ⟨B, C, H, W, O, _, _, rfl, rfl, h.expander, by rw [hg]; simpa using h.weight, by rw [hg]; exact convSize_plain hk hs hH, by rw [hg]; exact convSize_plain hk hs (hW rfl)⟩
  | one =>
    rw [show L.kind = .conv1d by simpa using h.kind]
    refine ⟨B, C, H, O, _, rfl, rfl, h.expander, by rw [hg]; simpa using h.weight, by rw [hg]; exact convSize_plain hk hs hH⟩

theorem ConvLayer.BetweenT.takes {L : ConvLayer ℝ} {C O k s p : ℕ} (h : L.BetweenT C O k s p) (hw : L.weight.WF) (hp : ∀ q, L.periodicity = some q → 0 < q) (hk : 1 ≤ k) (hs : 1 ≤ s)
    {H W : ℕ} (hH : 1 ≤ H ∧ 2 * p < (H - 1) * s + k) (hW : 1 ≤ W ∧ 2 * p < (W - 1) * s + k) (B : ℕ) :
    L.Takes [B, C, H, W] [B, O, deconvOut k s p H, deconvOut k s p W] := by
  refine ⟨hw, hp, ?_⟩
  have hg := h.geometry
  rw [h.kind]
  exact ⟨B, C, H, W, O, _, _, rfl, rfl, h.expander, by rw [hg]; exact h.weight, by rw [hg]; exact convTransposeSize_plain hk hs hH.1 hH.2, by rw [hg]; exact convTransposeSize_plain hk hs hW.1 hW.2⟩

/-- A batch normalization works on batches of this shape: in training mode on more than one value per channel, in evaluation mode with positive variances. -/
def NormFits (training : Bool) (N : BatchNorm ℝ) (shape : List ℕ) : Prop :=
  if training then shape.headD 0 * numel (shape.drop 2) ≠ 1 ∧ 0 < N.eps else ∀ c < shape.getD 1 0, 0 < N.runningVar c + N.eps

/-- `HighOrderFullyConvolutionalNetwork`, built by its constructor, with any later weights, with `BatchNorm2d` (`BatchNorm1d` for sequences) in training or evaluation mode or without normalization:
its forward pass is that of a list of modules to which `C120_backpropagation` applies. -/
theorem C120_fully_convolutional {a : ConvNetArgs ℝ} {r : Rank} {cls : ℕ → ConvClass} {m : ℕ} (h : a.Fine a.kernelSize.length r cls m) (hper : ∀ q, a.periodicity = some q → 0 < q)
    (rand : ℕ → ConvRng ℝ) :
    ∃ (N : FCN ℝ) (Ls : ℕ → ConvLayer ℝ), FCN.init a rand = .ok N ∧ N.stages = stagesOf m Ls (a.normalization.map fun f i => f i (a.chan (i + 1))) ∧
      ∀ (Ws : ℕ → Tensor ℝ) (training : Bool) (Ns : Option (ℕ → BatchNorm ℝ)) (B H W : ℕ), (∀ i < m, (Ws i).shape = (Ls i).weight.shape ∧ (Ws i).WF) →
      (∀ i < m, a.kern i ≤ a.widthAt a.kernelSize.length H i + 2 * a.padding) →
      (r = .two → ∀ i < m, a.kern i ≤ a.widthAt a.kernelSize.length W i + 2 * a.padding) →
      let S := fun i => B :: imageShape r (a.chan i) (a.widthAt a.kernelSize.length H i) (a.widthAt a.kernelSize.length W i)
      (∀ f ∈ Ns, ∀ i < m, NormFits training (f i) (S (i + 1))) →
      let Ls' := fun i => { Ls i with weight := Ws i }
      let norms := Ns.map fun f i => IStage.norm (r = .two) training (a.chan (i + 1)) (f i)
      let ss := fcnStages (imageStages m Ls' norms) N.pool
      (∀ x, imageForward ss x = ({ N with stages := stagesOf m Ls' (norms.map fun f i => (f i).forward) } : FCN ℝ).forward x) ∧
      (r = .two ∧ a.pooling = "2d" ∨ r = .one ∧ a.pooling = "1d" → TakesAll ss (S 0) [B, a.chan m]) ∧
      (a.pooling ∉ ["1d", "2d", "3d"] → TakesAll ss (S 0) [B, numel ((S m).drop 1)]) := by
  obtain ⟨Ls, h1, h2⟩ := convStages_ok h rand
  refine ⟨_, Ls, by unfold FCN.init; rw [h1]; rfl, rfl, fun Ws training Ns B H W hWs hH hW => ?_⟩
  intro S hN Ls' norms ss
  have hp : ∀ i < m, ∀ q, (Ls i).periodicity = some q → 0 < q := by
    intro i hi q hq
    rcases convStages_periodicity convLayer_periodicity h1 (Ls i) (mem_stagesOf hi) with e | e
    · rw [e] at hq
      cases hq
    · exact hper q (e ▸ hq)
  have hbody : TakesAll (imageStages m Ls' norms) (S 0) (S m) := by
    refine imageStages_takes (S := S) (fun i hi => ?_) fun f hf i hi => ?_
    · exact ((h2 i hi).withWeight (hWs i hi).1).takes (hWs i hi).2 (hp i hi) (h.kernel i hi).2 (h.stride i hi).2 (hH i hi) (fun e => hW e i hi) B
    · obtain ⟨f', hf', rfl⟩ := Option.map_eq_some_iff.1 hf
      have hfit := hN f' hf' i hi
      refine ⟨rfl, B, (S (i + 1)).drop 2, ?_, ?_, ?_⟩
      · cases r <;> rfl
      · cases r
        · exact le_rfl
        · exact rfl
      · unfold NormFits at hfit
        cases r <;> exact hfit
  have hm := h.layers
  have hwp : ∀ w, 0 < a.widthAt a.kernelSize.length w m := fun w => widthAt_pos a _ hm
  refine ⟨fun x => ?_, fun hpool => ?_, fun hpool => ?_⟩
  · show imageForward (fcnStages _ _) x = _
    unfold fcnStages FCN.forward
    rw [imageForward_append, imageForward_append, imageStages_run]
    dsimp only
    cases runStages (stagesOf m Ls' (norms.map fun f i => (f i).forward)) x with
    | error e => rfl
    | ok y =>
      generalize (if a.pooling = "1d" then some 1 else if a.pooling = "2d" then some 2 else if a.pooling = "3d" then some 3 else none : Option ℕ) = pl
      cases pl with
      | none =>
        show imageForward [IStage.flatten] y = flatten1 y
        show (flatten1 y >>= fun z => Except.ok z) = flatten1 y
        cases flatten1 y <;> rfl
      | some d =>
        show (imageForward [IStage.pool d] y >>= imageForward [IStage.flatten]) = (adaptiveAvgPool d y >>= flatten1)
        show ((adaptiveAvgPool d y >>= fun z => Except.ok z) >>= imageForward [IStage.flatten]) = _
        cases adaptiveAvgPool d y with
        | error e => rfl
        | ok z =>
          show (flatten1 z >>= fun z => Except.ok z) = flatten1 z
          cases flatten1 z <;> rfl
  · rcases hpool with ⟨hr, hpl⟩ | ⟨hr, hpl⟩
    · have e : (if a.pooling = "1d" then some 1 else if a.pooling = "2d" then some 2 else if a.pooling = "3d" then some 3 else none : Option ℕ) = some 2 := by
        rw [hpl]
        rfl
      show TakesAll (fcnStages _ (if a.pooling = "1d" then some 1 else if a.pooling = "2d" then some 2 else if a.pooling = "3d" then some 3 else none)) _ _
      rw [e]
      subst hr
      refine (hbody.append (t := [.pool 2]) (T := [B, a.chan m, 1, 1]) ⟨_, ⟨.inr rfl, ?_, rfl⟩, rfl⟩).append (t := [.flatten]) ⟨_, ⟨B, a.chan m, [1, 1], rfl, rfl⟩, (by
        show [B, numel [a.chan m, 1, 1]] = [B, a.chan m]
        simp [numel])⟩
      show 0 < numel [_, _]
      simp only [numel, Nat.mul_one]
      exact Nat.mul_pos (hwp H) (hwp W)
    · have e : (if a.pooling = "1d" then some 1 else if a.pooling = "2d" then some 2 else if a.pooling = "3d" then some 3 else none : Option ℕ) = some 1 := by
        rw [hpl]
        rfl
      show TakesAll (fcnStages _ (if a.pooling = "1d" then some 1 else if a.pooling = "2d" then some 2 else if a.pooling = "3d" then some 3 else none)) _ _
      rw [e]
      subst hr
      refine (hbody.append (t := [.pool 1]) (T := [B, a.chan m, 1]) ⟨_, ⟨.inr rfl, ?_, rfl⟩, rfl⟩).append (t := [.flatten]) ⟨_, ⟨B, a.chan m, [1], rfl, rfl⟩, (by
        show [B, numel [a.chan m, 1]] = [B, a.chan m]
        simp [numel])⟩
      show 0 < numel [_]
      simp only [numel, Nat.mul_one]
      exact hwp H
  · have e : (if a.pooling = "1d" then some 1 else if a.pooling = "2d" then some 2 else if a.pooling = "3d" then some 3 else none : Option ℕ) = none := by
      simp only [List.mem_cons, List.not_mem_nil, or_false, not_or] at hpool
      rw [if_neg hpool.1, if_neg hpool.2.1, if_neg hpool.2.2]
    show TakesAll (fcnStages _ (if a.pooling = "1d" then some 1 else if a.pooling = "2d" then some 2 else if a.pooling = "3d" then some 3 else none)) _ _
    rw [e]
    unfold fcnStages
    dsimp only
    rw [List.append_nil]
    refine hbody.append (t := [.flatten]) ?_
    cases r
    · exact ⟨_, ⟨B, a.chan m, [_], rfl, rfl⟩, rfl⟩
    · exact ⟨_, ⟨B, a.chan m, [_, _], rfl, rfl⟩, rfl⟩

/-- `HighOrderFullyDeconvolutionalNetwork`. -/
theorem C120_fully_deconvolutional {a : ConvNetArgs ℝ} {m : ℕ} (h : a.FineT m) (hper : ∀ q, a.periodicity = some q → 0 < q) (rand : ℕ → ConvRng ℝ) :
    ∃ (N : Deconv ℝ) (Ls : ℕ → ConvLayer ℝ), Deconv.init a rand = .ok N ∧ N.stages = stagesOf m Ls (a.normalization.map fun f i => f i (a.chan (i + 1))) ∧
      ∀ (Ws : ℕ → Tensor ℝ) (training : Bool) (Ns : Option (ℕ → BatchNorm ℝ)) (B H W : ℕ), (∀ i < m, (Ws i).shape = (Ls i).weight.shape ∧ (Ws i).WF) →
      (∀ i < m, 1 ≤ a.growthAt (m + 1) H i ∧ 2 * a.padding < (a.growthAt (m + 1) H i - 1) * a.step (m + 1) i + a.kern i) →
      (∀ i < m, 1 ≤ a.growthAt (m + 1) W i ∧ 2 * a.padding < (a.growthAt (m + 1) W i - 1) * a.step (m + 1) i + a.kern i) →
      let S := fun i => [B, a.chan i, a.growthAt (m + 1) H i, a.growthAt (m + 1) W i]
      (∀ f ∈ Ns, ∀ i < m, NormFits training (f i) (S (i + 1))) →
      let Ls' := fun i => { Ls i with weight := Ws i }
      let norms := Ns.map fun f i => IStage.norm true training (a.chan (i + 1)) (f i)
      (∀ x, imageForward (imageStages m Ls' norms) x = ({ N with stages := stagesOf m Ls' (norms.map fun f i => (f i).forward) } : Deconv ℝ).forward x) ∧
      TakesAll (imageStages m Ls' norms) (S 0) (S m) := by
  obtain ⟨Ls, h1, h2⟩ := deconvStages_ok h rand
  refine ⟨_, Ls, h1, rfl, fun Ws training Ns B H W hWs hH hW => ?_⟩
  intro S hN Ls' norms
  have h1' : ∃ size, convStages convTransposeLayer a size rand = .ok (stagesOf m Ls (a.normalization.map fun f i => f i (a.chan (i + 1)))) := by
    unfold Deconv.init at h1
    refine ⟨a.channels.length, ?_⟩
    cases hc : convStages convTransposeLayer a a.channels.length rand with
    | error e =>
      rw [hc] at h1
      cases h1
    | ok st =>
      rw [hc] at h1
      have := Except.ok.inj h1
      exact congrArg (fun d : Deconv ℝ => Except.ok d.stages) this
  obtain ⟨size, h1'⟩ := h1'
  have hp : ∀ i < m, ∀ q, (Ls i).periodicity = some q → 0 < q := by
    intro i hi q hq
    rcases convStages_periodicity convTransposeLayer_periodicity h1' (Ls i) (mem_stagesOf hi) with e | e
    · rw [e] at hq
      cases hq
    · exact hper q (e ▸ hq)
  refine ⟨fun x => imageStages_run m Ls' norms x, imageStages_takes (S := S) (fun i hi => ?_) fun f hf i hi => ?_⟩
  · exact ConvLayer.BetweenT.takes (L := Ls' i) ⟨(h2 i hi).kind, (h2 i hi).expander, (h2 i hi).geometry, (hWs i hi).1.trans (h2 i hi).weight⟩ (hWs i hi).2 (hp i hi)
      (h.kernel i hi).2 (h.stride i hi).2 (hH i hi) (hW i hi) B
  · obtain ⟨f', hf', rfl⟩ := Option.map_eq_some_iff.1 hf
    have hfit := hN f' hf' i hi
    exact ⟨rfl, B, _, rfl, rfl, hfit⟩

/-! ## examples -/

/-- One output channel, one pixel per kernel, two segments with two points each. -/
noncomputable def exPixelConv : ConvLayer ℝ :=
  { expander := .piecewise true .two 2 2 2, kind := .conv2d, geometry := ⟨1, 1, 0, 1, 0⟩, weight := Tensor.tab4 1 3 1 1 fun _ c _ _ => (c : ℝ), periodicity := none, rescale := 1 }

theorem exPixelConv_takes (B H W : ℕ) (hH : 1 ≤ H) (hW : 1 ≤ W) : exPixelConv.Takes [B, 1, H, W] [B, 1, H, W] := by
  refine ⟨Tensor.wf_tab4 _ _ _ _ _, fun q hq => (by cases hq), B, 1, H, W, 1, H, W, rfl, rfl, ⟨rfl, by norm_num, by norm_num⟩, rfl, ?_, ?_⟩
  · have := convSize_plain (k := 1) (s := 1) (p := 0) (w := H) le_rfl le_rfl (by omega)
    rw [show convOut 1 1 0 H = H by unfold convOut; rw [Nat.div_one]; omega] at this
    exact this
  · have := convSize_plain (k := 1) (s := 1) (p := 0) (w := W) le_rfl le_rfl (by omega)
    rw [show convOut 1 1 0 W = W by unfold convOut; rw [Nat.div_one]; omega] at this
    exact this

/-- Away from the boundary 0 between the segments the backward pass of a convolution, a batch normalization in training mode, pooling and flattening returns the derivatives. -/
example (X : Fin (numel [2, 1, 4, 4]) → ℝ) (hX : ∀ p, X p ≠ 0) :
    let ss : List (IStage ℝ) := [.conv exPixelConv, .norm true true 1 (BatchNorm.new defaultEps), .pool 2, .flatten]
    ∃ (F : (Fin (numel [2, 1, 4, 4]) → ℝ) → Fin (numel [2, 1]) → ℝ) (gx : Tensor ℝ) (gps : List (List (Tensor ℝ))) (D' : (Fin (numel [2, 1, 4, 4]) → ℝ) →L[ℝ] ℝ),
      (∀ Y, imageForward ss (ofVec [2, 1, 4, 4] Y) = .ok (ofVec [2, 1] (F Y))) ∧
      imageBackward ss (ofVec [2, 1, 4, 4] X) (ofVec [2, 1] fun _ => 1) = .ok (gx, gps) ∧ HasFDerivAt (fun Y => ∑ p : Fin (numel [2, 1]), F Y p) D' X ∧ GradVec [2, 1, 4, 4] D' gx := by
  intro ss
  obtain ⟨F, hF, h⟩ := C120_backpropagation [.conv exPixelConv, .norm true true 1 (BatchNorm.new (defaultEps : ℝ)), .pool 2, .flatten] (S := [2, 1, 4, 4]) (T := [2, 1])
    ⟨_, exPixelConv_takes 2 4 4 (by norm_num) (by norm_num), _, ⟨rfl, 2, [4, 4], rfl, rfl, (by
      rw [if_pos rfl]
      exact ⟨by norm_num [numel], by simp [BatchNorm.new, defaultEps]⟩)⟩, _, ⟨.inr rfl, (by norm_num [numel]), rfl⟩, _, ⟨2, 1, [1, 1], rfl, rfl⟩, rfl⟩ X
    ⟨fun idx hin => by
      obtain ⟨b, c, i, j, rfl, -⟩ := inShape4_exists hin
      rw [ofVec_get X hin]
      refine ⟨?_, by norm_num, fun q hq0 hq => ?_⟩
      · intro q hq
        cases hq
      · obtain rfl : q = 1 := by omega
        have := hX (flatPos [2, 1, 4, 4] [b, c, i, j] hin)
        show X _ ≠ _
        norm_num
        exact this, fun _ _ => ⟨fun _ _ => trivial, fun _ _ => ⟨fun _ _ => trivial, fun _ _ => ⟨fun _ _ => trivial, fun _ _ => trivial⟩⟩⟩⟩
  let D : (Fin (numel [2, 1]) → ℝ) →L[ℝ] ℝ := ∑ p : Fin (numel [2, 1]), ContinuousLinearMap.proj (R := ℝ) (φ := fun _ : Fin (numel [2, 1]) => ℝ) p
  have hD : ∀ c : Fin (numel [2, 1]) → ℝ, D c = ∑ p : Fin (numel [2, 1]), c p := by
    intro c
    show (∑ p : Fin (numel [2, 1]), ContinuousLinearMap.proj (R := ℝ) (φ := fun _ : Fin (numel [2, 1]) => ℝ) p) c = _
    rw [_root_.sum_apply]
    rfl
  have hg : GradVec [2, 1] D (ofVec [2, 1] fun _ => 1) := by
    refine ⟨rfl, ofVec_wf _ _, fun p => ?_⟩
    rw [ofVec_get_unravel, hD, Finset.sum_pi_single', if_pos (Finset.mem_univ _)]
  obtain ⟨gx, gps, h1, ⟨D', h2, h3⟩, -⟩ := h (fun c => ∑ p : Fin (numel [2, 1]), c p) D _ (by
    have := D.hasFDerivAt (x := F X)
    rwa [show (D : (Fin (numel [2, 1]) → ℝ) → ℝ) = fun c => ∑ p : Fin (numel [2, 1]), c p from funext hD] at this) hg
  exact ⟨F, gx, gps, D', hF, h1, h2, h3⟩

/-- Pixels in [-1, 0) leave the weight at 1 alone. -/
example (x g : Tensor ℝ) (hx : x.WF) (hxs : x.shape = [2, 1, 4, 4]) (hg : g.shape = [2, 1, 4, 4]) (hneg : ∀ idx, InShape [2, 1, 4, 4] idx → x.get idx < 0) :
    ∃ gw, exPixelConv.weightGrad x g = .ok gw ∧ gw.get [0, 2, 0, 0] = 0 := by
  obtain ⟨gw, h1, h2, h3⟩ := C120_unused exPixelConv (n := 2) (segments := 2) (length := 2) (shared := true) (rank := .two) rfl (by norm_num) (exPixelConv_takes 2 4 4 (by norm_num) (by norm_num))
    x g hx hxs hg (c := 0) (v := 2) (by decide) (by
      rintro idx hin - ⟨s, hact, hs1, hs2⟩
      have hlt := hneg idx hin
      obtain ⟨hs, hlo, hhi⟩ := hact
      rw [if_pos rfl] at hs1 hs2
      obtain rfl : s = 1 := by omega
      have hle := hlo.resolve_left (by norm_num)
      rw [show periodize exPixelConv.periodicity (x.get idx) = x.get idx from rfl] at hle
      unfold segLeft at hle
      norm_num at hle
      linarith)
  exact ⟨gw, h1, h3 _ (by simp [exPixelConv, InShape, Tensor.tab4]) rfl⟩

/-- The network of `exFcn` with `BatchNorm2d` in training mode: batches of 7 images of size 9 × 9. -/
example (rand : ℕ → ConvRng ℝ) : ∃ (N : FCN ℝ) (Ls : ℕ → ConvLayer ℝ), FCN.init exFcn rand = .ok N ∧
    ∀ Ws : ℕ → Tensor ℝ, (∀ i < 2, (Ws i).shape = (Ls i).weight.shape ∧ (Ws i).WF) →
      TakesAll (fcnStages (imageStages 2 (fun i => { Ls i with weight := Ws i }) (some fun i => .norm true true (exFcn.chan (i + 1)) (BatchNorm.new defaultEps))) N.pool) [7, 3, 9, 9] [7, 4] := by
  obtain ⟨N, Ls, h1, -, h3⟩ := C120_fully_convolutional (a := exFcn) exFcn_fine (by intro q hq; cases hq) rand
  have w : ∀ i < 2, exFcn.kern i ≤ exFcn.widthAt 2 9 i + 2 * exFcn.padding := by decide
  refine ⟨N, Ls, h1, fun Ws hWs => ?_⟩
  exact (h3 Ws true (some fun _ => BatchNorm.new defaultEps) 7 9 9 hWs w (fun _ => w) (by
    rintro f ⟨rfl⟩ i hi
    unfold NormFits
    rw [if_pos rfl]
    refine ⟨?_, by simp [BatchNorm.new, defaultEps]⟩
    interval_cases i <;> decide)).2.1 (.inl ⟨rfl, rfl⟩)

end HOL
