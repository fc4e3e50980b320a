import Verif.Lemmas.NormBackward
import Verif.Props.ConvGradient
import Verif.Props.BackwardNetwork
import Verif.Props.NetworkExamples

/-!
# C121: gradients of the normalizations of the library

`GradVec T D g` says that `g` holds the derivatives by the entries of a tensor of shape `T`; `ofVec S Y` is the tensor of shape `S` with the entries `Y`.
-/

namespace HOL
open TorchScalar Spec Filter

/-- `gps` are the derivatives by the parameters of the module. -/
def NormModule.ParamGrads (N : NormModule ℝ) (S : List ℕ) (X : Fin (numel S) → ℝ) (loss : (Fin (numel S) → ℝ) → ℝ) (gps : List (Tensor ℝ)) : Prop :=
  ∀ j p idx, N.params[j]? = some p → InShape p.shape idx →
    ∃ (gp : Tensor ℝ) (P : ℝ → Fin (numel S) → ℝ), gps[j]? = some gp ∧ gp.shape = p.shape ∧
      (∀ t, (N.setParam j (p.set idx t)).apply (ofVec S X) = .ok (ofVec S (P t))) ∧ HasDerivAt (fun t => loss (P t)) (gp.get idx) (p.get idx)

namespace NStage

/-- The module accepts inputs of shape `S` and returns outputs of shape `T`. -/
def Takes (s : NStage ℝ) (S T : List ℕ) : Prop :=
  match s with
  | .base s => s.Takes S T
  | .norm N => T = S ∧ N.Takes S

/-- The module is differentiable at this input. -/
def SmoothIn (s : NStage ℝ) (x : Tensor ℝ) : Prop :=
  match s with
  | .base s => ∀ idx, InShape x.shape idx → s.SmoothAt (x.get idx)
  | .norm N => N.SmoothIn x

end NStage

/-! ## modules -/

theorem bind_apply {N M : NormModule ℝ} {x : Tensor ℝ} {r : Py (Tensor ℝ)} (h : N.forward x = r >>= fun y => Except.ok (y, M)) : N.apply x = r := by
  unfold NormModule.apply
  rw [h]
  cases r <;> rfl

theorem layerNorm_apply {M : LazyLayerNorm ℝ} {w : Tensor ℝ} (hw : M.weight = some w) (x : Tensor ℝ) : (NormModule.layerNorm M).apply x = layerNorm x w M.bias defaultEps := by
  unfold NormModule.apply NormModule.forward LazyLayerNorm.forward
  simp only [Bind.bind, Except.bind, hw]
  cases layerNorm x w M.bias defaultEps <;> rfl

theorem defaultEps_pos : (0 : ℝ) < defaultEps := by
  unfold defaultEps
  norm_num

theorem layerNorm_params {S : List ℕ} {d n : ℕ} (hn : S.getD d 0 = n) (hd : d < S.length) (hS : d = S.length - 1) {M : LazyLayerNorm ℝ} {w : Tensor ℝ} (hw : M.weight = some w)
    (hws : w.shape = [n]) (hwf : w.WF) (hb : ∀ b ∈ M.bias, b.shape = [n] ∧ b.WF) (X : Fin (numel S) → ℝ) {loss : (Fin (numel S) → ℝ) → ℝ} {D : (Fin (numel S) → ℝ) →L[ℝ] ℝ} {g : Tensor ℝ}
    (hD : HasFDerivAt loss D (fun p => hatLine defaultEps (lineOf hn X p) (placeOf hn hd p) * w.get [(placeOf hn hd p : ℕ)] + M.bias.elim 0 fun b => b.get [(placeOf hn hd p : ℕ)]))
    (hg : GradVec S D g) : (NormModule.layerNorm M).ParamGrads S X loss ((NormModule.layerNorm M).paramGrads (ofVec S X) g) := by
  intro j p idx hj hin
  have hj' : ([w] ++ M.bias.toList)[j]? = some p := by
    have : (NormModule.layerNorm M).params = [w] ++ M.bias.toList := by
      show M.weight.toList ++ _ = _
      rw [hw]
      rfl
    rwa [this] at hj
  match j with
  | 0 =>
    obtain rfl : w = p := Option.some.inj hj'
    rw [hws] at hin
    obtain ⟨c, rfl, hc⟩ := inShape1_exists hin
    refine ⟨layerNormWeightGrad defaultEps w (ofVec S X) g, fun t p => hatLine defaultEps (lineOf hn X p) (placeOf hn hd p) * (w.set [c] t).get [(placeOf hn hd p : ℕ)] + M.bias.elim 0 fun b => b.get [(placeOf hn hd p : ℕ)],
      ?_, rfl, fun t => ?_, ?_⟩
    · show ((M.weight.toList.map _) ++ _)[0]? = _
      rw [hw]
      rfl
    · exact (layerNorm_apply (M := { M with weight := some (w.set [c] t) }) rfl _).trans (layerNorm_vec hn hd hS (w := w.set [c] t) hws M.bias defaultEps X)
    · have key := GradVec.affine hD hg (fun m => if (placeOf hn hd m : ℕ) = c then hatLine defaultEps (lineOf hn X m) (placeOf hn hd m) else 0) (w.get [c])
        (fun t p => hatLine defaultEps (lineOf hn X p) (placeOf hn hd p) * (w.set [c] t).get [(placeOf hn hd p : ℕ)] + M.bias.elim 0 fun b => b.get [(placeOf hn hd p : ℕ)]) (by
          intro t m
          beta_reduce
          rw [set1_get hws hwf hc t (placeOf hn hd m).2]
          by_cases h : (placeOf hn hd m : ℕ) = c
          · rw [if_pos h, if_pos h, h]
            ring
          · rw [if_neg h, if_neg h]
            ring)
      refine key.congr_deriv ?_
      unfold layerNormWeightGrad
      rw [Tensor.get_tabulate (by rw [hws]; exact inShape1.2 hc), ofVec_shape, columnSum_eq hn hd hS, show [c].getD 0 0 = c from rfl]
      refine Finset.sum_congr rfl fun m _ => ?_
      by_cases h : (placeOf hn hd m : ℕ) = c
      · rw [if_pos h, if_pos h, layerHat_line hn hd hS]
      · rw [if_neg h, if_neg h, mul_zero]
  | 1 =>
    cases hbias : M.bias with
    | none =>
      rw [hbias] at hj'
      cases hj'
    | some b =>
      rw [hbias] at hj'
      obtain rfl : b = p := Option.some.inj hj'
      obtain ⟨hbs, hbf⟩ := hb b hbias
      rw [hbs] at hin
      obtain ⟨c, rfl, hc⟩ := inShape1_exists hin
      rw [hbias] at hD
      refine ⟨layerNormBiasGrad b (ofVec S X) g, fun t p => hatLine defaultEps (lineOf hn X p) (placeOf hn hd p) * w.get [(placeOf hn hd p : ℕ)] + (b.set [c] t).get [(placeOf hn hd p : ℕ)],
        ?_, rfl, fun t => ?_, ?_⟩
      · show ((M.weight.toList.map _) ++ M.bias.toList.map _)[1]? = _
        rw [hw, hbias]
        rfl
      · exact (layerNorm_apply (M := { M with bias := some (b.set [c] t) }) hw _).trans (layerNorm_vec hn hd hS hws (some (b.set [c] t)) defaultEps X)
      · have key := GradVec.affine hD hg (fun m => if (placeOf hn hd m : ℕ) = c then 1 else 0) (b.get [c])
          (fun t p => hatLine defaultEps (lineOf hn X p) (placeOf hn hd p) * w.get [(placeOf hn hd p : ℕ)] + (b.set [c] t).get [(placeOf hn hd p : ℕ)]) (by
            intro t m
            beta_reduce
            rw [set1_get hbs hbf hc t (placeOf hn hd m).2]
            show _ = _ + b.get [(placeOf hn hd m : ℕ)] + _
            by_cases h : (placeOf hn hd m : ℕ) = c
            · rw [if_pos h, if_pos h, h]
              ring
            · rw [if_neg h, if_neg h]
              ring)
        refine key.congr_deriv ?_
        unfold layerNormBiasGrad
        rw [Tensor.get_tabulate (by rw [hbs]; exact inShape1.2 hc), ofVec_shape, columnSum_eq hn hd hS, show [c].getD 0 0 = c from rfl]
        refine Finset.sum_congr rfl fun m _ => ?_
        by_cases h : (placeOf hn hd m : ℕ) = c
        · rw [if_pos h, if_pos h, mul_one]
        · rw [if_neg h, if_neg h, mul_zero]
  | j + 2 =>
    cases hbias : M.bias <;> rw [hbias] at hj' <;> cases hj'

theorem noParams {N : NormModule ℝ} {S : List ℕ} {P : Picks ℝ} {X : Fin (numel S) → ℝ} (hp : N.params = []) (h : ∃ F, Backprop N.apply S S F X (fun g => .ok (N.inputGrad P (ofVec S X) g))) :
    ∃ F : (Fin (numel S) → ℝ) → Fin (numel S) → ℝ, (∀ Y, N.apply (ofVec S Y) = .ok (ofVec S (F Y))) ∧
      ∀ (loss : (Fin (numel S) → ℝ) → ℝ) (D : (Fin (numel S) → ℝ) →L[ℝ] ℝ) (g : Tensor ℝ), HasFDerivAt loss D (F X) → GradVec S D g →
        (∃ D', HasFDerivAt (fun Y => loss (F Y)) D' X ∧ GradVec S D' (N.inputGrad P (ofVec S X) g)) ∧ N.ParamGrads S X loss (N.paramGrads (ofVec S X) g) := by
  obtain ⟨F, hF⟩ := h
  refine ⟨F, hF.run, fun loss D g hD hg => ?_⟩
  obtain ⟨D', gx, e1, e2, e3⟩ := hF.grad loss D g hD hg
  obtain rfl := Except.ok.inj e1
  refine ⟨⟨D', e2, e3⟩, fun j p idx hj => ?_⟩
  rw [hp] at hj
  cases hj

/-- Every normalization of the library: for a differentiable loss of the output whose gradient is `g`, the backward pass returns the gradient of the input and of every entry of every parameter. -/
theorem C121_modules {P : Picks ℝ} (hP : P.Valid) (N : NormModule ℝ) {S : List ℕ} (h : N.Takes S) (X : Fin (numel S) → ℝ) (hX : N.SmoothIn (ofVec S X)) :
    ∃ F : (Fin (numel S) → ℝ) → Fin (numel S) → ℝ, (∀ Y, N.apply (ofVec S Y) = .ok (ofVec S (F Y))) ∧
      ∀ (loss : (Fin (numel S) → ℝ) → ℝ) (D : (Fin (numel S) → ℝ) →L[ℝ] ℝ) (g : Tensor ℝ), HasFDerivAt loss D (F X) → GradVec S D g →
        (∃ D', HasFDerivAt (fun Y => loss (F Y)) D' X ∧ GradVec S D' (N.inputGrad P (ofVec S X) g)) ∧ N.ParamGrads S X loss (N.paramGrads (ofVec S X) g) := by
  have swap : ∀ {f : Fwd ℝ} {F : (Fin (numel S) → ℝ) → Fin (numel S) → ℝ} {back : Tensor ℝ → Py (Tensor ℝ)}, (∀ Y, N.apply (ofVec S Y) = f (ofVec S Y)) → Backprop f S S F X back → Backprop N.apply S S F X back :=
    fun e hb => hb.congr e fun g _ _ => rfl
  cases N with
  | maxAbsLast eps =>
    obtain ⟨F, hF⟩ := backprop_maxAbs hP h.2 h.1 X hX
    exact noParams rfl ⟨F, swap (fun Y => bind_apply (M := .maxAbsLast eps) (by show (maxAbsNormalizationLast _ _ >>= _) = _; rfl)) hF⟩
  | maxCenterLast eps =>
    obtain ⟨F, hF⟩ := backprop_maxCenter hP h.2 h.1 X hX
    exact noParams rfl ⟨F, swap (fun Y => bind_apply (M := .maxCenterLast eps) (by show (maxCenterNormalizationLast _ _ >>= _) = _; rfl)) hF⟩
  | maxAbs eps dim =>
    obtain ⟨F, hF⟩ := backprop_maxAbs hP h.2 h.1 X hX
    exact noParams rfl ⟨F, swap (fun Y => bind_apply (M := .maxAbs eps dim) rfl) hF⟩
  | maxCenter eps =>
    obtain ⟨F, hF⟩ := backprop_maxCenter hP h.2 h.1 X hX
    exact noParams rfl ⟨F, swap (fun Y => bind_apply (M := .maxCenter eps) rfl) hF⟩
  | l2 eps =>
    obtain ⟨F, hF⟩ := backprop_l2 h.2 h.1 X
    exact noParams rfl ⟨F, swap (fun Y => bind_apply (M := .l2 eps) rfl) hF⟩
  | maxCenterND eps =>
    obtain ⟨B, R, rfl, hB, hR, he⟩ := h
    have hN : numel [B, numel R] = numel (B :: R) := by simp [numel]
    have hb := backprop_maxCenter hP he (S := [B, numel R]) (dim := 1) hR (fun p => X (Fin.cast hN p)) fun idx hin => by
      rw [← reshape_ofVec hN, rows_slice _ rfl hin]
      exact hX _ (by obtain ⟨b, q, rfl, hb, hq⟩ := inShape2_exists hin; exact hb)
    rw [← reshape_ofVec hN] at hb
    obtain ⟨F, hF⟩ := backprop_rows hB X hb
    exact noParams rfl ⟨F, swap (fun Y => bind_apply (M := .maxCenterND eps) rfl) hF⟩
  | maxAbsND eps =>
    obtain ⟨B, R, rfl, hB, hR, he⟩ := h
    have hN : numel [B, numel R] = numel (B :: R) := by simp [numel]
    have hb := backprop_maxAbs hP he (S := [B, numel R]) (dim := 1) hR (fun p => X (Fin.cast hN p)) fun idx hin => by
      rw [← reshape_ofVec hN, rows_slice _ rfl hin]
      exact hX _ (by obtain ⟨b, q, rfl, hb, hq⟩ := inShape2_exists hin; exact hb)
    rw [← reshape_ofVec hN] at hb
    obtain ⟨F, hF⟩ := backprop_rows hB X hb
    refine noParams rfl ⟨F, swap (fun Y => bind_apply (M := .maxAbsND eps) ?_) hF⟩
    show (maxAbsNormalizationND _ _ >>= _) = _
    congr 1
    unfold maxAbsNormalizationND maxAbsNormalization
    simp only [Bind.bind, Except.bind]
    cases flattenRows (ofVec (B :: R) Y) with
    | error e => rfl
    | ok xn =>
      dsimp only
      cases maxAbs xn 1 <;> rfl
  | layerNorm M =>
    obtain ⟨n, w, hl, h0, hw, hws, hwf, hb⟩ := h
    have hd : S.length - 1 < S.length := by
      cases S with
      | nil => cases hl
      | cons a S => simp
    have hn : S.getD (S.length - 1) 0 = n := by
      rw [List.getLast?_eq_getElem?] at hl
      rw [List.getD_eq_getElem?_getD, hl]
      rfl
    have hbp := backprop_layerNorm hn hd rfl h0 hws M.bias defaultEps_pos X
    refine ⟨_, fun Y => (layerNorm_apply hw _).trans (hbp.run Y), fun loss D g hD hg => ?_⟩
    obtain ⟨D', gx, e1, e2, e3⟩ := hbp.grad loss D g hD hg
    obtain rfl := Except.ok.inj e1
    refine ⟨⟨D', e2, ?_⟩, layerNorm_params hn hd rfl hw hws hwf hb X hD hg⟩
    show GradVec S D' (layerNormGrad defaultEps (M.weight.getD _) (ofVec S X) g)
    rw [hw]
    exact e3

/-! ## networks -/

/-- Modules with matching shapes. -/
def StagesTake : List (NStage ℝ) → List ℕ → List ℕ → Prop
  | [], S, T => S = T
  | s :: ss, S, T => ∃ M, s.Takes S M ∧ StagesTake ss M T

/-- All intermediate values of the forward pass on `x` are smooth points of the modules that read them. -/
def StagesSmooth : List (NStage ℝ) → Tensor ℝ → Prop
  | [], _ => True
  | s :: ss, x => s.SmoothIn x ∧ ∀ y, s.forward x = .ok y → StagesSmooth ss y

theorem stageForward_cons {K : Type} [TorchScalar K] {s : NStage K} {ss : List (NStage K)} {x y : Tensor K} (h : s.forward x = .ok y) :
    stageForward (s :: ss) x = stageForward ss y := by
  show (s.forward x >>= stageForward ss) = _
  rw [h]
  rfl

theorem stage_modules {P : Picks ℝ} (hP : P.Valid) (s : NStage ℝ) {S T : List ℕ} (h : s.Takes S T) (X : Fin (numel S) → ℝ) (hX : s.SmoothIn (ofVec S X)) :
    ∃ F : (Fin (numel S) → ℝ) → Fin (numel T) → ℝ, (∀ Y, s.forward (ofVec S Y) = .ok (ofVec T (F Y))) ∧
      ∀ (loss : (Fin (numel T) → ℝ) → ℝ) (D : (Fin (numel T) → ℝ) →L[ℝ] ℝ) (g : Tensor ℝ), HasFDerivAt loss D (F X) → GradVec T D g →
        ∃ gx gps, s.inputGrad P (ofVec S X) g = .ok gx ∧ s.paramGrads (ofVec S X) g = .ok gps ∧
          (∃ D', HasFDerivAt (fun Y => loss (F Y)) D' X ∧ GradVec S D' gx) ∧
          ∀ j p idx, s.params[j]? = some p → InShape p.shape idx →
            ∃ (gp : Tensor ℝ) (P : ℝ → Fin (numel T) → ℝ), gps[j]? = some gp ∧ gp.shape = p.shape ∧
              (∀ t, (s.setParam j (p.set idx t)).forward (ofVec S X) = .ok (ofVec T (P t))) ∧ HasDerivAt (fun t => loss (P t)) (gp.get idx) (p.get idx) := by
  cases s with
  | base s =>
    exact C120_modules s h X fun p => by
      have := hX (unravel S p) (inShape_unravel p.2)
      rwa [ofVec_get_unravel] at this
  | norm N =>
    obtain ⟨rfl, h⟩ := h
    obtain ⟨F, hF, hB⟩ := C121_modules hP N h X hX
    refine ⟨F, hF, fun loss D g hD hg => ?_⟩
    obtain ⟨h1, h2⟩ := hB loss D g hD hg
    exact ⟨_, _, rfl, rfl, h1, h2⟩

/-- The backward pass of a network with such normalizations: the gradients of the input and of all parameters of all modules. -/
theorem C121_backpropagation {P : Picks ℝ} (hP : P.Valid) (ss : List (NStage ℝ)) {S T : List ℕ} (h : StagesTake ss S T) (X : Fin (numel S) → ℝ) (hX : StagesSmooth ss (ofVec S X)) :
    ∃ F : (Fin (numel S) → ℝ) → Fin (numel T) → ℝ, (∀ Y, stageForward ss (ofVec S Y) = .ok (ofVec T (F Y))) ∧
      ∀ (loss : (Fin (numel T) → ℝ) → ℝ) (D : (Fin (numel T) → ℝ) →L[ℝ] ℝ) (g : Tensor ℝ), HasFDerivAt loss D (F X) → GradVec T D g →
        ∃ gx gps, stageBackward P ss (ofVec S X) g = .ok (gx, gps) ∧
          (∃ D', HasFDerivAt (fun Y => loss (F Y)) D' X ∧ GradVec S D' gx) ∧
          ∀ k s j p idx, ss[k]? = some s → s.params[j]? = some p → InShape p.shape idx →
            ∃ (gs : List (Tensor ℝ)) (gp : Tensor ℝ) (P : ℝ → Fin (numel T) → ℝ), gps[k]? = some gs ∧ gs[j]? = some gp ∧ gp.shape = p.shape ∧
              (∀ t, stageForward (ss.set k (s.setParam j (p.set idx t))) (ofVec S X) = .ok (ofVec T (P t))) ∧
              HasDerivAt (fun t => loss (P t)) (gp.get idx) (p.get idx) := by
  induction ss generalizing S with
  | nil =>
    obtain rfl : S = T := h
    refine ⟨fun Y => Y, fun Y => rfl, fun loss D g hD hg => ⟨g, [], rfl, ⟨D, hD, hg⟩, ?_⟩⟩
    intro k s j p idx hk
    simp at hk
  | cons s ss ih =>
    obtain ⟨M, h1, h2⟩ := h
    obtain ⟨F1, hF1, hB1⟩ := stage_modules hP s h1 X hX.1
    obtain ⟨F2, hF2, hB2⟩ := ih h2 (F1 X) (hX.2 _ (hF1 X))
    refine ⟨fun Y => F2 (F1 Y), fun Y => (stageForward_cons (hF1 Y)).trans (hF2 _), fun loss D g hD hg => ?_⟩
    obtain ⟨gy, gps, e1, ⟨D2, hD2, hg2⟩, hp2⟩ := hB2 loss D g hD hg
    obtain ⟨gx, gp, e2, e3, hD1, hp1⟩ := hB1 (fun Z => loss (F2 Z)) D2 gy hD2 hg2
    refine ⟨gx, gp :: gps, ?_, hD1, ?_⟩
    · unfold stageBackward
      rw [hF1 X]
      show (stageBackward P ss (ofVec M (F1 X)) g >>= _) = _
      rw [e1]
      show (s.inputGrad P (ofVec S X) gy >>= fun gx => s.paramGrads (ofVec S X) gy >>= fun gp => Except.ok (gx, gp :: gps)) = _
      rw [e2, e3]
      rfl
    · intro k s' j p idx hk hj hin
      match k with
      | 0 =>
        obtain rfl := Option.some.inj hk
        obtain ⟨gp', P, a, b, c, d⟩ := hp1 j p idx hj hin
        exact ⟨_, gp', fun t => F2 (P t), rfl, a, b, fun t => (stageForward_cons (c t)).trans (hF2 _), d⟩
      | k + 1 =>
        obtain ⟨gs, gp', P, a, b, c, d, e⟩ := hp2 k s' j p idx hk hj hin
        exact ⟨gs, gp', P, a, b, c, fun t => (stageForward_cons (hF1 X)).trans (d t), e⟩

/-! ## `HighOrderMLP` -/

/-- Fully connected layers as modules. -/
def denseStages {K : Type} (ls : List (GLayer K)) : List (NStage K) := ls.map fun l => .base (.dense l)

theorem stageForward_append {K : Type} [TorchScalar K] (s t : List (NStage K)) (x : Tensor K) : stageForward (s ++ t) x = (stageForward s x >>= stageForward t) := by
  induction s generalizing x with
  | nil => rfl
  | cons a s ih =>
    show (a.forward x >>= stageForward (s ++ t)) = ((a.forward x >>= stageForward s) >>= stageForward t)
    cases a.forward x with
    | error e => rfl
    | ok y => exact ih y

theorem StagesTake.append {s t : List (NStage ℝ)} {S M T : List ℕ} (h1 : StagesTake s S M) (h2 : StagesTake t M T) : StagesTake (s ++ t) S T := by
  induction s generalizing S with
  | nil =>
    obtain rfl : S = M := h1
    exact h2
  | cons a s ih =>
    obtain ⟨N, a1, a2⟩ := h1
    exact ⟨N, a1, ih a2⟩

theorem denseStages_forward {K : Type} [TorchScalar K] (ls : List (GLayer K)) : stageForward (denseStages ls) = netForward ls := by
  induction ls with
  | nil => rfl
  | cons l ls ih =>
    funext x
    show (l.forward x >>= stageForward (denseStages ls)) = (l.forward x >>= netForward ls)
    rw [ih]

theorem denseStages_take {ls : List (GLayer ℝ)} {I O : ℕ} (h : NetFits ls I O) (B : ℕ) : StagesTake (denseStages ls) [B, I] [B, O] := by
  induction ls generalizing I with
  | nil =>
    obtain rfl : I = O := h
    rfl
  | cons l ls ih =>
    obtain ⟨M, h1, h2⟩ := h
    exact ⟨[B, M], ⟨B, I, M, rfl, rfl, h1⟩, ih h2⟩

/-- `HighOrderMLP` of layers other than switch layers, with a normalization (applied as a function: parameters of `layer_norm` are not trained here), without dropout and `resnet`, and with no nonlinearity or `relu`, is — when it is built and after any
training — such a sequence of modules: `C121_backpropagation` applies to it. -/
theorem C121_mlp (rng : Rng ℝ) {c : MLPArgs ℝ} {k kIn : LeafKind} (hk : fcTable.lookup c.layerType = some (.leaf k))
    (hki : fcTable.lookup (orStr c.layerTypeIn c.layerType) = some (.leaf kIn)) (hI : Usable (.leaf kIn) c.inputArgs)
    (hH : Usable (.leaf k) c.hiddenArgs) (hO : Usable (.leaf k) c.outputArgs) (hper : ∀ p, c.periodicity = some p → 0 < p)
    {N : NormModule ℝ} (hnorm : c.normalization = some N.apply) (hdrop : c.dropout ≤ 0) (hres : c.resnet = false) {h0 : Heap ℝ} (hord : h0.Ordered)
    (hnl : ∀ j ∈ c.nonLinearity, h0[j]? = some (.other fun x => .ok (reluT x))) :
    ∃ net h1 inp out hid, mlpInit rng c h0 = .ok (net, h1) ∧ ∀ h : Heap ℝ, h1.Later h → h.Ordered → h.ParamsWF →
      let pre : List (NStage ℝ) := .norm N :: if c.nonLinearity.isSome then [.base (.dense .relu)] else []
      let ss := denseStages (h.glayers inp) ++ ((List.range c.hiddenLayers).map hid ++ [out]).flatMap fun j => pre ++ denseStages (h.glayers j)
      (∀ B, N.Takes [B, c.hiddenWidth] → StagesTake ss [B, c.inWidth] [B, c.outWidth]) ∧ h.forward net = stageForward ss := by
  obtain ⟨net, h1, e1, -, -, inp, out, hid, -, hall⟩ := C57_structure rng hk hki hI hH hO hord hnl
  refine ⟨net, h1, inp, out, hid, e1, fun h hl ho hw => ?_⟩
  obtain ⟨l1, l2, l3, l4, -⟩ := hall h hl ho
  intro pre ss
  obtain ⟨a1, a2⟩ := l1.glayers hI hper ho hw
  obtain ⟨c1, c2⟩ := l3.glayers hO hper ho hw
  have hpf : ∀ x, seqForward (preFns c (fun x => .ok (reluT x))) x = stageForward pre x := by
    intro x
    have hd : ¬ (ltB 0 c.dropout = true) := by
      rw [ltB_real]
      simpa using hdrop
    unfold preFns
    rw [hnorm, if_neg hd]
    by_cases hn : c.nonLinearity.isSome
    · simp only [pre, if_pos hn]
      rfl
    · simp only [pre, if_neg hn]
      rfl
  have hseq : ∀ js : List ℕ, (∀ j ∈ js, h.forward j = netForward (h.glayers j)) →
      seqForward ((js.map h.forward).flatMap fun l => preFns c (fun x => .ok (reluT x)) ++ [l]) = stageForward (js.flatMap fun j => pre ++ denseStages (h.glayers j)) := by
    intro js hjs
    induction js with
    | nil => rfl
    | cons j js ih =>
      have ih' := ih fun j' hj' => hjs j' (List.mem_cons_of_mem _ hj')
      funext x
      rw [List.map_cons, List.flatMap_cons, List.flatMap_cons, seqForward_append, stageForward_append, ih', seqForward_append, stageForward_append, hpf]
      congr 1
      have : seqForward [h.forward j] = stageForward (denseStages (h.glayers j)) := by
        rw [denseStages_forward, ← hjs j List.mem_cons_self]
        funext y
        show (h.forward j y >>= fun z => Except.ok z) = h.forward j y
        cases h.forward j y <;> rfl
      rw [this]
  refine ⟨fun B hB => ?_, ?_⟩
  · have hpre : StagesTake pre [B, c.hiddenWidth] [B, c.hiddenWidth] := by
      refine ⟨_, ⟨rfl, hB⟩, ?_⟩
      by_cases hn : c.nonLinearity.isSome
      · rw [if_pos hn]
        exact ⟨_, ⟨B, _, _, rfl, rfl, rfl⟩, rfl⟩
      · rw [if_neg hn]
        rfl
    refine (denseStages_take a1 B).append ?_
    rw [List.flatMap_append]
    have hlast : StagesTake ([out].flatMap fun j => pre ++ denseStages (h.glayers j)) [B, c.hiddenWidth] [B, c.outWidth] := by
      simp only [List.flatMap_cons, List.flatMap_nil, List.append_nil]
      exact hpre.append (denseStages_take c1 B)
    refine StagesTake.append ?_ hlast
    have hmid : ∀ n ≤ c.hiddenLayers, StagesTake (((List.range n).map hid).flatMap fun j => pre ++ denseStages (h.glayers j)) [B, c.hiddenWidth] [B, c.hiddenWidth] := by
      intro n hn
      induction n with
      | zero => rfl
      | succ n ih =>
        rw [List.range_succ, List.map_append, List.flatMap_append]
        refine (ih (by omega)).append ?_
        simp only [List.map_cons, List.map_nil, List.flatMap_cons, List.flatMap_nil, List.append_nil]
        exact hpre.append (denseStages_take (IsLayer.glayers hH hper ho hw (l2 n (by omega))).1 B)
    exact hmid _ le_rfl
  · rw [l4 hres]
    funext x
    unfold compose
    show (h.forward inp x >>= _) = _
    rw [stageForward_append, denseStages_forward, a2, ← hseq _ fun j hj => ?_]
    · rw [List.map_append, List.map_map]
      rfl
    · rcases List.mem_append.1 hj with hj | hj
      · obtain ⟨i, hi, rfl⟩ := List.mem_map.1 hj
        exact (IsLayer.glayers hH hper ho hw (l2 i (List.mem_range.1 hi))).2
      · rw [List.mem_singleton.1 hj]
        exact c2

/-! ## equal entries -/

/-- Two equal entries: centring is differentiable, the first output has the derivatives `1 / (2 eps)` and `-1 / (2 eps)`, but when `torch.max` and `torch.min` return the same index the backward pass
returns the gradient 0 for both entries. -/
theorem C121_ties {P : Picks ℝ} {a eps : ℝ} (heps : 0 < eps) (hP : P.max [a, a] = 0 ∧ P.min [a, a] = 0) :
    ∃ F : (Fin 2 → ℝ) → Fin 2 → ℝ, (∀ Y, maxCenterNormalization (Tensor.tab2 1 2 fun _ j => if j = 0 then Y 0 else Y 1) eps 1 = .ok (Tensor.tab2 1 2 fun _ j => if j = 0 then F Y 0 else F Y 1)) ∧
      HasFDerivAt (fun Y => F Y 0) ((1 / (2 * eps)) • ContinuousLinearMap.proj (R := ℝ) (φ := fun _ : Fin 2 => ℝ) 0 - (1 / (2 * eps)) • ContinuousLinearMap.proj (R := ℝ) (φ := fun _ : Fin 2 => ℝ) 1) (fun _ => a) ∧
      maxCenterGrad P eps 1 (Tensor.tab2 1 2 fun _ _ => a) (Tensor.tab2 1 2 fun _ j => if j = 0 then 1 else 0) = Tensor.tab2 1 2 fun _ _ => 0 := by
  have hmax : ∀ u v : ℝ, maxL [u, v] - 1 / ((2 : ℕ) : ℝ) * (maxL [u, v] + minL [u, v]) = |u - v| / 2 := by
    intro u v
    show max u v - 1 / ((2 : ℕ) : ℝ) * (max u v + min u v) = _
    rw [max_add_min]
    rcases le_total u v with h | h
    · rw [max_eq_right h, abs_of_nonpos (by linarith)]
      push_cast
      ring
    · rw [max_eq_left h, abs_of_nonneg (by linarith)]
      push_cast
      ring
  have hmid : ∀ u v : ℝ, 1 / ((2 : ℕ) : ℝ) * (maxL [u, v] + minL [u, v]) = (u + v) / 2 := by
    intro u v
    show 1 / ((2 : ℕ) : ℝ) * (max u v + min u v) = _
    rw [max_add_min]
    push_cast
    ring
  have hsl : ∀ (u v : ℝ) (idx : List ℕ), InShape [1, 2] idx → slice (Tensor.tab2 1 2 fun _ j => if j = 0 then u else v) 1 idx = [u, v] := by
    intro u v idx hin
    obtain ⟨b, q, rfl, hb, hq⟩ := inShape2_exists hin
    obtain rfl : b = 0 := by omega
    rfl
  refine ⟨fun Y i => (Y i - (Y 0 + Y 1) / 2) / (|Y 0 - Y 1| / 2 + eps), fun Y => ?_, ?_, ?_⟩
  · rw [maxCenterNormalization_eq _ _ (by simp [Tensor.tab2]) (by simp [Tensor.tab2])]
    congr 1
    refine Tensor.ext_get (Tensor.wf_tabulate _ _) (Tensor.wf_tabulate _ _) rfl fun idx hin => ?_
    have hin' : InShape [1, 2] idx := hin
    rw [Tensor.get_tabulate (s := (Tensor.tab2 1 2 fun _ j => if j = 0 then Y 0 else Y 1).shape) hin, hsl _ _ _ hin', hmax, hmid]
    obtain ⟨b, q, rfl, hb, hq⟩ := inShape2_exists hin'
    rw [Tensor.get_tab2 hb hq, Tensor.get_tab2 hb hq]
    obtain rfl | rfl : q = 0 ∨ q = 1 := by omega
    · rfl
    · rfl
  · have key := mul_deriv_zero (n := 2) (v := fun _ => a) ((1 / 2 : ℝ) • ContinuousLinearMap.proj (R := ℝ) (φ := fun _ : Fin 2 => ℝ) 0 - (1 / 2 : ℝ) • ContinuousLinearMap.proj (R := ℝ) (φ := fun _ : Fin 2 => ℝ) 1)
      (ψ := fun Y => (|Y 0 - Y 1| / 2 + eps)⁻¹) (by show (1 / 2 : ℝ) * a - 1 / 2 * a = 0; ring) (by
        refine ContinuousAt.inv₀ (by fun_prop) ?_
        show |a - a| / 2 + eps ≠ 0
        rw [sub_self, abs_zero, zero_div, zero_add]
        exact heps.ne')
    have e : (fun Y : Fin 2 → ℝ => (Y 0 - (Y 0 + Y 1) / 2) / (|Y 0 - Y 1| / 2 + eps))
        = fun w => ((1 / 2 : ℝ) • ContinuousLinearMap.proj (R := ℝ) (φ := fun _ : Fin 2 => ℝ) 0 - (1 / 2 : ℝ) • ContinuousLinearMap.proj (R := ℝ) (φ := fun _ : Fin 2 => ℝ) 1) w * (|w 0 - w 1| / 2 + eps)⁻¹ := by
      funext w
      show _ = ((1 / 2 : ℝ) * w 0 - 1 / 2 * w 1) * _
      rw [div_eq_mul_inv]
      congr 1
      ring
    beta_reduce
    rw [e]
    refine key.congr_fderiv ?_
    ext c
    show (|a - a| / 2 + eps)⁻¹ * ((1 / 2 : ℝ) * c 0 - 1 / 2 * c 1) = 1 / (2 * eps) * c 0 - 1 / (2 * eps) * c 1
    rw [sub_self, abs_zero, zero_div, zero_add]
    field_simp
  · have hs2 : ∀ idx, InShape [1, 2] idx → slice (Tensor.tab2 1 2 fun _ _ => a) 1 idx = [a, a] := by
      intro idx hin
      obtain ⟨b, q, rfl, hb, hq⟩ := inShape2_exists hin
      obtain rfl : b = 0 := by omega
      rfl
    refine Tensor.ext_get (Tensor.wf_tabulate _ _) (Tensor.wf_tabulate _ _) rfl fun idx hin => ?_
    have hin' : InShape [1, 2] idx := hin
    unfold maxCenterGrad
    rw [Tensor.get_tabulate (s := (Tensor.tab2 1 2 fun _ _ => a).shape) hin]
    dsimp only
    rw [hs2 _ hin', hmax, hmid, hP.1, hP.2]
    obtain ⟨b, q, rfl, hb, hq⟩ := inShape2_exists hin'
    rw [Tensor.get_tab2 hb hq, Tensor.get_tab2 hb hq]
    obtain rfl : b = 0 := by omega
    unfold denominatorGrad
    rw [show (Tensor.tab2 1 2 fun _ _ => a).shape.getD 1 0 = 2 from rfl, sumAlong_line, sumAlong_line]
    have g : ∀ j : ℕ, j < 2 → ((Tensor.tab2 1 2 fun _ _ => a).get [0, j] = a ∧ (Tensor.tab2 1 2 fun _ j => if j = 0 then (1 : ℝ) else 0).get [0, j] = if j = 0 then 1 else 0) := by
      intro j hj
      exact ⟨Tensor.get_tab2 (by norm_num) hj, Tensor.get_tab2 (by norm_num) hj⟩
    simp only [Fin.sum_univ_two, List.set_cons_succ, List.set_cons_zero, Fin.val_zero, Fin.val_one]
    rw [(g 0 (by norm_num)).1, (g 0 (by norm_num)).2, (g 1 (by norm_num)).1, (g 1 (by norm_num)).2]
    obtain rfl | rfl : q = 0 ∨ q = 1 := by omega
    · norm_num
      field_simp
      norm_num
    · norm_num

/-! ## examples -/

/-- There are such indices. -/
theorem exists_picks : ∃ P : Picks ℝ, P.Valid := by
  classical
  have h1 : ∀ l : List ℝ, l ≠ [] → ∃ k < l.length, ∀ a ∈ l, a ≤ l.getD k 0 := by
    intro l hl
    obtain ⟨k, hk, hm⟩ := Finset.exists_max_image (Finset.range l.length) (fun i => l.getD i 0) ⟨0, by simpa using List.length_pos_iff.2 hl⟩
    refine ⟨k, by simpa using hk, fun a ha => ?_⟩
    obtain ⟨i, hi, rfl⟩ := List.getElem_of_mem ha
    have := hm i (by simpa using hi)
    rwa [List.getD_eq_getElem l 0 hi] at this
  have h2 : ∀ l : List ℝ, l ≠ [] → ∃ k < l.length, ∀ a ∈ l, l.getD k 0 ≤ a := by
    intro l hl
    obtain ⟨k, hk, hm⟩ := Finset.exists_min_image (Finset.range l.length) (fun i => l.getD i 0) ⟨0, by simpa using List.length_pos_iff.2 hl⟩
    refine ⟨k, by simpa using hk, fun a ha => ?_⟩
    obtain ⟨i, hi, rfl⟩ := List.getElem_of_mem ha
    have := hm i (by simpa using hi)
    rwa [List.getD_eq_getElem l 0 hi] at this
  refine ⟨⟨fun l => if h : l ≠ [] then (h1 l h).choose else 0, fun l => if h : l ≠ [] then (h2 l h).choose else 0⟩, fun l hl => ?_⟩
  dsimp only
  rw [dif_pos hl, dif_pos hl]
  exact ⟨(h1 l hl).choose_spec, (h2 l hl).choose_spec⟩

/-- Dividing by the 2-norm at zero: the gradient is divided by `eps`. -/
example {P : Picks ℝ} (hP : P.Valid) : ∃ F : (Fin (numel [2, 3]) → ℝ) → Fin (numel [2, 3]) → ℝ, (∀ Y, (NormModule.l2 1).apply (ofVec [2, 3] Y) = .ok (ofVec [2, 3] (F Y))) ∧
    ∃ D', HasFDerivAt (fun Y => ∑ p : Fin (numel [2, 3]), F Y p) D' 0 ∧ GradVec [2, 3] D' ((NormModule.l2 1).inputGrad P (ofVec [2, 3] 0) (ofVec [2, 3] fun _ => 1)) := by
  obtain ⟨F, h1, h2⟩ := C121_modules hP (.l2 1) (S := [2, 3]) ⟨by norm_num, by norm_num⟩ 0 trivial
  refine ⟨F, h1, ?_⟩
  exact (h2 (fun Y => ∑ p : Fin (numel [2, 3]), Y p) (∑ p : Fin (numel [2, 3]), ContinuousLinearMap.proj (R := ℝ) (φ := fun _ => ℝ) p) (ofVec [2, 3] fun _ => 1)
    (by
      refine (∑ p : Fin (numel [2, 3]), ContinuousLinearMap.proj (R := ℝ) (φ := fun _ => ℝ) p).hasFDerivAt.congr_of_eventuallyEq (Eventually.of_forall fun Y => ?_)
      simp)
    ⟨rfl, ofVec_wf _ _, fun p => by
      rw [ofVec_get_unravel]
      simp [Pi.single_apply]⟩).1

theorem exLine_smooth : MaxCenterSmooth [0, 1, 5] := by
  refine ⟨⟨2, by norm_num, fun q hq hne => ?_⟩, ⟨0, by norm_num, fun q hq hne => ?_⟩⟩
  · have : q < 3 := hq
    interval_cases q <;> simp_all
  · have : q < 3 := hq
    interval_cases q <;> simp_all

/-- Centring followed by a layer normalization with weight 2 and bias 1, at the row `0, 1, 5`. -/
example {P : Picks ℝ} (hP : P.Valid) (X : Fin (numel [1, 3]) → ℝ) (hX : slice (ofVec [1, 3] X) 1 [0, 0] = [0, 1, 5]) :
    let ss : List (NStage ℝ) := [.norm (.maxCenter moduleEps), .norm (.layerNorm ⟨some (Tensor.tab1 3 fun _ => 2), true, some (Tensor.tab1 3 fun _ => 1)⟩)]
    ∃ F : (Fin (numel [1, 3]) → ℝ) → Fin (numel [1, 3]) → ℝ, (∀ Y, stageForward ss (ofVec [1, 3] Y) = .ok (ofVec [1, 3] (F Y))) ∧
      ∀ (loss : (Fin (numel [1, 3]) → ℝ) → ℝ) (D : (Fin (numel [1, 3]) → ℝ) →L[ℝ] ℝ) (g : Tensor ℝ), HasFDerivAt loss D (F X) → GradVec [1, 3] D g →
        ∃ gx gps D', stageBackward P ss (ofVec [1, 3] X) g = .ok (gx, gps) ∧ HasFDerivAt (fun Y => loss (F Y)) D' X ∧ GradVec [1, 3] D' gx := by
  intro ss
  obtain ⟨F, h1, h2⟩ := C121_backpropagation hP ss (S := [1, 3]) (T := [1, 3])
    ⟨_, ⟨rfl, by norm_num, by unfold moduleEps; norm_num⟩, _, ⟨rfl, 3, _, rfl, by norm_num, rfl, rfl, Tensor.wf_tabulate _ _, by rintro b ⟨rfl⟩; exact ⟨rfl, Tensor.wf_tabulate _ _⟩⟩, rfl⟩ X
    ⟨fun idx hin => by
      obtain ⟨b, q, rfl, hb, hq⟩ := inShape2_exists hin
      obtain rfl : b = 0 := by omega
      rw [show slice (ofVec [1, 3] X) 1 [0, q] = slice (ofVec [1, 3] X) 1 [0, 0] from rfl, hX]
      exact exLine_smooth, fun _ _ => ⟨trivial, fun _ _ => trivial⟩⟩
  refine ⟨F, h1, fun loss D g hD hg => ?_⟩
  obtain ⟨gx, gps, a, ⟨D', b, c⟩, -⟩ := h2 loss D g hD hg
  exact ⟨gx, gps, D', a, b, c⟩

/-- `exNet` with `max_abs` normalizations. -/
noncomputable def exNormNet : MLPArgs ℝ := { exNet "discontinuous" 3 2 with normalization := some (NormModule.maxAbs moduleEps 1).apply }

/-- A network of discontinuous layers with `max_abs` normalizations, for every batch size. -/
example (rng : Rng ℝ) : ∃ net h1, mlpInit rng exNormNet [] = .ok (net, h1) ∧ ∀ h : Heap ℝ, h1.Later h → h.Ordered → h.ParamsWF →
    ∃ ss, (∀ B, StagesTake ss [B, 2] [B, 1]) ∧ h.forward net = stageForward ss := by
  obtain ⟨u1, u2, u3⟩ := exNet_usable "discontinuous" (n := 3) (s := 2) (by norm_num) (by norm_num) .discontinuous
  obtain ⟨net, h1, inp, out, hid, e, hall⟩ := C121_mlp rng (c := exNormNet) (k := .pw .discontinuous) (kIn := .pw .discontinuous) (N := .maxAbs moduleEps 1)
    (by show List.lookup "discontinuous" _ = _; decide) (by show List.lookup "discontinuous" _ = _; decide) u1 u2 u3 (by simp [exNormNet, exNet]) rfl le_rfl rfl ordered_nil
    (by intro j hj; simp [exNormNet, exNet] at hj)
  refine ⟨net, h1, e, fun h a b c => ⟨_, fun B => (hall h a b c).1 B ⟨?_, by unfold moduleEps; norm_num⟩, (hall h a b c).2⟩⟩
  show 0 < 3
  norm_num

end HOL
