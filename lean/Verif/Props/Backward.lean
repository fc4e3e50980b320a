import Verif.Lemmas.Backward

/-! # C92 and C93: backpropagation through layers and sequential networks -/

namespace HOL
open TorchScalar Spec Filter Topology

namespace GLayer

/-- Layers from `I` features to `O` features with parameters of the right shapes. -/
def Fits : GLayer ℝ → ℕ → ℕ → Prop
  | .pw L, I, O => L.WF ∧ 0 < L.length ∧ (∀ p, L.periodicity = some p → 0 < p) ∧ L.inFeatures = I ∧ L.outFeatures = O
  | .fn L, I, O => L.Fits ∧ L.inFeatures = I ∧ L.outFeatures = O
  | .product L, I, O => L.Fits ∧ L.inFeatures = I ∧ L.outFeatures = O
  | .linear w b, I, O => w.shape = [O, I] ∧ w.WF ∧ b.shape = [O] ∧ b.WF
  | .relu, I, O => I = O

/-- Entries of the input at which the layer is differentiable whatever its weights. -/
def SmoothAt : GLayer ℝ → ℝ → Prop
  | .pw L, v => L.Smooth v
  | .fn L, v => OffTurns L.periodicity v
  | .product L, v => OffTurns L.periodicity v
  | .linear _ _, _ => True
  | .relu, v => v ≠ 0

end GLayer

/-- **C92 (parameters).** For piecewise, polynomial, Fourier, product and linear layers and `relu`, any parameters, any batch (kinks included), and any differentiable loss of the output with gradient
`g`: the forward pass is total, and the gradient of every parameter has the shape of the parameter and every entry of it is the derivative of the loss by that entry. -/
theorem C92_parameter_gradients (l : GLayer ℝ) {I O : ℕ} (h : l.Fits I O) {B : ℕ} (X : Fin B → Fin I → ℝ) :
    ∃ Y : Fin B → Fin O → ℝ, l.forward (ofMat X) = .ok (ofMat Y) ∧
      ∀ (loss : (Fin B → Fin O → ℝ) → ℝ) (D : (Fin B → Fin O → ℝ) →L[ℝ] ℝ) (g : Tensor ℝ), HasFDerivAt loss D Y → GradOf D g →
        ∀ j p idx, l.params[j]? = some p → InShape p.shape idx →
          ∃ (gp : Tensor ℝ) (P : ℝ → Fin B → Fin O → ℝ), (l.paramGrads (ofMat X) g)[j]? = some gp ∧ gp.shape = p.shape ∧
            (∀ t, (l.setParam j (p.set idx t)).forward (ofMat X) = .ok (ofMat (P t))) ∧
            HasDerivAt (fun t => loss (P t)) (gp.get idx) (p.get idx) := by
  cases l with
  | pw L =>
    obtain ⟨hwf, hl, hp, rfl, rfl⟩ := h
    refine ⟨L.matFn X, L.forward_mat hwf X, fun loss D g hD hg => ?_⟩
    intro j p idx hj hin
    obtain ⟨rfl, rfl⟩ : j = 0 ∧ p = L.w := by
      match j with
      | 0 => exact ⟨rfl, (Option.some.inj hj).symm⟩
      | _ + 1 => simp [GLayer.params] at hj
    have hin' := hin
    rw [hwf.w_shape] at hin'
    obtain ⟨o, i, q, rfl⟩ : ∃ o i q, idx = [o, i, q] := by
      match idx, hin' with
      | [o, i, q], _ => exact ⟨o, i, q, rfl⟩
    obtain ⟨ho, hi, hq⟩ := inShape3.1 hin'
    have hout := L.forward_mat hwf X
    have e : (fun (b : Fin B) (o : Fin L.outFeatures) => (ofMat (L.matFn X)).get [(b : ℕ), (o : ℕ)]) = L.matFn X := by
      funext b o
      exact ofMat_get _ b o
    obtain ⟨hsh, outT, h1, h2⟩ := C83_gradient L hwf (B := B) (x := ofMat X) (g := g) rfl (ofMat_wf X) hout loss D (by rw [e]; exact hD) hg.2 ho hi hq
    refine ⟨L.weightGrad (ofMat X) g, fun t b o' => (outT t).get [(b : ℕ), (o' : ℕ)], rfl, hsh, fun t => ?_, h2⟩
    have h3 := PwLayer.forward_mat ({ L with w := L.w.set [o, i, q] t } : PwLayer ℝ) (hwf.withW rfl (Tensor.wf_set hwf.w_wf _ _)) X
    have h4 := Except.ok.inj ((h1 t).symm.trans h3)
    show ({ L with w := L.w.set [o, i, q] t } : PwLayer ℝ).forward (ofMat X) = _
    rw [h1 t]
    congr 1
    refine eq_ofMat ?_ ?_
    · rw [h4]; rfl
    · rw [h4]; exact ofMat_wf _
  | fn L =>
    obtain ⟨hf, rfl, rfl⟩ := h
    refine ⟨L.matFn X, L.forward_mat hf X, fun loss D g hD hg => ?_⟩
    intro j p idx hj hin
    obtain ⟨rfl, rfl⟩ : j = 0 ∧ p = L.w := by
      match j with
      | 0 => exact ⟨rfl, (Option.some.inj hj).symm⟩
      | _ + 1 => simp [GLayer.params] at hj
    obtain ⟨h1, h2⟩ := L.weight_deriv hf X loss D hD hg hin
    exact ⟨L.weightGrad (ofMat X) g, fun t => ({ L with w := L.w.set idx t } : FnLayer ℝ).matFn X, rfl, h1,
      fun t => FnLayer.forward_mat ({ L with w := L.w.set idx t } : FnLayer ℝ) (hf.withW rfl (Tensor.wf_set hf.w_wf _ _)) X, h2⟩
  | product L =>
    obtain ⟨hf, rfl, rfl⟩ := h
    obtain ⟨bias, hb, hbs, hbw⟩ := hf.bias
    refine ⟨fun b o => L.matFn X b o + bias.get [(o : ℕ)], L.forward_mat hb hf.w_shape X, fun loss D g hD hg => ?_⟩
    intro j p idx hj hin
    match j with
    | 0 =>
      obtain rfl := Option.some.inj hj
      obtain ⟨h1, h2⟩ := L.weight_deriv hf bias X loss D hD hg hin
      exact ⟨L.weightGrad (ofMat X) g, _, rfl, h1,
        fun t => ProductLayer.forward_mat ({ L with weight := L.weight.set idx t } : ProductLayer ℝ) hb hf.w_shape X, h2⟩
    | 1 =>
      have hj' : p = bias := by
        have := Option.some.inj hj
        rw [hb] at this
        exact this.symm
      subst hj'
      obtain ⟨h1, h2⟩ := bias_deriv hbs hbw (L.matFn X) loss D hD hg hin
      exact ⟨biasGrad g, _, rfl, h1, fun t => ProductLayer.forward_mat ({ L with bias := some (p.set idx t) } : ProductLayer ℝ) rfl hf.w_shape X, h2⟩
    | _ + 2 => simp [GLayer.params] at hj
  | linear w b =>
    obtain ⟨hws, hww, hbs, hbw⟩ := h
    refine ⟨linearFn w b O X, linear_mat hws X, fun loss D g hD hg => ?_⟩
    intro j p idx hj hin
    match j with
    | 0 =>
      obtain rfl := Option.some.inj hj
      obtain ⟨h1, h2⟩ := linear_weight_deriv hws hww X loss D hD hg hin
      exact ⟨linearWeightGrad w (ofMat X) g, _, rfl, h1, fun t => linear_mat (w := w.set idx t) hws X, h2⟩
    | 1 =>
      obtain rfl := Option.some.inj hj
      obtain ⟨h1, h2⟩ := bias_deriv hbs hbw (fun s r => ∑ q : Fin I, X s q * w.get [(r : ℕ), (q : ℕ)]) loss D hD hg hin
      exact ⟨biasGrad g, _, rfl, h1, fun t => linear_mat (b := b.set idx t) hws X, h2⟩
    | _ + 2 => simp [GLayer.params] at hj
  | relu =>
    obtain rfl : I = O := h
    refine ⟨reluFn X, congrArg Except.ok (relu_mat X), fun loss D g hD hg => ?_⟩
    intro j p idx hj
    simp [GLayer.params] at hj

/-- **C92 (layers).** For piecewise, polynomial, Fourier, product and linear layers and `relu`, any parameters, any batch whose inputs are smooth points of the layer, and any differentiable loss of the
output with gradient `g`: the forward pass is total, the gradient of the input is the derivative of the loss by the input, and the gradient of every parameter has the shape of the parameter and every
entry of it is the derivative of the loss by that entry. -/
theorem C92_layer_gradients (l : GLayer ℝ) {I O : ℕ} (h : l.Fits I O) {B : ℕ} (X : Fin B → Fin I → ℝ) (hs : ∀ b i, l.SmoothAt (X b i)) :
    ∃ F : (Fin B → Fin I → ℝ) → Fin B → Fin O → ℝ, (∀ Y, l.forward (ofMat Y) = .ok (ofMat (F Y))) ∧
      ∀ (loss : (Fin B → Fin O → ℝ) → ℝ) (D : (Fin B → Fin O → ℝ) →L[ℝ] ℝ) (g : Tensor ℝ), HasFDerivAt loss D (F X) → GradOf D g →
        (∃ D' : (Fin B → Fin I → ℝ) →L[ℝ] ℝ, HasFDerivAt (fun Y => loss (F Y)) D' X ∧ GradOf D' (l.inputGrad (ofMat X) g)) ∧
        ∀ j p idx, l.params[j]? = some p → InShape p.shape idx →
          ∃ (gp : Tensor ℝ) (P : ℝ → Fin B → Fin O → ℝ), (l.paramGrads (ofMat X) g)[j]? = some gp ∧ gp.shape = p.shape ∧
            (∀ t, (l.setParam j (p.set idx t)).forward (ofMat X) = .ok (ofMat (P t))) ∧
            HasDerivAt (fun t => loss (P t)) (gp.get idx) (p.get idx) := by
  obtain ⟨Y0, hY0, hpar⟩ := C92_parameter_gradients l h X
  have hY : ∀ F : (Fin B → Fin I → ℝ) → Fin B → Fin O → ℝ, l.forward (ofMat X) = .ok (ofMat (F X)) → Y0 = F X := by
    intro F hF
    have h1 := Except.ok.inj (hY0.symm.trans hF)
    funext b o
    have := congrArg (fun t : Tensor ℝ => t.get [(b : ℕ), (o : ℕ)]) h1
    simpa only [ofMat_get] using this
  have hpar' : ∀ F : (Fin B → Fin I → ℝ) → Fin B → Fin O → ℝ, l.forward (ofMat X) = .ok (ofMat (F X)) →
      ∀ (loss : (Fin B → Fin O → ℝ) → ℝ) (D : (Fin B → Fin O → ℝ) →L[ℝ] ℝ) (g : Tensor ℝ), HasFDerivAt loss D (F X) → GradOf D g →
        ∀ j p idx, l.params[j]? = some p → InShape p.shape idx →
          ∃ (gp : Tensor ℝ) (P : ℝ → Fin B → Fin O → ℝ), (l.paramGrads (ofMat X) g)[j]? = some gp ∧ gp.shape = p.shape ∧
            (∀ t, (l.setParam j (p.set idx t)).forward (ofMat X) = .ok (ofMat (P t))) ∧
            HasDerivAt (fun t => loss (P t)) (gp.get idx) (p.get idx) := by
    intro F hF loss D g hD
    rw [← hY F hF] at hD
    exact hpar loss D g hD
  cases l with
  | pw L =>
    obtain ⟨hwf, hl, hp, rfl, rfl⟩ := h
    refine ⟨fun Y => L.matFn Y, fun Y => L.forward_mat hwf Y, fun loss D g hD hg => ⟨?_, hpar' (fun Y => L.matFn Y) (L.forward_mat hwf X) loss D g hD hg⟩⟩
    obtain ⟨D', h1, h2⟩ := inputGrad_within L hwf X Set.univ (fun b o i => (entry_deriv X b i (L.linkFn_hasDerivAt hwf.seg_pos hl hp o i (hs b i))).hasFDerivWithinAt) loss D hD hg.2
    exact ⟨D', hasFDerivWithinAt_univ.1 h1, rfl, h2⟩
  | fn L =>
    obtain ⟨hf, rfl, rfl⟩ := h
    exact ⟨fun Y => L.matFn Y, fun Y => L.forward_mat hf Y, fun loss D g hD hg => ⟨L.input_deriv hf X hs loss D hD hg, hpar' (fun Y => L.matFn Y) (L.forward_mat hf X) loss D g hD hg⟩⟩
  | product L =>
    obtain ⟨hf, rfl, rfl⟩ := h
    obtain ⟨bias, hb, hbs, hbw⟩ := hf.bias
    exact ⟨fun Y b o => L.matFn Y b o + bias.get [(o : ℕ)], fun Y => L.forward_mat hb hf.w_shape Y, fun loss D g hD hg => ⟨L.input_deriv hf bias X hs loss D hD hg,
      hpar' (fun Y b o => L.matFn Y b o + bias.get [(o : ℕ)]) (L.forward_mat hb hf.w_shape X) loss D g hD hg⟩⟩
  | linear w b =>
    obtain ⟨hws, hww, hbs, hbw⟩ := h
    exact ⟨fun Y => linearFn w b O Y, fun Y => linear_mat hws Y, fun loss D g hD hg => ⟨linear_input_deriv hws X loss D hD hg,
      hpar' (fun Y => linearFn w b O Y) (linear_mat hws X) loss D g hD hg⟩⟩
  | relu =>
    obtain rfl : I = O := h
    exact ⟨fun Y => reluFn Y, fun Y => congrArg Except.ok (relu_mat Y), fun loss D g hD hg => ⟨relu_input_deriv X hs loss D hD hg,
      hpar' (fun Y => reluFn Y) (congrArg Except.ok (relu_mat X)) loss D g hD hg⟩⟩

/-- A quadratic layer of two inputs, periodic with period 2: all inputs but the odd numbers are smooth points, and at these the gradient by the second input is the derivative. -/
noncomputable def exQuad : FnLayer ℝ :=
  { poly := lagrangePolyFlat 3 2, inFeatures := 2, outFeatures := 1, periodicity := some 2, w := Tensor.tab3 1 2 3 fun _ i p => (i : ℝ) + p }

theorem exQuad_fits : (GLayer.fn exQuad).Fits 2 1 :=
  ⟨⟨rfl, by show 0 < 3; norm_num, rfl, Tensor.wf_tabulate _ _, fun q hq => by cases hq; norm_num⟩, rfl, rfl⟩

example (X : Fin 4 → Fin 2 → ℝ) (hX : ∀ b i, ∀ k : ℤ, X b i ≠ 1 + k * 2) :
    ∃ F : (Fin 4 → Fin 2 → ℝ) → Fin 4 → Fin 1 → ℝ, (∀ Y, exQuad.forward (ofMat Y) = .ok (ofMat (F Y))) ∧ DifferentiableAt ℝ (fun Y => F Y 3 0) X := by
  obtain ⟨F, h1, h2⟩ := C92_layer_gradients _ exQuad_fits X fun b i q hq k => by
    cases hq
    rw [show (2 : ℝ) / 2 = 1 by norm_num]
    exact hX b i k
  set D : (Fin 4 → Fin 1 → ℝ) →L[ℝ] ℝ := (ContinuousLinearMap.proj 0).comp (ContinuousLinearMap.proj (R := ℝ) (φ := fun _ : Fin 4 => Fin 1 → ℝ) 3) with hD
  obtain ⟨⟨D', h3, -⟩, -⟩ := h2 D D (ofMat fun b o => D (Pi.single b (Pi.single o 1))) D.hasFDerivAt ⟨rfl, fun b o => ofMat_get _ b o⟩
  exact ⟨F, h1, h3.differentiableAt⟩

/-! ## sequential networks -/

/-- Sequences of layers with matching widths. -/
def NetFits : List (GLayer ℝ) → ℕ → ℕ → Prop
  | [], I, O => I = O
  | l :: ls, I, O => ∃ M, l.Fits I M ∧ NetFits ls M O

/-- All intermediate values of the forward pass on `x` are smooth points of the layers that read them. -/
def SmoothNet : List (GLayer ℝ) → Tensor ℝ → Prop
  | [], _ => True
  | l :: ls, x => (∀ idx, InShape x.shape idx → l.SmoothAt (x.get idx)) ∧ ∀ y, l.forward x = .ok y → SmoothNet ls y

/-- `nn.Sequential.forward` of the layers. -/
def netForward {K : Type} [TorchScalar K] (ls : List (GLayer K)) : Fwd K := seqForward (ls.map GLayer.forward)

theorem netForward_cons {K : Type} [TorchScalar K] {l : GLayer K} {ls : List (GLayer K)} {x y : Tensor K} (h : l.forward x = .ok y) :
    netForward (l :: ls) x = netForward ls y := by
  show (l.forward x >>= seqForward (ls.map GLayer.forward)) = _
  rw [h]
  rfl

/-- **C93 (networks).** For sequential networks of any depth of piecewise, polynomial, Fourier, product and linear layers and `relu`, with any parameters, any batch on which all intermediate values are
smooth points of the layers reading them, and any differentiable loss of the output with gradient `g`: the backward pass is total and gives the derivative of the loss by the input, and for every
parameter of every layer a gradient of the same shape whose entries are the derivatives of the loss of the whole network by the entries of the parameter. -/
theorem C93_backpropagation (ls : List (GLayer ℝ)) {I O : ℕ} (h : NetFits ls I O) {B : ℕ} (X : Fin B → Fin I → ℝ) (hs : SmoothNet ls (ofMat X)) :
    ∃ F : (Fin B → Fin I → ℝ) → Fin B → Fin O → ℝ, (∀ Y, netForward ls (ofMat Y) = .ok (ofMat (F Y))) ∧
      ∀ (loss : (Fin B → Fin O → ℝ) → ℝ) (D : (Fin B → Fin O → ℝ) →L[ℝ] ℝ) (g : Tensor ℝ), HasFDerivAt loss D (F X) → GradOf D g →
        ∃ gx gps, backward ls (ofMat X) g = .ok (gx, gps) ∧
          (∃ D' : (Fin B → Fin I → ℝ) →L[ℝ] ℝ, HasFDerivAt (fun Y => loss (F Y)) D' X ∧ GradOf D' gx) ∧
          ∀ k l j p idx, ls[k]? = some l → l.params[j]? = some p → InShape p.shape idx →
            ∃ (gs : List (Tensor ℝ)) (gp : Tensor ℝ) (P : ℝ → Fin B → Fin O → ℝ), gps[k]? = some gs ∧ gs[j]? = some gp ∧ gp.shape = p.shape ∧
              (∀ t, netForward (ls.set k (l.setParam j (p.set idx t))) (ofMat X) = .ok (ofMat (P t))) ∧
              HasDerivAt (fun t => loss (P t)) (gp.get idx) (p.get idx) := by
  induction ls generalizing I with
  | nil =>
    obtain rfl : I = O := h
    refine ⟨fun Y => Y, fun Y => rfl, fun loss D g hD hg => ⟨g, [], rfl, ⟨D, hD, hg⟩, ?_⟩⟩
    intro k l j p idx hk
    simp at hk
  | cons l ls ih =>
    obtain ⟨M, h1, h2⟩ := h
    obtain ⟨F1, hF1, hB1⟩ := C92_layer_gradients l h1 X fun b i => by
      have := hs.1 [(b : ℕ), (i : ℕ)] (inShape2.2 ⟨b.2, i.2⟩)
      rwa [ofMat_get] at this
    obtain ⟨F2, hF2, hB2⟩ := ih h2 (F1 X) (hs.2 _ (hF1 X))
    refine ⟨fun Y => F2 (F1 Y), fun Y => (netForward_cons (hF1 Y)).trans (hF2 _), fun loss D g hD hg => ?_⟩
    obtain ⟨gy, gps, e1, ⟨D2, hD2, hg2⟩, hp2⟩ := hB2 loss D g hD hg
    obtain ⟨⟨D1, hD1, hg1⟩, hp1⟩ := hB1 (fun Z => loss (F2 Z)) D2 gy hD2 hg2
    refine ⟨l.inputGrad (ofMat X) gy, l.paramGrads (ofMat X) gy :: gps, ?_, ⟨D1, hD1, hg1⟩, ?_⟩
    · unfold backward
      rw [hF1 X]
      show (backward ls (ofMat (F1 X)) g >>= _) = _
      rw [e1]
      rfl
    · intro k l' j p idx hk hj hin
      match k with
      | 0 =>
        obtain rfl := Option.some.inj hk
        obtain ⟨gp, P, a, b, c, d⟩ := hp1 j p idx hj hin
        exact ⟨_, gp, fun t => F2 (P t), rfl, a, b, fun t => (netForward_cons (c t)).trans (hF2 _), d⟩
      | k + 1 =>
        obtain ⟨gs, gp, P, a, b, c, d, e⟩ := hp2 k l' j p idx hk hj hin
        exact ⟨gs, gp, P, a, b, c, fun t => (netForward_cons (hF1 X)).trans (d t), e⟩

end HOL
