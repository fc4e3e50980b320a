import Verif.Spec.SignTraining
import Verif.Lemmas.SignLayers
import Verif.Lemmas.RenumberGradients

/-! # Lemmas for C136: gradients of layers with changed signs -/

namespace HOL
open TorchScalar Spec

theorem sg_cancel (b : Bool) (u v : ℝ) : sg b * u * (sg b * v) = u * v := by
  calc _ = sg b * sg b * (u * v) := by ring
    _ = _ := by rw [sg_mul_self, one_mul]

/-! ## the functions of the bases -/

/-- Place of the number of a link that is read for the other sign of the input. -/
def mir (f : BasisFn ℝ) (b : Bool) (n p : ℕ) : ℕ := match f with
  | .fourier _ => p
  | _ => inverted b n p

/-- Does the number change its sign with the input? -/
def par (f : BasisFn ℝ) (b : Bool) (p : ℕ) : Bool := match f with
  | .fourier _ => b && (p % 2 == 1)
  | _ => false

theorem mir_lt (f : BasisFn ℝ) {b : Bool} {n p : ℕ} (hp : p < n) : mir f b n p < n := by
  unfold mir
  split
  · exact hp
  · exact inverted_lt hp

theorem signCoeffs_get (f : BasisFn ℝ) {σ ρ : ℕ → Bool} {w : Tensor ℝ} {O I S : ℕ} (hw : w.shape = [O, I, S]) {o i r : ℕ} (ho : o < O) (hi : i < I) (hr : r < S) :
    (signCoeffs f σ ρ w).get [o, i, r] = sg (ρ o) * (sg (par f (σ i) r) * w.get [o, i, mir f (σ i) S r]) := by
  cases f with
  | fourier c => exact signSeries_get hw ho hi hr
  | lagrange1 => exact (signLinks_get hw ho hi hr).trans (congrArg (sg (ρ o) * ·) (one_mul _).symm)
  | lagrange b => exact (signLinks_get hw ho hi hr).trans (congrArg (sg (ρ o) * ·) (one_mul _).symm)

theorem signCoeffs_shape (f : BasisFn ℝ) (σ ρ : ℕ → Bool) (w : Tensor ℝ) : (signCoeffs f σ ρ w).shape = w.shape := by cases f <;> rfl
theorem signCoeffs_wf (f : BasisFn ℝ) (σ ρ : ℕ → Bool) (w : Tensor ℝ) : (signCoeffs f σ ρ w).WF := by cases f <;> exact Tensor.wf_tabulate _ _

/-- Bases whose functions are those of the other sign of the input up to their order and signs. -/
def Even (f : BasisFn ℝ) (n : ℕ) : Prop := ∃ len : ℝ, f = getLagrangeBasis n len ∨ f = .fourier len

theorem Even.call {f : BasisFn ℝ} {n : ℕ} (h : Even f n) (b : Bool) (x : ℝ) {p : ℕ} (hp : p < n) : f.call (sg b * x) p = sg (par f b p) * f.call x (mir f b n p) := by
  obtain ⟨len, rfl | rfl⟩ := h
  · have e1 : par (getLagrangeBasis n len) b p = false := by
      unfold getLagrangeBasis; split <;> rfl
    have e2 : mir (getLagrangeBasis n len) b n p = inverted b n p := by
      unfold getLagrangeBasis; split <;> rfl
    rw [e1, e2, sg_false, one_mul]
    cases b with
    | false => rw [sg_false, one_mul]; rfl
    | true =>
      rw [sg_true, neg_one_mul]
      have := basis_reflect (n := n) (p := n - 1 - p) (by omega) len x
      rw [show n - 1 - (n - 1 - p) = p by omega] at this
      exact this
  · show fourierCall len (sg b * x) p = sg (b && (p % 2 == 1)) * fourierCall len x p
    cases b with
    | false => rw [sg_false, one_mul, Bool.false_and, sg_false, one_mul]
    | true => rw [sg_true, neg_one_mul, fourier_reflect, Bool.true_and]

theorem Even.dcall {f : BasisFn ℝ} {n : ℕ} (h : Even f n) (b : Bool) (x : ℝ) {p : ℕ} (hp : p < n) : f.dcall (sg b * x) p = sg b * (sg (par f b p) * f.dcall x (mir f b n p)) := by
  have h1 : HasDerivAt (fun x => f.call (sg b * x) p) (f.dcall (sg b * x) p * (sg b * 1)) x := (basis_dcall f (sg b * x) p).comp x ((hasDerivAt_id x).const_mul (sg b))
  have h2 : HasDerivAt (fun x => f.call (sg b * x) p) (sg (par f b p) * f.dcall x (mir f b n p)) x := by
    rw [funext fun x => h.call b x hp]
    exact (basis_dcall f x _).const_mul _
  rw [← h1.unique h2]
  calc _ = sg b * sg b * f.dcall (sg b * x) p := by rw [sg_mul_self, one_mul]
    _ = _ := by ring

/-- Sums over all numbers of a link. -/
theorem Even.sum (f : BasisFn ℝ) (n : ℕ) (b : Bool) (F : ℕ → ℝ) : ∑ p ∈ Finset.range n, F (mir f b n p) = ∑ p ∈ Finset.range n, F p := by
  have inv : ∑ p ∈ Finset.range n, F (inverted b n p) = ∑ p ∈ Finset.range n, F p := by
    cases b with
    | false => rfl
    | true => exact Finset.sum_range_reflect F n
  cases f with
  | fourier c => rfl
  | lagrange1 => exact inv
  | lagrange b => exact inv

/-! ## equality of tensors -/

theorem signed_ext {σ : ℕ → Bool} {s t : Tensor ℝ} {B I : ℕ} (hs : s.shape = [B, I]) (hw : s.WF) (ht : t.shape = [B, I]) (h : ∀ b < B, ∀ i < I, s.get [b, i] = sg (σ i) * t.get [b, i]) : s = signed σ t := by
  refine Tensor.ext_get hw (signed_wf _ _) (hs.trans ht.symm) fun idx hin => ?_
  rw [hs] at hin
  obtain ⟨b, i, rfl, hb, hi⟩ := inShape2_exists hin
  rw [h b hb i hi, signed_get ht hb hi]

theorem coeffs_ext (f : BasisFn ℝ) {σ ρ : ℕ → Bool} {s t : Tensor ℝ} {O I S : ℕ} (hs : s.shape = [O, I, S]) (hw : s.WF) (ht : t.shape = [O, I, S])
    (h : ∀ o < O, ∀ i < I, ∀ r < S, s.get [o, i, r] = sg (ρ o) * (sg (par f (σ i) r) * t.get [o, i, mir f (σ i) S r])) : s = signCoeffs f σ ρ t := by
  refine Tensor.ext_get hw (signCoeffs_wf _ _ _ _) (hs.trans (ht.symm.trans (signCoeffs_shape _ _ _ _).symm)) fun idx hin => ?_
  rw [hs] at hin
  obtain ⟨o, i, r, rfl, ho, hi, hr⟩ := inShape3_exists hin
  rw [h o ho i hi r hr, signCoeffs_get f ht ho hi hr]

theorem matrix_ext {σ ρ : ℕ → Bool} {s t : Tensor ℝ} {O I : ℕ} (hs : s.shape = [O, I]) (hw : s.WF) (ht : t.shape = [O, I]) (h : ∀ o < O, ∀ i < I, s.get [o, i] = sg (ρ o) * (sg (σ i) * t.get [o, i])) :
    s = signMatrix σ ρ t := by
  refine Tensor.ext_get hw (Tensor.wf_tabulate _ _) (hs.trans ht.symm) fun idx hin => ?_
  rw [hs] at hin
  obtain ⟨o, i, rfl, ho, hi⟩ := inShape2_exists hin
  rw [h o ho i hi, signMatrix_get ht ho hi]

/-! ## layers -/

/-- The gradients of the parameters of the layer with changed signs are those of the parameters with changed signs. -/
structure ParamsAnswer (l : GLayer ℝ) (σ ρ : ℕ → Bool) (x g : Tensor ℝ) : Prop where
  shape : (l.paramGrads x g).map Tensor.shape = l.params.map Tensor.shape
  eq : (l.sign σ ρ).paramGrads (signed σ x) (signed ρ g) = (l.paramGrads x g).mapIdx (l.signParam σ ρ)

/-- So is the gradient of the inputs. -/
structure InputAnswers (l : GLayer ℝ) (σ ρ : ℕ → Bool) (B I : ℕ) (x g : Tensor ℝ) : Prop where
  shape : (l.inputGrad x g).shape = [B, I]
  eq : (l.sign σ ρ).inputGrad (signed σ x) (signed ρ g) = signed σ (l.inputGrad x g)

theorem biasGrad_answers {ρ : ℕ → Bool} {B O : ℕ} {g : Tensor ℝ} (hg : g.shape = [B, O]) : (biasGrad g).shape = [O] ∧ biasGrad (signed ρ g) = signOut ρ (biasGrad g) := by
  have e : ∀ g : Tensor ℝ, g.shape = [B, O] → biasGrad g = Tensor.tab1 O fun o => sumL ((List.range B).map fun b => g.get [b, o]) := by
    intro g hg
    unfold biasGrad
    rw [hg]
  refine ⟨by rw [e g hg]; rfl, ?_⟩
  rw [e g hg, e (signed ρ g) hg]
  refine Tensor.ext_get (Tensor.wf_tabulate _ _) (Tensor.wf_tabulate _ _) rfl fun idx hin => ?_
  obtain ⟨o, rfl, ho⟩ := inShape1_exists (n := O) hin
  rw [signOut_get (O := O) rfl ho, Tensor.get_tab1 ho, Tensor.get_tab1 ho, sumL_range, sumL_range, Finset.mul_sum]
  exact Finset.sum_congr rfl fun b hb => signed_get hg (Finset.mem_range.1 hb) ho

theorem sign_fn (L : FnLayer ℝ) (σ ρ : ℕ → Bool) : GLayer.sign σ ρ (.fn L) = .fn { L with w := signCoeffs L.poly.basis σ ρ L.w } := by
  unfold GLayer.sign signCoeffs
  dsimp only
  cases L.poly.basis <;> rfl

theorem fn_params {L : FnLayer ℝ} (h : L.Fits) (hb : Even L.poly.basis L.poly.n) (σ ρ : ℕ → Bool) {B : ℕ} {x g : Tensor ℝ} (hx : x.shape = [B, L.inFeatures]) (hg : g.shape = [B, L.outFeatures]) : ParamsAnswer (.fn L) σ ρ x g := by
  have ew : ∀ (w y u : Tensor ℝ), y.shape = [B, L.inFeatures] → ({ L with w := w } : FnLayer ℝ).weightGrad y u = Tensor.tab3 L.outFeatures L.inFeatures L.poly.n fun o i p =>
      sumL ((List.range B).map fun b => u.get [b, o] * L.poly.basis.call (periodize L.periodicity (y.get [b, i])) p) := by
    intro w y u hy
    unfold FnLayer.weightGrad
    rw [hy]
  have ew' : L.weightGrad x g = _ := ew L.w x g hx
  have hw : ({ L with w := signCoeffs L.poly.basis σ ρ L.w } : FnLayer ℝ).weightGrad (signed σ x) (signed ρ g) = signCoeffs L.poly.basis σ ρ (L.weightGrad x g) := by
    rw [ew _ (signed σ x) (signed ρ g) hx, ew']
    refine coeffs_ext L.poly.basis rfl (Tensor.wf_tabulate _ _) rfl fun o ho i hi p hp => ?_
    rw [Tensor.get_tab3 ho hi hp, Tensor.get_tab3 ho hi (mir_lt _ hp), sumL_range, sumL_range, Finset.mul_sum, Finset.mul_sum]
    refine Finset.sum_congr rfl fun b hbB => ?_
    have hbB := Finset.mem_range.1 hbB
    rw [signed_get hg hbB ho, signed_get hx hbB hi, periodize_sg h.per, hb.call _ _ hp]
    ring
  have hs : [(L.weightGrad x g).shape] = [L.w.shape] := by rw [ew', h.w_shape]; rfl
  refine ⟨hs, ?_⟩
  rw [sign_fn]; exact congrArg (fun t => [t]) hw

theorem fn_input {L : FnLayer ℝ} (h : L.Fits) (hb : Even L.poly.basis L.poly.n) (hper : L.periodicity = none) (σ ρ : ℕ → Bool) {B : ℕ} {x g : Tensor ℝ} (hx : x.shape = [B, L.inFeatures])
    (hg : g.shape = [B, L.outFeatures]) : InputAnswers (.fn L) σ ρ B L.inFeatures x g := by
  have ei : ∀ (w y u : Tensor ℝ), y.shape = [B, L.inFeatures] → ({ L with w := w } : FnLayer ℝ).inputGrad y u = Tensor.tab2 B L.inFeatures fun b i =>
      sumL ((List.range L.outFeatures).map fun o => u.get [b, o] * sumL ((List.range L.poly.n).map fun p => L.poly.basis.dcall (y.get [b, i]) p * w.get [o, i, p])) * 1 := by
    intro w y u hy
    unfold FnLayer.inputGrad
    simp only [hy, hper]
    rfl
  have ei' : L.inputGrad x g = _ := ei L.w x g hx
  have hi : ({ L with w := signCoeffs L.poly.basis σ ρ L.w } : FnLayer ℝ).inputGrad (signed σ x) (signed ρ g) = signed σ (L.inputGrad x g) := by
    rw [ei _ (signed σ x) (signed ρ g) hx, ei', signed_tab2]
    refine tab2_congr fun b hbB i hi => ?_
    rw [mul_one, mul_one, signed_get hx hbB hi, sumL_range, sumL_range, Finset.mul_sum]
    refine Finset.sum_congr rfl fun o ho => ?_
    have ho := Finset.mem_range.1 ho
    rw [signed_get hg hbB ho, sumL_range, sumL_range, ← Even.sum L.poly.basis L.poly.n (σ i) fun p => L.poly.basis.dcall (x.get [b, i]) p * L.w.get [o, i, p]]
    have e : ∀ p ∈ Finset.range L.poly.n, L.poly.basis.dcall (sg (σ i) * x.get [b, i]) p * (signCoeffs L.poly.basis σ ρ L.w).get [o, i, p] =
        sg (ρ o) * (sg (σ i) * (L.poly.basis.dcall (x.get [b, i]) (mir L.poly.basis (σ i) L.poly.n p) * L.w.get [o, i, mir L.poly.basis (σ i) L.poly.n p])) := by
      intro p hp
      have hp := Finset.mem_range.1 hp
      rw [hb.dcall _ _ hp, signCoeffs_get _ h.w_shape ho hi hp]
      calc _ = sg (ρ o) * (sg (σ i) * (sg (par L.poly.basis (σ i) p) * L.poly.basis.dcall (x.get [b, i]) (mir L.poly.basis (σ i) L.poly.n p) *
            (sg (par L.poly.basis (σ i) p) * L.w.get [o, i, mir L.poly.basis (σ i) L.poly.n p]))) := by ring
        _ = _ := by rw [sg_cancel]
    rw [Finset.sum_congr rfl e, ← Finset.mul_sum, ← Finset.mul_sum, sg_cancel]
    ring
  refine ⟨by show (L.inputGrad x g).shape = _; rw [ei']; rfl, ?_⟩
  rw [sign_fn]; exact hi

theorem linear_answer {w c : Tensor ℝ} {I O : ℕ} (hw : w.shape = [O, I]) (hc : c.shape = [O]) (σ ρ : ℕ → Bool) {B : ℕ} {x g : Tensor ℝ} (hx : x.shape = [B, I])
    (hg : g.shape = [B, O]) : ParamsAnswer (.linear w c) σ ρ x g ∧ InputAnswers (.linear w c) σ ρ B I x g := by
  have ei : ∀ (v y u : Tensor ℝ), v.shape = [O, I] → y.shape = [B, I] → linearInputGrad v y u = Tensor.tab2 B I fun b q => sumL ((List.range O).map fun r => u.get [b, r] * v.get [r, q]) := by
    intro v y u hv hy
    unfold linearInputGrad
    rw [hy, hv]
  have ew : ∀ (v y u : Tensor ℝ), v.shape = [O, I] → y.shape = [B, I] → linearWeightGrad v y u = Tensor.tab2 O I fun r q => sumL ((List.range B).map fun b => u.get [b, r] * y.get [b, q]) := by
    intro v y u hv hy
    unfold linearWeightGrad
    rw [hy, hv]
  have ei' := ei w x g hw hx
  have ew' := ew w x g hw hx
  obtain ⟨b1, b2⟩ := biasGrad_answers (ρ := ρ) hg
  refine ⟨⟨?_, ?_⟩, congrArg Tensor.shape ei', ?_⟩
  rotate_right
  · show linearInputGrad (signMatrix σ ρ w) (signed σ x) (signed ρ g) = signed σ (linearInputGrad w x g)
    rw [ei (signMatrix σ ρ w) (signed σ x) (signed ρ g) hw hx, ei', signed_tab2]
    refine tab2_congr fun b hb i hi => ?_
    rw [sumL_range, sumL_range, Finset.mul_sum]
    refine Finset.sum_congr rfl fun o ho => ?_
    have ho := Finset.mem_range.1 ho
    rw [signed_get hg hb ho, signMatrix_get hw ho hi, sg_cancel]
    ring
  · show [(linearWeightGrad w x g).shape, (biasGrad g).shape] = [w.shape, c.shape]
    rw [ew', b1, hw, hc]
    rfl
  · show [linearWeightGrad (signMatrix σ ρ w) (signed σ x) (signed ρ g), biasGrad (signed ρ g)] = [signMatrix σ ρ (linearWeightGrad w x g), signOut ρ (biasGrad g)]
    rw [b2]
    refine congrArg (fun t => [t, signOut ρ (biasGrad g)]) ?_
    rw [ew (signMatrix σ ρ w) (signed σ x) (signed ρ g) hw hx, ew']
    refine matrix_ext rfl (Tensor.wf_tabulate _ _) rfl fun o ho i hi => ?_
    rw [Tensor.get_tab2 ho hi, Tensor.get_tab2 ho hi, sumL_range, sumL_range, Finset.mul_sum, Finset.mul_sum]
    refine Finset.sum_congr rfl fun b hb => ?_
    have hb := Finset.mem_range.1 hb
    rw [signed_get hg hb ho, signed_get hx hb hi]
    ring

theorem product_params {L : ProductLayer ℝ} (h : L.Fits) (σ : ℕ → Bool) {ρ : ℕ → Bool} (hρ : ρ = fun _ => false) {B : ℕ} {x g : Tensor ℝ} (hx : x.shape = [B, L.inFeatures]) (hg : g.shape = [B, L.outFeatures]) :
    ParamsAnswer (.product L) σ ρ x g ∧ (L.periodicity = none → InputAnswers (.product L) σ ρ B L.inFeatures x g) := by
  obtain ⟨bias, hb0, hbs, hbw⟩ := h.bias
  have ei : ∀ (M : ProductLayer ℝ) (y u : Tensor ℝ), y.shape = [B, L.inFeatures] → M.inputGrad y u = Tensor.tab2 B L.inFeatures fun b i =>
      sumL ((List.range M.outFeatures).map fun o => u.get [b, o] * M.termGrad (fun b i => periodize M.periodicity (y.get [b, i])) b o i * M.weight.get [o, i]) * periodizeGrad M.periodicity (y.get [b, i]) := by
    intro M y u hy
    unfold ProductLayer.inputGrad
    rw [hy]
  have ew : ∀ (M : ProductLayer ℝ) (y u : Tensor ℝ), y.shape = [B, L.inFeatures] → M.weightGrad y u = Tensor.tab2 M.outFeatures M.inFeatures fun o i =>
      sumL ((List.range B).map fun b => u.get [b, o] * M.termGrad (fun b i => periodize M.periodicity (y.get [b, i])) b o i * periodize M.periodicity (y.get [b, i])) := by
    intro M y u hy
    unfold ProductLayer.weightGrad
    rw [hy]
  have ei' := ei L x g hx
  have ew' := ew L x g hx
  obtain ⟨b1, b2⟩ := biasGrad_answers (ρ := ρ) hg
  have hone : ∀ o, sg (ρ o) = 1 := fun o => by rw [hρ]; rfl
  have ht : ∀ {b : ℕ}, b < B → ∀ {o : ℕ}, o < L.outFeatures → ∀ {i : ℕ}, i < L.inFeatures →
      ({ L with weight := signMatrix σ ρ L.weight, bias := L.bias.map (signOut ρ) } : ProductLayer ℝ).termGrad (fun b i => periodize L.periodicity ((signed σ x).get [b, i])) b o i =
        L.termGrad (fun b i => periodize L.periodicity (x.get [b, i])) b o i := by
    intro b hb o ho i hi
    unfold ProductLayer.termGrad
    refine congrArg (· - (1 - L.alpha)) ?_
    refine prod_filter_congr fun j hj => ?_
    show periodize L.periodicity ((signed σ x).get [b, j]) * (signMatrix σ ρ L.weight).get [o, j] + 1 = _
    rw [signed_get hx hb hj, signMatrix_get h.w_shape ho hj, hone, one_mul, periodize_sg h.per, sg_cancel]
  have hs : [(L.weightGrad x g).shape, (biasGrad g).shape] = [L.weight.shape, (L.bias.getD (Tensor.tab1 0 fun _ => 0)).shape] := by
    rw [ew', b1, h.w_shape, hb0, Option.getD_some, hbs]
    rfl
  have hw : ({ L with weight := signMatrix σ ρ L.weight, bias := L.bias.map (signOut ρ) } : ProductLayer ℝ).weightGrad (signed σ x) (signed ρ g) = signMatrix σ ρ (L.weightGrad x g) := by
    rw [ew { L with weight := signMatrix σ ρ L.weight, bias := L.bias.map (signOut ρ) } (signed σ x) (signed ρ g) hx, ew']
    refine matrix_ext rfl (Tensor.wf_tabulate _ _) rfl fun o ho i hi => ?_
    rw [Tensor.get_tab2 ho hi, Tensor.get_tab2 ho hi, sumL_range, sumL_range, Finset.mul_sum, Finset.mul_sum]
    refine Finset.sum_congr rfl fun b hb => ?_
    have hb := Finset.mem_range.1 hb
    rw [signed_get hg hb ho, ht hb ho hi, signed_get hx hb hi, hone, periodize_sg h.per]
    ring
  refine ⟨⟨hs, congrArg₂ (fun t u => [t, u]) hw b2⟩, fun hper => ⟨by show (L.inputGrad x g).shape = _; rw [ei']; rfl, ?_⟩⟩
  show ({ L with weight := signMatrix σ ρ L.weight, bias := L.bias.map (signOut ρ) } : ProductLayer ℝ).inputGrad (signed σ x) (signed ρ g) = signed σ (L.inputGrad x g)
  rw [ei { L with weight := signMatrix σ ρ L.weight, bias := L.bias.map (signOut ρ) } (signed σ x) (signed ρ g) hx, ei', signed_tab2]
  have hp1 : ∀ v, periodizeGrad L.periodicity v = 1 := fun v => by rw [hper]; rfl
  refine tab2_congr fun b hb i hi => ?_
  rw [hp1, hp1, mul_one, mul_one, sumL_range, sumL_range, Finset.mul_sum]
  refine Finset.sum_congr rfl fun o ho => ?_
  have ho := Finset.mem_range.1 ho
  rw [signed_get hg hb ho, ht hb ho hi, signMatrix_get h.w_shape ho hi, hone]
  ring

/-- The link whose numbers are 0 except one. -/
theorem unit_link {L : PwLayer ℝ} (h : L.WF) {o i q : ℕ} (ho : o < L.outFeatures) (hi : i < L.inFeatures) (v : ℝ) :
    ({ L with w := Tensor.tab3 L.outFeatures L.inFeatures (PwLayer.wSize L.cls L.n L.segments) fun _ _ r => if r = q then 1 else 0 } : PwLayer ℝ).linkFn o i v =
      ∑ k ∈ Finset.range L.n, if L.seg v * L.stride + k = q then (getLagrangeBasis L.n ((2 : ℕ) : ℝ)).call (L.xIn v) k else 0 := by
  show (linkPoly L.n fun k => (Tensor.tab3 L.outFeatures L.inFeatures (PwLayer.wSize L.cls L.n L.segments) fun _ _ r => if r = q then (1 : ℝ) else 0).get [o, i, L.seg v * L.stride + k]).eval (L.xIn v) = _
  rw [← sum_basis_call_two]
  refine Finset.sum_congr rfl fun k hk => ?_
  rw [Tensor.get_tab3 ho hi (L.widx_lt h.n_pos (L.seg_lt h.seg_pos _) (Finset.mem_range.1 hk)), mul_ite, mul_one, mul_zero]

theorem inverted_inj {b : Bool} {n r q : ℕ} (hr : r < n) (hq : q < n) : inverted b n r = q ↔ r = inverted b n q := by
  unfold inverted
  cases b
  · exact Iff.rfl
  · simp only [if_true]; omega

/-- How much a number of a link counts at `-x`, is how much the number at the opposite place counts at `x`. -/
theorem place_sign {L : PwLayer ℝ} (h : L.WF) (hl : L.length = 2) (hp : ∀ p, L.periodicity = some p → 0 < p) (hc : L.cls.shared = true) (b : Bool) {q : ℕ} (hq : q < PwLayer.wSize L.cls L.n L.segments) (v : ℝ) :
    (∑ k ∈ Finset.range L.n, if L.seg (sg b * v) * L.stride + k = q then (getLagrangeBasis L.n ((2 : ℕ) : ℝ)).call (L.xIn (sg b * v)) k else 0) =
      ∑ k ∈ Finset.range L.n, if L.seg v * L.stride + k = inverted b (PwLayer.wSize L.cls L.n L.segments) q then (getLagrangeBasis L.n ((2 : ℕ) : ℝ)).call (L.xIn v) k else 0 := by
  rw [← unit_link (o := 0) (i := 0) h h.out_pos h.in_pos, ← unit_link (o := 0) (i := 0) h h.out_pos h.in_pos]
  have h' : ({ L with w := Tensor.tab3 L.outFeatures L.inFeatures (PwLayer.wSize L.cls L.n L.segments) fun _ _ r => if r = inverted b (PwLayer.wSize L.cls L.n L.segments) q then 1 else 0 } : PwLayer ℝ).WF :=
    h.withW h.w_shape.symm (Tensor.wf_tabulate _ _)
  have e := linkFn_sign h' hl hp (σ := fun _ => b) (ρ := fun _ => false) (o := 0) (i := 0) h.out_pos h.in_pos v (Or.inl hc)
  rw [sg_false, one_mul] at e
  refine Eq.trans ?_ e
  refine congrArg (fun w => ({ L with w := w } : PwLayer ℝ).linkFn 0 0 (sg b * v)) ?_
  refine Tensor.ext_get (Tensor.wf_tabulate _ _) (signLinks_wf _ _ _) rfl fun idx hin => ?_
  obtain ⟨o, i, r, rfl, ho, hi, hr⟩ := inShape3_exists hin
  rw [signLinks_get (O := L.outFeatures) (I := L.inFeatures) (S := PwLayer.wSize L.cls L.n L.segments) rfl ho hi hr, Tensor.get_tab3 ho hi hr, Tensor.get_tab3 ho hi (inverted_lt hr), sg_false, one_mul]
  refine if_congr ?_ rfl rfl
  rw [inverted_inj hr (inverted_lt hq)]
  cases b
  · exact Iff.rfl
  · simp only [inverted, if_true]; omega

theorem pw_params {L : PwLayer ℝ} (h : L.WF) (hl : L.length = 2) (hp : ∀ p, L.periodicity = some p → 0 < p) (σ : ℕ → Bool) {ρ : ℕ → Bool} (hc : L.cls = .continuous ∨ L.cls = .continuousProd ∧ ρ = fun _ => false) {B : ℕ}
    {x g : Tensor ℝ} (hx : x.shape = [B, L.inFeatures]) (hwx : x.WF) (hg : g.shape = [B, L.outFeatures]) : ParamsAnswer (.pw L) σ ρ x g := by
  have hsh : L.cls.shared = true := by rcases hc with hc | ⟨hc, -⟩ <;> rw [hc] <;> rfl
  have h' : ({ L with w := signLinks σ ρ L.w } : PwLayer ℝ).WF := h.withW rfl (signLinks_wf _ _ _)
  have wshape : ∀ (M : PwLayer ℝ) (_ : M.WF) (y u : Tensor ℝ), y.shape = [B, M.inFeatures] → y.WF → (M.weightGrad y u).shape = M.w.shape ∧ (M.weightGrad y u).WF := by
    intro M hM y u hy hwy
    unfold PwLayer.weightGrad
    simp only [hy]
    exact M.gradW_shape hM hy hwy _
  have hfac : ∀ {b : ℕ}, b < B → ∀ {o : ℕ}, o < L.outFeatures → ∀ {i : ℕ}, i < L.inFeatures →
      ({ L with w := signLinks σ ρ L.w } : PwLayer ℝ).linkFactor (fun j => ({ L with w := signLinks σ ρ L.w } : PwLayer ℝ).linkFn o j ((signed σ x).get [b, j])) i =
        L.linkFactor (fun j => L.linkFn o j (x.get [b, j])) i := by
    intro b hb o ho i hi
    unfold PwLayer.linkFactor
    rcases hc with hc | ⟨hc, rfl⟩
    · have hn : ¬ (L.cls = .continuousProd ∨ L.cls = .discontinuousProd) := by rw [hc]; simp
      exact (if_neg hn).trans (if_neg hn).symm
    · refine (if_pos (Or.inl hc)).trans (Eq.trans ?_ (if_pos (Or.inl hc)).symm)
      refine prod_filter_congr fun j hj => congrArg (1 + ·) ?_
      beta_reduce
      rw [signed_get hx hb hj]
      exact (linkFn_sign h hl hp ho hj _ (Or.inl hsh)).trans (one_mul _)
  have hw : ({ L with w := signLinks σ ρ L.w } : PwLayer ℝ).weightGrad (signed σ x) (signed ρ g) = signLinks σ ρ (L.weightGrad x g) := by
    obtain ⟨a1, a2⟩ := wshape L h x g hx hwx
    obtain ⟨b1, b2⟩ := wshape _ h' (signed σ x) (signed ρ g) hx (signed_wf _ _)
    refine coeffs_ext .lagrange1 (b1.trans h.w_shape) b2 (a1.trans h.w_shape) fun o ho i hi q hq => ?_
    refine (weightGrad_get _ h' (x := signed σ x) hx (signed_wf _ _) (signed ρ g) ho hi hq).trans ?_
    show _ = sg (ρ o) * (sg false * (L.weightGrad x g).get [o, i, inverted (σ i) _ q])
    rw [weightGrad_get L h hx hwx g ho hi (inverted_lt hq), sg_false, one_mul, Finset.mul_sum]
    refine Finset.sum_congr rfl fun b hb => ?_
    have hb := Finset.mem_range.1 hb
    rw [hfac hb ho hi, signed_get hx hb hi, signed_get hg hb ho]
    refine Eq.trans (congrArg (fun t => t * L.linkFactor (fun j => L.linkFn o j (x.get [b, j])) i * (sg (ρ o) * g.get [b, o])) (place_sign h hl hp hsh (σ i) hq (x.get [b, i]))) ?_
    ring
  have hs : [(L.weightGrad x g).shape] = [L.w.shape] := by rw [(wshape L h x g hx hwx).1]
  exact ⟨hs, congrArg (fun t => [t]) hw⟩

/-- Parameters of all layers that take signs. -/
theorem layer_params {l : GLayer ℝ} {I O : ℕ} (hf : l.Fits I O) (σ : ℕ → Bool) {ρ : ℕ → Bool} (ht : l.TakesSigns ρ) {B : ℕ} {x g : Tensor ℝ} (hx : x.shape = [B, I]) (hwx : x.WF) (hg : g.shape = [B, O]) : ParamsAnswer l σ ρ x g := by
  cases l with
  | pw L =>
    obtain ⟨h, -, hp, rfl, rfl⟩ := hf
    exact pw_params h ht.1 hp σ ht.2 hx hwx hg
  | fn L =>
    obtain ⟨h, rfl, rfl⟩ := hf
    exact fn_params h ht σ ρ hx hg
  | product L =>
    obtain ⟨h, rfl, rfl⟩ := hf
    exact (product_params h σ ht hx hg).1
  | linear w b =>
    obtain ⟨h1, -, h2, -⟩ := hf
    exact (linear_answer h1 h2 σ ρ hx hg).1
  | relu => exact ht.elim

/-- Inputs of smooth layers. -/
theorem layer_input {l : GLayer ℝ} {I O : ℕ} (hf : l.Fits I O) (σ : ℕ → Bool) {ρ : ℕ → Bool} (ht : l.TakesSigns ρ) (hs : l.Smooth) {B : ℕ} {x g : Tensor ℝ} (hx : x.shape = [B, I]) (hg : g.shape = [B, O]) :
    InputAnswers l σ ρ B I x g := by
  cases l with
  | pw L => exact hs.elim
  | fn L =>
    obtain ⟨h, rfl, rfl⟩ := hf
    exact fn_input h ht hs σ ρ hx hg
  | product L =>
    obtain ⟨h, rfl, rfl⟩ := hf
    exact (product_params h σ ht hx hg).2 hs
  | linear w b =>
    obtain ⟨h1, -, h2, -⟩ := hf
    exact (linear_answer h1 h2 σ ρ hx hg).2
  | relu => exact hs.elim

end HOL
