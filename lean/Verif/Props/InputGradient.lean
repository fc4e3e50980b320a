import Verif.Lemmas.InputGradient
import Verif.Props.Gradient
import Verif.Props.Stability
import Verif.Props.Periodic
import Mathlib.Analysis.Calculus.FDeriv.Mul

/-! # C91: input gradients of piecewise layers -/

namespace HOL
open TorchScalar Spec Filter Topology

/-- The outputs of a layer as a function of the matrix of inputs. -/
noncomputable def PwLayer.matFn (L : PwLayer ℝ) {B : ℕ} (X : Fin B → Fin L.inFeatures → ℝ) : Fin B → Fin L.outFeatures → ℝ :=
  fun b o => L.cls.combine L.inFeatures fun j => L.linkFn o j ((ofMat X).get [(b : ℕ), j])

theorem PwLayer.forward_mat (L : PwLayer ℝ) (h : L.WF) {B : ℕ} (X : Fin B → Fin L.inFeatures → ℝ) : L.forward (ofMat X) = .ok (ofMat (L.matFn X)) := by
  rw [L.forward_combine h (B := B) rfl (ofMat_wf X)]
  unfold ofMat
  congr 1
  apply tab2_congr
  intro b hb o ho
  rw [dif_pos ⟨hb, ho⟩]
  rfl

theorem linkFactor_fin (L : PwLayer ℝ) (hc : L.cls = .continuousProd ∨ L.cls = .discontinuousProd) (f : ℕ → ℝ) (i : Fin L.inFeatures) :
    L.linkFactor f i = ∏ j ∈ Finset.univ.erase i, (1 + f (j : Fin L.inFeatures)) := by
  unfold PwLayer.linkFactor
  rw [if_pos hc, prodL_erase]
  symm
  apply Finset.prod_bij (fun (j : Fin L.inFeatures) _ => (j : ℕ))
  · intro j hj
    rw [Finset.mem_erase] at hj ⊢
    exact ⟨fun e => hj.1 (Fin.ext e), Finset.mem_range.2 j.2⟩
  · intro j _ j' _ e
    exact Fin.ext e
  · intro j hj
    rw [Finset.mem_erase, Finset.mem_range] at hj
    exact ⟨⟨j, hj.2⟩, Finset.mem_erase.2 ⟨fun e => hj.1 (by rw [← e]), Finset.mem_univ _⟩, rfl⟩
  · intro j _
    rfl

/-- The derivative of one output by all inputs. -/
theorem matFn_entry (L : PwLayer ℝ) {B : ℕ} (X : Fin B → Fin L.inFeatures → ℝ) (s : Set (Fin B → Fin L.inFeatures → ℝ)) (b : Fin B) (o : Fin L.outFeatures)
    (hl : ∀ i : Fin L.inFeatures, HasFDerivWithinAt (fun Y : Fin B → Fin L.inFeatures → ℝ => L.linkFn o i (Y b i))
      (L.linkSlope o i (X b i) • (ContinuousLinearMap.proj i).comp (ContinuousLinearMap.proj (R := ℝ) (φ := fun _ : Fin B => Fin L.inFeatures → ℝ) b)) s X) :
    HasFDerivWithinAt (fun Y => L.matFn Y b o)
      (∑ i : Fin L.inFeatures, (L.linkFactor (fun j => L.linkFn o j ((ofMat X).get [(b : ℕ), j])) i * L.linkSlope o i (X b i)) •
        (ContinuousLinearMap.proj i).comp (ContinuousLinearMap.proj (R := ℝ) (φ := fun _ : Fin B => Fin L.inFeatures → ℝ) b)) s X := by
  have hget : ∀ (Y : Fin B → Fin L.inFeatures → ℝ) (j : Fin L.inFeatures), L.linkFn o j ((ofMat Y).get [(b : ℕ), (j : ℕ)]) = L.linkFn o j (Y b j) := fun Y j => by rw [ofMat_get]
  by_cases hc : L.cls = .continuousProd ∨ L.cls = .discontinuousProd
  · have e : (fun Y => L.matFn Y b o) = fun Y => ∏ i : Fin L.inFeatures, (1 + L.linkFn o i (Y b i)) - 1 := by
      funext Y
      have : L.matFn Y b o = ∏ i ∈ Finset.range L.inFeatures, (1 + L.linkFn o i ((ofMat Y).get [(b : ℕ), i])) - 1 := by
        unfold PwLayer.matFn PwClass.combine
        rcases hc with hc | hc <;> rw [hc]
      rw [this, ← Fin.prod_univ_eq_prod_range (fun i => 1 + L.linkFn o i ((ofMat Y).get [(b : ℕ), i]))]
      simp only [hget]
    rw [e]
    have key := (HasFDerivWithinAt.finsetProd (u := Finset.univ) fun i _ => (hl i).const_add 1).sub_const 1
    refine key.congr_fderiv ?_
    apply Finset.sum_congr rfl
    intro i _
    rw [linkFactor_fin L hc, smul_smul]
    simp only [hget]
  · have e : (fun Y => L.matFn Y b o) = fun Y => ∑ i : Fin L.inFeatures, L.linkFn o i (Y b i) := by
      funext Y
      have : L.matFn Y b o = ∑ i ∈ Finset.range L.inFeatures, L.linkFn o i ((ofMat Y).get [(b : ℕ), i]) := by
        unfold PwLayer.matFn PwClass.combine
        cases hcl : L.cls <;> simp [hcl] at hc ⊢
      rw [this, ← Fin.sum_univ_eq_sum_range (fun i => L.linkFn o i ((ofMat Y).get [(b : ℕ), i]))]
      simp only [hget]
    rw [e]
    refine (HasFDerivWithinAt.fun_sum fun i _ => hl i).congr_fderiv ?_
    apply Finset.sum_congr rfl
    intro i _
    unfold PwLayer.linkFactor
    rw [if_neg hc, one_mul]

/-- The gradient of the loss by the inputs within a set. -/
theorem inputGrad_within (L : PwLayer ℝ) (h : L.WF) {B : ℕ} (X : Fin B → Fin L.inFeatures → ℝ) {g : Tensor ℝ} (s : Set (Fin B → Fin L.inFeatures → ℝ))
    (hl : ∀ (b : Fin B) (o : Fin L.outFeatures) (i : Fin L.inFeatures), HasFDerivWithinAt (fun Y : Fin B → Fin L.inFeatures → ℝ => L.linkFn o i (Y b i))
      (L.linkSlope o i (X b i) • (ContinuousLinearMap.proj i).comp (ContinuousLinearMap.proj (R := ℝ) (φ := fun _ : Fin B => Fin L.inFeatures → ℝ) b)) s X)
    (loss : (Fin B → Fin L.outFeatures → ℝ) → ℝ) (D : (Fin B → Fin L.outFeatures → ℝ) →L[ℝ] ℝ) (hD : HasFDerivAt loss D (L.matFn X))
    (hg : ∀ (b : Fin B) (o : Fin L.outFeatures), g.get [(b : ℕ), (o : ℕ)] = D (Pi.single b (Pi.single o 1))) :
    ∃ D' : (Fin B → Fin L.inFeatures → ℝ) →L[ℝ] ℝ, HasFDerivWithinAt (fun Y => loss (L.matFn Y)) D' s X ∧
      ∀ (b : Fin B) (i : Fin L.inFeatures), (L.inputGrad (ofMat X) g).get [(b : ℕ), (i : ℕ)] = D' (Pi.single b (Pi.single i 1)) := by
  obtain ⟨D', h1, h2⟩ := backprop_entries (fun Y => L.matFn Y) X s
    (fun b o i => L.linkFactor (fun j => L.linkFn o j ((ofMat X).get [(b : ℕ), j])) i * L.linkSlope o i (X b i))
    (fun b o => matFn_entry L X s b o fun i => hl b o i) loss D hD
  refine ⟨D', h1, fun b i => ?_⟩
  rw [L.inputGrad_get h (B := B) rfl g b.2 i.2, ← h2 b i,
    ← Fin.sum_univ_eq_sum_range (fun o => g.get [(b : ℕ), o] * (L.linkFactor (fun j => L.linkFn o j ((ofMat X).get [(b : ℕ), j])) i * L.linkSlope o i ((ofMat X).get [(b : ℕ), (i : ℕ)])))]
  apply Finset.sum_congr rfl
  intro o _
  rw [← hg b o, ofMat_get]

/-- **C91.** For every piecewise layer, every batch without inputs on segment boundaries or turning points of the periodic wrap, and every differentiable loss of the output with gradient `g`, the
input gradient is the derivative of the loss by the inputs. -/
theorem C91_input_gradient (L : PwLayer ℝ) (h : L.WF) (hl : 0 < L.length) (hp : ∀ p, L.periodicity = some p → 0 < p) {B : ℕ} (X : Fin B → Fin L.inFeatures → ℝ)
    (hs : ∀ b i, L.Smooth (X b i)) {g out : Tensor ℝ} (hout : L.forward (ofMat X) = .ok out)
    (loss : (Fin B → Fin L.outFeatures → ℝ) → ℝ) (D : (Fin B → Fin L.outFeatures → ℝ) →L[ℝ] ℝ)
    (hD : HasFDerivAt loss D fun b o => out.get [(b : ℕ), (o : ℕ)])
    (hg : ∀ (b : Fin B) (o : Fin L.outFeatures), g.get [(b : ℕ), (o : ℕ)] = D (Pi.single b (Pi.single o 1))) :
    (L.inputGrad (ofMat X) g).shape = [B, L.inFeatures] ∧
    ∃ (outT : (Fin B → Fin L.inFeatures → ℝ) → Tensor ℝ) (D' : (Fin B → Fin L.inFeatures → ℝ) →L[ℝ] ℝ), (∀ Y, L.forward (ofMat Y) = .ok (outT Y)) ∧
      HasFDerivAt (fun Y => loss fun b o => (outT Y).get [(b : ℕ), (o : ℕ)]) D' X ∧
      ∀ (b : Fin B) (i : Fin L.inFeatures), (L.inputGrad (ofMat X) g).get [(b : ℕ), (i : ℕ)] = D' (Pi.single b (Pi.single i 1)) := by
  refine ⟨rfl, fun Y => ofMat (L.matFn Y), ?_⟩
  rw [L.forward_mat h] at hout
  obtain rfl := Except.ok.inj hout
  have e : ∀ Y : Fin B → Fin L.inFeatures → ℝ, (fun (b : Fin B) (o : Fin L.outFeatures) => (ofMat (L.matFn Y)).get [(b : ℕ), (o : ℕ)]) = L.matFn Y := fun Y => by
    funext b o
    exact ofMat_get _ b o
  rw [e] at hD
  obtain ⟨D', h1, h2⟩ := inputGrad_within L h X Set.univ (fun b o i => by
    rw [hasFDerivWithinAt_univ]
    have key := L.linkFn_hasDerivAt h.seg_pos hl hp o i (hs b i)
    have hproj := ((ContinuousLinearMap.proj i).comp (ContinuousLinearMap.proj (R := ℝ) (φ := fun _ : Fin B => Fin L.inFeatures → ℝ) b)).hasFDerivAt (x := X)
    exact key.comp_hasFDerivAt X hproj) loss D hD hg
  refine ⟨D', fun Y => L.forward_mat h Y, ?_, h2⟩
  simp only [e]
  exact hasFDerivWithinAt_univ.1 h1

/-- **C91 (boundaries).** Without periodic wrap the input gradient is at all points, also on segment boundaries, the derivative of the loss towards larger inputs. -/
theorem C91_right_derivative (L : PwLayer ℝ) (h : L.WF) (hl : 0 < L.length) (hp : L.periodicity = none) {B : ℕ} (X : Fin B → Fin L.inFeatures → ℝ)
    {g out : Tensor ℝ} (hout : L.forward (ofMat X) = .ok out)
    (loss : (Fin B → Fin L.outFeatures → ℝ) → ℝ) (D : (Fin B → Fin L.outFeatures → ℝ) →L[ℝ] ℝ)
    (hD : HasFDerivAt loss D fun b o => out.get [(b : ℕ), (o : ℕ)])
    (hg : ∀ (b : Fin B) (o : Fin L.outFeatures), g.get [(b : ℕ), (o : ℕ)] = D (Pi.single b (Pi.single o 1))) :
    ∃ (outT : (Fin B → Fin L.inFeatures → ℝ) → Tensor ℝ) (D' : (Fin B → Fin L.inFeatures → ℝ) →L[ℝ] ℝ), (∀ Y, L.forward (ofMat Y) = .ok (outT Y)) ∧
      HasFDerivWithinAt (fun Y => loss fun b o => (outT Y).get [(b : ℕ), (o : ℕ)]) D' (Set.Ici X) X ∧
      ∀ (b : Fin B) (i : Fin L.inFeatures), (L.inputGrad (ofMat X) g).get [(b : ℕ), (i : ℕ)] = D' (Pi.single b (Pi.single i 1)) := by
  refine ⟨fun Y => ofMat (L.matFn Y), ?_⟩
  rw [L.forward_mat h] at hout
  obtain rfl := Except.ok.inj hout
  have e : ∀ Y : Fin B → Fin L.inFeatures → ℝ, (fun (b : Fin B) (o : Fin L.outFeatures) => (ofMat (L.matFn Y)).get [(b : ℕ), (o : ℕ)]) = L.matFn Y := fun Y => by
    funext b o
    exact ofMat_get _ b o
  rw [e] at hD
  obtain ⟨D', h1, h2⟩ := inputGrad_within L h X (Set.Ici X) (fun b o i => by
    have key := L.linkFn_hasDerivRight h.seg_pos hl hp o i (X b i)
    have hproj := ((ContinuousLinearMap.proj i).comp (ContinuousLinearMap.proj (R := ℝ) (φ := fun _ : Fin B => Fin L.inFeatures → ℝ) b)).hasFDerivWithinAt (x := X) (s := Set.Ici X)
    exact key.comp_hasFDerivWithinAt X hproj fun Y hY => hY b i) loss D hD hg
  refine ⟨D', fun Y => L.forward_mat h Y, ?_, h2⟩
  simp only [e]
  exact h1

/-- **C91 (one point).** Layers with one point per segment pass no gradient to their inputs, whatever the weights, inputs and gradients of the output. -/
theorem C91_one_point (L : PwLayer ℝ) (h : L.WF) (hn : L.n = 1) {B : ℕ} {x g : Tensor ℝ} (hx : x.shape = [B, L.inFeatures]) :
    ∀ b < B, ∀ i < L.inFeatures, (L.inputGrad x g).get [b, i] = 0 := by
  intro b hb i hi
  rw [L.inputGrad_get h hx g hb hi]
  apply Finset.sum_eq_zero
  intro o _
  have e : L.linkSlope o i (x.get [b, i]) = 0 := by
    unfold PwLayer.linkSlope
    rw [← sum_dcall_two, hn, Finset.sum_range_one]
    show (0 : ℝ) * _ * _ * _ = 0
    simp
  rw [e, mul_zero, mul_zero]

theorem linkPoly_two_derivative (v : ℕ → ℝ) (x : ℝ) : (linkPoly 2 v).derivative.eval x = (v 1 - v 0) / 2 := by
  have h1 := (linkPoly 2 v).hasDerivAt x
  have h2 : (fun x => (linkPoly 2 v).eval x) = fun x => v 0 + (v 1 - v 0) * ((x + 1) / 2) := by
    funext y
    exact linkPoly_two_eval v y
  rw [h2] at h1
  have h3 := ((((hasDerivAt_id x).add_const (1 : ℝ)).div_const 2).const_mul (v 1 - v 0)).const_add (v 0)
  rw [h1.unique h3]
  ring

/-- **C91 (linear layers).** With two points per segment the gradient is the difference quotient of the weights of the segment. -/
theorem C91_linear {S : ℕ} (hS : 0 < S) (v : ℕ → ℝ) {s : ℕ} {t : ℝ} (hs : IsActive S s t) (g : Tensor ℝ) :
    ((lineLayer S v).inputGrad (Tensor.tab2 1 1 fun _ _ => t) g).get [0, 0] = g.get [0, 0] * ((v (s + 1) - v s) / (2 / S)) := by
  have hSr : (0 : ℝ) < S := by exact_mod_cast hS
  rw [(lineLayer S v).inputGrad_get (B := 1) (lineLayer_wf hS v) rfl g (by norm_num) (by show 0 < 1; norm_num)]
  have ho : (lineLayer S v).outFeatures = 1 := rfl
  rw [ho, Finset.sum_range_one, Tensor.get_tab2 (by norm_num) (by norm_num)]
  have hseg : (lineLayer S v).seg t = s := isActive_unique ((lineLayer S v).isActive_seg hS rfl t) hs
  have hf : ∀ f i, (lineLayer S v).linkFactor f i = 1 := by
    intro f i
    unfold PwLayer.linkFactor
    rw [if_neg (by simp [lineLayer])]
  rw [hf]
  unfold PwLayer.linkSlope
  rw [hseg]
  have e : (linkPoly (lineLayer S v).n fun k => (lineLayer S v).w.get [0, 0, s * (lineLayer S v).stride + k]).derivative.eval ((lineLayer S v).xIn t) = (v (s + 1) - v s) / 2 := by
    show (linkPoly 2 fun k => (Tensor.tab3 1 1 (S + 1) fun _ _ r => v r).get [0, 0, s * 1 + k]).derivative.eval _ = _
    have := hs.1
    rw [linkPoly_two_derivative, Tensor.get_tab3 (by norm_num) (by norm_num) (by omega), Tensor.get_tab3 (by norm_num) (by norm_num) (by omega), Nat.mul_one]
    rfl
  rw [e]
  show _ * (1 * ((v (s + 1) - v s) / 2 * (2 / 2 * S) * 1)) = _
  field_simp

/-- **C91 (kinks).** On a boundary the gradient can be that of one side only: the layer with weights 1, 0, 1 computes the absolute value, whose gradient at 0 is 1. -/
theorem C91_kink :
    ((lineLayer 2 fun r => if r = 1 then 0 else 1).inputGrad (Tensor.tab2 1 1 fun _ _ => 0) (Tensor.tab2 1 1 fun _ _ => 1)).get [0, 0] = 1 ∧
    ∀ t, ∃ out, (lineLayer 2 fun r => if r = 1 then 0 else 1).forward (Tensor.tab2 1 1 fun _ _ => t) = .ok out ∧ out.get [0, 0] = |t| := by
  constructor
  · rw [C91_linear (by norm_num) _ (s := 1) ⟨by norm_num, Or.inr (by norm_num [segLeft]), Or.inl rfl⟩, Tensor.get_tab2 (by norm_num) (by norm_num)]
    norm_num
  · intro t
    have hxw : (Tensor.tab2 1 1 fun _ _ => t).WF := Tensor.wf_tabulate _ _
    refine ⟨_, PwLayer.forward_sum _ (B := 1) (lineLayer_wf (by norm_num) _) (Or.inl rfl) rfl hxw, ?_⟩
    rw [Tensor.get_tab2 (by norm_num) (by show 0 < 1; norm_num)]
    show ∑ i ∈ Finset.range 1, _ = _
    rw [Finset.sum_range_one, Tensor.get_tab2 (by norm_num) (by norm_num)]
    have hpw := (lineLayer 2 fun r => if r = 1 then 0 else 1).linkFn_isPiecewise (by show 0 < 2; norm_num) rfl rfl 0 0
    have hl : ∀ s t, IsActive 2 s t → (lineLayer 2 fun r => if r = 1 then 0 else 1).linkFn 0 0 t
        = (linkPoly 2 fun k => (Tensor.tab3 1 1 (2 + 1) fun _ _ r => if r = 1 then (0 : ℝ) else 1).get [0, 0, s * 1 + k]).eval (localCoord 2 s t) := fun s t h => hpw s t h
    rcases lt_or_ge t 0 with ht | ht
    · rw [hl 0 t ⟨by norm_num, Or.inl rfl, Or.inr (by norm_num [segLeft]; exact ht)⟩, linkPoly_two_eval, Tensor.get_tab3 (by norm_num) (by norm_num) (by norm_num),
        Tensor.get_tab3 (by norm_num) (by norm_num) (by norm_num), abs_of_neg ht]
      norm_num [localCoord]
    · rw [hl 1 t ⟨by norm_num, Or.inr (by norm_num [segLeft]; exact ht), Or.inl rfl⟩, linkPoly_two_eval, Tensor.get_tab3 (by norm_num) (by norm_num) (by norm_num),
        Tensor.get_tab3 (by norm_num) (by norm_num) (by norm_num), abs_of_nonneg ht]
      norm_num [localCoord]
      ring

/-- **C91 (turning points).** At the turning points of the periodic wrap, where it has no derivative, the backward pass takes slope 1. -/
theorem C91_turning_points {p : ℝ} (hp : 0 < p) (k : ℤ) : makePeriodicGrad (p / 2 + k * p) p = 1 ∧ ¬ DifferentiableAt ℝ (fun x => makePeriodic x p) (p / 2 + k * p) := by
  constructor
  · rw [makePeriodicGrad_real, if_neg]
    have e : p / 2 + k * p + p / 2 = (k + 1) * p := by ring
    rw [e, mul_div_mul_right _ _ hp.ne']
    have hf : ((k : ℝ) + 1) / 2 < ⌊((k : ℝ) + 1) / 2⌋ + 1 := Int.lt_floor_add_one _
    have hint : (k : ℝ) + 1 - 2 * ⌊((k : ℝ) + 1) / 2⌋ ≤ 1 := by
      have h1 : (k : ℝ) + 1 < 2 * ⌊((k : ℝ) + 1) / 2⌋ + 2 := by linarith
      have h2 : k + 1 < 2 * ⌊((k : ℝ) + 1) / 2⌋ + 2 := by exact_mod_cast h1
      have h3 : k + 1 - 2 * ⌊((k : ℝ) + 1) / 2⌋ ≤ 1 := by omega
      exact_mod_cast h3
    nlinarith
  · intro hd
    -- the wrap is symmetric around the turning point, so that the derivative would be 0; but on one side it has slope 1
    set c : ℝ := p / 2 + k * p with hc
    set f : ℝ → ℝ := fun x => makePeriodic x p with hf
    have hmir : ∀ t, f (c + t) = f (c - t) := fun t => (C17_mirror_periodic hp).2.2.2.1 t k
    have hm := hd.hasDerivAt
    set m := deriv f c with hmdef
    have hm0 : m = 0 := by
      have h1 : HasDerivAt (fun t => f (c + t)) m 0 := by
        have := HasDerivAt.comp_const_add (f := f) c 0 (by rw [add_zero]; exact hm)
        exact this
      have h2 : HasDerivAt (fun t => f (c - t)) (-m) 0 := by
        have := HasDerivAt.comp_const_sub (f := f) c 0 (by rw [sub_zero]; exact hm)
        exact this
      have e : (fun t => f (c + t)) = fun t => f (c - t) := funext hmir
      rw [e] at h1
      have := h1.unique h2
      linarith
    have hm1 : m = 1 := by
      rcases Int.even_or_odd' k with ⟨j, hj | hj⟩
      · -- an upper turning point: slope 1 on the left
        have hev : f =ᶠ[𝓝[Set.Iic c] c] fun x => x - j * (2 * p) := by
          have h1 : ∀ᶠ x in 𝓝[Set.Iic c] c, c - p < x := eventually_nhdsWithin_of_eventually_nhds (eventually_gt_nhds (by linarith))
          filter_upwards [h1, self_mem_nhdsWithin] with x hx1 hx2
          have hx2' : x ≤ c := hx2
          have e : x = (x - j * (2 * p)) + j * (2 * p) := by ring
          have e2 : c = p / 2 + j * (2 * p) := by rw [hc, hj]; push_cast; ring
          show makePeriodic x p = _
          rw [e, makePeriodic_add_int hp, makePeriodic_id hp (by linarith) (by linarith)]
          ring
        have h3 : HasDerivWithinAt f 1 (Set.Iic c) c :=
          (((hasDerivAt_id c).sub_const (j * (2 * p))).hasDerivWithinAt).congr_of_eventuallyEq_of_mem hev (Set.mem_Iic.2 le_rfl)
        exact (uniqueDiffWithinAt_Iic c).eq_deriv _ hm.hasDerivWithinAt h3
      · -- a lower turning point: slope 1 on the right
        have hev : f =ᶠ[𝓝[Set.Ici c] c] fun x => x - (j + 1 : ℤ) * (2 * p) := by
          have h1 : ∀ᶠ x in 𝓝[Set.Ici c] c, x < c + p := eventually_nhdsWithin_of_eventually_nhds (eventually_lt_nhds (by linarith))
          filter_upwards [h1, self_mem_nhdsWithin] with x hx1 hx2
          have hx2' : c ≤ x := hx2
          have e : x = (x - (j + 1 : ℤ) * (2 * p)) + (j + 1 : ℤ) * (2 * p) := by ring
          have e2 : c = -(p / 2) + (j + 1 : ℤ) * (2 * p) := by rw [hc, hj]; push_cast; ring
          show makePeriodic x p = _
          rw [e, makePeriodic_add_int hp, makePeriodic_id hp (by linarith) (by linarith)]
          ring
        have h3 : HasDerivWithinAt f 1 (Set.Ici c) c :=
          (((hasDerivAt_id c).sub_const ((j + 1 : ℤ) * (2 * p))).hasDerivWithinAt).congr_of_eventuallyEq_of_mem hev (Set.mem_Ici.2 le_rfl)
        exact (uniqueDiffWithinAt_Ici c).eq_deriv _ hm.hasDerivWithinAt h3
    rw [hm0] at hm1
    exact zero_ne_one hm1

/-- Two constant segments with values 0 and 1. -/
noncomputable def stepLayer : PwLayer ℝ :=
  { cls := .discontinuous, n := 1, segments := 2, inFeatures := 1, outFeatures := 1, length := 2, periodicity := none, w := Tensor.tab3 1 1 2 fun _ _ r => (r : ℝ) }

theorem stepLayer_wf : stepLayer.WF := ⟨by norm_num [stepLayer], by norm_num [stepLayer], by norm_num [stepLayer], by norm_num [stepLayer], rfl, Tensor.wf_tabulate _ _⟩

/-- A step function: weights 0 and 1 on the two halves. The outputs at `-1/2` and `1/2` differ, the gradient is 0 at all inputs. -/
example : (∀ t, (stepLayer.inputGrad (Tensor.tab2 1 1 fun _ _ => t) (Tensor.tab2 1 1 fun _ _ => 1)).get [0, 0] = 0) ∧
    stepLayer.linkFn 0 0 (-1 / 2) = 0 ∧ stepLayer.linkFn 0 0 (1 / 2) = 1 := by
  refine ⟨fun t => C91_one_point _ stepLayer_wf rfl (B := 1) rfl 0 (by norm_num) 0 (by show 0 < 1; norm_num), ?_, ?_⟩
  · rw [stepLayer.linkFn_isPiecewise stepLayer_wf.seg_pos rfl rfl 0 0 0 _ ⟨by norm_num [stepLayer], Or.inl rfl, Or.inr (by norm_num [segLeft, stepLayer])⟩]
    show (linkPoly 1 fun k => (Tensor.tab3 1 1 2 fun _ _ r => (r : ℝ)).get [0, 0, 0 * 1 + k]).eval _ = 0
    rw [linkPoly_one_eval, Tensor.get_tab3 (by norm_num) (by norm_num) (by norm_num)]
    norm_num
  · rw [stepLayer.linkFn_isPiecewise stepLayer_wf.seg_pos rfl rfl 0 0 1 _ ⟨by norm_num [stepLayer], Or.inr (by norm_num [segLeft, stepLayer]), Or.inl rfl⟩]
    show (linkPoly 1 fun k => (Tensor.tab3 1 1 2 fun _ _ r => (r : ℝ)).get [0, 0, 1 * 1 + k]).eval _ = 1
    rw [linkPoly_one_eval, Tensor.get_tab3 (by norm_num) (by norm_num) (by norm_num)]
    norm_num

/-- The loss `output` of the absolute value at `1/2` has derivative 1 by the input, at all inputs but 0 by the theorem. -/
example (X : Fin 1 → Fin 1 → ℝ) (hX : X 0 0 ≠ 0) : ∃ (outT : (Fin 1 → Fin 1 → ℝ) → Tensor ℝ) (D' : (Fin 1 → Fin 1 → ℝ) →L[ℝ] ℝ),
    (∀ Y, (lineLayer 2 fun r => if r = 1 then 0 else 1).forward (ofMat Y) = .ok (outT Y)) ∧ HasFDerivAt (fun Y => (outT Y).get [0, 0]) D' X := by
  have hwf := lineLayer_wf (S := 2) (by norm_num) fun r => if r = 1 then (0 : ℝ) else 1
  set L := lineLayer 2 fun r => if r = 1 then (0 : ℝ) else 1 with hL
  set D : (Fin 1 → Fin 1 → ℝ) →L[ℝ] ℝ := (ContinuousLinearMap.proj 0).comp (ContinuousLinearMap.proj (R := ℝ) (φ := fun _ : Fin 1 => Fin 1 → ℝ) 0) with hD
  obtain ⟨-, outT, D', h1, h2, -⟩ := C91_input_gradient L hwf (by norm_num [hL, lineLayer]) (by simp [hL, lineLayer]) (B := 1) X
    (fun b i => ⟨fun s h0 hs => by
      have hs' : s < 2 := hs
      have hi : i = (0 : Fin 1) := Subsingleton.elim (α := Fin 1) i 0
      have hb : b = 0 := Subsingleton.elim b 0
      have e : s = 1 := by omega
      subst e hb
      rw [hi]
      show X 0 0 ≠ -(2 / 2) + 2 * (1 : ℕ) / (2 : ℕ)
      norm_num
      exact hX, fun p hp => by simp [hL, lineLayer] at hp⟩)
    (g := ofMat (B := 1) (I := 1) fun b o => D (Pi.single b (Pi.single o 1))) (L.forward_mat hwf (B := 1) X) D D D.hasFDerivAt (fun b o => ofMat_get _ b o)
  exact ⟨outT, D', h1, h2⟩

end HOL
