import Verif.Lemmas.Convex

/-! # C94: training a single layer with a convex loss -/

namespace HOL
open TorchScalar Spec

namespace GLayer

/-- Layers whose output is a sum over the inputs. -/
def IsSum : GLayer ℝ → Prop
  | .pw L => L.cls = .continuous ∨ L.cls = .discontinuous
  | .fn _ => True
  | .product _ => False
  | .linear _ _ => True
  | .relu => True

/-- `l'` is the same layer as `l` with other values of the parameters. -/
def SameBut : GLayer ℝ → GLayer ℝ → Prop
  | .pw L, l' => ∃ w : Tensor ℝ, w.shape = L.w.shape ∧ w.WF ∧ l' = .pw { L with w := w }
  | .fn L, l' => ∃ w : Tensor ℝ, w.shape = L.w.shape ∧ w.WF ∧ l' = .fn { L with w := w }
  | .product L, l' => ∃ w b : Tensor ℝ, w.shape = L.weight.shape ∧ w.WF ∧ b.shape = [L.outFeatures] ∧ b.WF ∧ l' = .product { L with weight := w, bias := some b }
  | .linear w₀ b₀, l' => ∃ w b : Tensor ℝ, w.shape = w₀.shape ∧ w.WF ∧ b.shape = b₀.shape ∧ b.WF ∧ l' = .linear w b
  | .relu, l' => l' = .relu

end GLayer

/-- Sum over all parameters and entries of (new value − old value) · gradient. -/
noncomputable def stepDots : List (Tensor ℝ) → List (Tensor ℝ) → List (Tensor ℝ) → ℝ
  | p' :: ps', p :: ps, g :: gs => stepDot p' p g + stepDots ps' ps gs
  | _, _, _ => 0

/-- **C94 (lower bound).** For layers that are sums over their inputs, any batch (kinks included) and any convex differentiable loss: the loss of the layer with any other parameters is at least the present loss
plus the sum over all entries of the change of the parameter times its gradient. -/
theorem C94_loss_bound (l l' : GLayer ℝ) (hsum : l.IsSum) {I O : ℕ} (h : l.Fits I O) (hl' : l.SameBut l') {B : ℕ} (X : Fin B → Fin I → ℝ) :
    ∃ Y Y' : Fin B → Fin O → ℝ, l.forward (ofMat X) = .ok (ofMat Y) ∧ l'.forward (ofMat X) = .ok (ofMat Y') ∧
      ∀ (loss : (Fin B → Fin O → ℝ) → ℝ) (D : (Fin B → Fin O → ℝ) →L[ℝ] ℝ) (g : Tensor ℝ), ConvexOn ℝ Set.univ loss → HasFDerivAt loss D Y → GradOf D g →
        loss Y + stepDots l'.params l.params (l.paramGrads (ofMat X) g) ≤ loss Y' := by
  cases l with
  | pw L =>
    obtain ⟨hwf, -, -, rfl, rfl⟩ := h
    obtain ⟨w, hs, hw, rfl⟩ := hl'
    have hwf' := hwf.withW hs hw
    refine ⟨L.matFn X, PwLayer.matFn ({ L with w := w } : PwLayer ℝ) X, L.forward_mat hwf X, PwLayer.forward_mat ({ L with w := w } : PwLayer ℝ) hwf' X, fun loss D g hc hD hg => ?_⟩
    refine le_of_eq_of_le ?_ (convex_tangent loss hc D _ (PwLayer.matFn ({ L with w := w } : PwLayer ℝ) X) hD hg)
    congr 1
    show stepDot w L.w (L.weightGrad (ofMat X) g) + 0 = _
    rw [add_zero, stepDot3 hwf.w_shape]
    have e : ∀ b o, PwLayer.matFn ({ L with w := w } : PwLayer ℝ) X b o - L.matFn X b o
        = ∑ j ∈ Finset.range L.inFeatures ×ˢ Finset.range (PwLayer.wSize L.cls L.n L.segments), (w.get [(o : ℕ), j.1, j.2] - L.w.get [(o : ℕ), j.1, j.2])
      * ∑ k ∈ Finset.range L.n, if L.seg ((ofMat X).get [(b : ℕ), j.1]) * L.stride + k = j.2 then (getLagrangeBasis L.n ((2 : ℕ) : ℝ)).call (L.xIn ((ofMat X).get [(b : ℕ), j.1])) k else 0 := by
      intro b o
      rw [PwLayer.matFn_linear L hwf hsum, PwLayer.matFn_linear ({ L with w := w } : PwLayer ℝ) hwf' hsum, ← Finset.sum_sub_distrib]
      refine Finset.sum_congr rfl fun j _ => ?_
      rw [sub_mul]
      rfl
    simp only [e]
    rw [linear_step (ι := ℕ × ℕ) _ (fun o j => w.get [o, j.1, j.2] - L.w.get [o, j.1, j.2])
      (fun b j => ∑ k ∈ Finset.range L.n, if L.seg ((ofMat X).get [b, j.1]) * L.stride + k = j.2 then (getLagrangeBasis L.n ((2 : ℕ) : ℝ)).call (L.xIn ((ofMat X).get [b, j.1])) k else 0) g]
    refine Finset.sum_congr rfl fun o ho => ?_
    rw [Finset.sum_product]
    refine Finset.sum_congr rfl fun i hi => Finset.sum_congr rfl fun q hq => ?_
    rw [weightGrad_get L hwf (x := ofMat X) (B := B) rfl (ofMat_wf X) g (Finset.mem_range.1 ho) (Finset.mem_range.1 hi) (Finset.mem_range.1 hq)]
    congr 1
    refine Finset.sum_congr rfl fun b _ => ?_
    have hlf : L.linkFactor (fun j => L.linkFn o j ((ofMat X).get [b, j])) i = 1 := by
      unfold PwLayer.linkFactor
      rw [if_neg]
      rcases hsum with hc | hc <;> rw [hc] <;> simp
    rw [hlf, mul_one, mul_comm]
  | fn L =>
    obtain ⟨hf, rfl, rfl⟩ := h
    obtain ⟨w, hs, hw, rfl⟩ := hl'
    have hf' := hf.withW hs hw
    refine ⟨L.matFn X, FnLayer.matFn ({ L with w := w } : FnLayer ℝ) X, L.forward_mat hf X, FnLayer.forward_mat ({ L with w := w } : FnLayer ℝ) hf' X, fun loss D g hc hD hg => ?_⟩
    refine le_of_eq_of_le ?_ (convex_tangent loss hc D _ (FnLayer.matFn ({ L with w := w } : FnLayer ℝ) X) hD hg)
    congr 1
    show stepDot w L.w (L.weightGrad (ofMat X) g) + 0 = _
    rw [add_zero, stepDot3 hf.w_shape]
    have e1 : ∀ (w : Tensor ℝ) (b : Fin B) (o : Fin L.outFeatures), FnLayer.matFn ({ L with w := w } : FnLayer ℝ) X b o
        = ∑ j ∈ Finset.range L.inFeatures ×ˢ Finset.range L.poly.n, w.get [(o : ℕ), j.1, j.2] * L.poly.basis.call (periodize L.periodicity ((ofMat X).get [(b : ℕ), j.1])) j.2 := by
      intro w b o
      unfold FnLayer.matFn
      rw [Finset.sum_product, ← Fin.sum_univ_eq_sum_range
        (fun i => ∑ q ∈ Finset.range L.poly.n, w.get [(o : ℕ), i, q] * L.poly.basis.call (periodize L.periodicity ((ofMat X).get [(b : ℕ), i])) q)]
      refine Finset.sum_congr rfl fun i _ => Finset.sum_congr rfl fun q _ => ?_
      rw [ofMat_get, mul_comm]
    have e : ∀ b o, FnLayer.matFn ({ L with w := w } : FnLayer ℝ) X b o - L.matFn X b o
        = ∑ j ∈ Finset.range L.inFeatures ×ˢ Finset.range L.poly.n, (w.get [(o : ℕ), j.1, j.2] - L.w.get [(o : ℕ), j.1, j.2])
          * L.poly.basis.call (periodize L.periodicity ((ofMat X).get [(b : ℕ), j.1])) j.2 := by
      intro b o
      rw [e1, show L.matFn X b o = _ from e1 L.w b o, ← Finset.sum_sub_distrib]
      exact Finset.sum_congr rfl fun j _ => (sub_mul _ _ _).symm
    simp only [e]
    rw [linear_step (ι := ℕ × ℕ) _ (fun o j => w.get [o, j.1, j.2] - L.w.get [o, j.1, j.2]) (fun b j => L.poly.basis.call (periodize L.periodicity ((ofMat X).get [b, j.1])) j.2) g]
    refine Finset.sum_congr rfl fun o ho => ?_
    rw [Finset.sum_product]
    refine Finset.sum_congr rfl fun i hi => Finset.sum_congr rfl fun q hq => ?_
    congr 1
    unfold FnLayer.weightGrad
    simp only [ofMat_shape]
    rw [Tensor.get_tab3 (Finset.mem_range.1 ho) (Finset.mem_range.1 hi) (Finset.mem_range.1 hq), sumL_range]
  | product L => exact absurd hsum (by simp [GLayer.IsSum])
  | linear w₀ b₀ =>
    obtain ⟨hws, hww, hbs, hbw⟩ := h
    obtain ⟨w, b, hs, hw, hs', hw', rfl⟩ := hl'
    refine ⟨linearFn w₀ b₀ O X, linearFn w b O X, linear_mat hws X, linear_mat (hs.trans hws) X, fun loss D g hc hD hg => ?_⟩
    refine le_of_eq_of_le ?_ (convex_tangent loss hc D _ (linearFn w b O X) hD hg)
    congr 1
    show stepDot w w₀ (linearWeightGrad w₀ (ofMat X) g) + (stepDot b b₀ (biasGrad g) + 0) = _
    rw [add_zero, stepDot2 hws, stepDot1 hbs]
    have e : ∀ (s : Fin B) (o : Fin O), linearFn w b O X s o - linearFn w₀ b₀ O X s o
        = (∑ i ∈ Finset.range I, (w.get [(o : ℕ), i] - w₀.get [(o : ℕ), i]) * (ofMat X).get [(s : ℕ), i]) + ∑ _j ∈ Finset.range 1, (b.get [(o : ℕ)] - b₀.get [(o : ℕ)]) * 1 := by
      intro s o
      unfold linearFn
      rw [← Fin.sum_univ_eq_sum_range (fun i => (w.get [(o : ℕ), i] - w₀.get [(o : ℕ), i]) * (ofMat X).get [(s : ℕ), i])]
      simp only [ofMat_get, sub_mul, Finset.sum_sub_distrib, Finset.sum_range_one, mul_one]
      rw [Finset.sum_congr rfl fun i _ => mul_comm (X s i) (w.get [(o : ℕ), (i : ℕ)]), Finset.sum_congr rfl fun i _ => mul_comm (X s i) (w₀.get [(o : ℕ), (i : ℕ)])]
      ring
    simp only [e, add_mul, Finset.sum_add_distrib]
    rw [linear_step _ (fun o i => w.get [o, i] - w₀.get [o, i]) (fun s i => (ofMat X).get [s, i]) g, linear_step (Finset.range 1) (fun o _ => b.get [o] - b₀.get [o]) (fun _ _ => 1) g]
    congr 1
    · refine Finset.sum_congr rfl fun o ho => Finset.sum_congr rfl fun i hi => ?_
      congr 1
      unfold linearWeightGrad
      simp only [ofMat_shape, hws]
      rw [Tensor.get_tab2 (Finset.mem_range.1 ho) (Finset.mem_range.1 hi), sumL_range]
    · refine Finset.sum_congr rfl fun o ho => ?_
      rw [Finset.sum_range_one]
      congr 1
      unfold biasGrad
      simp only [hg.1, mul_one]
      rw [Tensor.get_tab1 (Finset.mem_range.1 ho), sumL_range]
  | relu =>
    obtain rfl : I = O := h
    obtain rfl : l' = .relu := hl'
    refine ⟨reluFn X, reluFn X, congrArg Except.ok (relu_mat X), congrArg Except.ok (relu_mat X), fun loss D g _ _ _ => ?_⟩
    show loss _ + 0 ≤ _
    rw [add_zero]

/-- All gradients `gs` of the parameters `ps` vanish. -/
def GradsVanish (ps gs : List (Tensor ℝ)) : Prop :=
  ∀ (j : ℕ) (p gp : Tensor ℝ) (idx : List ℕ), ps[j]? = some p → gs[j]? = some gp → InShape p.shape idx → gp.get idx = 0

theorem stepDots_zero : ∀ (ps' ps gs : List (Tensor ℝ)), GradsVanish ps gs → stepDots ps' ps gs = 0
  | p' :: ps', p :: ps, g :: gs, h => by
    have h1 : stepDot p' p g = 0 := Finset.sum_eq_zero fun k hk => by
      rw [h 0 p g (unravel p.shape k) rfl rfl (inShape_unravel (Finset.mem_range.1 hk)), mul_zero]
    have h2 := stepDots_zero ps' ps gs fun j p g => h (j + 1) p g
    show stepDot p' p g + stepDots ps' ps gs = 0
    rw [h1, h2, add_zero]
  | [], _, _, _ => rfl
  | _ :: _, [], _, _ => rfl
  | _ :: _, _ :: _, [], _ => rfl

/-- **C94 (stationary points).** For layers that are sums over their inputs, any batch and any convex differentiable loss: the parameters minimize the loss among all parameters exactly if all gradients
vanish. -/
theorem C94_stationary_iff (l : GLayer ℝ) (hsum : l.IsSum) {I O : ℕ} (h : l.Fits I O) {B : ℕ} (X : Fin B → Fin I → ℝ) :
    ∃ Y : Fin B → Fin O → ℝ, l.forward (ofMat X) = .ok (ofMat Y) ∧
      ∀ (loss : (Fin B → Fin O → ℝ) → ℝ) (D : (Fin B → Fin O → ℝ) →L[ℝ] ℝ) (g : Tensor ℝ), ConvexOn ℝ Set.univ loss → HasFDerivAt loss D Y → GradOf D g →
        ((∀ (l' : GLayer ℝ) (Y' : Fin B → Fin O → ℝ), l.SameBut l' → l'.forward (ofMat X) = .ok (ofMat Y') → loss Y ≤ loss Y') ↔
          GradsVanish l.params (l.paramGrads (ofMat X) g)) := by
  obtain ⟨Y, hY, hpar⟩ := C92_parameter_gradients l h X
  refine ⟨Y, hY, fun loss D g hc hD hg => ⟨fun hmin j p gp idx hj hgp hin => ?_, fun hz l' Y' hl' hY' => ?_⟩⟩
  · obtain ⟨gp', P, h1, -, h3, h4⟩ := hpar loss D g hD hg j p idx hj hin
    obtain rfl : gp = gp' := Option.some.inj (hgp.symm.trans h1)
    have hset : p.WF ∧ l.setParam j p = l ∧ ∀ t, l.SameBut (l.setParam j (p.set idx t)) := by
      cases l with
      | pw L =>
        obtain ⟨hwf, -⟩ := h
        match j with
        | 0 =>
          obtain rfl := Option.some.inj hj
          exact ⟨hwf.w_wf, rfl, fun t => ⟨L.w.set idx t, rfl, Tensor.wf_set hwf.w_wf _ _, rfl⟩⟩
        | _ + 1 => simp [GLayer.params] at hj
      | fn L =>
        obtain ⟨hf, -⟩ := h
        match j with
        | 0 =>
          obtain rfl := Option.some.inj hj
          exact ⟨hf.w_wf, rfl, fun t => ⟨L.w.set idx t, rfl, Tensor.wf_set hf.w_wf _ _, rfl⟩⟩
        | _ + 1 => simp [GLayer.params] at hj
      | product L => exact absurd hsum (by simp [GLayer.IsSum])
      | linear w b =>
        obtain ⟨-, hww, -, hbw⟩ := h
        match j with
        | 0 =>
          obtain rfl := Option.some.inj hj
          exact ⟨hww, rfl, fun t => ⟨w.set idx t, b, rfl, Tensor.wf_set hww _ _, rfl, hbw, rfl⟩⟩
        | 1 =>
          obtain rfl := Option.some.inj hj
          exact ⟨hbw, rfl, fun t => ⟨w, b.set idx t, rfl, hww, rfl, Tensor.wf_set hbw _ _, rfl⟩⟩
        | _ + 2 => simp [GLayer.params] at hj
      | relu => simp [GLayer.params] at hj
    obtain ⟨hpw, hself, hsame⟩ := hset
    have h0 : P (p.get idx) = Y := by
      have := h3 (p.get idx)
      rw [Tensor.set_get hpw hin, hself, hY] at this
      exact (ofMat_inj (Except.ok.inj this)).symm
    refine IsLocalMin.hasDerivAt_eq_zero (f := fun t => loss (P t)) (a := p.get idx) (Filter.Eventually.of_forall fun t => ?_) h4
    show loss (P (p.get idx)) ≤ loss (P t)
    rw [h0]
    exact hmin _ _ (hsame t) (h3 t)
  · obtain ⟨Z, Z', hZ, hZ', hb⟩ := C94_loss_bound l l' hsum h hl' X
    obtain rfl : Y = Z := ofMat_inj (Except.ok.inj (hY.symm.trans hZ))
    obtain rfl : Y' = Z' := ofMat_inj (Except.ok.inj (hY'.symm.trans hZ'))
    have := hb loss D g hc hD hg
    rw [stepDots_zero _ _ _ hz, add_zero] at this
    exact this

/-- Least squares for a piecewise linear layer of three inputs: any weights with vanishing gradient are optimal. -/
example (L : PwLayer ℝ) (hL : L.WF) (hc : L.cls = .continuous) (hlen : 0 < L.length) (hp : L.periodicity = none) (X : Fin 50 → Fin L.inFeatures → ℝ) (T : Fin 50 → Fin L.outFeatures → ℝ)
    (hz : ∀ idx, InShape L.w.shape idx → (L.weightGrad (ofMat X) (sqGrad T (L.matFn X))).get idx = 0) (w : Tensor ℝ) (hs : w.shape = L.w.shape) (hw : w.WF) :
    sqLoss T (L.matFn X) ≤ sqLoss T (PwLayer.matFn ({ L with w := w } : PwLayer ℝ) X) := by
  obtain ⟨Y, hY, hiff⟩ := C94_stationary_iff (.pw L) (Or.inl hc) (I := L.inFeatures) (O := L.outFeatures) ⟨hL, hlen, by simp [hp], rfl, rfl⟩ X
  obtain rfl := ofMat_inj (Except.ok.inj (hY.symm.trans (L.forward_mat hL X)))
  obtain ⟨D, hD, hg⟩ := sqLoss_deriv T (L.matFn X)
  refine (hiff _ D _ (sqLoss_convex T) hD hg).2 (fun j p gp idx hj hgp hin => ?_) (.pw { L with w := w }) _ ⟨w, hs, hw, rfl⟩ (PwLayer.forward_mat ({ L with w := w } : PwLayer ℝ) (hL.withW hs hw) X)
  match j with
  | 0 =>
    obtain rfl := Option.some.inj hj
    obtain rfl := Option.some.inj hgp
    exact hz idx hin
  | _ + 1 => simp [GLayer.params] at hj

/-! ## where it fails -/

/-- A product layer of two inputs with all weights `v`. -/
noncomputable def constProd (v : ℝ) : PwLayer ℝ :=
  { cls := .continuousProd, n := 1, segments := 1, inFeatures := 2, outFeatures := 1, length := 2, periodicity := none, w := Tensor.tab3 1 2 1 fun _ _ _ => v }

theorem constProd_wf (v : ℝ) : (constProd v).WF := ⟨by norm_num [constProd], by norm_num [constProd], by norm_num [constProd], by norm_num [constProd], rfl, Tensor.wf_tabulate _ _⟩

theorem constProd_link (v : ℝ) {i : ℕ} (hi : i < 2) (t : ℝ) : (constProd v).linkFn 0 i t = v := by
  unfold PwLayer.linkFn
  show (linkPoly 1 _).eval _ = _
  rw [linkPoly_one_eval]
  have h0 : (constProd v).seg t = 0 := by
    have := (constProd v).seg_lt (constProd_wf v).seg_pos t
    have h1 : (constProd v).segments = 1 := rfl
    omega
  rw [h0]
  exact Tensor.get_tab3 (by norm_num) hi (by simp [PwLayer.stride, constProd, PwClass.shared])

/-- **C94 (products).** The equivalence fails for product layers: with all weights -1 every gradient of the squared error vanishes, though other weights have a smaller error. -/
theorem C94_products_get_stuck : ∃ (l l' : GLayer ℝ) (X : Fin 1 → Fin 2 → ℝ) (T Y Y' : Fin 1 → Fin 1 → ℝ), l.Fits 2 1 ∧ l.SameBut l' ∧
    l.forward (ofMat X) = .ok (ofMat Y) ∧ l'.forward (ofMat X) = .ok (ofMat Y') ∧
    GradsVanish l.params (l.paramGrads (ofMat X) (sqGrad T Y)) ∧ sqLoss T Y' < sqLoss T Y := by
  set X : Fin 1 → Fin 2 → ℝ := fun _ _ => 0 with hX
  have hval : ∀ v, (constProd v).matFn X = fun _ _ => (1 + v) * (1 + v) - 1 := by
    intro v
    funext b o
    have ho : (o : ℕ) = 0 := Nat.lt_one_iff.1 o.2
    show ∏ i ∈ Finset.range 2, (1 + (constProd v).linkFn o i _) - 1 = _
    rw [ho]
    rw [Finset.prod_range_succ, Finset.prod_range_one, constProd_link v (by norm_num), constProd_link v (by norm_num)]
  refine ⟨.pw (constProd (-1)), .pw (constProd 0), X, fun _ _ => 0, (constProd (-1)).matFn X, (constProd 0).matFn X,
    ⟨constProd_wf _, by norm_num [constProd], by simp [constProd], rfl, rfl⟩, ⟨(constProd 0).w, rfl, Tensor.wf_tabulate _ _, rfl⟩,
    (constProd (-1)).forward_mat (constProd_wf _) X, (constProd 0).forward_mat (constProd_wf _) X, ?_, ?_⟩
  · intro j p gp idx hj hgp hin
    match j with
    | 0 =>
      obtain rfl := Option.some.inj hj
      obtain rfl := Option.some.inj hgp
      obtain ⟨o, i, q, rfl⟩ : ∃ o i q, idx = [o, i, q] := by
        match idx, hin with
        | [o, i, q], _ => exact ⟨o, i, q, rfl⟩
      obtain ⟨ho, hi, hq⟩ := inShape3.1 (show InShape [1, 2, 1] [o, i, q] from hin)
      rw [weightGrad_get _ (constProd_wf _) (x := ofMat X) (B := 1) rfl (ofMat_wf X) _ ho hi hq]
      refine Finset.sum_eq_zero fun b _ => ?_
      have hlf : (constProd (-1)).linkFactor (fun j => (constProd (-1)).linkFn o j ((ofMat X).get [b, j])) i = 0 := by
        obtain rfl : o = 0 := by omega
        unfold PwLayer.linkFactor
        rw [if_pos (show (constProd (-1)).cls = .continuousProd ∨ (constProd (-1)).cls = .discontinuousProd from Or.inl rfl), prodL_real]
        refine List.prod_eq_zero ?_
        rw [List.mem_map]
        refine ⟨1 - i, ?_, ?_⟩
        · rw [List.mem_filter]
          exact ⟨List.mem_range.2 (show 1 - i < 2 by omega), by simp; omega⟩
        · beta_reduce
          rw [constProd_link (-1) (by omega)]
          norm_num
      rw [hlf]
      ring
    | _ + 1 => simp [GLayer.params] at hj
  · rw [hval, hval]
    simp [sqLoss]

/-- **C94 (depth).** The equivalence fails for two linear layers: all parameters 0, inputs and targets -1 and 1; the backward pass of the squared error gives zeros for all parameters, though the error of
the network with weights 1 is smaller. -/
theorem C94_depth_gets_stuck : ∃ (ls ls' : List (GLayer ℝ)) (X T Y Y' : Fin 2 → Fin 1 → ℝ) (gx : Tensor ℝ) (gps : List (List (Tensor ℝ))), NetFits ls 1 1 ∧ (∀ l ∈ ls, l.IsSum) ∧
    List.Forall₂ GLayer.SameBut ls ls' ∧ netForward ls (ofMat X) = .ok (ofMat Y) ∧ netForward ls' (ofMat X) = .ok (ofMat Y') ∧
    backward ls (ofMat X) (sqGrad T Y) = .ok (gx, gps) ∧ (∀ gs ∈ gps, ∀ gp ∈ gs, ∀ idx, InShape gp.shape idx → gp.get idx = 0) ∧ sqLoss T Y' < sqLoss T Y := by
  set w : ℝ → Tensor ℝ := fun v => Tensor.tab2 1 1 fun _ _ => v with hw
  set c : Tensor ℝ := Tensor.tab1 1 fun _ => 0 with hc
  set T : Fin 2 → Fin 1 → ℝ := fun b _ => if b = 0 then -1 else 1 with hT
  have hf : ∀ v (Z : Fin 2 → Fin 1 → ℝ), linearForward (w v) c (ofMat Z) = .ok (ofMat fun b o => v * Z b o) := by
    intro v Z
    rw [linear_mat (O := 1) rfl Z]
    congr 2
    funext b o
    obtain rfl : o = 0 := Subsingleton.elim _ _
    unfold linearFn
    rw [Fin.sum_univ_one, hw, hc]
    beta_reduce
    rw [Tensor.get_tab2 (by norm_num) (by norm_num), Tensor.get_tab1 (by norm_num), add_zero, mul_comm]
  have hn : ∀ v (Z : Fin 2 → Fin 1 → ℝ), netForward [.linear (w v) c, .linear (w v) c] (ofMat Z) = .ok (ofMat fun b o => v * (v * Z b o)) := by
    intro v Z
    exact (netForward_cons (show (GLayer.linear (w v) c).forward (ofMat Z) = _ from hf v Z)).trans
      (netForward_cons (show (GLayer.linear (w v) c).forward _ = _ from hf v _))
  have hfit : ∀ v, (GLayer.linear (w v) c).Fits 1 1 := fun v => ⟨rfl, Tensor.wf_tabulate _ _, rfl, Tensor.wf_tabulate _ _⟩
  have hsame : (GLayer.linear (w 0) c).SameBut (.linear (w 1) c) := ⟨w 1, c, rfl, Tensor.wf_tabulate _ _, rfl, Tensor.wf_tabulate _ _, rfl⟩
  set G : Tensor ℝ := sqGrad T fun b o => 0 * (0 * T b o) with hG
  have hGget : ∀ b : Fin 2, G.get [(b : ℕ), 0] = -2 * T b 0 := by
    intro b
    rw [hG]
    refine (ofMat_get (fun b o => 2 * (0 * (0 * T b o) - T b o)) b (0 : Fin 1)).trans ?_
    ring
  have hsum : G.get [0, 0] + G.get [1, 0] = 0 := by
    have h0 := hGget 0
    have h1 := hGget 1
    simp only [Fin.val_zero, Fin.val_one] at h0 h1
    rw [h0, h1, hT]
    norm_num
  set H : Tensor ℝ := linearInputGrad (w 0) (ofMat fun b o => 0 * T b o) G with hH
  have hHget : ∀ b < 2, H.get [b, 0] = 0 := by
    intro b hb
    rw [hH]
    unfold linearInputGrad
    show (Tensor.tab2 2 1 _).get [b, 0] = 0
    rw [Tensor.get_tab2 hb (by norm_num), sumL_range, Finset.sum_range_one, hw]
    beta_reduce
    rw [Tensor.get_tab2 (by norm_num) (by norm_num), mul_zero]
  refine ⟨[.linear (w 0) c, .linear (w 0) c], [.linear (w 1) c, .linear (w 1) c], T, T, fun b o => 0 * (0 * T b o), fun b o => 1 * (1 * T b o),
    linearInputGrad (w 0) (ofMat T) H, [[linearWeightGrad (w 0) (ofMat T) H, biasGrad H], [linearWeightGrad (w 0) (ofMat fun b o => 0 * T b o) G, biasGrad G]],
    ⟨1, hfit 0, 1, hfit 0, rfl⟩, by simp [GLayer.IsSum], .cons hsame (.cons hsame .nil), hn 0 T, hn 1 T, ?_, ?_, ?_⟩
  · simp only [backward, GLayer.forward, hf, bind, Except.bind]
    rfl
  · have hwz : ∀ (Z : Fin 2 → Fin 1 → ℝ) (g : Tensor ℝ), (∀ b < 2, g.get [b, 0] * (ofMat Z).get [b, 0] = 0) → ∀ idx, InShape (linearWeightGrad (w 0) (ofMat Z) g).shape idx →
        (linearWeightGrad (w 0) (ofMat Z) g).get idx = 0 := by
      intro Z g h idx hin
      obtain ⟨o, i, rfl⟩ : ∃ o i, idx = [o, i] := by
        match idx, hin with
        | [o, i], _ => exact ⟨o, i, rfl⟩
      obtain ⟨ho, hi⟩ := inShape2.1 (show InShape [1, 1] [o, i] from hin)
      obtain rfl : o = 0 := by omega
      obtain rfl : i = 0 := by omega
      unfold linearWeightGrad
      show (Tensor.tab2 1 1 _).get [0, 0] = 0
      rw [Tensor.get_tab2 (by norm_num) (by norm_num), sumL_range]
      exact Finset.sum_eq_zero fun b hb => h b (Finset.mem_range.1 hb)
    have hbz : ∀ g : Tensor ℝ, g.shape = [2, 1] → g.get [0, 0] + g.get [1, 0] = 0 → ∀ idx, InShape (biasGrad g).shape idx → (biasGrad g).get idx = 0 := by
      intro g hg h idx hin
      unfold biasGrad at hin ⊢
      simp only [hg] at hin ⊢
      obtain ⟨o, rfl⟩ : ∃ o, idx = [o] := by
        match idx, hin with
        | [o], _ => exact ⟨o, rfl⟩
      have ho := inShape1.1 (show InShape [1] [o] from hin)
      obtain rfl : o = 0 := by omega
      rw [Tensor.get_tab1 (by norm_num), sumL_range, Finset.sum_range_succ, Finset.sum_range_one]
      exact h
    intro gs hgs gp hgp
    simp only [List.mem_cons, List.not_mem_nil, or_false] at hgs
    rcases hgs with rfl | rfl <;> simp only [List.mem_cons, List.not_mem_nil, or_false] at hgp <;> rcases hgp with rfl | rfl
    · exact hwz T H fun b hb => by rw [hHget b hb, zero_mul]
    · exact hbz H rfl (by rw [hHget 0 (by norm_num), hHget 1 (by norm_num), add_zero])
    · refine hwz _ G fun b hb => ?_
      rw [show (ofMat fun b o => 0 * T b o).get [b, 0] = 0 * T ⟨b, hb⟩ 0 from ofMat_get (fun b o => 0 * T b o) ⟨b, hb⟩ (0 : Fin 1)]
      ring
    · exact hbz G rfl hsum
  · unfold sqLoss
    simp [hT]

end HOL
