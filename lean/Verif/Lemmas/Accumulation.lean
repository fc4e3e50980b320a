import Verif.Props.BackwardNetwork
import Verif.Lemmas.Convex

/-! # Lemmas for C116: layers treat the samples of a batch separately, also in the backward pass -/

namespace HOL
open TorchScalar Spec

/-- A batch of one sample. -/
noncomputable def oneRow {I : ℕ} (v : Fin I → ℝ) : Tensor ℝ := ofMat fun _ : Fin 1 => v

theorem oneRow_get {I : ℕ} (v : Fin I → ℝ) (i : Fin I) : (oneRow v).get [0, (i : ℕ)] = v i := ofMat_get (fun _ : Fin 1 => v) 0 i

theorem row_get {B I : ℕ} (X : Fin B → Fin I → ℝ) (b : Fin B) {i : ℕ} (hi : i < I) : (ofMat X).get [(b : ℕ), i] = (oneRow (X b)).get [0, i] :=
  (ofMat_get X b ⟨i, hi⟩).trans (oneRow_get (X b) ⟨i, hi⟩).symm

theorem scaled_get {B I : ℕ} (c : Fin B → ℝ) (G : Fin B → Fin I → ℝ) (b : Fin B) {i : ℕ} (hi : i < I) :
    (ofMat fun b i => c b * G b i).get [(b : ℕ), i] = c b * (oneRow (G b)).get [0, i] := by
  rw [show (oneRow (G b)).get [0, i] = G b ⟨i, hi⟩ from oneRow_get (G b) ⟨i, hi⟩]
  exact ofMat_get (fun b i => c b * G b i) b ⟨i, hi⟩

/-- A matrix is determined by its rows. -/
theorem rows_of {B I : ℕ} {t : Tensor ℝ} (hs : t.shape = [B, I]) (hw : t.WF) {Y : Fin B → Fin I → ℝ} (h : ∀ (b : Fin B) (i : Fin I), t.get [(b : ℕ), (i : ℕ)] = Y b i) : t = ofMat Y := by
  rw [eq_ofMat hs hw]
  congr 1
  funext b i
  exact h b i

/-- What is needed of one layer. In the batch the gradient of the output of sample `b` is multiplied by `c b`. -/
structure RowWise (l : GLayer ℝ) (I O : ℕ) : Prop where
  forward : ∀ {B : ℕ} (X : Fin B → Fin I → ℝ), ∃ Y : Fin B → Fin O → ℝ, l.forward (ofMat X) = .ok (ofMat Y) ∧ ∀ b, l.forward (oneRow (X b)) = .ok (oneRow (Y b))
  input : ∀ {B : ℕ} (X : Fin B → Fin I → ℝ) (G : Fin B → Fin O → ℝ) (c : Fin B → ℝ),
    ∃ GX : Fin B → Fin I → ℝ, l.inputGrad (ofMat X) (ofMat fun b o => c b * G b o) = ofMat (fun b i => c b * GX b i) ∧ ∀ b, l.inputGrad (oneRow (X b)) (oneRow (G b)) = oneRow (GX b)
  params : ∀ {B : ℕ} (X : Fin B → Fin I → ℝ) (G : Fin B → Fin O → ℝ) (c : Fin B → ℝ) (j : ℕ) (p : Tensor ℝ), l.params[j]? = some p →
    ∃ (t : Tensor ℝ) (ts : Fin B → Tensor ℝ), (l.paramGrads (ofMat X) (ofMat fun b o => c b * G b o))[j]? = some t ∧ t.shape = p.shape ∧
      (∀ b, (l.paramGrads (oneRow (X b)) (oneRow (G b)))[j]? = some (ts b) ∧ (ts b).shape = p.shape) ∧
      ∀ idx, InShape p.shape idx → t.get idx = ∑ b, c b * (ts b).get idx

/-- From statements about entries. -/
theorem rowWise_of {l : GLayer ℝ} {I O : ℕ} (fw : ∀ {B : ℕ} (X : Fin B → Fin I → ℝ), ∃ Y : Fin B → Fin O → ℝ, l.forward (ofMat X) = .ok (ofMat Y))
    (fwr : ∀ {B : ℕ} (X : Fin B → Fin I → ℝ) (Y : Fin B → Fin O → ℝ) (b : Fin B) (Y1 : Fin 1 → Fin O → ℝ), l.forward (ofMat X) = .ok (ofMat Y) → l.forward (oneRow (X b)) = .ok (ofMat Y1) → Y b = Y1 0)
    (gs : ∀ {B : ℕ} (X : Fin B → Fin I → ℝ) (G : Fin B → Fin O → ℝ), (l.inputGrad (ofMat X) (ofMat G)).shape = [B, I] ∧ (l.inputGrad (ofMat X) (ofMat G)).WF)
    (gr : ∀ {B : ℕ} (X : Fin B → Fin I → ℝ) (G : Fin B → Fin O → ℝ) (c : Fin B → ℝ) (b : Fin B) (i : Fin I),
      (l.inputGrad (ofMat X) (ofMat fun b o => c b * G b o)).get [(b : ℕ), (i : ℕ)] = c b * (l.inputGrad (oneRow (X b)) (oneRow (G b))).get [0, (i : ℕ)])
    (ps : ∀ {B : ℕ} (X : Fin B → Fin I → ℝ) (G : Fin B → Fin O → ℝ) (c : Fin B → ℝ) (j : ℕ) (p : Tensor ℝ), l.params[j]? = some p →
      ∃ (t : Tensor ℝ) (ts : Fin B → Tensor ℝ), (l.paramGrads (ofMat X) (ofMat fun b o => c b * G b o))[j]? = some t ∧ t.shape = p.shape ∧
        (∀ b, (l.paramGrads (oneRow (X b)) (oneRow (G b)))[j]? = some (ts b) ∧ (ts b).shape = p.shape) ∧
        ∀ idx, InShape p.shape idx → t.get idx = ∑ b, c b * (ts b).get idx) : RowWise l I O where
  forward X := by
    obtain ⟨Y, hY⟩ := fw X
    refine ⟨Y, hY, fun b => ?_⟩
    obtain ⟨Y1, h1⟩ := fw fun _ : Fin 1 => X b
    have e := fwr X Y b Y1 hY h1
    have : Y1 = fun _ => Y b := by
      funext q
      rw [Subsingleton.elim q 0, e]
    rw [this] at h1
    exact h1
  input X G c := by
    refine ⟨fun b i => (l.inputGrad (oneRow (X b)) (oneRow (G b))).get [0, (i : ℕ)], ?_, fun b => ?_⟩
    · exact rows_of (gs X _).1 (gs X _).2 fun b i => gr X G c b i
    · refine rows_of (B := 1) (gs (fun _ : Fin 1 => X b) fun _ : Fin 1 => G b).1 (gs (fun _ : Fin 1 => X b) fun _ : Fin 1 => G b).2 fun q i => ?_
      rw [Subsingleton.elim q 0]
      rfl
  params := ps

theorem sum_rows {B : ℕ} {f : ℕ → ℝ} {g : Fin B → ℝ} (h : ∀ b : Fin B, f b = g b) : ∑ b ∈ Finset.range B, f b = ∑ b, g b := by
  rw [Finset.sum_range]
  exact Finset.sum_congr rfl fun b _ => h b

/-! ## the layers -/

theorem PwLayer.linkFactor_congr (L : PwLayer ℝ) {f g : ℕ → ℝ} (h : ∀ j < L.inFeatures, f j = g j) (i : ℕ) : L.linkFactor f i = L.linkFactor g i := by
  unfold PwLayer.linkFactor
  split
  · congr 1
    refine List.map_congr_left fun j hj => ?_
    rw [h j (List.mem_range.1 (List.mem_filter.1 hj).1)]
  · rfl

theorem rowWise_pw (L : PwLayer ℝ) (h : L.WF) : RowWise (.pw L) L.inFeatures L.outFeatures := by
  refine rowWise_of (fun X => ⟨_, L.forward_mat h X⟩) ?_ ?_ ?_ ?_
  · intro B X Y b Y1 h1 h2
    have e1 := ofMat_inj (Except.ok.inj ((L.forward_mat h X).symm.trans h1))
    have e2 := ofMat_inj (Except.ok.inj ((L.forward_mat h fun _ : Fin 1 => X b).symm.trans h2))
    rw [← e1, ← e2]
    funext o
    unfold PwLayer.matFn
    refine PwClass.combine_congr _ fun j hj => ?_
    rw [row_get X b hj]
    rfl
  · exact fun X G => ⟨rfl, Tensor.wf_tab2 _ _ _⟩
  · intro B X G c b i
    show (L.inputGrad _ _).get _ = _ * (L.inputGrad _ _).get _
    rw [L.inputGrad_get h (B := B) rfl _ b.2 i.2, L.inputGrad_get h (B := 1) rfl _ (show 0 < 1 by omega) i.2, Finset.mul_sum]
    refine Finset.sum_congr rfl fun o ho => ?_
    rw [scaled_get c G b (Finset.mem_range.1 ho), row_get X b i.2, L.linkFactor_congr (g := fun j => L.linkFn o j ((oneRow (X b)).get [0, j])) fun j hj => by rw [row_get X b hj]]
    ring
  · intro B X G c j p hj
    obtain ⟨rfl, rfl⟩ : j = 0 ∧ p = L.w := by
      match j with
      | 0 => exact ⟨rfl, (Option.some.inj hj).symm⟩
      | _ + 1 => simp [GLayer.params] at hj
    refine ⟨_, fun b => L.weightGrad (oneRow (X b)) (oneRow (G b)), rfl, ?_, fun b => ⟨rfl, ?_⟩, fun idx hi => ?_⟩
    · unfold PwLayer.weightGrad
      exact (L.gradW_shape h (B := B) rfl (ofMat_wf X) _).1
    · unfold PwLayer.weightGrad
      exact (L.gradW_shape h (B := 1) rfl (ofMat_wf _) _).1
    · rw [h.w_shape] at hi
      match idx, hi with
      | [o, i, r], hi =>
        obtain ⟨ho, hi, hr⟩ := inShape3.1 hi
        rw [weightGrad_get L h (B := B) rfl (ofMat_wf X) _ ho hi hr]
        refine sum_rows fun b => ?_
        show _ = c b * (L.weightGrad (ofMat fun _ : Fin 1 => X b) (oneRow (G b))).get [o, i, r]
        rw [weightGrad_get L h (B := 1) rfl (ofMat_wf _) _ ho hi hr, Finset.sum_range_one, scaled_get c G b ho, row_get X b hi,
          L.linkFactor_congr (g := fun j => L.linkFn o j ((oneRow (X b)).get [0, j])) fun j hj => by rw [row_get X b hj]]
        unfold oneRow
        ring

theorem rowWise_fn (L : FnLayer ℝ) (h : L.Fits) : RowWise (.fn L) L.inFeatures L.outFeatures := by
  refine rowWise_of (fun X => ⟨_, L.forward_mat h X⟩) ?_ ?_ ?_ ?_
  · intro B X Y b Y1 h1 h2
    have e1 := ofMat_inj (Except.ok.inj ((L.forward_mat h X).symm.trans h1))
    have e2 := ofMat_inj (Except.ok.inj ((L.forward_mat h fun _ : Fin 1 => X b).symm.trans h2))
    rw [← e1, ← e2]
    rfl
  · exact fun X G => ⟨rfl, Tensor.wf_tab2 _ _ _⟩
  · intro B X G c b i
    have e1 := Tensor.get_tab2 (f := fun b i => sumL ((List.range L.outFeatures).map fun o =>
        (ofMat fun b o => c b * G b o).get [b, o] * sumL ((List.range L.poly.n).map fun p => L.poly.basis.dcall (periodize L.periodicity ((ofMat X).get [b, i])) p * L.w.get [o, i, p]))
      * periodizeGrad L.periodicity ((ofMat X).get [b, i])) b.2 i.2
    have e2 := Tensor.get_tab2 (f := fun b' i => sumL ((List.range L.outFeatures).map fun o =>
        (oneRow (G b)).get [b', o] * sumL ((List.range L.poly.n).map fun p => L.poly.basis.dcall (periodize L.periodicity ((oneRow (X b)).get [b', i])) p * L.w.get [o, i, p]))
      * periodizeGrad L.periodicity ((oneRow (X b)).get [b', i])) (show 0 < 1 by omega) i.2
    refine e1.trans (Eq.trans ?_ (congrArg (c b * ·) e2).symm)
    beta_reduce
    rw [sumL_range, sumL_range, row_get X b i.2, ← mul_assoc, Finset.mul_sum]
    congr 1
    refine Finset.sum_congr rfl fun o ho => ?_
    rw [scaled_get c G b (Finset.mem_range.1 ho)]
    ring
  · intro B X G c j p hj
    obtain ⟨rfl, rfl⟩ : j = 0 ∧ p = L.w := by
      match j with
      | 0 => exact ⟨rfl, (Option.some.inj hj).symm⟩
      | _ + 1 => simp [GLayer.params] at hj
    refine ⟨_, fun b => L.weightGrad (oneRow (X b)) (oneRow (G b)), rfl, h.w_shape.symm, fun b => ⟨rfl, h.w_shape.symm⟩, fun idx hi => ?_⟩
    rw [h.w_shape] at hi
    match idx, hi with
    | [o, i, r], hi =>
      obtain ⟨ho, hi, hr⟩ := inShape3.1 hi
      have e1 := Tensor.get_tab3 (f := fun o i p => sumL ((List.range B).map fun b => (ofMat fun b o => c b * G b o).get [b, o] * L.poly.basis.call (periodize L.periodicity ((ofMat X).get [b, i])) p)) ho hi hr
      refine e1.trans ?_
      rw [sumL_range]
      refine sum_rows fun b => ?_
      have e2 := Tensor.get_tab3 (f := fun o i p => sumL ((List.range 1).map fun b' => (oneRow (G b)).get [b', o] * L.poly.basis.call (periodize L.periodicity ((oneRow (X b)).get [b', i])) p)) ho hi hr
      refine Eq.trans ?_ (congrArg (c b * ·) e2).symm
      beta_reduce
      rw [sumL_range, Finset.sum_range_one, scaled_get c G b ho, row_get X b hi]
      ring

theorem ProductLayer.termGrad_congr (L : ProductLayer ℝ) {u v : ℕ → ℕ → ℝ} {b b' : ℕ} (h : ∀ j < L.inFeatures, u b j = v b' j) (o i : ℕ) : L.termGrad u b o i = L.termGrad v b' o i := by
  unfold ProductLayer.termGrad
  congr 2
  refine List.map_congr_left fun j hj => ?_
  rw [h j (List.mem_range.1 (List.mem_filter.1 hj).1)]

theorem biasGrad_rows {B O : ℕ} (G : Fin B → Fin O → ℝ) (c : Fin B → ℝ) {idx : List ℕ} (hi : InShape [O] idx) :
    (biasGrad (ofMat fun b o => c b * G b o)).get idx = ∑ b, c b * (biasGrad (oneRow (G b))).get idx := by
  match idx, hi with
  | [o], hi =>
    have ho := inShape1.1 hi
    have e1 := Tensor.get_tab1 (f := fun o => sumL ((List.range B).map fun b => (ofMat fun b o => c b * G b o).get [b, o])) ho
    refine e1.trans ?_
    rw [sumL_range]
    refine sum_rows fun b => ?_
    have e2 := Tensor.get_tab1 (f := fun o => sumL ((List.range 1).map fun b' => (oneRow (G b)).get [b', o])) ho
    refine Eq.trans ?_ (congrArg (c b * ·) e2).symm
    rw [sumL_range, Finset.sum_range_one, scaled_get c G b ho]

theorem rowWise_product (L : ProductLayer ℝ) (h : L.Fits) : RowWise (.product L) L.inFeatures L.outFeatures := by
  obtain ⟨bias, hb, hbs, hbw⟩ := h.bias
  refine rowWise_of (fun X => ⟨_, L.forward_mat hb h.w_shape X⟩) ?_ ?_ ?_ ?_
  · intro B X Y b Y1 h1 h2
    have e1 := ofMat_inj (Except.ok.inj ((L.forward_mat hb h.w_shape X).symm.trans h1))
    have e2 := ofMat_inj (Except.ok.inj ((L.forward_mat hb h.w_shape fun _ : Fin 1 => X b).symm.trans h2))
    rw [← e1, ← e2]
    rfl
  · exact fun X G => ⟨rfl, Tensor.wf_tab2 _ _ _⟩
  · intro B X G c b i
    have e1 := Tensor.get_tab2 (f := fun b i => sumL ((List.range L.outFeatures).map fun o =>
        (ofMat fun b o => c b * G b o).get [b, o] * L.termGrad (fun b i => periodize L.periodicity ((ofMat X).get [b, i])) b o i * L.weight.get [o, i])
      * periodizeGrad L.periodicity ((ofMat X).get [b, i])) b.2 i.2
    have e2 := Tensor.get_tab2 (f := fun b' i => sumL ((List.range L.outFeatures).map fun o =>
        (oneRow (G b)).get [b', o] * L.termGrad (fun b' i => periodize L.periodicity ((oneRow (X b)).get [b', i])) b' o i * L.weight.get [o, i])
      * periodizeGrad L.periodicity ((oneRow (X b)).get [b', i])) (show 0 < 1 by omega) i.2
    refine e1.trans (Eq.trans ?_ (congrArg (c b * ·) e2).symm)
    beta_reduce
    rw [sumL_range, sumL_range, row_get X b i.2, ← mul_assoc, Finset.mul_sum]
    congr 1
    refine Finset.sum_congr rfl fun o ho => ?_
    rw [scaled_get c G b (Finset.mem_range.1 ho),
      L.termGrad_congr (v := fun b' i => periodize L.periodicity ((oneRow (X b)).get [b', i])) (b' := 0) fun j hj => by rw [row_get X b hj]]
    ring
  · intro B X G c j p hj
    match j with
    | 0 =>
      obtain rfl := Option.some.inj hj
      refine ⟨_, fun b => L.weightGrad (oneRow (X b)) (oneRow (G b)), rfl, h.w_shape.symm, fun b => ⟨rfl, h.w_shape.symm⟩, fun idx hi => ?_⟩
      rw [h.w_shape] at hi
      match idx, hi with
      | [o, i], hi =>
        obtain ⟨ho, hi⟩ := inShape2.1 hi
        have e1 := Tensor.get_tab2 (f := fun o i => sumL ((List.range B).map fun b => (ofMat fun b o => c b * G b o).get [b, o]
          * L.termGrad (fun b i => periodize L.periodicity ((ofMat X).get [b, i])) b o i * periodize L.periodicity ((ofMat X).get [b, i]))) ho hi
        refine e1.trans ?_
        rw [sumL_range]
        refine sum_rows fun b => ?_
        have e2 := Tensor.get_tab2 (f := fun o i => sumL ((List.range 1).map fun b' => (oneRow (G b)).get [b', o]
          * L.termGrad (fun b' i => periodize L.periodicity ((oneRow (X b)).get [b', i])) b' o i * periodize L.periodicity ((oneRow (X b)).get [b', i]))) ho hi
        refine Eq.trans ?_ (congrArg (c b * ·) e2).symm
        beta_reduce
        rw [sumL_range, Finset.sum_range_one, scaled_get c G b ho,
          L.termGrad_congr (v := fun b' i => periodize L.periodicity ((oneRow (X b)).get [b', i])) (b' := 0) fun j hj => by rw [row_get X b hj], row_get X b hi]
        ring
    | 1 =>
      have hj' : p = bias := by
        have := Option.some.inj hj
        rw [hb] at this
        exact this.symm
      subst hj'
      refine ⟨_, fun b => biasGrad (oneRow (G b)), rfl, hbs.symm, fun b => ⟨rfl, hbs.symm⟩, fun idx hi => ?_⟩
      rw [hbs] at hi
      exact biasGrad_rows G c hi
    | _ + 2 => simp [GLayer.params] at hj

theorem rowWise_linear {w bias : Tensor ℝ} {I O : ℕ} (hw : w.shape = [O, I]) (hbs : bias.shape = [O]) : RowWise (.linear w bias) I O := by
  refine rowWise_of (fun X => ⟨_, linear_mat hw X⟩) ?_ ?_ ?_ ?_
  · intro B X Y b Y1 h1 h2
    have e1 := ofMat_inj (Except.ok.inj ((linear_mat (b := bias) hw X).symm.trans h1))
    have e2 := ofMat_inj (Except.ok.inj ((linear_mat (b := bias) hw fun _ : Fin 1 => X b).symm.trans h2))
    rw [← e1, ← e2]
    rfl
  · intro B X G
    show (linearInputGrad w _ _).shape = _ ∧ (linearInputGrad w _ _).WF
    unfold linearInputGrad
    simp only [ofMat_shape, hw]
    exact ⟨rfl, Tensor.wf_tab2 _ _ _⟩
  · intro B X G c b i
    show (linearInputGrad w _ _).get _ = _ * (linearInputGrad w (ofMat _) _).get _
    unfold linearInputGrad
    simp only [ofMat_shape, hw]
    rw [Tensor.get_tab2 b.2 i.2, Tensor.get_tab2 (show 0 < 1 by omega) i.2, sumL_range, sumL_range, Finset.mul_sum]
    refine Finset.sum_congr rfl fun o ho => ?_
    rw [scaled_get c G b (Finset.mem_range.1 ho)]
    ring
  · intro B X G c j p hj
    match j with
    | 0 =>
      obtain rfl := Option.some.inj hj
      have sh : ∀ {B : ℕ} (X : Fin B → Fin I → ℝ) g, (linearWeightGrad w (ofMat X) g) = Tensor.tab2 O I fun r q => sumL ((List.range B).map fun b => g.get [b, r] * (ofMat X).get [b, q]) := by
        intro B X g
        unfold linearWeightGrad
        simp only [ofMat_shape, hw]
      refine ⟨_, fun b => linearWeightGrad w (oneRow (X b)) (oneRow (G b)), rfl, ?_, fun b => ⟨rfl, ?_⟩, fun idx hi => ?_⟩
      · rw [sh, hw]; rfl
      · show (linearWeightGrad w (ofMat fun _ : Fin 1 => X b) (oneRow (G b))).shape = _
        rw [sh, hw]; rfl
      · rw [hw] at hi
        match idx, hi with
        | [o, i], hi =>
          obtain ⟨ho, hi⟩ := inShape2.1 hi
          rw [sh, Tensor.get_tab2 ho hi, sumL_range]
          refine sum_rows fun b => ?_
          have e2 := congrArg (fun t : Tensor ℝ => t.get [o, i]) (sh (fun _ : Fin 1 => X b) (oneRow (G b)))
          beta_reduce at e2
          show _ = c b * (linearWeightGrad w (ofMat fun _ : Fin 1 => X b) (oneRow (G b))).get [o, i]
          rw [e2, Tensor.get_tab2 ho hi, sumL_range,
            Finset.sum_range_one, scaled_get c G b ho, row_get X b hi]
          unfold oneRow
          ring
    | 1 =>
      obtain rfl := Option.some.inj hj
      refine ⟨_, fun b => biasGrad (oneRow (G b)), rfl, hbs.symm, fun b => ⟨rfl, hbs.symm⟩, fun idx hi => ?_⟩
      rw [hbs] at hi
      exact biasGrad_rows G c hi
    | _ + 2 => simp [GLayer.params] at hj

theorem rowWise_relu (I : ℕ) : RowWise .relu I I := by
  refine rowWise_of (fun X => ⟨_, congrArg Except.ok (relu_mat X)⟩) ?_ ?_ ?_ ?_
  · intro B X Y b Y1 h1 h2
    have e1 := ofMat_inj (Except.ok.inj ((congrArg Except.ok (relu_mat X)).symm.trans h1))
    have e2 := ofMat_inj (Except.ok.inj ((congrArg Except.ok (relu_mat fun _ : Fin 1 => X b)).symm.trans h2))
    rw [← e1, ← e2]
    rfl
  · exact fun X G => ⟨rfl, Tensor.wf_tabulate _ _⟩
  · intro B X G c b i
    show (reluGrad _ _).get _ = _ * (reluGrad _ _).get _
    unfold reluGrad
    rw [Tensor.get_tabulate (s := (ofMat X).shape) (inShape2.2 ⟨b.2, i.2⟩), Tensor.get_tabulate (s := (oneRow (X b)).shape) (inShape2.2 ⟨show 0 < 1 by omega, i.2⟩), scaled_get c G b i.2,
      row_get X b i.2]
    split
    · rfl
    · rw [mul_zero]
  · intro B X G c j p hj
    simp [GLayer.params] at hj

theorem GLayer.Fits.rowWise {l : GLayer ℝ} {I O : ℕ} (h : l.Fits I O) : RowWise l I O := by
  cases l with
  | pw L =>
    obtain ⟨hwf, -, -, rfl, rfl⟩ := h
    exact rowWise_pw L hwf
  | fn L =>
    obtain ⟨hf, rfl, rfl⟩ := h
    exact rowWise_fn L hf
  | product L =>
    obtain ⟨hf, rfl, rfl⟩ := h
    exact rowWise_product L hf
  | linear w b =>
    obtain ⟨hws, -, hbs, -⟩ := h
    exact rowWise_linear hws hbs
  | relu =>
    obtain rfl : I = O := h
    exact rowWise_relu I

end HOL
