import Verif.Model.Backward
import Verif.Props.InputGradient
import Verif.Props.Product

/-! # Lemmas on the backward pass of layers -/

namespace HOL
open TorchScalar Spec Filter Topology

/-- `g` holds the derivatives of a loss by the entries of its argument. -/
def GradOf {B O : ℕ} (D : (Fin B → Fin O → ℝ) →L[ℝ] ℝ) (g : Tensor ℝ) : Prop :=
  g.shape = [B, O] ∧ ∀ (b : Fin B) (o : Fin O), g.get [(b : ℕ), (o : ℕ)] = D (Pi.single b (Pi.single o 1))

/-- The derivative of entry `(b, o)` with coefficients `a i` on the entries of row `b`. -/
noncomputable def rowMap {B I : ℕ} (b : Fin B) (a : Fin I → ℝ) : (Fin B → Fin I → ℝ) →L[ℝ] ℝ :=
  ∑ i : Fin I, a i • (ContinuousLinearMap.proj i).comp (ContinuousLinearMap.proj (R := ℝ) (φ := fun _ : Fin B => Fin I → ℝ) b)

theorem tab2_ofMat {B O : ℕ} (f : ℕ → ℕ → ℝ) : Tensor.tab2 B O f = ofMat fun (b : Fin B) (o : Fin O) => f b o := by
  unfold ofMat
  apply tab2_congr
  intro b hb o ho
  rw [dif_pos ⟨hb, ho⟩]

theorem eq_ofMat {B O : ℕ} {t : Tensor ℝ} (hs : t.shape = [B, O]) (hw : t.WF) : t = ofMat fun (b : Fin B) (o : Fin O) => t.get [(b : ℕ), (o : ℕ)] := by
  refine Tensor.ext_get hw (ofMat_wf _) hs fun idx hin => ?_
  rw [hs] at hin
  obtain ⟨b, o, rfl⟩ : ∃ b o, idx = [b, o] := by
    match idx, hin with
    | [b, o], _ => exact ⟨b, o, rfl⟩
  obtain ⟨hb, ho⟩ := inShape2.1 hin
  exact (ofMat_get (fun (b : Fin B) (o : Fin O) => t.get [(b : ℕ), (o : ℕ)]) ⟨b, hb⟩ ⟨o, ho⟩).symm

/-- From the derivatives of the entries to the gradient of the loss by the inputs. -/
theorem gradOf_entries {B I O : ℕ} (F : (Fin B → Fin I → ℝ) → Fin B → Fin O → ℝ) (X : Fin B → Fin I → ℝ) (a : Fin B → Fin O → Fin I → ℝ)
    (hF : ∀ b o, HasFDerivAt (fun Y => F Y b o) (rowMap b (a b o)) X)
    (loss : (Fin B → Fin O → ℝ) → ℝ) (D : (Fin B → Fin O → ℝ) →L[ℝ] ℝ) (hD : HasFDerivAt loss D (F X)) {g : Tensor ℝ} (hg : GradOf D g)
    {gx : Tensor ℝ} (hs : gx.shape = [B, I]) (hgx : ∀ (b : Fin B) (i : Fin I), gx.get [(b : ℕ), (i : ℕ)] = ∑ o : Fin O, g.get [(b : ℕ), (o : ℕ)] * a b o i) :
    ∃ D' : (Fin B → Fin I → ℝ) →L[ℝ] ℝ, HasFDerivAt (fun Y => loss (F Y)) D' X ∧ GradOf D' gx := by
  obtain ⟨D', h1, h2⟩ := backprop_entries F X Set.univ a (fun b o => (hF b o).hasFDerivWithinAt) loss D hD
  refine ⟨D', hasFDerivWithinAt_univ.1 h1, hs, fun b i => ?_⟩
  rw [hgx, ← h2 b i]
  exact Finset.sum_congr rfl fun o _ => by rw [hg.2 b o]

/-- A loss along a line of outputs. -/
theorem loss_affine {B O : ℕ} (loss : (Fin B → Fin O → ℝ) → ℝ) (D : (Fin B → Fin O → ℝ) →L[ℝ] ℝ) (Y c : Fin B → Fin O → ℝ) (t0 : ℝ) (hD : HasFDerivAt loss D Y)
    (P : ℝ → Fin B → Fin O → ℝ) (hP : ∀ t b o, P t b o = Y b o + (t - t0) * c b o) {g : Tensor ℝ} (hg : GradOf D g) :
    HasDerivAt (fun t => loss (P t)) (∑ b : Fin B, ∑ o : Fin O, c b o * g.get [(b : ℕ), (o : ℕ)]) t0 := by
  have hP' : P = fun t => Y + (t - t0) • c := by
    funext t b o
    exact hP t b o
  have h1 : HasDerivAt P c t0 := by
    rw [hP']
    have := (((hasDerivAt_id t0).sub_const t0).smul_const c).const_add Y
    rw [one_smul] at this
    exact this
  have h0 : P t0 = Y := by
    rw [hP']
    show Y + (t0 - t0) • c = Y
    rw [sub_self, zero_smul, add_zero]
  rw [← h0] at hD
  have h2 := hD.comp_hasDerivAt t0 h1
  have hc : D c = ∑ b : Fin B, ∑ o : Fin O, c b o * g.get [(b : ℕ), (o : ℕ)] := by
    have hdec : c = ∑ b : Fin B, ∑ o : Fin O, c b o • (Pi.single b (Pi.single o (1 : ℝ)) : Fin B → Fin O → ℝ) := by
      funext b' o'
      simp only [Finset.sum_apply, Pi.smul_apply, smul_eq_mul]
      rw [Finset.sum_eq_single b', Finset.sum_eq_single o']
      · simp
      · intro o _ hne
        simp [Pi.single_eq_of_ne hne.symm]
      · simp
      · intro b _ hne
        exact Finset.sum_eq_zero fun o _ => by simp [Pi.single_eq_of_ne hne.symm]
      · simp
    conv_lhs => rw [hdec]
    rw [map_sum]
    refine Finset.sum_congr rfl fun b _ => ?_
    rw [map_sum]
    refine Finset.sum_congr rfl fun o _ => ?_
    rw [map_smul, smul_eq_mul, hg.2 b o]
  rw [← hc]
  exact h2

/-- A parameter that acts on one column of the output. -/
theorem loss_column {B O : ℕ} (loss : (Fin B → Fin O → ℝ) → ℝ) (D : (Fin B → Fin O → ℝ) →L[ℝ] ℝ) (Y : Fin B → Fin O → ℝ) (t0 : ℝ) (hD : HasFDerivAt loss D Y)
    {o : ℕ} (ho : o < O) (e : ℕ → ℝ)
    (P : ℝ → Fin B → Fin O → ℝ) (hP : ∀ t b (o' : Fin O), P t b o' = if (o' : ℕ) = o then Y b o' + (t - t0) * e b else Y b o') {g : Tensor ℝ} (hg : GradOf D g) :
    HasDerivAt (fun t => loss (P t)) (∑ b ∈ Finset.range B, g.get [b, o] * e b) t0 := by
  have key := loss_affine loss D Y (fun b o' => if (o' : ℕ) = o then e b else 0) t0 hD P (fun t b o' => by
    rw [hP]
    split
    · rfl
    · rw [mul_zero, add_zero]) hg
  have hs : ∑ b : Fin B, ∑ o' : Fin O, (if (o' : ℕ) = o then e b else 0) * g.get [(b : ℕ), (o' : ℕ)] = ∑ b ∈ Finset.range B, g.get [b, o] * e b := by
    rw [← Fin.sum_univ_eq_sum_range (fun b => g.get [b, o] * e b)]
    refine Finset.sum_congr rfl fun b _ => ?_
    rw [Finset.sum_eq_single (⟨o, ho⟩ : Fin O)]
    · rw [if_pos rfl, mul_comm]
    · intro o' _ hne
      rw [if_neg fun h => hne (Fin.ext h), zero_mul]
    · simp
  rwa [hs] at key

/-- A function of one entry. -/
theorem entry_deriv {B I : ℕ} (X : Fin B → Fin I → ℝ) (b : Fin B) (i : Fin I) {f : ℝ → ℝ} {m : ℝ} (h : HasDerivAt f m (X b i)) :
    HasFDerivAt (fun Y : Fin B → Fin I → ℝ => f (Y b i))
      (m • (ContinuousLinearMap.proj i).comp (ContinuousLinearMap.proj (R := ℝ) (φ := fun _ : Fin B => Fin I → ℝ) b)) X :=
  h.comp_hasFDerivAt X ((ContinuousLinearMap.proj i).comp (ContinuousLinearMap.proj (R := ℝ) (φ := fun _ : Fin B => Fin I → ℝ) b)).hasFDerivAt

/-- Sums of functions of the entries of a row. -/
theorem sum_deriv {B I : ℕ} (X : Fin B → Fin I → ℝ) (b : Fin B) (f : Fin I → ℝ → ℝ) (m : Fin I → ℝ) (c : ℝ) (h : ∀ i, HasDerivAt (f i) (m i) (X b i)) :
    HasFDerivAt (fun Y : Fin B → Fin I → ℝ => ∑ i, f i (Y b i) + c) (rowMap b m) X :=
  (HasFDerivAt.fun_sum fun i _ => entry_deriv X b i (h i)).add_const c

/-- Products and sums of functions of the entries of a row, as in the product layer. -/
theorem prod_deriv {B I : ℕ} (X : Fin B → Fin I → ℝ) (b : Fin B) (f : Fin I → ℝ → ℝ) (m : Fin I → ℝ) (α c : ℝ) (h : ∀ i, HasDerivAt (f i) (m i) (X b i)) :
    HasFDerivAt (fun Y : Fin B → Fin I → ℝ => ∏ i, (f i (Y b i) + 1) - (1 - α) * ∑ i, f i (Y b i) - 1 + c)
      (rowMap b fun i => (∏ j ∈ Finset.univ.erase i, (f j (X b j) + 1) - (1 - α)) * m i) X := by
  have h1 := HasFDerivAt.finsetProd (u := Finset.univ) fun i _ => (entry_deriv X b i (h i)).add_const (1 : ℝ)
  have h2 := (HasFDerivAt.fun_sum (u := Finset.univ) fun i _ => entry_deriv X b i (h i)).const_mul (1 - α)
  refine (((h1.sub h2).sub_const 1).add_const c).congr_fderiv ?_
  unfold rowMap
  rw [Finset.smul_sum, ← Finset.sum_sub_distrib]
  refine Finset.sum_congr rfl fun i _ => ?_
  rw [smul_smul, smul_smul, ← sub_smul, ← sub_mul]

/-- Inputs off the turning points of the periodic wrap. -/
def OffTurns (p : Option ℝ) (v : ℝ) : Prop := ∀ q, p = some q → ∀ k : ℤ, v ≠ q / 2 + k * q

theorem periodize_deriv {p : Option ℝ} (hp : ∀ q, p = some q → 0 < q) {v : ℝ} (hv : OffTurns p v) : HasDerivAt (periodize p) (periodizeGrad p v) v := by
  cases hpp : p with
  | none => exact hasDerivAt_id v
  | some q => exact makePeriodic_deriv (hp q hpp) (hv q hpp)

/-! ## polynomial and Fourier layers -/

/-- `Polynomial` and `FourierSeries` layers with weights of the right shape. -/
structure FnLayer.Fits (L : FnLayer ℝ) : Prop where
  flat : L.poly.kind = .flat
  n_pos : 0 < L.poly.n
  w_shape : L.w.shape = [L.outFeatures, L.inFeatures, L.poly.n]
  w_wf : L.w.WF
  per : ∀ q, L.periodicity = some q → 0 < q

/-- The outputs as a function of the matrix of inputs. -/
noncomputable def FnLayer.matFn (L : FnLayer ℝ) {B : ℕ} (X : Fin B → Fin L.inFeatures → ℝ) : Fin B → Fin L.outFeatures → ℝ :=
  fun b o => ∑ i : Fin L.inFeatures, ∑ p ∈ Finset.range L.poly.n, L.poly.basis.call (periodize L.periodicity (X b i)) p * L.w.get [(o : ℕ), (i : ℕ), p]

theorem FnLayer.forward_mat (L : FnLayer ℝ) (h : L.Fits) {B : ℕ} (X : Fin B → Fin L.inFeatures → ℝ) : L.forward (ofMat X) = .ok (ofMat (L.matFn X)) := by
  have hp : L.poly = ⟨.flat, L.poly.n, L.poly.basis⟩ := by
    have := h.flat
    cases hq : L.poly
    rw [hq] at this
    simp only at this
    subst this
    rfl
  unfold FnLayer.forward
  rw [hp, interpolate_flat (x := (ofMat X).map _) (B := B) h.n_pos L.poly.basis rfl h.w_shape, tab2_ofMat]
  congr 2
  funext b o
  rw [sumL_flatMap_range, Finset.sum_comm]
  unfold FnLayer.matFn
  rw [← Fin.sum_univ_eq_sum_range (fun i => ∑ p ∈ Finset.range L.poly.n, L.poly.basis.call (((ofMat X).map (periodize L.periodicity)).get [(b : ℕ), i]) p * L.w.get [(o : ℕ), i, p])]
  refine Finset.sum_congr rfl fun i _ => Finset.sum_congr rfl fun p _ => ?_
  rw [Tensor.get_map (ofMat_wf X) (inShape2.2 ⟨b.2, i.2⟩), ofMat_get]

theorem FnLayer.input_deriv (L : FnLayer ℝ) (h : L.Fits) {B : ℕ} (X : Fin B → Fin L.inFeatures → ℝ) (hs : ∀ b i, OffTurns L.periodicity (X b i))
    (loss : (Fin B → Fin L.outFeatures → ℝ) → ℝ) (D : (Fin B → Fin L.outFeatures → ℝ) →L[ℝ] ℝ) (hD : HasFDerivAt loss D (L.matFn X)) {g : Tensor ℝ} (hg : GradOf D g) :
    ∃ D' : (Fin B → Fin L.inFeatures → ℝ) →L[ℝ] ℝ, HasFDerivAt (fun Y => loss (L.matFn Y)) D' X ∧ GradOf D' (L.inputGrad (ofMat X) g) := by
  refine gradOf_entries (fun Y => L.matFn Y) X (fun b o i => (∑ p ∈ Finset.range L.poly.n, L.poly.basis.dcall (periodize L.periodicity (X b i)) p * L.w.get [(o : ℕ), (i : ℕ), p])
    * periodizeGrad L.periodicity (X b i)) (fun b o => ?_) loss D hD hg rfl (fun b i => ?_)
  · have key := sum_deriv X b (fun i v => ∑ p ∈ Finset.range L.poly.n, L.poly.basis.call (periodize L.periodicity v) p * L.w.get [(o : ℕ), (i : ℕ), p])
      (fun i => (∑ p ∈ Finset.range L.poly.n, L.poly.basis.dcall (periodize L.periodicity (X b i)) p * L.w.get [(o : ℕ), (i : ℕ), p]) * periodizeGrad L.periodicity (X b i)) 0
      (fun i => by
        have hper := periodize_deriv h.per (hs b i)
        have hsum : HasDerivAt (fun u => ∑ p ∈ Finset.range L.poly.n, L.poly.basis.call u p * L.w.get [(o : ℕ), (i : ℕ), p])
            (∑ p ∈ Finset.range L.poly.n, L.poly.basis.dcall (periodize L.periodicity (X b i)) p * L.w.get [(o : ℕ), (i : ℕ), p]) (periodize L.periodicity (X b i)) :=
          HasDerivAt.fun_sum fun p _ => (basis_dcall L.poly.basis _ p).mul_const _
        exact hsum.comp (X b i) hper)
    simp only [add_zero] at key
    exact key
  · unfold FnLayer.inputGrad
    simp only [ofMat_shape]
    rw [Tensor.get_tab2 b.2 i.2, sumL_range, Finset.sum_mul, ofMat_get,
      ← Fin.sum_univ_eq_sum_range (fun o => g.get [(b : ℕ), o] * sumL ((List.range L.poly.n).map fun p => L.poly.basis.dcall (periodize L.periodicity (X b i)) p
        * L.w.get [o, (i : ℕ), p]) * periodizeGrad L.periodicity (X b i))]
    refine Finset.sum_congr rfl fun o _ => ?_
    rw [sumL_range, mul_assoc]

theorem FnLayer.Fits.withW {L : FnLayer ℝ} (h : L.Fits) {w : Tensor ℝ} (hs : w.shape = L.w.shape) (hw : w.WF) : ({ L with w := w } : FnLayer ℝ).Fits :=
  ⟨h.flat, h.n_pos, hs.trans h.w_shape, hw, h.per⟩

/-- One entry of the weights changes the output along a line. -/
theorem FnLayer.weight_affine (L : FnLayer ℝ) (h : L.Fits) {B : ℕ} (X : Fin B → Fin L.inFeatures → ℝ) {o i p : ℕ} (hin : InShape L.w.shape [o, i, p]) (hi : i < L.inFeatures)
    (hp : p < L.poly.n) (t : ℝ) (b : Fin B) (o' : Fin L.outFeatures) : ({ L with w := L.w.set [o, i, p] t } : FnLayer ℝ).matFn X b o'
      = if (o' : ℕ) = o then L.matFn X b o' + (t - L.w.get [o, i, p]) * L.poly.basis.call (periodize L.periodicity ((ofMat X).get [(b : ℕ), i])) p else L.matFn X b o' := by
  have hget : ∀ (i' : Fin L.inFeatures), ∀ p' ∈ Finset.range L.poly.n, (L.w.set [o, i, p] t).get [(o' : ℕ), (i' : ℕ), p']
      = L.w.get [(o' : ℕ), (i' : ℕ), p'] + if [(o' : ℕ), (i' : ℕ), p'] = [o, i, p] then t - L.w.get [o, i, p] else 0 := by
    intro i' p' hp'
    by_cases he : [(o' : ℕ), (i' : ℕ), p'] = [o, i, p]
    · rw [if_pos he, he, Tensor.get_set_self h.w_wf hin]
      ring
    · rw [if_neg he, add_zero]
      exact Tensor.get_set_ne hin (by rw [h.w_shape]; exact inShape3.2 ⟨o'.2, i'.2, Finset.mem_range.1 hp'⟩) (Ne.symm he)
  show ∑ i' : Fin L.inFeatures, ∑ p' ∈ Finset.range L.poly.n, L.poly.basis.call (periodize L.periodicity (X b i')) p' * (L.w.set [o, i, p] t).get [(o' : ℕ), (i' : ℕ), p'] = _
  have hsplit : ∑ i' : Fin L.inFeatures, ∑ p' ∈ Finset.range L.poly.n, L.poly.basis.call (periodize L.periodicity (X b i')) p' * (L.w.set [o, i, p] t).get [(o' : ℕ), (i' : ℕ), p']
      = L.matFn X b o' + ∑ i' : Fin L.inFeatures, ∑ p' ∈ Finset.range L.poly.n, L.poly.basis.call (periodize L.periodicity (X b i')) p'
        * (if [(o' : ℕ), (i' : ℕ), p'] = [o, i, p] then t - L.w.get [o, i, p] else 0) := by
    unfold FnLayer.matFn
    rw [← Finset.sum_add_distrib]
    refine Finset.sum_congr rfl fun i' _ => ?_
    rw [← Finset.sum_add_distrib]
    refine Finset.sum_congr rfl fun p' hp' => ?_
    rw [hget i' p' hp', mul_add]
  rw [hsplit]
  by_cases heo : (o' : ℕ) = o
  · rw [if_pos heo]
    congr 1
    rw [Finset.sum_eq_single (⟨i, hi⟩ : Fin L.inFeatures), Finset.sum_eq_single p]
    · rw [if_pos (by rw [heo]), mul_comm]
      have : X b ⟨i, hi⟩ = (ofMat X).get [(b : ℕ), i] := (ofMat_get X b ⟨i, hi⟩).symm
      rw [this]
    · intro p' _ hne
      rw [if_neg (by simp only [List.cons.injEq, and_true, not_and]; intro _ _; exact hne), mul_zero]
    · intro hne
      exact absurd (Finset.mem_range.2 hp) hne
    · intro i' _ hne
      refine Finset.sum_eq_zero fun p' _ => ?_
      rw [if_neg (by simp only [List.cons.injEq, and_true, not_and]; intro _ e; exact absurd (Fin.ext e) hne), mul_zero]
    · simp
  · rw [if_neg heo, Finset.sum_eq_zero, add_zero]
    intro i' _
    refine Finset.sum_eq_zero fun p' _ => ?_
    rw [if_neg (by simp only [List.cons.injEq, not_and]; intro e; exact absurd e heo), mul_zero]

theorem FnLayer.weight_deriv (L : FnLayer ℝ) (h : L.Fits) {B : ℕ} (X : Fin B → Fin L.inFeatures → ℝ)
    (loss : (Fin B → Fin L.outFeatures → ℝ) → ℝ) (D : (Fin B → Fin L.outFeatures → ℝ) →L[ℝ] ℝ) (hD : HasFDerivAt loss D (L.matFn X)) {g : Tensor ℝ} (hg : GradOf D g)
    {idx : List ℕ} (hin : InShape L.w.shape idx) :
    (L.weightGrad (ofMat X) g).shape = L.w.shape ∧
    HasDerivAt (fun t => loss (({ L with w := L.w.set idx t } : FnLayer ℝ).matFn X)) ((L.weightGrad (ofMat X) g).get idx) (L.w.get idx) := by
  have hin' := hin
  rw [h.w_shape] at hin'
  obtain ⟨o, i, p, rfl⟩ : ∃ o i p, idx = [o, i, p] := by
    match idx, hin' with
    | [o, i, p], _ => exact ⟨o, i, p, rfl⟩
  obtain ⟨ho, hi, hp⟩ := inShape3.1 hin'
  refine ⟨h.w_shape.symm, ?_⟩
  have hval : (L.weightGrad (ofMat X) g).get [o, i, p] = ∑ b ∈ Finset.range B, g.get [b, o] * L.poly.basis.call (periodize L.periodicity ((ofMat X).get [b, i])) p := by
    unfold FnLayer.weightGrad
    simp only [ofMat_shape]
    rw [Tensor.get_tab3 ho hi hp, sumL_range]
  rw [hval]
  exact loss_column loss D (L.matFn X) _ hD ho (fun b => L.poly.basis.call (periodize L.periodicity ((ofMat X).get [b, i])) p) _ (fun t b o' => L.weight_affine h X hin hi hp t b o') hg

/-! ## linear layers and relu -/

noncomputable def linearFn (w b : Tensor ℝ) {B I : ℕ} (O : ℕ) (X : Fin B → Fin I → ℝ) : Fin B → Fin O → ℝ :=
  fun s r => ∑ q : Fin I, X s q * w.get [(r : ℕ), (q : ℕ)] + b.get [(r : ℕ)]

theorem linear_mat {w b : Tensor ℝ} {I O : ℕ} (hw : w.shape = [O, I]) {B : ℕ} (X : Fin B → Fin I → ℝ) : linearForward w b (ofMat X) = .ok (ofMat (linearFn w b O X)) := by
  unfold linearForward
  simp only [ofMat_shape, hw]
  rw [if_pos trivial, tab2_ofMat]
  congr 2
  funext s r
  unfold linearFn
  rw [sumL_range, ← Fin.sum_univ_eq_sum_range (fun q => (ofMat X).get [(s : ℕ), q] * w.get [(r : ℕ), q])]
  simp only [ofMat_get]

theorem linear_input_deriv {w b : Tensor ℝ} {I O : ℕ} (hw : w.shape = [O, I]) {B : ℕ} (X : Fin B → Fin I → ℝ)
    (loss : (Fin B → Fin O → ℝ) → ℝ) (D : (Fin B → Fin O → ℝ) →L[ℝ] ℝ) (hD : HasFDerivAt loss D (linearFn w b O X)) {g : Tensor ℝ} (hg : GradOf D g) :
    ∃ D' : (Fin B → Fin I → ℝ) →L[ℝ] ℝ, HasFDerivAt (fun Y => loss (linearFn w b O Y)) D' X ∧ GradOf D' (linearInputGrad w (ofMat X) g) := by
  refine gradOf_entries (fun Y => linearFn w b O Y) X (fun _ o i => w.get [(o : ℕ), (i : ℕ)]) (fun s o => ?_) loss D hD hg ?_ (fun s i => ?_)
  · exact sum_deriv X s (fun i v => v * w.get [(o : ℕ), (i : ℕ)]) _ _ fun i => by
      have := (hasDerivAt_id (X s i)).mul_const (w.get [(o : ℕ), (i : ℕ)])
      rw [one_mul] at this
      exact this
  · unfold linearInputGrad
    simp only [ofMat_shape, hw]
    rfl
  · unfold linearInputGrad
    simp only [ofMat_shape, hw]
    rw [Tensor.get_tab2 s.2 i.2, sumL_range, ← Fin.sum_univ_eq_sum_range (fun r => g.get [(s : ℕ), r] * w.get [r, (i : ℕ)])]

theorem set2_get {w : Tensor ℝ} {I O : ℕ} (hw : w.shape = [O, I]) (hwf : w.WF) {o i : ℕ} (ho : o < O) (hi : i < I) (t : ℝ) {o' i' : ℕ} (ho' : o' < O) (hi' : i' < I) :
    (w.set [o, i] t).get [o', i'] = if o' = o ∧ i' = i then t else w.get [o', i'] := by
  have hin : InShape w.shape [o, i] := by rw [hw]; exact inShape2.2 ⟨ho, hi⟩
  by_cases he : o' = o ∧ i' = i
  · rw [if_pos he, he.1, he.2]
    exact Tensor.get_set_self hwf hin
  · rw [if_neg he]
    refine Tensor.get_set_ne hin (by rw [hw]; exact inShape2.2 ⟨ho', hi'⟩) fun e => he ?_
    simp only [List.cons.injEq, and_true] at e
    exact ⟨e.1.symm, e.2.symm⟩

theorem set1_get {b : Tensor ℝ} {O : ℕ} (hb : b.shape = [O]) (hwf : b.WF) {o : ℕ} (ho : o < O) (t : ℝ) {o' : ℕ} (ho' : o' < O) :
    (b.set [o] t).get [o'] = if o' = o then t else b.get [o'] := by
  have hin : InShape b.shape [o] := by rw [hb]; exact inShape1.2 ho
  by_cases he : o' = o
  · rw [if_pos he, he]
    exact Tensor.get_set_self hwf hin
  · rw [if_neg he]
    refine Tensor.get_set_ne hin (by rw [hb]; exact inShape1.2 ho') fun e => he ?_
    simp only [List.cons.injEq, and_true] at e
    exact e.symm

theorem linear_weight_affine {w b : Tensor ℝ} {I O : ℕ} (hw : w.shape = [O, I]) (hwf : w.WF) {B : ℕ} (X : Fin B → Fin I → ℝ) {o i : ℕ} (ho : o < O) (hi : i < I) (t : ℝ) (s : Fin B) (o' : Fin O) :
    linearFn (w.set [o, i] t) b O X s o' = if (o' : ℕ) = o then linearFn w b O X s o' + (t - w.get [o, i]) * (ofMat X).get [(s : ℕ), i] else linearFn w b O X s o' := by
  have hX : (ofMat X).get [(s : ℕ), i] = X s ⟨i, hi⟩ := ofMat_get X s ⟨i, hi⟩
  unfold linearFn
  rw [hX]
  by_cases heo : (o' : ℕ) = o
  · rw [if_pos heo]
    have : ∀ q : Fin I, X s q * (w.set [o, i] t).get [(o' : ℕ), (q : ℕ)] = X s q * w.get [(o' : ℕ), (q : ℕ)] + if q = ⟨i, hi⟩ then (t - w.get [o, i]) * X s ⟨i, hi⟩ else 0 := by
      intro q
      rw [set2_get hw hwf ho hi t o'.2 q.2]
      by_cases hq : q = ⟨i, hi⟩
      · subst hq
        rw [if_pos ⟨heo, rfl⟩, if_pos rfl, heo]
        ring
      · rw [if_neg (fun e => hq (Fin.ext e.2)), if_neg hq, add_zero]
    rw [Finset.sum_congr rfl fun q _ => this q, Finset.sum_add_distrib, Finset.sum_ite_eq' Finset.univ (⟨i, hi⟩ : Fin I), if_pos (Finset.mem_univ _)]
    ring
  · rw [if_neg heo, Finset.sum_congr rfl fun q _ => by rw [set2_get hw hwf ho hi t o'.2 q.2, if_neg fun e => heo e.1]]

theorem linear_weight_deriv {w b : Tensor ℝ} {I O : ℕ} (hw : w.shape = [O, I]) (hwf : w.WF) {B : ℕ} (X : Fin B → Fin I → ℝ)
    (loss : (Fin B → Fin O → ℝ) → ℝ) (D : (Fin B → Fin O → ℝ) →L[ℝ] ℝ) (hD : HasFDerivAt loss D (linearFn w b O X)) {g : Tensor ℝ} (hg : GradOf D g)
    {idx : List ℕ} (hin : InShape w.shape idx) :
    (linearWeightGrad w (ofMat X) g).shape = w.shape ∧
    HasDerivAt (fun t => loss (linearFn (w.set idx t) b O X)) ((linearWeightGrad w (ofMat X) g).get idx) (w.get idx) := by
  rw [hw] at hin
  obtain ⟨o, i, rfl⟩ : ∃ o i, idx = [o, i] := by
    match idx, hin with
    | [o, i], _ => exact ⟨o, i, rfl⟩
  obtain ⟨ho, hi⟩ := inShape2.1 hin
  have hs : (linearWeightGrad w (ofMat X) g).shape = w.shape := by
    unfold linearWeightGrad
    simp only [ofMat_shape, hw]
    rfl
  refine ⟨hs, ?_⟩
  have hval : (linearWeightGrad w (ofMat X) g).get [o, i] = ∑ s ∈ Finset.range B, g.get [s, o] * (ofMat X).get [s, i] := by
    unfold linearWeightGrad
    simp only [ofMat_shape, hw]
    rw [Tensor.get_tab2 ho hi, sumL_range]
  rw [hval]
  exact loss_column loss D (linearFn w b O X) _ hD ho (fun s => (ofMat X).get [s, i]) _ (fun t s o' => linear_weight_affine hw hwf X ho hi t s o') hg

theorem bias_deriv {bias : Tensor ℝ} {B O : ℕ} (hb : bias.shape = [O]) (hwf : bias.WF) (Z : Fin B → Fin O → ℝ)
    (loss : (Fin B → Fin O → ℝ) → ℝ) (D : (Fin B → Fin O → ℝ) →L[ℝ] ℝ) (hD : HasFDerivAt loss D fun s r => Z s r + bias.get [(r : ℕ)]) {g : Tensor ℝ} (hg : GradOf D g)
    {idx : List ℕ} (hin : InShape bias.shape idx) :
    (biasGrad g).shape = bias.shape ∧
    HasDerivAt (fun t => loss fun s r => Z s r + (bias.set idx t).get [(r : ℕ)]) ((biasGrad g).get idx) (bias.get idx) := by
  rw [hb] at hin
  obtain ⟨o, rfl⟩ : ∃ o, idx = [o] := by
    match idx, hin with
    | [o], _ => exact ⟨o, rfl⟩
  have ho := inShape1.1 hin
  have hs : (biasGrad g).shape = bias.shape := by
    unfold biasGrad
    simp only [hg.1, hb]
    rfl
  refine ⟨hs, ?_⟩
  have hval : (biasGrad g).get [o] = ∑ s ∈ Finset.range B, g.get [s, o] * 1 := by
    unfold biasGrad
    simp only [hg.1]
    rw [Tensor.get_tab1 ho, sumL_range]
    exact Finset.sum_congr rfl fun _ _ => (mul_one _).symm
  rw [hval]
  refine loss_column loss D _ _ hD ho (fun _ => 1) _ (fun t s o' => ?_) hg
  rw [set1_get hb hwf ho t o'.2]
  by_cases heo : (o' : ℕ) = o
  · rw [if_pos heo, if_pos heo, heo]
    ring
  · rw [if_neg heo, if_neg heo]

noncomputable def reluFn {B I : ℕ} (X : Fin B → Fin I → ℝ) : Fin B → Fin I → ℝ := fun b i => if X b i < 0 then 0 else X b i

theorem relu_mat {B I : ℕ} (X : Fin B → Fin I → ℝ) : reluT (ofMat X) = ofMat (reluFn X) := by
  refine Tensor.ext_get (Tensor.wf_map (ofMat_wf X) _) (ofMat_wf _) rfl fun idx hin => ?_
  change InShape [B, I] idx at hin
  obtain ⟨b, i, rfl⟩ : ∃ b i, idx = [b, i] := by
    match idx, hin with
    | [b, i], _ => exact ⟨b, i, rfl⟩
  obtain ⟨hb, hi⟩ := inShape2.1 hin
  unfold reluT
  rw [Tensor.get_map (ofMat_wf X) (inShape2.2 ⟨hb, hi⟩)]
  have e1 := ofMat_get X ⟨b, hb⟩ ⟨i, hi⟩
  have e2 := ofMat_get (reluFn X) ⟨b, hb⟩ ⟨i, hi⟩
  simp only at e1 e2
  rw [e1, e2]
  unfold reluFn
  simp only [ltB_real]

theorem relu_deriv_one {v : ℝ} (hv : v ≠ 0) : HasDerivAt (fun v : ℝ => if v < 0 then 0 else v) (if 0 < v then 1 else 0) v := by
  rcases lt_or_gt_of_ne hv with h | h
  · rw [if_neg (not_lt.2 h.le)]
    have hev : (fun v : ℝ => if v < 0 then 0 else v) =ᶠ[𝓝 v] fun _ => 0 := by
      filter_upwards [eventually_lt_nhds h] with y hy
      rw [if_pos hy]
    exact (hasDerivAt_const v (0 : ℝ)).congr_of_eventuallyEq hev
  · rw [if_pos h]
    have hev : (fun v : ℝ => if v < 0 then 0 else v) =ᶠ[𝓝 v] fun v => v := by
      filter_upwards [eventually_gt_nhds h] with y hy
      rw [if_neg (not_lt.2 hy.le)]
    exact (hasDerivAt_id v).congr_of_eventuallyEq hev

theorem relu_input_deriv {B I : ℕ} (X : Fin B → Fin I → ℝ) (hs : ∀ b i, X b i ≠ 0)
    (loss : (Fin B → Fin I → ℝ) → ℝ) (D : (Fin B → Fin I → ℝ) →L[ℝ] ℝ) (hD : HasFDerivAt loss D (reluFn X)) {g : Tensor ℝ} (hg : GradOf D g) :
    ∃ D' : (Fin B → Fin I → ℝ) →L[ℝ] ℝ, HasFDerivAt (fun Y => loss (reluFn Y)) D' X ∧ GradOf D' (reluGrad (ofMat X) g) := by
  refine gradOf_entries (fun Y => reluFn Y) X (fun b o i => if i = o then (if 0 < X b o then 1 else 0) else 0) (fun b o => ?_) loss D hD hg rfl (fun b i => ?_)
  · have h1 := entry_deriv X b o (relu_deriv_one (hs b o))
    refine h1.congr_fderiv ?_
    unfold rowMap
    rw [Finset.sum_eq_single o]
    · beta_reduce
      rw [if_pos rfl]
    · intro i _ hne
      beta_reduce
      rw [if_neg hne, zero_smul]
    · simp
  · have hin : InShape (ofMat X).shape [(b : ℕ), (i : ℕ)] := inShape2.2 ⟨b.2, i.2⟩
    unfold reluGrad
    rw [Tensor.get_tabulate hin, ofMat_get, Finset.sum_eq_single i]
    · rw [if_pos rfl]
      simp only [ltB_real]
      split <;> simp
    · intro o _ hne
      rw [if_neg hne.symm, mul_zero]
    · simp

/-! ## product layers -/

/-- `Product` layers with weights of the right shape and a bias. -/
structure ProductLayer.Fits (L : ProductLayer ℝ) : Prop where
  w_shape : L.weight.shape = [L.outFeatures, L.inFeatures]
  w_wf : L.weight.WF
  bias : ∃ b, L.bias = some b ∧ b.shape = [L.outFeatures] ∧ b.WF
  per : ∀ q, L.periodicity = some q → 0 < q

/-- The terms `x[b, i] * weight[o, i]`. -/
noncomputable def ProductLayer.term (L : ProductLayer ℝ) {B : ℕ} (X : Fin B → Fin L.inFeatures → ℝ) (b : Fin B) (o : ℕ) (i : Fin L.inFeatures) : ℝ :=
  periodize L.periodicity (X b i) * L.weight.get [o, (i : ℕ)]

/-- The outputs without bias as a function of the matrix of inputs. -/
noncomputable def ProductLayer.matFn (L : ProductLayer ℝ) {B : ℕ} (X : Fin B → Fin L.inFeatures → ℝ) : Fin B → Fin L.outFeatures → ℝ :=
  fun b o => ∏ i, (L.term X b o i + 1) - (1 - L.alpha) * ∑ i, L.term X b o i - 1

theorem ProductLayer.forward_mat (L : ProductLayer ℝ) {bias : Tensor ℝ} (hb : L.bias = some bias) (hw : L.weight.shape = [L.outFeatures, L.inFeatures]) {B : ℕ}
    (X : Fin B → Fin L.inFeatures → ℝ) : L.forward (ofMat X) = .ok (ofMat fun b o => L.matFn X b o + bias.get [(o : ℕ)]) := by
  rw [L.forward_eq bias hb hw (B := B) rfl (ofMat_wf X), tab2_ofMat]
  congr 2
  funext b o
  rw [sumL_range, prodL_range, ← Fin.sum_univ_eq_sum_range (fun q => periodize L.periodicity ((ofMat X).get [(b : ℕ), q]) * L.weight.get [(o : ℕ), q]),
    ← Fin.prod_univ_eq_prod_range (fun q => periodize L.periodicity ((ofMat X).get [(b : ℕ), q]) * L.weight.get [(o : ℕ), q] + 1)]
  simp only [ofMat_get]
  rfl

theorem ProductLayer.termGrad_eq (L : ProductLayer ℝ) {B : ℕ} (X : Fin B → Fin L.inFeatures → ℝ) (b : Fin B) (o : ℕ) (i : Fin L.inFeatures) :
    L.termGrad (fun b i => periodize L.periodicity ((ofMat X).get [b, i])) b o i = ∏ j ∈ Finset.univ.erase i, (L.term X b o j + 1) - (1 - L.alpha) := by
  unfold ProductLayer.termGrad
  rw [prodL_erase]
  congr 1
  symm
  apply Finset.prod_bij (fun (j : Fin L.inFeatures) _ => (j : ℕ))
  · intro j hj
    rw [Finset.mem_erase] at hj ⊢
    exact ⟨fun e => hj.1 (Fin.ext e), Finset.mem_range.2 j.2⟩
  · intro j _ j' _ e
    exact Fin.ext e
  · intro j hj
    rw [Finset.mem_erase, Finset.mem_range] at hj
    exact ⟨⟨j, hj.2⟩, Finset.mem_erase.2 ⟨fun e => hj.1 (by rw [← e]), Finset.mem_univ _⟩, rfl⟩
  · intro j _
    beta_reduce
    rw [ofMat_get]
    rfl

theorem ProductLayer.input_deriv (L : ProductLayer ℝ) (h : L.Fits) (bias : Tensor ℝ) {B : ℕ} (X : Fin B → Fin L.inFeatures → ℝ) (hs : ∀ b i, OffTurns L.periodicity (X b i))
    (loss : (Fin B → Fin L.outFeatures → ℝ) → ℝ) (D : (Fin B → Fin L.outFeatures → ℝ) →L[ℝ] ℝ)
    (hD : HasFDerivAt loss D fun b o => L.matFn X b o + bias.get [(o : ℕ)]) {g : Tensor ℝ} (hg : GradOf D g) :
    ∃ D' : (Fin B → Fin L.inFeatures → ℝ) →L[ℝ] ℝ, HasFDerivAt (fun Y => loss fun b o => L.matFn Y b o + bias.get [(o : ℕ)]) D' X ∧ GradOf D' (L.inputGrad (ofMat X) g) := by
  refine gradOf_entries (fun Y b o => L.matFn Y b o + bias.get [(o : ℕ)]) X
    (fun b o i => (∏ j ∈ Finset.univ.erase i, (L.term X b o j + 1) - (1 - L.alpha)) * (periodizeGrad L.periodicity (X b i) * L.weight.get [(o : ℕ), (i : ℕ)]))
    (fun b o => ?_) loss D hD hg rfl (fun b i => ?_)
  · exact prod_deriv X b (fun i v => periodize L.periodicity v * L.weight.get [(o : ℕ), (i : ℕ)]) _ L.alpha (bias.get [(o : ℕ)])
      fun i => (periodize_deriv h.per (hs b i)).mul_const _
  · unfold ProductLayer.inputGrad
    simp only [ofMat_shape]
    rw [Tensor.get_tab2 b.2 i.2, sumL_range, Finset.sum_mul, ofMat_get,
      ← Fin.sum_univ_eq_sum_range (fun o => g.get [(b : ℕ), o] * L.termGrad (fun b i => periodize L.periodicity ((ofMat X).get [b, i])) b o i
        * L.weight.get [o, (i : ℕ)] * periodizeGrad L.periodicity (X b i))]
    refine Finset.sum_congr rfl fun o _ => ?_
    rw [L.termGrad_eq]
    ring

theorem ProductLayer.weight_affine (L : ProductLayer ℝ) (h : L.Fits) (bias : Tensor ℝ) {B : ℕ} (X : Fin B → Fin L.inFeatures → ℝ) {o i : ℕ} (ho : o < L.outFeatures) (hi : i < L.inFeatures)
    {u : ℕ → ℕ → ℝ} (hu : u = fun b i => periodize L.periodicity ((ofMat X).get [b, i])) (t : ℝ) (b : Fin B) (o' : Fin L.outFeatures) :
    ({ L with weight := L.weight.set [o, i] t } : ProductLayer ℝ).matFn X b o' + bias.get [(o' : ℕ)]
      = if (o' : ℕ) = o then L.matFn X b o' + bias.get [(o' : ℕ)] + (t - L.weight.get [o, i]) * (L.termGrad u b o i * u b i) else L.matFn X b o' + bias.get [(o' : ℕ)] := by
  have hub : u b i = periodize L.periodicity (X b ⟨i, hi⟩) := by
    rw [hu]
    beta_reduce
    have e := ofMat_get X b ⟨i, hi⟩
    simp only at e
    rw [e]
  have htg : L.termGrad u b o i = ∏ j ∈ Finset.univ.erase ⟨i, hi⟩, (L.term X b o j + 1) - (1 - L.alpha) := by rw [hu]; exact L.termGrad_eq X b o ⟨i, hi⟩
  rw [htg, hub]
  show (∏ j, (periodize L.periodicity (X b j) * (L.weight.set [o, i] t).get [(o' : ℕ), (j : ℕ)] + 1)
      - (1 - L.alpha) * ∑ j, periodize L.periodicity (X b j) * (L.weight.set [o, i] t).get [(o' : ℕ), (j : ℕ)] - 1) + bias.get [(o' : ℕ)] = _
  by_cases heo : (o' : ℕ) = o
  · rw [if_pos heo]
    have hother : ∀ j ∈ Finset.univ.erase (⟨i, hi⟩ : Fin L.inFeatures), periodize L.periodicity (X b j) * (L.weight.set [o, i] t).get [(o' : ℕ), (j : ℕ)] = L.term X b o j := by
      intro j hj
      rw [set2_get h.w_shape h.w_wf ho hi t o'.2 j.2, if_neg fun e => (Finset.mem_erase.1 hj).1 (Fin.ext e.2), heo]
      rfl
    have hmem := Finset.mem_univ (⟨i, hi⟩ : Fin L.inFeatures)
    unfold ProductLayer.matFn
    rw [← Finset.mul_prod_erase _ _ hmem, ← Finset.add_sum_erase _ _ hmem, ← Finset.mul_prod_erase Finset.univ (fun j => L.term X b o' j + 1) hmem,
      ← Finset.add_sum_erase Finset.univ (fun j => L.term X b o' j) hmem, Finset.prod_congr rfl fun j hj => by rw [hother j hj], Finset.sum_congr rfl fun j hj => hother j hj,
      set2_get h.w_shape h.w_wf ho hi t o'.2 hi, if_pos ⟨heo, rfl⟩, heo]
    have e : L.term X b o ⟨i, hi⟩ = periodize L.periodicity (X b ⟨i, hi⟩) * L.weight.get [o, i] := rfl
    rw [e]
    ring
  · rw [if_neg heo]
    have hother : ∀ j : Fin L.inFeatures, periodize L.periodicity (X b j) * (L.weight.set [o, i] t).get [(o' : ℕ), (j : ℕ)] = L.term X b o' j := by
      intro j
      rw [set2_get h.w_shape h.w_wf ho hi t o'.2 j.2, if_neg fun e => heo e.1]
      rfl
    simp only [hother]
    rfl

theorem ProductLayer.weight_deriv (L : ProductLayer ℝ) (h : L.Fits) (bias : Tensor ℝ) {B : ℕ} (X : Fin B → Fin L.inFeatures → ℝ)
    (loss : (Fin B → Fin L.outFeatures → ℝ) → ℝ) (D : (Fin B → Fin L.outFeatures → ℝ) →L[ℝ] ℝ)
    (hD : HasFDerivAt loss D fun b o => L.matFn X b o + bias.get [(o : ℕ)]) {g : Tensor ℝ} (hg : GradOf D g) {idx : List ℕ} (hin : InShape L.weight.shape idx) :
    (L.weightGrad (ofMat X) g).shape = L.weight.shape ∧
    HasDerivAt (fun t => loss fun b o => ({ L with weight := L.weight.set idx t } : ProductLayer ℝ).matFn X b o + bias.get [(o : ℕ)]) ((L.weightGrad (ofMat X) g).get idx)
      (L.weight.get idx) := by
  rw [h.w_shape] at hin
  obtain ⟨o, i, rfl⟩ : ∃ o i, idx = [o, i] := by
    match idx, hin with
    | [o, i], _ => exact ⟨o, i, rfl⟩
  obtain ⟨ho, hi⟩ := inShape2.1 hin
  refine ⟨h.w_shape.symm, ?_⟩
  set u : ℕ → ℕ → ℝ := fun b i => periodize L.periodicity ((ofMat X).get [b, i]) with hu
  have hval : (L.weightGrad (ofMat X) g).get [o, i] = ∑ b ∈ Finset.range B, g.get [b, o] * (L.termGrad u b o i * u b i) := by
    unfold ProductLayer.weightGrad
    simp only [ofMat_shape]
    rw [Tensor.get_tab2 ho hi, sumL_range]
    exact Finset.sum_congr rfl fun _ _ => mul_assoc _ _ _
  rw [hval]
  exact loss_column loss D _ _ hD ho (fun b => L.termGrad u b o i * u b i) _ (fun t b o' => L.weight_affine h bias X ho hi hu t b o') hg

end HOL
