import Verif.Lemmas.PiecewiseReal
import Verif.Lemmas.Periodic
import Verif.Spec.Layer

/-! # Constructed layers are well formed; layers as functions of rows -/

namespace HOL
open TorchScalar Polynomial Spec

theorem PwLayer.init_wf {K : Type} [TorchScalar K] (cls : PwClass) {n inF outF segments : ℕ}
    (hn : 0 < n) (hi : 0 < inF) (ho : 0 < outF) (hs : 0 < segments) (length : K)
    (rand : ℕ → ℕ → K) (wm : K) (p : Option K) :
    (PwLayer.init cls n inF outF segments length rand wm p).WF :=
  ⟨hn, hs, hi, ho, rfl, Tensor.wf_tabulate _ _⟩

/-- Replace the weights of a layer. -/
def PwLayer.withW {K : Type} (L : PwLayer K) (w : Tensor K) : PwLayer K := { L with w := w }

theorem PwLayer.WF.withW {K : Type} {L : PwLayer K} (h : L.WF) {w : Tensor K}
    (hs : w.shape = L.w.shape) (hw : w.WF) : (L.withW w).WF :=
  ⟨h.n_pos, h.seg_pos, h.in_pos, h.out_pos, hs.trans h.w_shape, hw⟩

theorem PwLayer.WF.noPeriod {K : Type} {L : PwLayer K} (h : L.WF) : L.noPeriod.WF :=
  ⟨h.n_pos, h.seg_pos, h.in_pos, h.out_pos, h.w_shape, h.w_wf⟩

/-- Sum or product of the link values, according to the class of the layer. -/
noncomputable def PwClass.combine (cls : PwClass) (I : ℕ) (f : ℕ → ℝ) : ℝ :=
  match cls with
  | .continuous | .discontinuous => ∑ i ∈ Finset.range I, f i
  | .continuousProd | .discontinuousProd => ∏ i ∈ Finset.range I, (1 + f i) - 1

theorem PwClass.combine_congr (cls : PwClass) {I : ℕ} {f g : ℕ → ℝ} (h : ∀ i < I, f i = g i) :
    cls.combine I f = cls.combine I g := by
  have e1 : ∑ i ∈ Finset.range I, f i = ∑ i ∈ Finset.range I, g i :=
    Finset.sum_congr rfl fun i hi => h i (Finset.mem_range.1 hi)
  have e2 : ∏ i ∈ Finset.range I, (1 + f i) = ∏ i ∈ Finset.range I, (1 + g i) :=
    Finset.prod_congr rfl fun i hi => by rw [h i (Finset.mem_range.1 hi)]
  cases cls <;> simp only [PwClass.combine, e1, e2]

/-- All four classes at once. -/
theorem PwLayer.forward_combine (L : PwLayer ℝ) (h : L.WF) {x : Tensor ℝ} {B : ℕ}
    (hx : x.shape = [B, L.inFeatures]) (hwf : x.WF) :
    L.forward x = .ok (Tensor.tab2 B L.outFeatures fun b o =>
      L.cls.combine L.inFeatures fun i => L.linkFn o i (x.get [b, i])) := by
  cases hc : L.cls
  · simpa [PwClass.combine] using L.forward_sum h (Or.inl hc) hx hwf
  · simpa [PwClass.combine] using L.forward_prod h (Or.inl hc) hx hwf
  · simpa [PwClass.combine] using L.forward_sum h (Or.inr hc) hx hwf
  · simpa [PwClass.combine] using L.forward_prod h (Or.inr hc) hx hwf

theorem PwLayer.computes (L : PwLayer ℝ) (h : L.WF) :
    Computes L.forward L.inFeatures L.outFeatures fun o r =>
      L.cls.combine L.inFeatures fun i => L.linkFn o i (r i) := by
  intro B x hx hwf
  refine ⟨_, L.forward_combine h hx hwf, rfl, Tensor.wf_tabulate _ _, ?_⟩
  intro b hb o ho
  rw [Tensor.get_tab2 hb ho]

theorem Spec.Computes.congr {fwd : Tensor ℝ → Py (Tensor ℝ)} {I O : ℕ} {F G : ℕ → (ℕ → ℝ) → ℝ}
    (h : Computes fwd I O F) (e : ∀ o < O, ∀ r, F o r = G o r) : Computes fwd I O G := by
  intro B x hx hwf
  obtain ⟨out, h1, h2, h3, h4⟩ := h B x hx hwf
  exact ⟨out, h1, h2, h3, fun b hb o ho => by rw [h4 b hb o ho, e o ho]⟩

/-- A continuous function of infinite rows that only depends on the first `I` entries. -/
theorem Spec.ComputesContinuous.of_local {fwd : Tensor ℝ → Py (Tensor ℝ)} {I O : ℕ} {F : ℕ → (ℕ → ℝ) → ℝ} (hF : Computes fwd I O F)
    (hc : ∀ o < O, Continuous (F o)) (hl : ∀ o < O, ∀ r r' : ℕ → ℝ, (∀ i < I, r i = r' i) → F o r = F o r') : ComputesContinuous fwd I O := by
  refine ⟨fun o v => if o < O then F o (fun i => if h : i < I then v ⟨i, h⟩ else 0) else 0, ?_, hF.congr ?_⟩
  · intro o
    by_cases ho : o < O
    · simp only [ho, if_true]
      refine (hc o ho).comp (continuous_pi fun i => ?_)
      by_cases hi : i < I
      · simp only [hi, dif_pos]; exact continuous_apply _
      · simp only [hi, dif_neg, not_false_eq_true]; exact continuous_const
    · simp only [ho, if_false]; exact continuous_const
  · intro o ho r
    simp only [ho, if_true]
    apply hl o ho
    intro i hi
    simp [hi]

/-- Two forward functions computing the same row function agree on every input. -/
theorem Spec.Computes.eq {f g : Tensor ℝ → Py (Tensor ℝ)} {I O : ℕ} {F : ℕ → (ℕ → ℝ) → ℝ}
    (hf : Computes f I O F) (hg : Computes g I O F) {B : ℕ} {x : Tensor ℝ} (hx : x.shape = [B, I])
    (hwf : x.WF) : f x = g x := by
  obtain ⟨o1, h1, h2, h3, h4⟩ := hf B x hx hwf
  obtain ⟨o2, k1, k2, k3, k4⟩ := hg B x hx hwf
  rw [h1, k1]
  congr 1
  apply Tensor.ext_get h3 k3 (h2.trans k2.symm)
  intro idx hidx
  rw [h2] at hidx
  obtain ⟨b, o, rfl, hb, ho⟩ := inShape2_exists hidx
  rw [h4 b hb o ho, k4 b hb o ho]

/-- `Polynomial` layers (and any `Function` with a Lagrange basis). -/
theorem FnLayer.forward_lagrange (L : FnLayer ℝ) {n : ℕ} (hn : 0 < n) (length : ℝ)
    (hp : L.poly = lagrangePolyFlat n length) (hw : L.w.shape = [L.outFeatures, L.inFeatures, n])
    {x : Tensor ℝ} {B : ℕ} (hx : x.shape = [B, L.inFeatures]) (hwf : x.WF) :
    L.forward x = .ok (Tensor.tab2 B L.outFeatures fun b o =>
      ∑ i ∈ Finset.range L.inFeatures,
        (Lagrange.interpolate (Finset.range n) (fun j => length / 2 * node n j)
          fun k => L.w.get [o, i, k]).eval (periodize L.periodicity (x.get [b, i]))) := by
  unfold FnLayer.forward
  rw [hp, lagrangePolyFlat, interpolate_flat hn _ (x := x.map _) hx hw]
  congr 1
  apply tab2_congr
  intro b hb o _
  rw [sumL_flatMap_range, Finset.sum_comm]
  apply Finset.sum_congr rfl
  intro i hi
  rw [Tensor.get_map hwf (by rw [hx]; exact inShape2.2 ⟨hb, Finset.mem_range.1 hi⟩)]
  exact sum_basis_call n length _ _

/-- The weight tensor allocated by `Polynomial(n, ...)` has `n` entries per link. -/
theorem lagrangePolyFlat_numBasis {K : Type} [TorchScalar K] {n : ℕ} (hn : 0 < n) (length : K) :
    (lagrangePolyFlat n length).numBasis = .ok n := by
  have h : (getLagrangeBasis n length).numBasis = some n := by
    unfold getLagrangeBasis
    split
    · subst_vars; rfl
    · rfl
  unfold lagrangePolyFlat Poly.numBasis
  simp only [h]
  cases n with
  | zero => omega
  | succ m => rfl

end HOL
