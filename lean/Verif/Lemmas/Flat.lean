import Verif.Lemmas.Backward
import Verif.Spec.Flat

/-! # Tensors as vectors, gradients of functions of tensors -/

namespace HOL
open TorchScalar Spec

/-- Position of a multi-index. -/
def flatPos (S : List ℕ) (idx : List ℕ) (h : InShape S idx) : Fin (numel S) := ⟨ravel S idx, ravel_lt h⟩

@[simp] theorem ofVec_shape (S : List ℕ) (v : Fin (numel S) → ℝ) : (ofVec S v).shape = S := rfl
theorem ofVec_wf (S : List ℕ) (v : Fin (numel S) → ℝ) : (ofVec S v).WF := Tensor.wf_tabulate _ _

theorem ofVec_get {S : List ℕ} (v : Fin (numel S) → ℝ) {idx : List ℕ} (h : InShape S idx) : (ofVec S v).get idx = v (flatPos S idx h) := by
  unfold ofVec
  rw [Tensor.get_tabulate h, dif_pos (ravel_lt h)]
  rfl

theorem flatPos_unravel {S : List ℕ} (p : Fin (numel S)) : flatPos S (unravel S p) (inShape_unravel p.2) = p := Fin.ext (ravel_unravel p.2)

theorem ofVec_get_unravel {S : List ℕ} (v : Fin (numel S) → ℝ) (p : Fin (numel S)) : (ofVec S v).get (unravel S p) = v p := by
  rw [ofVec_get v (inShape_unravel p.2), flatPos_unravel]

theorem flatPos_eq_iff {S idx : List ℕ} (h : InShape S idx) (p : Fin (numel S)) : flatPos S idx h = p ↔ idx = unravel S p := by
  constructor
  · rintro rfl
    exact (unravel_ravel h).symm
  · rintro rfl
    exact flatPos_unravel p

/-- Every well formed tensor is the vector of its entries. -/
theorem eq_ofVec {S : List ℕ} {t : Tensor ℝ} (hs : t.shape = S) (hw : t.WF) : t = ofVec S fun p => t.get (unravel S p) := by
  refine Tensor.ext_get hw (ofVec_wf _ _) hs fun idx hin => ?_
  rw [hs] at hin
  rw [ofVec_get _ hin]
  show t.get idx = t.get (unravel S (ravel S idx))
  rw [unravel_ravel hin]

theorem tabulate_ofVec (S : List ℕ) (f : List ℕ → ℝ) : Tensor.tabulate S f = ofVec S fun p => f (unravel S p) := by
  rw [eq_ofVec (S := S) rfl (Tensor.wf_tabulate S f)]
  congr 1
  funext p
  exact Tensor.get_tabulate (inShape_unravel p.2)

theorem map_ofVec (S : List ℕ) (f : ℝ → ℝ) (v : Fin (numel S) → ℝ) : (ofVec S v).map f = ofVec S fun p => f (v p) := by
  rw [eq_ofVec (S := S) rfl (Tensor.wf_map (ofVec_wf S v) f)]
  congr 1
  funext p
  have hin : InShape (ofVec S v).shape (unravel S p) := inShape_unravel p.2
  rw [Tensor.get_map (ofVec_wf S v) hin, ofVec_get_unravel]

theorem GradVec.apply {S : List ℕ} {D : (Fin (numel S) → ℝ) →L[ℝ] ℝ} {g : Tensor ℝ} (h : GradVec S D g) (c : Fin (numel S) → ℝ) :
    D c = ∑ p : Fin (numel S), g.get (unravel S p) * c p := by
  have hdec : c = ∑ p, c p • (Pi.single p (1 : ℝ) : Fin (numel S) → ℝ) := by
    funext q
    rw [Finset.sum_apply, Finset.sum_eq_single q]
    · simp
    · intro p _ hne
      simp [Pi.single_eq_of_ne hne.symm]
    · simp
  conv_lhs => rw [hdec]
  rw [map_sum]
  refine Finset.sum_congr rfl fun p _ => ?_
  rw [map_smul, smul_eq_mul, h.2.2 p, mul_comm]

/-- From the derivatives of the entries. -/
theorem Backprop.of_deriv {f : Fwd ℝ} {S T : List ℕ} {F : (Fin (numel S) → ℝ) → Fin (numel T) → ℝ} {X : Fin (numel S) → ℝ} {back : Tensor ℝ → Py (Tensor ℝ)}
    (run : ∀ Y, f (ofVec S Y) = .ok (ofVec T (F Y))) (a : Fin (numel T) → (Fin (numel S) → ℝ) →L[ℝ] ℝ)
    (hF : ∀ m, HasFDerivAt (fun Y => F Y m) (a m) X)
    (hb : ∀ g : Tensor ℝ, g.shape = T → g.WF → ∃ gx, back g = .ok gx ∧ gx.shape = S ∧ gx.WF ∧
      ∀ p : Fin (numel S), gx.get (unravel S p) = ∑ m : Fin (numel T), g.get (unravel T m) * a m (Pi.single p 1)) :
    Backprop f S T F X back where
  run := run
  grad := by
    intro loss D g hD hg
    obtain ⟨gx, e1, e2, ew, e3⟩ := hb g hg.1 hg.2.1
    have hA : HasFDerivAt F (ContinuousLinearMap.pi a) X := hasFDerivAt_pi.2 hF
    refine ⟨D.comp (ContinuousLinearMap.pi a), gx, e1, hD.comp X hA, e2, ew, fun p => ?_⟩
    rw [e3 p, ContinuousLinearMap.comp_apply, hg.apply]
    rfl

theorem Backprop.comp {f h : Fwd ℝ} {S T U : List ℕ} {F : (Fin (numel S) → ℝ) → Fin (numel T) → ℝ} {H : (Fin (numel T) → ℝ) → Fin (numel U) → ℝ}
    {X : Fin (numel S) → ℝ} {b1 b2 : Tensor ℝ → Py (Tensor ℝ)} (h1 : Backprop f S T F X b1) (h2 : Backprop h T U H (F X) b2) :
    Backprop (fun x => f x >>= h) S U (fun Y => H (F Y)) X (fun g => b2 g >>= b1) where
  run Y := by
    show (f (ofVec S Y) >>= h) = _
    rw [h1.run Y]
    exact h2.run (F Y)
  grad loss D g hD hg := by
    obtain ⟨D', gt, e1, e2, e3⟩ := h2.grad loss D g hD hg
    obtain ⟨D'', gx, e4, e5, e6⟩ := h1.grad (fun Z => loss (H Z)) D' gt e2 e3
    refine ⟨D'', gx, ?_, e5, e6⟩
    show (b2 g >>= b1) = _
    rw [e1]
    exact e4

/-- Only the values on vectors of this shape matter. -/
theorem Backprop.congr {f f' : Fwd ℝ} {S T : List ℕ} {F : (Fin (numel S) → ℝ) → Fin (numel T) → ℝ} {X : Fin (numel S) → ℝ} {b b' : Tensor ℝ → Py (Tensor ℝ)}
    (h : Backprop f S T F X b) (hf : ∀ Y, f' (ofVec S Y) = f (ofVec S Y)) (hb : ∀ g, g.shape = T → g.WF → b' g = b g) : Backprop f' S T F X b' where
  run Y := by rw [hf, h.run]
  grad loss D g hD hg := by rw [hb g hg.1 hg.2.1]; exact h.grad loss D g hD hg

/-- A loss along a line of outputs. -/
theorem GradVec.affine {T : List ℕ} {loss : (Fin (numel T) → ℝ) → ℝ} {D : (Fin (numel T) → ℝ) →L[ℝ] ℝ} {Y : Fin (numel T) → ℝ} {g : Tensor ℝ}
    (hD : HasFDerivAt loss D Y) (hg : GradVec T D g) (c : Fin (numel T) → ℝ) (t0 : ℝ) (P : ℝ → Fin (numel T) → ℝ)
    (hP : ∀ t m, P t m = Y m + (t - t0) * c m) :
    HasDerivAt (fun t => loss (P t)) (∑ m : Fin (numel T), g.get (unravel T m) * c m) t0 := by
  have hP' : P = fun t => Y + (t - t0) • c := by
    funext t m
    exact hP t m
  have h1 : HasDerivAt P c t0 := by
    rw [hP']
    have := (((hasDerivAt_id t0).sub_const t0).smul_const c).const_add Y
    rw [one_smul] at this
    exact this
  have h0 : P t0 = Y := by
    rw [hP']
    show Y + (t0 - t0) • c = Y
    rw [sub_self, zero_smul, add_zero]
  rw [← h0] at hD
  have h2 := hD.comp_hasDerivAt t0 h1
  rw [← hg.apply c]
  exact h2

/-! ## entrywise functions -/

/-- Output `m` is a function of input `π m`. -/
theorem pick_deriv {N M : ℕ} (π : Fin M → Fin N) (ψ : Fin M → ℝ → ℝ) (ψ' : Fin M → ℝ) (X : Fin N → ℝ) (h : ∀ m, HasDerivAt (ψ m) (ψ' m) (X (π m))) (m : Fin M) :
    HasFDerivAt (fun Y : Fin N → ℝ => ψ m (Y (π m))) (ψ' m • ContinuousLinearMap.proj (R := ℝ) (φ := fun _ : Fin N => ℝ) (π m)) X :=
  (h m).comp_hasFDerivAt X (ContinuousLinearMap.proj (R := ℝ) (φ := fun _ : Fin N => ℝ) (π m)).hasFDerivAt

theorem pick_apply {N : ℕ} (i : Fin N) (c : ℝ) (p : Fin N) :
    (c • ContinuousLinearMap.proj (R := ℝ) (φ := fun _ : Fin N => ℝ) i) (Pi.single p 1) = if i = p then c else 0 := by
  rw [_root_.smul_apply, ContinuousLinearMap.proj_apply, smul_eq_mul, Pi.single_apply]
  split <;> simp

/-- `x.map f`. -/
theorem backprop_map (S : List ℕ) (f f' : ℝ → ℝ) (X : Fin (numel S) → ℝ) (h : ∀ p, HasDerivAt f (f' (X p)) (X p)) :
    Backprop (fun x => .ok (x.map f)) S S (fun Y p => f (Y p)) X
      (fun g => .ok (Tensor.tabulate S fun idx => g.get idx * f' ((ofVec S X).get idx))) := by
  refine Backprop.of_deriv (fun Y => by rw [map_ofVec]) _ (pick_deriv id (fun _ => f) (fun p => f' (X p)) X h) fun g hg _ => ⟨_, rfl, rfl, Tensor.wf_tabulate _ _, fun p => ?_⟩
  rw [Tensor.get_tabulate (inShape_unravel p.2), ofVec_get_unravel, Finset.sum_eq_single p]
  · beta_reduce
    rw [pick_apply, id_eq, if_pos rfl]
  · intro m _ hne
    beta_reduce
    rw [pick_apply, id_eq, if_neg hne, mul_zero]
  · simp

end HOL
