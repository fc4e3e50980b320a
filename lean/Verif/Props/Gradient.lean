import Verif.Lemmas.Gradient
import Verif.Props.Forward
import Verif.Props.SparseLion
import Mathlib.Analysis.Calculus.Deriv.Prod
import Mathlib.Analysis.Calculus.Deriv.Comp
import Mathlib.Analysis.Calculus.FDeriv.Basic
import Mathlib.Analysis.Calculus.Deriv.Mul
import Mathlib.Analysis.Calculus.Deriv.Add

/-! # C83: weight gradients of piecewise layers and what training leaves alone -/

namespace HOL
open TorchScalar Spec

/-! ## the gradient is the derivative -/

theorem combine_update (L : PwLayer ℝ) {i : ℕ} (hi : i < L.inFeatures) (f g : ℕ → ℝ) (d : ℝ) (hg : ∀ j, g j = if j = i then f j + d else f j) :
    L.cls.combine L.inFeatures g = L.cls.combine L.inFeatures f + d * L.linkFactor f i := by
  have hmem : i ∈ Finset.range L.inFeatures := Finset.mem_range.2 hi
  have hsum : ∑ j ∈ Finset.range L.inFeatures, g j = ∑ j ∈ Finset.range L.inFeatures, f j + d * 1 := by
    rw [← Finset.add_sum_erase _ _ hmem, ← Finset.add_sum_erase _ f hmem, hg i, if_pos rfl,
      Finset.sum_congr rfl fun j hj => by rw [hg j, if_neg (Finset.ne_of_mem_erase hj)]]
    ring
  have hlist : prodL (((List.range L.inFeatures).filter (· ≠ i)).map fun j => 1 + f j) = ∏ j ∈ (Finset.range L.inFeatures).erase i, (1 + f j) := by
    rw [prodL_real, Finset.prod_eq_multiset_prod, ← Finset.filter_ne']
    rfl
  have hprod : ∏ j ∈ Finset.range L.inFeatures, (1 + g j) - 1 = ∏ j ∈ Finset.range L.inFeatures, (1 + f j) - 1
      + d * prodL (((List.range L.inFeatures).filter (· ≠ i)).map fun j => 1 + f j) := by
    rw [hlist, ← Finset.mul_prod_erase _ _ hmem, ← Finset.mul_prod_erase _ (fun j => 1 + f j) hmem, hg i, if_pos rfl,
      Finset.prod_congr rfl fun j hj => by rw [hg j, if_neg (Finset.ne_of_mem_erase hj)]]
    ring
  unfold PwLayer.linkFactor PwClass.combine
  cases hc : L.cls <;> simp only [reduceCtorEq, or_self, or_true, true_or, if_true, if_false]
  · exact hsum
  · exact hprod
  · exact hsum
  · exact hprod

theorem poly_basis (L : PwLayer ℝ) : L.poly.basis = getLagrangeBasis L.n ((2 : ℕ) : ℝ) := by
  unfold PwLayer.poly
  cases L.cls <;> rfl

/-- A gradient entry as a sum over the batch. -/
theorem weightGrad_get (L : PwLayer ℝ) (h : L.WF) {B : ℕ} {x : Tensor ℝ} (hx : x.shape = [B, L.inFeatures]) (hwf : x.WF) (g : Tensor ℝ)
    {o i q : ℕ} (ho : o < L.outFeatures) (hi : i < L.inFeatures) (hq : q < PwLayer.wSize L.cls L.n L.segments) :
    (L.weightGrad x g).get [o, i, q] = ∑ b ∈ Finset.range B,
      (∑ k ∈ Finset.range L.n, if L.seg (x.get [b, i]) * L.stride + k = q then (getLagrangeBasis L.n ((2 : ℕ) : ℝ)).call (L.xIn (x.get [b, i])) k else 0)
        * L.linkFactor (fun j => L.linkFn o j (x.get [b, j])) i * g.get [b, o] := by
  have hlink : ∀ b o' j, sumL ((List.range L.n).map fun k => L.poly.basis.call (L.xLocal (periodize L.periodicity (x.get [b, j])) (L.whichSegment (x.get [b, j]))) k
      * L.w.get [o', j, (L.whichSegment (x.get [b, j])).toNat * L.stride + k]) = L.linkFn o' j (x.get [b, j]) := by
    intro b o' j
    rw [sumL_range, poly_basis]
    exact sum_basis_call_two L.n _ _
  unfold PwLayer.weightGrad
  simp only [hx]
  unfold PwLayer.gatheredGrad
  rw [L.gradW_real h hx hwf _ ho hi hq]
  apply Finset.sum_congr rfl
  intro b hb
  rw [Finset.sum_mul, Finset.sum_mul]
  apply Finset.sum_congr rfl
  intro k hk
  split
  · simp only [hlink]
    rw [poly_basis]
    rfl
  · ring

/-- One entry of the weights changes the output along a line. -/
theorem PwLayer.weight_affine (L : PwLayer ℝ) (h : L.WF) {B : ℕ} {x : Tensor ℝ} (hx : x.shape = [B, L.inFeatures]) (hwf : x.WF)
    {out : Tensor ℝ} (hout : L.forward x = .ok out) {o i q : ℕ} (ho : o < L.outFeatures) (hi : i < L.inFeatures) (hq : q < PwLayer.wSize L.cls L.n L.segments) :
    ∃ outT : ℝ → Tensor ℝ, (∀ t, ({ L with w := L.w.set [o, i, q] t } : PwLayer ℝ).forward x = .ok (outT t)) ∧
      ∀ t, ∀ b : Fin B, ∀ o' : Fin L.outFeatures, (outT t).get [(b : ℕ), (o' : ℕ)] = out.get [(b : ℕ), (o' : ℕ)]
        + (t - L.w.get [o, i, q]) * (if (o' : ℕ) = o then (∑ k ∈ Finset.range L.n, if L.seg (x.get [(b : ℕ), i]) * L.stride + k = q then
          (getLagrangeBasis L.n ((2 : ℕ) : ℝ)).call (L.xIn (x.get [(b : ℕ), i])) k else 0) * L.linkFactor (fun j => L.linkFn o j (x.get [(b : ℕ), j])) i else 0) := by
  have hin : InShape L.w.shape [o, i, q] := by rw [h.w_shape]; exact inShape3.2 ⟨ho, hi, hq⟩
  set φ : ℕ → ℕ → ℝ := fun b k => (getLagrangeBasis L.n ((2 : ℕ) : ℝ)).call (L.xIn (x.get [b, i])) k with hφ
  set c : ℕ → ℝ := fun b => ∑ k ∈ Finset.range L.n, if L.seg (x.get [b, i]) * L.stride + k = q then φ b k else 0 with hc
  set F : ℕ → ℕ → ℝ := fun b o' => L.linkFactor (fun j => L.linkFn o' j (x.get [b, j])) i with hF
  -- the outputs
  have hset : ∀ t, (L.w.set [o, i, q] t).shape = L.w.shape := fun t => rfl
  have hlf : ∀ w' o' j v, (L.withW w').linkFn o' j v
      = ∑ k ∈ Finset.range L.n, (getLagrangeBasis L.n ((2 : ℕ) : ℝ)).call (L.xIn v) k * w'.get [o', j, L.seg v * L.stride + k] :=
    fun w' o' j v => (sum_basis_call_two L.n _ _).symm
  have hstep : ∀ t, ∀ b < B, ∀ o' < L.outFeatures, ∀ j < L.inFeatures, (L.withW (L.w.set [o, i, q] t)).linkFn o' j (x.get [b, j])
      = if o' = o then (if j = i then L.linkFn o' j (x.get [b, j]) + (t - L.w.get [o, i, q]) * c b else L.linkFn o' j (x.get [b, j])) else L.linkFn o' j (x.get [b, j]) := by
    intro t b hb o' ho' j hj
    have h0 : L.linkFn o' j (x.get [b, j]) = (L.withW L.w).linkFn o' j (x.get [b, j]) := rfl
    have hidx : ∀ k < L.n, InShape L.w.shape [o', j, L.seg (x.get [b, j]) * L.stride + k] := by
      intro k hk
      rw [h.w_shape]
      exact inShape3.2 ⟨ho', hj, L.widx_lt h.n_pos (L.seg_lt h.seg_pos _) hk⟩
    have hother : (o', j) ≠ (o, i) → (L.withW (L.w.set [o, i, q] t)).linkFn o' j (x.get [b, j]) = L.linkFn o' j (x.get [b, j]) := by
      intro hne
      rw [h0, hlf, hlf]
      apply Finset.sum_congr rfl
      intro k hk
      rw [Tensor.get_set_ne hin (hidx k (Finset.mem_range.1 hk))]
      intro e
      simp only [List.cons.injEq] at e
      exact hne (by rw [e.1, e.2.1])
    by_cases e1 : o' = o
    · by_cases e2 : j = i
      · subst e1 e2
        rw [if_pos rfl, if_pos rfl, h0, hlf, hlf, hc]
        beta_reduce
        rw [Finset.mul_sum, ← Finset.sum_add_distrib]
        apply Finset.sum_congr rfl
        intro k hk
        by_cases e3 : L.seg (x.get [b, j]) * L.stride + k = q
        · rw [if_pos e3, e3, Tensor.get_set_self h.w_wf hin]
          ring
        · rw [if_neg e3, Tensor.get_set_ne hin (hidx k (Finset.mem_range.1 hk)) (by simp only [ne_eq, List.cons.injEq, true_and, and_true]; exact fun e => e3 e.symm)]
          ring
      · rw [if_pos e1, if_neg e2]
        exact hother (by simp [e2])
    · rw [if_neg e1]
      exact hother (by simp [e1])
  have hout' : out = Tensor.tab2 B L.outFeatures fun b o' => L.cls.combine L.inFeatures fun j => L.linkFn o' j (x.get [b, j]) :=
    Except.ok.inj (hout.symm.trans (L.forward_combine h hx hwf))
  set outT : ℝ → Tensor ℝ := fun t => Tensor.tab2 B L.outFeatures fun b o' => L.cls.combine L.inFeatures fun j => (L.withW (L.w.set [o, i, q] t)).linkFn o' j (x.get [b, j]) with houtT
  refine ⟨outT, fun t => (L.withW (L.w.set [o, i, q] t)).forward_combine (h.withW (hset t) (Tensor.wf_set h.w_wf _ _)) hx hwf, ?_⟩
  · intro t b o'
    show _ = _ + _ * (if _ then c b * F b o else 0)
    rw [houtT, hout']
    beta_reduce
    rw [Tensor.get_tab2 b.2 o'.2, Tensor.get_tab2 b.2 o'.2]
    by_cases e1 : (o' : ℕ) = o
    · rw [if_pos e1, L.cls.combine_congr fun j hj => hstep t b b.2 o' o'.2 j hj]
      rw [combine_update L hi (fun j => L.linkFn o' j (x.get [b, j])) _ ((t - L.w.get [o, i, q]) * c b) (fun j => by rw [if_pos e1]), hF]
      beta_reduce
      rw [e1]
      ring
    · rw [if_neg e1, mul_zero, add_zero]
      apply L.cls.combine_congr
      intro j hj
      rw [hstep t b b.2 o' o'.2 j hj, if_neg e1]

/-- **C83 (the gradient).** For every piecewise layer, every batch and every differentiable loss of the output with gradient `g`, entry `(o, i, q)` of the weight
gradient is the derivative of the loss by that weight. -/
theorem C83_gradient (L : PwLayer ℝ) (h : L.WF) {B : ℕ} {x g : Tensor ℝ} (hx : x.shape = [B, L.inFeatures]) (hwf : x.WF)
    {out : Tensor ℝ} (hout : L.forward x = .ok out)
    (loss : (Fin B → Fin L.outFeatures → ℝ) → ℝ) (D : (Fin B → Fin L.outFeatures → ℝ) →L[ℝ] ℝ)
    (hD : HasFDerivAt loss D fun b o => out.get [(b : ℕ), (o : ℕ)])
    (hg : ∀ (b : Fin B) (o : Fin L.outFeatures), g.get [(b : ℕ), (o : ℕ)] = D (Pi.single b (Pi.single o 1)))
    {o i q : ℕ} (ho : o < L.outFeatures) (hi : i < L.inFeatures) (hq : q < PwLayer.wSize L.cls L.n L.segments) :
    (L.weightGrad x g).shape = L.w.shape ∧
    ∃ outT : ℝ → Tensor ℝ, (∀ t, ({ L with w := L.w.set [o, i, q] t } : PwLayer ℝ).forward x = .ok (outT t)) ∧
      HasDerivAt (fun t => loss fun b o' => (outT t).get [(b : ℕ), (o' : ℕ)]) ((L.weightGrad x g).get [o, i, q]) (L.w.get [o, i, q]) := by
  have hin : InShape L.w.shape [o, i, q] := by rw [h.w_shape]; exact inShape3.2 ⟨ho, hi, hq⟩
  set φ : ℕ → ℕ → ℝ := fun b k => (getLagrangeBasis L.n ((2 : ℕ) : ℝ)).call (L.xIn (x.get [b, i])) k with hφ
  set c : ℕ → ℝ := fun b => ∑ k ∈ Finset.range L.n, if L.seg (x.get [b, i]) * L.stride + k = q then φ b k else 0 with hc
  set F : ℕ → ℕ → ℝ := fun b o' => L.linkFactor (fun j => L.linkFn o' j (x.get [b, j])) i with hF
  have hgrad : (L.weightGrad x g).get [o, i, q] = ∑ b ∈ Finset.range B, c b * F b o * g.get [b, o] := weightGrad_get L h hx hwf g ho hi hq
  have hshape : (L.weightGrad x g).shape = L.w.shape := by
    unfold PwLayer.weightGrad
    simp only [hx]
    exact (L.gradW_shape h hx hwf _).1
  refine ⟨hshape, ?_⟩
  obtain ⟨outT, hrun, hval⟩ := L.weight_affine h hx hwf hout ho hi hq
  refine ⟨outT, hrun, ?_⟩
  have hvec : (fun t => fun (b : Fin B) (o' : Fin L.outFeatures) => (outT t).get [(b : ℕ), (o' : ℕ)])
      = fun t => (fun (b : Fin B) (o' : Fin L.outFeatures) => out.get [(b : ℕ), (o' : ℕ)])
        + (t - L.w.get [o, i, q]) • fun (b : Fin B) (o' : Fin L.outFeatures) => if (o' : ℕ) = o then c b * F b o else 0 := by
    funext t b o'
    exact hval t b o'
  have hderiv : HasDerivAt (fun t => fun (b : Fin B) (o' : Fin L.outFeatures) => (outT t).get [(b : ℕ), (o' : ℕ)])
      (fun (b : Fin B) (o' : Fin L.outFeatures) => if (o' : ℕ) = o then c b * F b o else 0) (L.w.get [o, i, q]) := by
    rw [hvec]
    have := (((hasDerivAt_id (L.w.get [o, i, q])).sub_const (L.w.get [o, i, q])).smul_const
      (fun (b : Fin B) (o' : Fin L.outFeatures) => if (o' : ℕ) = o then c b * F b o else 0)).const_add (fun (b : Fin B) (o' : Fin L.outFeatures) => out.get [(b : ℕ), (o' : ℕ)])
    rw [one_smul] at this
    exact this
  have hat : (fun (b : Fin B) (o' : Fin L.outFeatures) => (outT (L.w.get [o, i, q])).get [(b : ℕ), (o' : ℕ)]) = fun (b : Fin B) (o' : Fin L.outFeatures) => out.get [(b : ℕ), (o' : ℕ)] := by
    funext b o'
    rw [hval, sub_self, zero_mul, add_zero]
  have hcomp := HasFDerivAt.comp_hasDerivAt (L.w.get [o, i, q]) (by rw [hat]; exact hD) hderiv
  have hDv : D (fun (b : Fin B) (o' : Fin L.outFeatures) => if (o' : ℕ) = o then c b * F b o else 0) = (L.weightGrad x g).get [o, i, q] := by
    have hdec : (fun (b : Fin B) (o' : Fin L.outFeatures) => if (o' : ℕ) = o then c b * F b o else 0)
        = ∑ b : Fin B, (c b * F b o) • (Pi.single b (Pi.single (⟨o, ho⟩ : Fin L.outFeatures) (1 : ℝ)) : Fin B → Fin L.outFeatures → ℝ) := by
      funext b o'
      rw [Finset.sum_apply, Finset.sum_apply, Finset.sum_eq_single b]
      · simp only [Pi.smul_apply, Pi.single_eq_same, smul_eq_mul, Pi.single_apply, Fin.ext_iff]
        split <;> simp
      · intro b' _ hne
        simp [Pi.single_eq_of_ne hne.symm]
      · simp
    rw [hdec, map_sum, hgrad, ← Fin.sum_univ_eq_sum_range (fun b => c b * F b o * g.get [b, o])]
    apply Finset.sum_congr rfl
    intro b _
    rw [map_smul, smul_eq_mul, ← hg b ⟨o, ho⟩]
  rw [← hDv]
  exact hcomp


/-! ## what training leaves alone -/

/-- Segments that share no weight: different ones, and for continuous layers not neighbours. -/
def Apart (shared : Bool) (s t : ℤ) : Prop := if shared then s + 2 ≤ t ∨ t + 2 ≤ s else s ≠ t

/-- **C83 (unused weights).** In every arithmetic: entries that no input of the batch uses have gradient 0, whatever is done with the output. -/
theorem C83_unused_weights {K : Type} [TorchScalar K] (L : PwLayer K) (h : L.WF) {B : ℕ} {x : Tensor K} (hx : x.shape = [B, L.inFeatures]) (hwf : x.WF) (u : Tensor K)
    {o i q : ℕ} (ho : o < L.outFeatures) (hi : i < L.inFeatures) (hq : q < PwLayer.wSize L.cls L.n L.segments)
    (hun : ∀ b < B, ∀ k < L.n, L.whichSegment (x.get [b, i]) * (if L.cls.shared then (L.n : ℤ) - 1 else L.n) + k ≠ q) : (L.gradW x u).get [o, i, q] = 0 := by
  refine L.gradW_unused h hx hwf u ho hi hq fun b hb k hk e => hun b hb k hk ?_
  have hst : (if L.cls.shared then (L.n : ℤ) - 1 else L.n) = (L.stride : ℤ) := by
    have := h.n_pos
    unfold PwLayer.stride; split <;> omega
  rw [hst, L.whichSegment_eq_seg h.seg_pos]
  exact_mod_cast e

/-- **C83 (no forgetting).** In every arithmetic (with `0 == 0`): train a piecewise layer with `SparseLion`, from any state of the optimizer (any momentum) and for any number of steps on batches
of any size, with any loss. Wherever all inputs of a batch lie in segments apart from those of the training inputs (feature by feature), the layer computes exactly the same after training as before. -/
theorem C83_no_forgetting {K : Type} [TorchScalar K] (h00 : eqB (0 : K) 0 = true) (L : PwLayer K) (h : L.WF) (hn : L.cls.shared = true → 2 ≤ L.n)
    (s : List (LionGroup K)) (hs : LionWF s) {gi pi : ℕ} {g : LionGroup K} {p : LionParam K} (hg : s[gi]? = some g) (hp : g.params[pi]? = some p) (hpw : p.data = L.w)
    (hist : List (ℕ → ℕ → Option (Tensor K))) (hh : ∀ gr ∈ hist, GradsFit s gr)
    {B' : ℕ} {z : Tensor K} (hz : z.shape = [B', L.inFeatures]) (hzw : z.WF)
    (hgr : ∀ gr ∈ hist, ∀ t, gr gi pi = some t → ∃ (w' : Tensor K) (B : ℕ) (x u : Tensor K), w'.shape = L.w.shape ∧ w'.WF ∧ x.shape = [B, L.inFeatures] ∧ x.WF ∧
      t = ({ L with w := w' } : PwLayer K).gradW x u ∧
      ∀ b < B, ∀ c < B', ∀ i < L.inFeatures, Apart L.cls.shared (L.whichSegment (x.get [b, i])) (L.whichSegment (z.get [c, i]))) :
    ∃ s' g' p', sparseLionRun s hist = .ok s' ∧ s'[gi]? = some g' ∧ g'.params[pi]? = some p' ∧
      ({ L with w := p'.data } : PwLayer K).forward z = L.forward z := by
  obtain ⟨s', h1, h2⟩ := C45_inactive_entries s hs hist hh
  obtain ⟨g', p', a, b, c, d⟩ := h2 gi g hg pi p hp
  have hwf' := sparseLionRun_wf hist s s' hs hh h1 g' (List.mem_of_getElem? a) p' (List.mem_of_getElem? b)
  refine ⟨s', g', p', h1, a, b, ?_⟩
  refine C13_locality L h p'.data (by rw [c, hpw]) hwf'.data hz hzw ?_
  intro c0 hc0 i hi o ho k hk q hq
  have hlt : q < PwLayer.wSize L.cls L.n L.segments := by
    have hst : (if L.cls.shared then (L.n : ℤ) - 1 else L.n) = (L.stride : ℤ) := by
      have := h.n_pos
      unfold PwLayer.stride; split <;> omega
    rw [hst, L.whichSegment_eq_seg h.seg_pos] at hq
    have e : q = L.seg (z.get [c0, i]) * L.stride + k := by exact_mod_cast hq
    rw [e]
    exact L.widx_lt h.n_pos (L.seg_lt h.seg_pos _) hk
  have hin : InShape L.w.shape [o, i, q] := by rw [h.w_shape]; exact inShape3.2 ⟨ho, hi, hlt⟩
  rw [← hpw]
  refine (d [o, i, q] (by rw [hpw]; exact hin) ?_).1
  intro gr hgr' t ht
  obtain ⟨w', B, x, u, e1, e2, e3, e4, rfl, e6⟩ := hgr gr hgr' t ht
  have hz0 : (({ L with w := w' } : PwLayer K).gradW x u).get [o, i, q] = 0 := by
    refine C83_unused_weights (L.withW w') (h.withW e1 e2) e3 e4 u ho hi hlt ?_
    intro b0 hb0 k0 hk0 e
    have hap := e6 b0 hb0 c0 hc0 i hi
    change L.whichSegment (x.get [b0, i]) * (if L.cls.shared then (L.n : ℤ) - 1 else L.n) + k0 = q at e
    rw [hq] at e
    have hk0' : (k0 : ℤ) < L.n := by exact_mod_cast hk0
    have hk' : (k : ℤ) < L.n := by exact_mod_cast hk
    unfold Apart at hap
    generalize L.whichSegment (x.get [b0, i]) = sx at e hap
    generalize L.whichSegment (z.get [c0, i]) = sz at e hap
    by_cases hsh : L.cls.shared = true
    · have hn2 : (2 : ℤ) ≤ L.n := by exact_mod_cast hn hsh
      rw [if_pos hsh] at e hap
      rcases hap with hap | hap
      · have : (sx + 2) * ((L.n : ℤ) - 1) ≤ sz * ((L.n : ℤ) - 1) := mul_le_mul_of_nonneg_right hap (by omega)
        have e' : (sx + 2) * ((L.n : ℤ) - 1) = sx * ((L.n : ℤ) - 1) + 2 * (L.n : ℤ) - 2 := by ring
        omega
      · have : (sz + 2) * ((L.n : ℤ) - 1) ≤ sx * ((L.n : ℤ) - 1) := mul_le_mul_of_nonneg_right hap (by omega)
        have e' : (sz + 2) * ((L.n : ℤ) - 1) = sz * ((L.n : ℤ) - 1) + 2 * (L.n : ℤ) - 2 := by ring
        omega
    · rw [if_neg hsh] at e hap
      rcases lt_or_gt_of_ne hap with hap | hap
      · have : (sx + 1) * (L.n : ℤ) ≤ sz * (L.n : ℤ) := mul_le_mul_of_nonneg_right hap (by omega)
        have e' : (sx + 1) * (L.n : ℤ) = sx * (L.n : ℤ) + L.n := by ring
        omega
      · have : (sz + 1) * (L.n : ℤ) ≤ sx * (L.n : ℤ) := mul_le_mul_of_nonneg_right hap (by omega)
        have e' : (sz + 1) * (L.n : ℤ) = sz * (L.n : ℤ) + L.n := by ring
        omega
  rw [hz0]
  exact h00

/-! ## neighbouring segments -/

/-- A piecewise linear layer with two segments and weights 0. -/
noncomputable def exNb : PwLayer ℝ := PwLayer.init .continuous 2 1 1 2 2 (fun _ _ => 0) 1 none

theorem exNb_wf : exNb.WF := PwLayer.init_wf _ (by norm_num) (by norm_num) (by norm_num) (by norm_num) _ _ _ _

/-- The training input `-1/2`, in segment 0. -/
noncomputable def exNbX : Tensor ℝ := Tensor.tab2 1 1 fun _ _ => -1 / 2

theorem exNb_seg : exNb.seg (-1 / 2) = 0 := by
  obtain ⟨h1, _, _⟩ := C07_segment_correct exNb (by norm_num [exNb, PwLayer.init]) rfl rfl (-1 / 2)
  obtain ⟨s, e, _, _, hu⟩ := h1 (by norm_num) (by norm_num)
  have := hu 0 (by norm_num [exNb, PwLayer.init]) (by norm_num [exNb, PwLayer.init])
  unfold PwLayer.seg
  rw [e, ← this]
  rfl

theorem exNb_grad : (exNb.weightGrad exNbX (Tensor.tab2 1 1 fun _ _ => 1)).get [0, 0, 1] = 1 / 2 := by
  rw [weightGrad_get exNb exNb_wf (B := 1) (x := exNbX) rfl (Tensor.wf_tabulate _ _) _ (by norm_num [exNb, PwLayer.init]) (by norm_num [exNb, PwLayer.init])
    (by norm_num [exNb, PwLayer.init, PwLayer.wSize, PwClass.shared])]
  have hx : exNbX.get [0, 0] = -1 / 2 := Tensor.get_tab2 (by norm_num) (by norm_num)
  have hn : exNb.n = 2 := rfl
  have hst : exNb.stride = 1 := rfl
  have hcall : (getLagrangeBasis 2 ((2 : ℕ) : ℝ)).call 0 1 = 1 / 2 := by
    have h1 := sum_basis_call_two 2 0 fun p => if p = 1 then (1 : ℝ) else 0
    rw [Finset.sum_range_succ, Finset.sum_range_one, if_neg (by norm_num), if_pos rfl] at h1
    have hP : (Polynomial.C (1 / 2) * Polynomial.X + Polynomial.C (1 / 2) : Polynomial ℝ).degree < (2 : ℕ) :=
      lt_of_le_of_lt (Polynomial.degree_linear_le) (by norm_num)
    have h2 := linkPoly_eq_of_degree_lt hP
    have h3 : linkPoly 2 (fun p => if p = 1 then (1 : ℝ) else 0)
        = linkPoly 2 fun j => (Polynomial.C (1 / 2) * Polynomial.X + Polynomial.C (1 / 2) : Polynomial ℝ).eval (node 2 j) := by
      apply linkPoly_congr
      intro j hj
      have hj' : j = 0 ∨ j = 1 := by omega
      rcases hj' with rfl | rfl
      · norm_num [node]
      · norm_num [node]
    rw [h3, h2] at h1
    simpa using h1
  have hxin : exNb.xIn (-1 / 2) = 0 := by
    unfold PwLayer.xIn
    rw [exNb.whichSegment_eq_seg exNb_wf.seg_pos, exNb_seg]
    show exNb.xLocal (-1 / 2) ((0 : ℕ) : ℤ) = 0
    rw [exNb.xLocal_real exNb_wf.seg_pos rfl]
    norm_num [localCoord, exNb, PwLayer.init]
  have hf : ∀ f i, exNb.linkFactor f i = 1 := by
    intro f i
    unfold PwLayer.linkFactor
    rw [if_neg (by simp [exNb, PwLayer.init])]
  rw [Finset.sum_range_one, hx, exNb_seg, hn, hst, Finset.sum_range_succ, Finset.sum_range_one, hxin, hf, Tensor.get_tab2 (by norm_num) (by norm_num)]
  simp only [zero_mul, zero_add, hcall, if_true]
  norm_num

/-- One group with the weights of the layer. -/
noncomputable def exNbState : List (LionGroup ℝ) := [⟨1 / 10, 0, 9 / 10, 99 / 100, [⟨exNb.w, none, none⟩]⟩]

/-- **C83 (neighbours, negative).** Continuous segments share a weight with their neighbours: a step on the input `-1/2` in segment 0 changes the value at `0`, in segment 1, from 0 to `-lr`. -/
theorem C83_neighbours_change :
    exNb.whichSegment (-1 / 2) = 0 ∧ exNb.whichSegment 0 = 1 ∧
    ∃ s' g' p', sparseLionRun exNbState [fun _ _ => some (exNb.weightGrad exNbX (Tensor.tab2 1 1 fun _ _ => 1))] = .ok s' ∧ s'[0]? = some g' ∧ g'.params[0]? = some p' ∧
      ∃ before after, exNb.forward (Tensor.tab2 1 1 fun _ _ => 0) = .ok before ∧ ({ exNb with w := p'.data } : PwLayer ℝ).forward (Tensor.tab2 1 1 fun _ _ => 0) = .ok after ∧
        before.get [0, 0] = 0 ∧ after.get [0, 0] = -(1 / 10) := by
  refine ⟨by rw [exNb.whichSegment_eq_seg exNb_wf.seg_pos, exNb_seg]; rfl, ?_, ?_⟩
  · obtain ⟨h1, _, _⟩ := C07_segment_correct exNb (by norm_num [exNb, PwLayer.init]) rfl rfl 0
    obtain ⟨s, e, _, _, hu⟩ := h1 (by norm_num) (by norm_num)
    have := hu 1 (by norm_num [exNb, PwLayer.init]) (by norm_num [exNb, PwLayer.init])
    rw [e, ← this]
    rfl
  have hshape := exNb.gradW_shape exNb_wf (x := exNbX) (B := 1) rfl (Tensor.wf_tabulate _ _)
  have hs : LionWF exNbState := by
    intro g hg p hp
    simp only [exNbState, List.mem_singleton] at hg
    subst hg
    simp only [List.mem_singleton] at hp
    subst hp
    exact ⟨exNb_wf.w_wf, by simp, by simp⟩
  have hfit : ∀ gr ∈ [fun _ _ => some (exNb.weightGrad exNbX (Tensor.tab2 1 1 fun _ _ => 1))], GradsFit exNbState gr := by
    intro gr hgr gi g hg pi p hp t ht
    rw [List.mem_singleton] at hgr
    subst hgr
    rw [Option.some.injEq] at ht
    have hg' := List.mem_of_getElem? hg
    simp only [exNbState, List.mem_singleton] at hg'
    subst hg'
    have hp' := List.mem_of_getElem? hp
    simp only [List.mem_singleton] at hp'
    subst hp'
    rw [← ht]
    exact ⟨(hshape _).2, (hshape _).1⟩
  obtain ⟨s', h1, h2⟩ := sparseLionRun_entry _ exNbState hs hfit
  obtain ⟨g', p', a, b, c, d⟩ := h2 0 _ rfl 0 _ rfl
  refine ⟨s', g', p', h1, a, b, ?_⟩
  have hpw := sparseLionRun_wf _ exNbState s' hs hfit h1 g' (List.mem_of_getElem? a) p' (List.mem_of_getElem? b)
  have hin : InShape exNb.w.shape [0, 0, 1] := by
    rw [exNb_wf.w_shape]; exact inShape3.2 ⟨by norm_num [exNb, PwLayer.init], by norm_num [exNb, PwLayer.init], by norm_num [exNb, PwLayer.init, PwLayer.wSize, PwClass.shared]⟩
  have hw0 : exNb.w.get [0, 0, 1] = 0 := by
    show (constantRandomInit _ 1 1 3 1).get [0, 0, 1] = 0
    unfold constantRandomInit
    rw [Tensor.get_tab3 (by norm_num) (by norm_num) (by norm_num)]
    norm_num
  have hent := congrArg Prod.fst (d [0, 0, 1] hin)
  simp only [List.map_cons, List.map_nil, List.foldl_cons, List.foldl_nil, gradEntry, Option.map_some, exNb_grad, lionEntry, lionData, LionParam.mom, hw0] at hent
  rw [Tensor.get_tabulate hin] at hent
  have hnode : ∀ i < 1, (Tensor.tab2 1 1 fun _ _ => (0 : ℝ)).get [0, i] = exNb.xGlobal ((chebyshevLobatto exNb.n : Tensor ℝ).get [0]) ((1 : ℕ) : ℤ) := by
    intro i hi
    rw [Tensor.get_tab2 (by norm_num) hi, exNb.xGlobal_real rfl, chebyshev_get (by norm_num [exNb, PwLayer.init])]
    norm_num [segLeft, node, exNb, PwLayer.init]
  obtain ⟨o1, e1, e2⟩ := C10_weights_are_values exNb exNb_wf rfl rfl rfl (by norm_num [exNb, PwLayer.init]) (B := 1) (x := Tensor.tab2 1 1 fun _ _ => 0) rfl (Tensor.wf_tabulate _ _)
    (b := 0) (by norm_num) (fun _ => 1) (fun _ => 0) (by norm_num [exNb, PwLayer.init]) (by norm_num [exNb, PwLayer.init]) hnode
  obtain ⟨o2, e3, e4⟩ := C10_weights_are_values (exNb.withW p'.data) (exNb_wf.withW c hpw.data) rfl rfl rfl (by norm_num [exNb, PwLayer.init, PwLayer.withW]) (B := 1)
    (x := Tensor.tab2 1 1 fun _ _ => 0) rfl (Tensor.wf_tabulate _ _) (b := 0) (by norm_num) (fun _ => 1) (fun _ => 0) (by norm_num [exNb, PwLayer.init, PwLayer.withW])
    (by norm_num [exNb, PwLayer.init, PwLayer.withW]) hnode
  refine ⟨o1, o2, e1, e3, ?_, ?_⟩
  · rw [e2 0 (by norm_num [exNb, PwLayer.init])]
    simpa [exNb, PwLayer.init] using hw0
  · rw [e4 0 (by norm_num [exNb, PwLayer.init, PwLayer.withW])]
    have : p'.data.get [0, 0, 1] = -(1 / 10) := by
      rw [hent, if_neg (by simp), sign_real, Real.sign_of_pos (by norm_num)]
      norm_num
    simpa [exNb, PwLayer.init, PwLayer.withW] using this

/-! ## examples -/

/-- The loss "sum of the outputs" of the layer with two segments: the derivative by the shared weight is `1/2`. -/
example : ∃ outT : ℝ → Tensor ℝ, (∀ t, ({ exNb with w := exNb.w.set [0, 0, 1] t } : PwLayer ℝ).forward exNbX = .ok (outT t)) ∧
    HasDerivAt (fun t => ∑ b : Fin 1, ∑ o : Fin 1, (outT t).get [(b : ℕ), (o : ℕ)]) (1 / 2) (exNb.w.get [0, 0, 1]) := by
  let D : (Fin 1 → Fin 1 → ℝ) →L[ℝ] ℝ := (ContinuousLinearMap.proj (R := ℝ) (φ := fun _ : Fin 1 => ℝ) 0).comp
    (ContinuousLinearMap.proj (R := ℝ) (φ := fun _ : Fin 1 => Fin 1 → ℝ) 0)
  have hD : ∀ v, HasFDerivAt (fun v : Fin 1 → Fin 1 → ℝ => ∑ b : Fin 1, ∑ o : Fin 1, v b o) D v := by
    intro v
    have e : (fun v : Fin 1 → Fin 1 → ℝ => ∑ b : Fin 1, ∑ o : Fin 1, v b o) = fun v => D v := by
      funext v
      simp [D]
    rw [e]
    exact D.hasFDerivAt
  have h := (C83_gradient exNb exNb_wf (B := 1) (x := exNbX) (g := Tensor.tab2 1 1 fun _ _ => 1) rfl (Tensor.wf_tabulate _ _)
    (exNb.forward_combine exNb_wf (B := 1) rfl (Tensor.wf_tabulate _ _)) _ D (hD _) ?_ (o := 0) (i := 0) (q := 1) (by norm_num [exNb, PwLayer.init]) (by norm_num [exNb, PwLayer.init])
    (by norm_num [exNb, PwLayer.init, PwLayer.wSize, PwClass.shared])).2
  · rw [exNb_grad] at h
    exact h
  · intro b o
    have hb : b = 0 := Fin.ext (by omega)
    have ho : o = (0 : Fin 1) := Fin.ext (by have := o.2; change (o : ℕ) < 1 at this; change (o : ℕ) = 0; omega)
    subst hb ho
    rw [show Tensor.get (Tensor.tab2 1 1 fun _ _ => (1 : ℝ)) [((0 : Fin 1) : ℕ), ((0 : Fin 1) : ℕ)] = 1 from Tensor.get_tab2 (by norm_num) (by norm_num)]
    show (1 : ℝ) = (Pi.single (0 : Fin 1) (Pi.single (0 : Fin 1) (1 : ℝ)) : Fin 1 → Fin 1 → ℝ) 0 0
    simp

/-- The state of an optimizer in the middle of a training of `exC`: momentum 1 everywhere. -/
noncomputable def exCState : List (LionGroup ℝ) := [⟨1 / 10, 0, 9 / 10, 99 / 100, [⟨exC.w, none, some (exC.w.map fun _ => 1)⟩]⟩]

/-- Five steps on inputs in the last of four segments leave the values in the first alone. -/
example (u : Tensor ℝ) : ∃ s' g' p', sparseLionRun exCState (List.replicate 5 fun _ _ => some (exC.gradW (Tensor.tab2 3 2 fun _ _ => 9 / 10) u)) = .ok s' ∧
    s'[0]? = some g' ∧ g'.params[0]? = some p' ∧
    ({ exC with w := p'.data } : PwLayer ℝ).forward (Tensor.tab2 1 2 fun _ _ => -9 / 10) = exC.forward (Tensor.tab2 1 2 fun _ _ => -9 / 10) := by
  have hshape := exC.gradW_shape exC_wf (x := Tensor.tab2 3 2 fun _ _ => 9 / 10) (B := 3) rfl (Tensor.wf_tabulate _ _)
  have hlow : exC.whichSegment (-9 / 10) = 0 := by
    obtain ⟨h1, _, _⟩ := C07_segment_correct exC (by norm_num [exC, PwLayer.init]) rfl rfl (-9 / 10)
    obtain ⟨s, e, _, _, hu⟩ := h1 (by norm_num) (by norm_num)
    have := hu 0 (by norm_num [exC, PwLayer.init]) (by norm_num [exC, PwLayer.init])
    rw [e, ← this]; rfl
  have hhigh : exC.whichSegment (9 / 10) = 3 := by
    obtain ⟨h1, _, _⟩ := C07_segment_correct exC (by norm_num [exC, PwLayer.init]) rfl rfl (9 / 10)
    obtain ⟨s, e, _, _, hu⟩ := h1 (by norm_num) (by norm_num)
    have := hu 3 (by norm_num [exC, PwLayer.init]) (by norm_num [exC, PwLayer.init])
    rw [e, ← this]; rfl
  refine C83_no_forgetting (by simp) exC exC_wf (fun _ => by norm_num [exC, PwLayer.init]) exCState ?_ rfl rfl rfl _ ?_ (B' := 1) rfl (Tensor.wf_tabulate _ _) ?_
  · intro g hg p hp
    simp only [exCState, List.mem_singleton] at hg
    subst hg
    simp only [List.mem_singleton] at hp
    subst hp
    refine ⟨exC_wf.w_wf, by simp, ?_⟩
    intro e he
    rw [Option.some.injEq] at he
    subst he
    exact ⟨Tensor.wf_map exC_wf.w_wf _, rfl⟩
  · intro gr hgr gi g hg pi p hp t ht
    rw [List.eq_of_mem_replicate hgr, Option.some.injEq] at ht
    have hg' := List.mem_of_getElem? hg
    simp only [exCState, List.mem_singleton] at hg'
    subst hg'
    have hp' := List.mem_of_getElem? hp
    simp only [List.mem_singleton] at hp'
    subst hp'
    rw [← ht]
    exact ⟨(hshape _).2, (hshape _).1⟩
  · intro gr hgr t ht
    rw [List.eq_of_mem_replicate hgr, Option.some.injEq] at ht
    refine ⟨exC.w, 3, Tensor.tab2 3 2 fun _ _ => 9 / 10, u, rfl, exC_wf.w_wf, rfl, Tensor.wf_tabulate _ _, ht.symm, ?_⟩
    intro b hb c hc i hi
    have hi' : i < 2 := hi
    rw [Tensor.get_tab2 hb hi', Tensor.get_tab2 hc hi', hlow, hhigh]
    exact Or.inr (by norm_num)

end HOL
