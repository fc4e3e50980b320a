import Verif.Spec.Shared
import Mathlib.Analysis.Calculus.FDeriv.Prod
import Mathlib.Analysis.Calculus.FDeriv.Mul

/-! # Lemmas for networks with shared modules -/

namespace HOL
open TorchScalar Spec Filter

/-! ## one entry of a parameter acts along a line -/

namespace GLayer

theorem setParam_fits {l : GLayer ℝ} {I O : ℕ} (h : l.Fits I O) {k : ℕ} {p : Tensor ℝ} (hk : l.params[k]? = some p) (idx : List ℕ) (t : ℝ) : (l.setParam k (p.set idx t)).Fits I O := by
  cases l with
  | pw L =>
    obtain ⟨hwf, hl, hp, rfl, rfl⟩ := h
    obtain rfl : p = L.w := by
      match k with
      | 0 => exact (Option.some.inj hk).symm
      | _ + 1 => simp [GLayer.params] at hk
    exact ⟨hwf.withW rfl (Tensor.wf_set hwf.w_wf _ _), hl, hp, rfl, rfl⟩
  | fn L =>
    obtain ⟨hf, rfl, rfl⟩ := h
    obtain rfl : p = L.w := by
      match k with
      | 0 => exact (Option.some.inj hk).symm
      | _ + 1 => simp [GLayer.params] at hk
    exact ⟨hf.withW rfl (Tensor.wf_set hf.w_wf _ _), rfl, rfl⟩
  | product L =>
    obtain ⟨hf, rfl, rfl⟩ := h
    obtain ⟨bias, hb, hbs, hbw⟩ := hf.bias
    match k with
    | 0 =>
      obtain rfl := Option.some.inj hk
      exact ⟨⟨hf.w_shape, Tensor.wf_set hf.w_wf _ _, ⟨bias, hb, hbs, hbw⟩, hf.per⟩, rfl, rfl⟩
    | 1 =>
      have hj' : p = bias := by
        have := Option.some.inj hk
        rw [hb] at this
        exact this.symm
      subst hj'
      exact ⟨⟨hf.w_shape, hf.w_wf, ⟨p.set idx t, rfl, hbs, Tensor.wf_set hbw _ _⟩, hf.per⟩, rfl, rfl⟩
    | _ + 2 => simp [GLayer.params] at hk
  | linear w b =>
    obtain ⟨hws, hww, hbs, hbw⟩ := h
    match k with
    | 0 =>
      obtain rfl := Option.some.inj hk
      exact ⟨hws, Tensor.wf_set hww _ _, hbs, hbw⟩
    | 1 =>
      obtain rfl := Option.some.inj hk
      exact ⟨hws, hww, hbs, Tensor.wf_set hbw _ _⟩
    | _ + 2 => simp [GLayer.params] at hk
  | relu => exact h

theorem setParam_smooth (l : GLayer ℝ) (k : ℕ) (p : Tensor ℝ) (v : ℝ) : (l.setParam k p).SmoothAt v ↔ l.SmoothAt v := by
  cases l with
  | product L => match k with
    | 0 => exact Iff.rfl
    | _ + 1 => exact Iff.rfl
  | linear w b => match k with
    | 0 => exact Iff.rfl
    | _ + 1 => exact Iff.rfl
  | pw L => exact Iff.rfl
  | fn L => exact Iff.rfl
  | relu => exact Iff.rfl

theorem set_get_self {p : Tensor ℝ} (hw : p.WF) {idx : List ℕ} (hin : InShape p.shape idx) : p.set idx (p.get idx) = p := by
  refine Tensor.ext_get (Tensor.wf_set hw _ _) hw rfl fun i hi => ?_
  by_cases h : i = idx
  · rw [h, Tensor.get_set_self hw hin]
  · exact Tensor.get_set_ne hin hi (Ne.symm h)

theorem params_wf {l : GLayer ℝ} {I O : ℕ} (h : l.Fits I O) {k : ℕ} {p : Tensor ℝ} (hk : l.params[k]? = some p) : p.WF := by
  cases l with
  | pw L =>
    match k with
    | 0 => rw [← Option.some.inj hk]; exact h.1.w_wf
    | _ + 1 => simp [GLayer.params] at hk
  | fn L =>
    match k with
    | 0 => rw [← Option.some.inj hk]; exact h.1.w_wf
    | _ + 1 => simp [GLayer.params] at hk
  | product L =>
    obtain ⟨bias, hb, hbs, hbw⟩ := h.1.bias
    match k with
    | 0 => rw [← Option.some.inj hk]; exact h.1.w_wf
    | 1 =>
      rw [← Option.some.inj hk, hb]
      exact hbw
    | _ + 2 => simp [GLayer.params] at hk
  | linear w b =>
    match k with
    | 0 => rw [← Option.some.inj hk]; exact h.2.1
    | 1 => rw [← Option.some.inj hk]; exact h.2.2.2
    | _ + 2 => simp [GLayer.params] at hk
  | relu => simp [GLayer.params] at hk

theorem setParam_self {l : GLayer ℝ} {I O : ℕ} (h : l.Fits I O) {k : ℕ} {p : Tensor ℝ} (hk : l.params[k]? = some p) : l.setParam k p = l := by
  cases l with
  | pw L =>
    match k with
    | 0 => rw [← Option.some.inj hk]; rfl
    | _ + 1 => simp [GLayer.params] at hk
  | fn L =>
    match k with
    | 0 => rw [← Option.some.inj hk]; rfl
    | _ + 1 => simp [GLayer.params] at hk
  | product L =>
    obtain ⟨bias, hb, hbs, hbw⟩ := h.1.bias
    match k with
    | 0 => rw [← Option.some.inj hk]; rfl
    | 1 =>
      rw [← Option.some.inj hk, hb]
      show GLayer.product { L with bias := some bias } = _
      rw [← hb]
    | _ + 2 => simp [GLayer.params] at hk
  | linear w b =>
    match k with
    | 0 => rw [← Option.some.inj hk]; rfl
    | 1 => rw [← Option.some.inj hk]; rfl
    | _ + 2 => simp [GLayer.params] at hk
  | relu => rfl

/-- One entry of a parameter changes the output along a line. -/
theorem affine (l : GLayer ℝ) {I O : ℕ} (h : l.Fits I O) {k : ℕ} {p : Tensor ℝ} {idx : List ℕ} (hk : l.params[k]? = some p) (hin : InShape p.shape idx) {B : ℕ}
    (X : Fin B → Fin I → ℝ) : ∃ U C : Fin B → Fin O → ℝ, ∀ t, (l.setParam k (p.set idx t)).forward (ofMat X) = .ok (ofMat fun b o => U b o + (t - p.get idx) * C b o) := by
  have col : ∀ {U P : Fin B → Fin O → ℝ} {s : ℝ} {o : ℕ} {e : Fin B → ℝ}, (∀ b (o' : Fin O), P b o' = if (o' : ℕ) = o then U b o' + s * e b else U b o') →
      P = fun b (o' : Fin O) => U b o' + s * (if (o' : ℕ) = o then e b else 0) := by
    intro U P s o e h
    funext b o'
    rw [h]
    split
    · rfl
    · rw [mul_zero, add_zero]
  cases l with
  | pw L =>
    obtain ⟨hwf, hl, hp, rfl, rfl⟩ := h
    obtain rfl : p = L.w := by
      match k with
      | 0 => exact (Option.some.inj hk).symm
      | _ + 1 => simp [GLayer.params] at hk
    have hin' := hin
    rw [hwf.w_shape] at hin'
    obtain ⟨o, i, q, rfl, ho, hi, hq⟩ := inShape3_exists hin'
    obtain ⟨outT, h1, h2⟩ := L.weight_affine hwf (x := ofMat X) rfl (ofMat_wf X) (L.forward_mat hwf X) ho hi hq
    obtain ⟨C, hC⟩ : ∃ C : Fin B → Fin L.outFeatures → ℝ, ∀ (t : ℝ) (b : Fin B) (o' : Fin L.outFeatures), (outT t).get [(b : ℕ), (o' : ℕ)]
        = (ofMat (L.matFn X)).get [(b : ℕ), (o' : ℕ)] + (t - L.w.get [o, i, q]) * C b o' := ⟨_, h2⟩
    refine ⟨L.matFn X, C, fun t => ?_⟩
    show ({ L with w := L.w.set [o, i, q] t } : PwLayer ℝ).forward (ofMat X) = _
    have h3 := PwLayer.forward_mat ({ L with w := L.w.set [o, i, q] t } : PwLayer ℝ) (hwf.withW rfl (Tensor.wf_set hwf.w_wf _ _)) X
    have h4 := Except.ok.inj ((h1 t).symm.trans h3)
    rw [h1 t]
    refine congrArg Except.ok ((eq_ofMat (B := B) (O := L.outFeatures) (by rw [h4]; rfl) (by rw [h4]; exact ofMat_wf _)).trans (congrArg ofMat ?_))
    funext b o'
    rw [hC t b o', ofMat_get]
  | fn L =>
    obtain ⟨hf, rfl, rfl⟩ := h
    obtain rfl : p = L.w := by
      match k with
      | 0 => exact (Option.some.inj hk).symm
      | _ + 1 => simp [GLayer.params] at hk
    have hin' := hin
    rw [hf.w_shape] at hin'
    obtain ⟨o, i, q, rfl, ho, hi, hq⟩ := inShape3_exists hin'
    refine ⟨L.matFn X, fun b o' => if (o' : ℕ) = o then L.poly.basis.call (periodize L.periodicity ((ofMat X).get [(b : ℕ), i])) q else 0, fun t => ?_⟩
    rw [← col (fun b o' => L.weight_affine hf X hin hi hq t b o')]
    exact FnLayer.forward_mat ({ L with w := L.w.set [o, i, q] t } : FnLayer ℝ) (hf.withW rfl (Tensor.wf_set hf.w_wf _ _)) X
  | product L =>
    obtain ⟨hf, rfl, rfl⟩ := h
    obtain ⟨bias, hb, hbs, hbw⟩ := hf.bias
    match k with
    | 0 =>
      obtain rfl := Option.some.inj hk
      have hin' := hin
      rw [hf.w_shape] at hin'
      obtain ⟨o, i, rfl, ho, hi⟩ := inShape2_exists hin'
      refine ⟨fun b o => L.matFn X b o + bias.get [(o : ℕ)], fun b o' => if (o' : ℕ) = o then L.termGrad (fun b i => periodize L.periodicity ((ofMat X).get [b, i])) b o i
        * periodize L.periodicity ((ofMat X).get [(b : ℕ), i]) else 0, fun t => ?_⟩
      rw [← col (fun b o' => L.weight_affine hf bias X ho hi rfl t b o')]
      exact ProductLayer.forward_mat ({ L with weight := L.weight.set [o, i] t } : ProductLayer ℝ) hb hf.w_shape X
    | 1 =>
      have hj' : p = bias := by
        have := Option.some.inj hk
        rw [hb] at this
        exact this.symm
      subst hj'
      rw [hbs] at hin
      obtain ⟨c, rfl, hc⟩ := inShape1_exists hin
      refine ⟨fun b o => L.matFn X b o + p.get [(o : ℕ)], fun b o' => if (o' : ℕ) = c then 1 else 0, fun t => ?_⟩
      refine (ProductLayer.forward_mat ({ L with bias := some (p.set [c] t) } : ProductLayer ℝ) rfl hf.w_shape X).trans (congrArg (fun M => Except.ok (ofMat M)) ?_)
      funext b o
      rw [set1_get hbs hbw hc t o.2]
      show L.matFn X b o + _ = _
      beta_reduce
      by_cases h : (o : ℕ) = c
      · rw [if_pos h, if_pos h, h]
        ring
      · rw [if_neg h, if_neg h]
        ring
    | _ + 2 => simp [GLayer.params] at hk
  | linear w b =>
    obtain ⟨hws, hww, hbs, hbw⟩ := h
    match k with
    | 0 =>
      obtain rfl := Option.some.inj hk
      rw [hws] at hin
      obtain ⟨o, i, rfl, ho, hi⟩ := inShape2_exists hin
      refine ⟨linearFn w b O X, fun s o' => if (o' : ℕ) = o then (ofMat X).get [(s : ℕ), i] else 0, fun t => ?_⟩
      rw [← col (fun s o' => linear_weight_affine hws hww X ho hi t s o')]
      exact linear_mat (w := w.set [o, i] t) hws X
    | 1 =>
      obtain rfl := Option.some.inj hk
      rw [hbs] at hin
      obtain ⟨c, rfl, hc⟩ := inShape1_exists hin
      refine ⟨linearFn w b O X, fun s o' => if (o' : ℕ) = c then 1 else 0, fun t => ?_⟩
      refine (linear_mat (b := b.set [c] t) hws X).trans (congrArg (fun M => Except.ok (ofMat M)) ?_)
      funext s o
      unfold linearFn
      rw [set1_get hbs hbw hc t o.2]
      beta_reduce
      by_cases h : (o : ℕ) = c
      · rw [if_pos h, if_pos h, h]
        ring
      · rw [if_neg h, if_neg h]
        ring
    | _ + 2 => simp [GLayer.params] at hk
  | relu => simp [GLayer.params] at hk

end GLayer

/-! ## modules as differentiable functions -/

theorem gradVec_sum {T : List ℕ} {g : Tensor ℝ} (hs : g.shape = T) (hw : g.WF) :
    GradVec T (∑ m : Fin (numel T), g.get (unravel T m) • ContinuousLinearMap.proj (R := ℝ) (φ := fun _ : Fin (numel T) => ℝ) m) g := by
  refine ⟨hs, hw, fun p => ?_⟩
  rw [_root_.sum_apply, Finset.sum_eq_single p]
  · show _ = g.get (unravel T p) • (Pi.single p (1 : ℝ) : Fin (numel T) → ℝ) p
    rw [Pi.single_eq_same, smul_eq_mul, mul_one]
  · intro m _ hne
    show g.get (unravel T m) • (Pi.single p (1 : ℝ) : Fin (numel T) → ℝ) m = 0
    rw [Pi.single_eq_of_ne hne, smul_zero]
  · simp

/-- The backward pass of a module is the transpose of the derivative of its outputs. -/
theorem stage_vec {P : Picks ℝ} (hP : P.Valid) (s : NStage ℝ) {S T : List ℕ} (h : s.Takes S T) (X : Fin (numel S) → ℝ) (hX : s.SmoothIn (ofVec S X)) :
    ∃ (F : (Fin (numel S) → ℝ) → Fin (numel T) → ℝ) (A : (Fin (numel S) → ℝ) →L[ℝ] Fin (numel T) → ℝ), (∀ Y, s.forward (ofVec S Y) = .ok (ofVec T (F Y))) ∧ HasFDerivAt F A X ∧
      ∀ g : Tensor ℝ, g.shape = T → g.WF → ∃ gx gps, s.inputGrad P (ofVec S X) g = .ok gx ∧ s.paramGrads (ofVec S X) g = .ok gps ∧ gx.shape = S ∧ gx.WF ∧
        (∀ p : Fin (numel S), gx.get (unravel S p) = ∑ m : Fin (numel T), g.get (unravel T m) * A (Pi.single p 1) m) ∧
        ∀ k p idx, s.params[k]? = some p → InShape p.shape idx → ∃ (gp : Tensor ℝ) (Q : ℝ → Fin (numel T) → ℝ), gps[k]? = some gp ∧ gp.shape = p.shape ∧
          (∀ t, (s.setParam k (p.set idx t)).forward (ofVec S X) = .ok (ofVec T (Q t))) ∧
          HasDerivAt (fun t => ∑ m : Fin (numel T), g.get (unravel T m) * Q t m) (gp.get idx) (p.get idx) := by
  obtain ⟨F, hF, hB⟩ := stage_modules hP s h X hX
  have hco : ∀ m : Fin (numel T), ∃ a : (Fin (numel S) → ℝ) →L[ℝ] ℝ, HasFDerivAt (fun Y => F Y m) a X := by
    intro m
    obtain ⟨gx, gps, -, -, ⟨D', hD, -⟩, -⟩ := hB (fun Z => Z m) (∑ m' : Fin (numel T), (ofVec T (Pi.single m 1)).get (unravel T m') • ContinuousLinearMap.proj (R := ℝ) (φ := fun _ : Fin (numel T) => ℝ) m')
      (ofVec T (Pi.single m 1)) (by
        have e : (∑ m' : Fin (numel T), (ofVec T (Pi.single m (1 : ℝ))).get (unravel T m') • ContinuousLinearMap.proj (R := ℝ) (φ := fun _ : Fin (numel T) => ℝ) m')
            = ContinuousLinearMap.proj (R := ℝ) (φ := fun _ : Fin (numel T) => ℝ) m := by
          rw [Finset.sum_eq_single m]
          · rw [ofVec_get_unravel, Pi.single_eq_same, one_smul]
          · intro m' _ hne
            rw [ofVec_get_unravel, Pi.single_eq_of_ne hne, zero_smul]
          · simp
        rw [e]
        exact (ContinuousLinearMap.proj (R := ℝ) (φ := fun _ : Fin (numel T) => ℝ) m).hasFDerivAt) (gradVec_sum rfl (ofVec_wf _ _))
    exact ⟨D', hD⟩
  choose a ha using hco
  have hA : HasFDerivAt F (ContinuousLinearMap.pi a) X := hasFDerivAt_pi.2 ha
  refine ⟨F, ContinuousLinearMap.pi a, hF, hA, fun g hgs hgw => ?_⟩
  have hg := gradVec_sum hgs hgw
  obtain ⟨gx, gps, e1, e2, ⟨D', hD, hx1, hx2, hx3⟩, hp⟩ := hB _ _ g (ContinuousLinearMap.hasFDerivAt _) hg
  have hD2 := (ContinuousLinearMap.hasFDerivAt (∑ m : Fin (numel T), g.get (unravel T m) • ContinuousLinearMap.proj (R := ℝ) (φ := fun _ : Fin (numel T) => ℝ) m) (x := F X)).comp X hA
  have hu := hD.unique hD2
  have happ : ∀ v : Fin (numel T) → ℝ, (∑ m : Fin (numel T), g.get (unravel T m) • ContinuousLinearMap.proj (R := ℝ) (φ := fun _ : Fin (numel T) => ℝ) m) v
      = ∑ m : Fin (numel T), g.get (unravel T m) * v m := by
    intro v
    rw [_root_.sum_apply]
    rfl
  refine ⟨gx, gps, e1, e2, hx1, hx2, fun p => ?_, fun k p idx hk hin => ?_⟩
  · rw [hx3 p, hu, ContinuousLinearMap.comp_apply, happ]
  · obtain ⟨gp, Q, q1, q2, q3, q4⟩ := hp k p idx hk hin
    refine ⟨gp, Q, q1, q2, q3, ?_⟩
    simpa only [happ] using q4

/-! ## differentiability in the input and one entry of a parameter -/

/-- A forward function that depends on a number `t`, its joint derivative at `(t0, X)`, and a backward pass that is its transpose: `ctr` reads the derivative by `t` from the contributions. -/
structure Joint (f : ℝ → Fwd ℝ) (S T : List ℕ) (t0 : ℝ) (X : Fin (numel S) → ℝ) (back : Tensor ℝ → Py (Tensor ℝ × List (ℕ × List (Tensor ℝ)))) (ctr : List (ℕ × List (Tensor ℝ)) → ℝ)
    (good : ℕ × List (Tensor ℝ) → Prop) (mods : List ℕ) (Φ : ℝ → (Fin (numel S) → ℝ) → Fin (numel T) → ℝ) (A : (ℝ × (Fin (numel S) → ℝ)) →L[ℝ] Fin (numel T) → ℝ) : Prop where
  run : ∀ t Y, f t (ofVec S Y) = .ok (ofVec T (Φ t Y))
  deriv : HasFDerivAt (fun q : ℝ × (Fin (numel S) → ℝ) => Φ q.1 q.2) A (t0, X)
  back : ∀ g : Tensor ℝ, g.shape = T → g.WF → ∃ gx cs, back g = .ok (gx, cs) ∧ gx.shape = S ∧ gx.WF ∧ cs.map Prod.fst = mods ∧ (∀ c ∈ cs, good c) ∧
    (∀ p : Fin (numel S), gx.get (unravel S p) = ∑ m : Fin (numel T), g.get (unravel T m) * A (0, Pi.single p 1) m) ∧
    ctr cs = ∑ m : Fin (numel T), g.get (unravel T m) * A (1, 0) m

/-- The derivative by one entry that the contributions add up to. -/
noncomputable def ctrOf (m k : ℕ) (idx : List ℕ) (cs : List (ℕ × List (Tensor ℝ))) : ℝ := ((contributions cs m k).map fun g => g.get idx).sum

theorem ctrOf_append (m k : ℕ) (idx : List ℕ) (cs cs' : List (ℕ × List (Tensor ℝ))) : ctrOf m k idx (cs ++ cs') = ctrOf m k idx cs + ctrOf m k idx cs' := by
  unfold ctrOf contributions
  rw [List.filterMap_append, List.map_append, List.sum_append]

theorem zipBcast_vec (f : ℝ → ℝ → ℝ) (T : List ℕ) (u v : Fin (numel T) → ℝ) : zipBcast f (ofVec T u) (ofVec T v) = .ok (ofVec T fun p => f (u p) (v p)) := by
  have key : ∀ idx, InShape T idx → f ((ofVec T u).get idx) ((ofVec T v).get idx) = (ofVec T fun p => f (u p) (v p)).get idx := by
    intro idx hin
    rw [ofVec_get _ hin, ofVec_get _ hin, ofVec_get _ hin]
  have gen : (Except.ok (Tensor.tabulate T fun idx => f ((ofVec T u).get idx) ((ofVec T v).get idx)) : Py (Tensor ℝ)) = .ok (ofVec T fun p => f (u p) (v p)) := by
    refine congrArg Except.ok (Tensor.ext_get (Tensor.wf_tabulate _ _) (ofVec_wf _ _) rfl fun idx hin => ?_)
    rw [Tensor.get_tabulate (s := T) hin]
    exact key idx hin
  match T with
  | [a, b] =>
    rw [zipBcast_same f (B := a) (O := b) rfl rfl]
    refine congrArg Except.ok (Tensor.ext_get (Tensor.wf_tabulate _ _) (ofVec_wf _ _) rfl fun idx hin => ?_)
    obtain ⟨p, q, rfl, hp, hq⟩ := inShape2_exists hin
    rw [Tensor.get_tab2 hp hq]
    exact key _ hin
  | [] => unfold zipBcast; exact (if_pos rfl).trans gen
  | [_] => unfold zipBcast; exact (if_pos rfl).trans gen
  | _ :: _ :: _ :: _ => unfold zipBcast; exact (if_pos rfl).trans gen

section
variable {S T M : List ℕ} {t0 : ℝ} {X : Fin (numel S) → ℝ} {ctr : List (ℕ × List (Tensor ℝ)) → ℝ} {good : ℕ × List (Tensor ℝ) → Prop}

theorem Joint.comp {f h : ℝ → Fwd ℝ} {b1 b2 : Tensor ℝ → Py (Tensor ℝ × List (ℕ × List (Tensor ℝ)))} {m1 m2 : List ℕ} {Φ : ℝ → (Fin (numel S) → ℝ) → Fin (numel M) → ℝ}
    {Ψ : ℝ → (Fin (numel M) → ℝ) → Fin (numel T) → ℝ} {A : (ℝ × (Fin (numel S) → ℝ)) →L[ℝ] Fin (numel M) → ℝ} {C : (ℝ × (Fin (numel M) → ℝ)) →L[ℝ] Fin (numel T) → ℝ}
    (hc : ∀ cs cs', ctr (cs ++ cs') = ctr cs + ctr cs') (h1 : Joint f S M t0 X b1 ctr good m1 Φ A) (h2 : Joint h M T t0 (Φ t0 X) b2 ctr good m2 Ψ C) :
    Joint (fun t x => f t x >>= h t) S T t0 X (fun g => do
      let rb ← b2 g
      let ra ← b1 rb.1
      .ok (ra.1, ra.2 ++ rb.2)) ctr good (m1 ++ m2) (fun t Y => Ψ t (Φ t Y)) (C.comp ((ContinuousLinearMap.fst ℝ ℝ (Fin (numel S) → ℝ)).prod A)) where
  run t Y := by
    show (f t (ofVec S Y) >>= h t) = _
    rw [h1.run]
    exact h2.run t _
  deriv := by
    have hp : HasFDerivAt (fun q : ℝ × (Fin (numel S) → ℝ) => (q.1, Φ q.1 q.2)) ((ContinuousLinearMap.fst ℝ ℝ (Fin (numel S) → ℝ)).prod A) (t0, X) :=
      (ContinuousLinearMap.fst ℝ ℝ (Fin (numel S) → ℝ)).hasFDerivAt.prodMk h1.deriv
    exact HasFDerivAt.comp (g := fun q : ℝ × (Fin (numel M) → ℝ) => Ψ q.1 q.2) (t0, X) h2.deriv hp
  back g hs hw := by
    obtain ⟨gy, cb, e1, s1, w1, f1, o1, x1, k1⟩ := h2.back g hs hw
    obtain ⟨gx, ca, e2, s2, w2, f2, o2, x2, k2⟩ := h1.back gy s1 w1
    refine ⟨gx, ca ++ cb, ?_, s2, w2, by rw [List.map_append, f1, f2], fun c hc => (List.mem_append.1 hc).elim (o2 c) (o1 c), ?_, ?_⟩
    · show (b2 g >>= fun rb => b1 rb.1 >>= fun ra => Except.ok (ra.1, ra.2 ++ rb.2)) = _
      rw [e1]
      show (b1 gy >>= fun ra => Except.ok (ra.1, ra.2 ++ cb)) = _
      rw [e2]
      rfl
    all_goals
      have hlin : ∀ v : Fin (numel M) → ℝ, ∑ m : Fin (numel M), gy.get (unravel M m) * v m = ∑ r : Fin (numel T), g.get (unravel T r) * C (0, v) r := by
        intro v
        have hv : ((0 : ℝ), v) = ∑ m : Fin (numel M), v m • ((0 : ℝ), (Pi.single m (1 : ℝ) : Fin (numel M) → ℝ)) := by
          refine Prod.ext ?_ ?_
          · rw [Prod.fst_sum]
            simp
          · rw [Prod.snd_sum]
            funext m
            rw [Finset.sum_apply, Finset.sum_eq_single m]
            · simp
            · intro m' _ hne
              simp [Pi.single_eq_of_ne hne.symm]
            · simp
        rw [hv, map_sum]
        simp only [map_smul, Finset.sum_apply, Pi.smul_apply, smul_eq_mul, Finset.mul_sum]
        rw [Finset.sum_comm]
        refine Finset.sum_congr rfl fun m _ => ?_
        rw [x1 m, Finset.sum_mul]
        exact Finset.sum_congr rfl fun r _ => by ring
    · intro p
      rw [x2 p, hlin]
      rfl
    · rw [hc, k1, k2, hlin, ← Finset.sum_add_distrib]
      refine Finset.sum_congr rfl fun r _ => ?_
      rw [← mul_add]
      have : ((C.comp ((ContinuousLinearMap.fst ℝ ℝ (Fin (numel S) → ℝ)).prod A)) (1, 0)) = C (0, A (1, 0)) + C (1, 0) := by
        rw [← map_add]
        show C (1, A (1, 0)) = _
        simp
      rw [this]
      rfl

theorem addT_get {S : List ℕ} {a b : Tensor ℝ} (ha : a.shape = S) (p : Fin (numel S)) : (addT a b).get (unravel S p) = a.get (unravel S p) + b.get (unravel S p) := by
  unfold addT
  rw [Tensor.get_tabulate (by rw [ha]; exact inShape_unravel p.2)]

theorem mulT_get {S : List ℕ} {a b : Tensor ℝ} (ha : a.shape = S) (p : Fin (numel S)) : (mulT a b).get (unravel S p) = a.get (unravel S p) * b.get (unravel S p) := by
  unfold mulT
  rw [Tensor.get_tabulate (by rw [ha]; exact inShape_unravel p.2)]

theorem Joint.add {f h : ℝ → Fwd ℝ} {b1 b2 : Tensor ℝ → Py (Tensor ℝ × List (ℕ × List (Tensor ℝ)))} {m1 m2 : List ℕ} {Φ Ψ : ℝ → (Fin (numel S) → ℝ) → Fin (numel T) → ℝ}
    {A C : (ℝ × (Fin (numel S) → ℝ)) →L[ℝ] Fin (numel T) → ℝ}
    (hc : ∀ cs cs', ctr (cs ++ cs') = ctr cs + ctr cs') (h1 : Joint f S T t0 X b1 ctr good m1 Φ A) (h2 : Joint h S T t0 X b2 ctr good m2 Ψ C) :
    Joint (fun t x => do
      let u ← f t x
      let v ← h t x
      zipBcast (· + ·) u v) S T t0 X (fun g => do
      let ra ← b1 g
      let rb ← b2 g
      .ok (addT ra.1 rb.1, ra.2 ++ rb.2)) ctr good (m1 ++ m2) (fun t Y p => Φ t Y p + Ψ t Y p) (A + C) where
  run t Y := by
    show (f t (ofVec S Y) >>= fun u => h t (ofVec S Y) >>= fun v => zipBcast (· + ·) u v) = _
    rw [h1.run, h2.run]
    exact zipBcast_vec _ T _ _
  deriv := h1.deriv.add h2.deriv
  back g hs hw := by
    obtain ⟨gy, cb, e1, s1, w1, f1, o1, x1, k1⟩ := h2.back g hs hw
    obtain ⟨gx, ca, e2, s2, w2, f2, o2, x2, k2⟩ := h1.back g hs hw
    refine ⟨addT gx gy, ca ++ cb, ?_, s2, Tensor.wf_tabulate _ _, by rw [List.map_append, f1, f2], fun c hc => (List.mem_append.1 hc).elim (o2 c) (o1 c), fun p => ?_, ?_⟩
    · show (b1 g >>= fun ra => b2 g >>= fun rb => Except.ok (addT ra.1 rb.1, ra.2 ++ rb.2)) = _
      rw [e1, e2]
      rfl
    · rw [addT_get s2, x1, x2, ← Finset.sum_add_distrib]
      exact Finset.sum_congr rfl fun r _ => (mul_add _ _ _).symm
    · rw [hc, k1, k2, ← Finset.sum_add_distrib]
      exact Finset.sum_congr rfl fun r _ => (mul_add _ _ _).symm

theorem Joint.mul {f h : ℝ → Fwd ℝ} {b1 b2 : Tensor ℝ → Py (Tensor ℝ × List (ℕ × List (Tensor ℝ)))} {m1 m2 : List ℕ} {Φ Ψ : ℝ → (Fin (numel S) → ℝ) → Fin (numel T) → ℝ}
    {A C : (ℝ × (Fin (numel S) → ℝ)) →L[ℝ] Fin (numel T) → ℝ}
    (hc : ∀ cs cs', ctr (cs ++ cs') = ctr cs + ctr cs') (h1 : Joint f S T t0 X b1 ctr good m1 Φ A) (h2 : Joint h S T t0 X b2 ctr good m2 Ψ C) :
    ∃ G, Joint (fun t x => do
      let u ← f t x
      let v ← h t x
      let r ← zipBcast (· * ·) u v
      if r.shape = u.shape then .ok r else .error .runtimeError) S T t0 X (fun g => do
      let ra ← b1 (mulT g (ofVec T (Ψ t0 X)))
      let rb ← b2 (mulT g (ofVec T (Φ t0 X)))
      .ok (addT ra.1 rb.1, ra.2 ++ rb.2)) ctr good (m1 ++ m2) (fun t Y p => Φ t Y p * Ψ t Y p) G := by
  have hA : ∀ r, HasFDerivAt (fun q : ℝ × (Fin (numel S) → ℝ) => Φ q.1 q.2 r) ((ContinuousLinearMap.proj (R := ℝ) (φ := fun _ : Fin (numel T) => ℝ) r).comp A) (t0, X) :=
    hasFDerivAt_pi'.1 h1.deriv
  have hC : ∀ r, HasFDerivAt (fun q : ℝ × (Fin (numel S) → ℝ) => Ψ q.1 q.2 r) ((ContinuousLinearMap.proj (R := ℝ) (φ := fun _ : Fin (numel T) => ℝ) r).comp C) (t0, X) :=
    hasFDerivAt_pi'.1 h2.deriv
  refine ⟨ContinuousLinearMap.pi fun r => Φ t0 X r • (ContinuousLinearMap.proj (R := ℝ) (φ := fun _ : Fin (numel T) => ℝ) r).comp C
    + Ψ t0 X r • (ContinuousLinearMap.proj (R := ℝ) (φ := fun _ : Fin (numel T) => ℝ) r).comp A, ⟨fun t Y => ?_, hasFDerivAt_pi.2 fun r => (hA r).mul (hC r), fun g hs hw => ?_⟩⟩
  · show (f t (ofVec S Y) >>= fun u => h t (ofVec S Y) >>= fun v => zipBcast (· * ·) u v >>= fun r => if r.shape = u.shape then Except.ok r else Except.error _) = _
    rw [h1.run, h2.run]
    show (zipBcast (· * ·) (ofVec T _) (ofVec T _) >>= fun r => if r.shape = (ofVec T (Φ t Y)).shape then Except.ok r else Except.error _) = _
    rw [zipBcast_vec]
    exact if_pos rfl
  · obtain ⟨gx, ca, e2, s2, w2, f2, o2, x2, k2⟩ := h1.back (mulT g (ofVec T (Ψ t0 X))) hs (Tensor.wf_tabulate _ _)
    obtain ⟨gy, cb, e1, s1, w1, f1, o1, x1, k1⟩ := h2.back (mulT g (ofVec T (Φ t0 X))) hs (Tensor.wf_tabulate _ _)
    have hsum : ∀ v, ∑ m : Fin (numel T), (mulT g (ofVec T (Ψ t0 X))).get (unravel T m) * A v m + ∑ m : Fin (numel T), (mulT g (ofVec T (Φ t0 X))).get (unravel T m) * C v m
        = ∑ m : Fin (numel T), g.get (unravel T m) * (Φ t0 X m * C v m + Ψ t0 X m * A v m) := by
      intro v
      rw [← Finset.sum_add_distrib]
      refine Finset.sum_congr rfl fun m _ => ?_
      rw [mulT_get hs, mulT_get hs, ofVec_get_unravel, ofVec_get_unravel]
      ring
    refine ⟨addT gx gy, ca ++ cb, ?_, s2, Tensor.wf_tabulate _ _, by rw [List.map_append, f1, f2], fun c hc => (List.mem_append.1 hc).elim (o2 c) (o1 c), fun p => ?_, ?_⟩
    · show (b1 _ >>= fun ra => b2 _ >>= fun rb => Except.ok (addT ra.1 rb.1, ra.2 ++ rb.2)) = _
      rw [e1, e2]
      rfl
    · rw [addT_get s2, x1, x2, hsum]
      rfl
    · rw [hc, k1, k2, hsum]
      rfl

end

end HOL
