import Verif.Spec.LossScale
import Verif.Lemmas.SampleOrder

/-! # Backward passes and steps for another scale of the loss -/

namespace HOL
open TorchScalar Spec

theorem scaleT_get (c : ℝ) (t : Tensor ℝ) (idx : List ℕ) : (scaleT c t).get idx = c * t.get idx := by
  unfold scaleT Tensor.get Tensor.map
  simp only [List.getD_eq_getElem?_getD, List.getElem?_map]
  cases t.data[ravel t.shape idx]? with
  | none => simp
  | some v => rfl

theorem scaleT_tabulate (c : ℝ) (S : List ℕ) (f : List ℕ → ℝ) : scaleT c (Tensor.tabulate S f) = Tensor.tabulate S fun idx => c * f idx := by
  unfold scaleT Tensor.map Tensor.tabulate
  simp only [List.map_map]
  rfl

theorem addT_scale (c : ℝ) (t u : Tensor ℝ) : addT (scaleT c t) (scaleT c u) = scaleT c (addT t u) := by
  unfold addT
  rw [scaleT_tabulate]
  simp only [scaleT_get, mul_add]
  rfl

/-- The gradients of `c` times the loss. -/
noncomputable def scaleGrads (c : ℝ) (cs : List (ℕ × List (Tensor ℝ))) : List (ℕ × List (Tensor ℝ)) := cs.map fun d => (d.1, d.2.map (scaleT c))

theorem scaleGrads_append (c : ℝ) (cs ds : List (ℕ × List (Tensor ℝ))) : scaleGrads c (cs ++ ds) = scaleGrads c cs ++ scaleGrads c ds := List.map_append

theorem contributions_scale (c : ℝ) (j k : ℕ) : ∀ cs : List (ℕ × List (Tensor ℝ)), contributions (scaleGrads c cs) j k = (contributions cs j k).map (scaleT c)
  | [] => rfl
  | d :: cs => by
    have ih := contributions_scale c j k cs
    unfold contributions scaleGrads at ih ⊢
    rw [List.map_cons, List.filterMap_cons, List.filterMap_cons]
    by_cases hd : d.1 = j
    · simp only [hd, if_true, List.getElem?_map]
      cases d.2[k]? with
      | none => exact ih
      | some t => exact congrArg (scaleT c t :: ·) ih
    · simp only [hd, if_false]
      exact ih

theorem accumulated_scale (c : ℝ) (cs : List (ℕ × List (Tensor ℝ))) (j k : ℕ) : accumulated (scaleGrads c cs) j k = (accumulated cs j k).map (scaleT c) := by
  unfold accumulated
  rw [contributions_scale]
  cases contributions cs j k with
  | nil => rfl
  | cons g gs =>
    refine congrArg some ?_
    show (gs.map (scaleT c)).foldl addT (scaleT c g) = scaleT c (gs.foldl addT g)
    induction gs generalizing g with
    | nil => rfl
    | cons t gs ih =>
      show (gs.map (scaleT c)).foldl addT (addT (scaleT c g) (scaleT c t)) = scaleT c (gs.foldl addT (addT g t))
      rw [addT_scale, ih]

theorem sgdParam_scale {c : ℝ} (hc : c ≠ 0) (lr : ℝ) (p : Tensor ℝ) (acc : Option (Tensor ℝ)) : sgdParam (lr / c) p (acc.map (scaleT c)) = sgdParam lr p acc := by
  cases acc with
  | none => rfl
  | some g =>
    show (Tensor.tabulate p.shape fun idx => p.get idx - lr / c * (scaleT c g).get idx) = Tensor.tabulate p.shape fun idx => p.get idx - lr * g.get idx
    refine congrArg (Tensor.tabulate p.shape) (funext fun idx => ?_)
    rw [scaleT_get, ← mul_assoc, div_mul_cancel₀ _ hc]

theorem momOr_scale (c : ℝ) (S : List ℕ) (exp : Option (Tensor ℝ)) : momOr S (exp.map (scaleT c)) = scaleT c (momOr S exp) := by
  cases exp with
  | none =>
    show (Tensor.tabulate S fun _ => (0 : ℝ)) = scaleT c (Tensor.tabulate S fun _ => 0)
    rw [scaleT_tabulate, mul_zero]
  | some e => rfl

theorem eqB_scale {c : ℝ} (hc : 0 < c) (u : ℝ) : (eqB (c * u) 0 = true) ↔ eqB u 0 = true := by
  rw [eqB_real, eqB_real]
  simp [hc.ne']

theorem sign_scale {c : ℝ} (hc : 0 < c) (u : ℝ) : TorchScalar.sign (c * u) = TorchScalar.sign u := by
  rw [sign_real, sign_real]
  rcases lt_trichotomy u 0 with h | rfl | h
  · rw [Real.sign_of_neg h, Real.sign_of_neg (mul_neg_of_pos_of_neg hc h)]
  · rw [mul_zero]
  · rw [Real.sign_of_pos h, Real.sign_of_pos (mul_pos hc h)]

theorem lionPull_scale {c : ℝ} (hc : 0 < c) (β : ℝ) (acc exp : Option (Tensor ℝ)) : lionPull β (acc.map (scaleT c)) (exp.map (scaleT c)) = lionPull β acc exp := by
  cases acc with
  | none => rfl
  | some g =>
    refine congrArg some ?_
    show (Tensor.tabulate g.shape fun idx => if eqB ((scaleT c g).get idx) 0 then 0 else TorchScalar.sign ((momOr g.shape (exp.map (scaleT c))).get idx * β + (1 - β) * (scaleT c g).get idx)) = _
    refine congrArg (Tensor.tabulate g.shape) (funext fun idx => ?_)
    rw [momOr_scale, scaleT_get, scaleT_get, show c * (momOr g.shape exp).get idx * β + (1 - β) * (c * g.get idx) = c * ((momOr g.shape exp).get idx * β + (1 - β) * g.get idx) by ring, sign_scale hc]
    simp only [eqB_scale hc]

theorem lionMomNext_scale {c : ℝ} (hc : 0 < c) (β2 : ℝ) (acc exp : Option (Tensor ℝ)) : lionMomNext β2 (acc.map (scaleT c)) (exp.map (scaleT c)) = (lionMomNext β2 acc exp).map (scaleT c) := by
  cases acc with
  | none => rfl
  | some g =>
    refine congrArg some ?_
    rw [scaleT_tabulate]
    show (Tensor.tabulate g.shape fun idx => lionMom β2 ((momOr g.shape (exp.map (scaleT c))).get idx) ((scaleT c g).get idx)) = _
    refine congrArg (Tensor.tabulate g.shape) (funext fun idx => ?_)
    rw [momOr_scale, scaleT_get, scaleT_get]
    unfold lionMom
    simp only [eqB_scale hc]
    split
    · rfl
    · ring

section
variable {l : GLayer ℝ} {I O : ℕ} (h : l.Fits I O) (c : ℝ) {B : ℕ} (X : Fin B → Fin I → ℝ) (G : Fin B → Fin O → ℝ)
include h

theorem layer_scale_input : ∃ GX : Fin B → Fin I → ℝ, l.inputGrad (ofMat X) (ofMat G) = ofMat GX ∧ l.inputGrad (ofMat X) (ofMat fun q o => c * G q o) = ofMat fun q i => c * GX q i := by
  obtain ⟨GX, h1, h2⟩ := h.rowWise.input X G fun _ => 1
  obtain ⟨GX', h3, h4⟩ := h.rowWise.input X G fun _ => c
  simp only [one_mul] at h1
  have : GX' = GX := funext fun q => oneRow_inj ((h4 q).symm.trans (h2 q))
  rw [this] at h3
  exact ⟨GX, h1, h3⟩

theorem layer_scale_params : l.paramGrads (ofMat X) (ofMat fun q o => c * G q o) = (l.paramGrads (ofMat X) (ofMat G)).map (scaleT c) := by
  have hlen := paramGrads_length l
  refine List.ext_getElem? fun k => ?_
  rw [List.getElem?_map]
  cases hp : l.params[k]? with
  | none =>
    have h0 := List.getElem?_eq_none_iff.1 hp
    rw [List.getElem?_eq_none_iff.2 (by rw [hlen]; exact h0), List.getElem?_eq_none_iff.2 (by rw [hlen]; exact h0)]
    rfl
  | some p =>
    obtain ⟨t, ts, t1, t2, t3, t4⟩ := h.rowWise.params X G (fun _ => 1) k p hp
    obtain ⟨t', ts', d1, d2, d3, d4⟩ := h.rowWise.params X G (fun _ => c) k p hp
    simp only [one_mul] at t1 t4
    obtain ⟨a, a1, -, a3⟩ := paramGrads_sound h (ofMat_shape X) (ofMat_shape G) k p hp
    obtain ⟨b, b1, -, b3⟩ := paramGrads_sound h (ofMat_shape X) (ofMat_shape fun q o => c * G q o) k p hp
    obtain rfl := Option.some.inj (t1.symm.trans a1)
    obtain rfl := Option.some.inj (d1.symm.trans b1)
    rw [t1, d1]
    refine congrArg some (Tensor.ext_get b3 (Tensor.wf_map a3 _) (d2.trans t2.symm) fun idx hin => ?_)
    rw [d2] at hin
    refine Eq.trans ?_ (scaleT_get c t idx).symm
    rw [t4 idx hin, d4 idx hin, Finset.mul_sum]
    refine Finset.sum_congr rfl fun q _ => ?_
    rw [Option.some.inj ((d3 q).1.symm.trans (t3 q).1)]

end

theorem scale_backward {s : ℕ → GLayer ℝ} (P : Picks ℝ) (c : ℝ) {B : ℕ} : ∀ (e : GExpr ℝ) {I O : ℕ}, e.Built s I O → ∀ (X : Fin B → Fin I → ℝ) (G : Fin B → Fin O → ℝ),
    ∃ (GX : Fin B → Fin I → ℝ) (cs : List (ℕ × List (Tensor ℝ))), e.backward P s (ofMat X) (ofMat G) = .ok (ofMat GX, cs) ∧ e.backward P s (ofMat X) (ofMat fun q o => c * G q o) = .ok (ofMat fun q i => c * GX q i, scaleGrads c cs) ∧
      ∀ d ∈ cs, (∃ I O, (s d.1).Fits I O) ∧ d.2.length = (s d.1).params.length ∧ AllSound s d
  | .leaf j, I, O, h, X, G => by
    obtain ⟨GX, g1, g2⟩ := layer_scale_input h c X G
    refine ⟨GX, [(j, (s j).paramGrads (ofMat X) (ofMat G))], ?_, ?_, fun d hd => ?_⟩
    · show Except.ok ((s j).inputGrad _ _, [(j, (s j).paramGrads _ _)]) = _
      rw [g1]
    · show Except.ok ((s j).inputGrad _ _, [(j, (s j).paramGrads _ _)]) = _
      rw [g2, layer_scale_params h c X G]; rfl
    · rw [List.mem_singleton.1 hd]
      exact ⟨⟨I, O, h⟩, paramGrads_length _ _ _, fun k p hp => paramGrads_sound h (ofMat_shape X) (ofMat_shape G) k p hp⟩
  | .fixed (.base (.dense .relu)), I, O, h, X, G => by
    obtain ⟨GX, g1, g2⟩ := layer_scale_input (l := .relu) (I := I) (O := O) h c X G
    refine ⟨GX, [], ?_, ?_, fun d hd => by cases hd⟩
    · exact congrArg (fun t => Except.ok (t, [])) g1
    · exact congrArg (fun t => Except.ok (t, [])) g2
  | .comp a b, I, O, ⟨M, h1, h2⟩, X, G => by
    obtain ⟨Y, y1, -⟩ := order_forward (Equiv.refl _) a h1 X
    obtain ⟨GY, ds, b1, b2, b3⟩ := scale_backward P c b h2 Y G
    obtain ⟨GX, cs, a1, a2, a3⟩ := scale_backward P c a h1 X GY
    refine ⟨GX, cs ++ ds, ?_, ?_, fun d hd => (List.mem_append.1 hd).elim (a3 d) (b3 d)⟩
    · show (a.forward s _ >>= fun y => b.backward P s y _ >>= fun rb => a.backward P s _ rb.1 >>= fun ra => Except.ok (ra.1, ra.2 ++ rb.2)) = _
      rw [y1]
      show (b.backward P s (ofMat Y) _ >>= fun rb => a.backward P s _ rb.1 >>= fun ra => Except.ok (ra.1, ra.2 ++ rb.2)) = _
      rw [b1]
      show (a.backward P s _ (ofMat GY) >>= fun ra => Except.ok (ra.1, ra.2 ++ ds)) = _
      rw [a1]; rfl
    · show (a.forward s _ >>= fun y => b.backward P s y _ >>= fun rb => a.backward P s _ rb.1 >>= fun ra => Except.ok (ra.1, ra.2 ++ rb.2)) = _
      rw [y1]
      show (b.backward P s (ofMat Y) _ >>= fun rb => a.backward P s _ rb.1 >>= fun ra => Except.ok (ra.1, ra.2 ++ rb.2)) = _
      rw [b2]
      show (a.backward P s _ (ofMat fun q i => c * GY q i) >>= fun ra => Except.ok (ra.1, ra.2 ++ scaleGrads c ds)) = _
      rw [a2, scaleGrads_append]; rfl
  | .add a b, I, O, ⟨h1, h2⟩, X, G => by
    obtain ⟨GY, ds, b1, b2, b3⟩ := scale_backward P c b h2 X G
    obtain ⟨GX, cs, a1, a2, a3⟩ := scale_backward P c a h1 X G
    refine ⟨fun q i => GX q i + GY q i, cs ++ ds, ?_, ?_, fun d hd => (List.mem_append.1 hd).elim (a3 d) (b3 d)⟩
    · show (a.backward P s _ _ >>= fun ra => b.backward P s _ _ >>= fun rb => Except.ok (addT ra.1 rb.1, ra.2 ++ rb.2)) = _
      rw [a1, b1]
      show Except.ok (addT (ofMat GX) (ofMat GY), cs ++ ds) = _
      rw [addT_mat]
    · show (a.backward P s _ _ >>= fun ra => b.backward P s _ _ >>= fun rb => Except.ok (addT ra.1 rb.1, ra.2 ++ rb.2)) = _
      rw [a2, b2]
      show Except.ok (addT (ofMat fun q i => c * GX q i) (ofMat fun q i => c * GY q i), scaleGrads c cs ++ scaleGrads c ds) = _
      rw [addT_mat, scaleGrads_append]
      simp only [mul_add]
  | .mul a b, I, O, ⟨h1, h2⟩, X, G => by
    obtain ⟨U, u1, -⟩ := order_forward (Equiv.refl _) a h1 X
    obtain ⟨V, v1, -⟩ := order_forward (Equiv.refl _) b h2 X
    obtain ⟨GY, ds, b1, b2, b3⟩ := scale_backward P c b h2 X fun q o => G q o * U q o
    obtain ⟨GX, cs, a1, a2, a3⟩ := scale_backward P c a h1 X fun q o => G q o * V q o
    refine ⟨fun q i => GX q i + GY q i, cs ++ ds, ?_, ?_, fun d hd => (List.mem_append.1 hd).elim (a3 d) (b3 d)⟩
    · show (a.forward s _ >>= fun u => b.forward s _ >>= fun v => a.backward P s _ (mulT _ v) >>= fun ra => b.backward P s _ (mulT _ u) >>= fun rb => Except.ok (addT ra.1 rb.1, ra.2 ++ rb.2)) = _
      rw [u1, v1]
      show (a.backward P s _ (mulT (ofMat G) (ofMat V)) >>= fun ra => b.backward P s _ (mulT (ofMat G) (ofMat U)) >>= fun rb => Except.ok (addT ra.1 rb.1, ra.2 ++ rb.2)) = _
      rw [mulT_mat, mulT_mat, a1, b1]
      show Except.ok (addT (ofMat GX) (ofMat GY), cs ++ ds) = _
      rw [addT_mat]
    · show (a.forward s _ >>= fun u => b.forward s _ >>= fun v => a.backward P s _ (mulT _ v) >>= fun ra => b.backward P s _ (mulT _ u) >>= fun rb => Except.ok (addT ra.1 rb.1, ra.2 ++ rb.2)) = _
      rw [u1, v1]
      show (a.backward P s _ (mulT (ofMat fun q o => c * G q o) (ofMat V)) >>= fun ra => b.backward P s _ (mulT (ofMat fun q o => c * G q o) (ofMat U)) >>= fun rb => Except.ok (addT ra.1 rb.1, ra.2 ++ rb.2)) = _
      rw [mulT_mat, mulT_mat]
      simp only [mul_assoc]
      rw [a2, b2]
      show Except.ok (addT (ofMat fun q i => c * GX q i) (ofMat fun q i => c * GY q i), scaleGrads c cs ++ scaleGrads c ds) = _
      rw [addT_mat, scaleGrads_append]
      simp only [mul_add]

/-- The layers after a step of `SparseLion`. -/
noncomputable def lionStore (trained : List ℕ) (lr β : ℝ) (exp : ℕ → ℕ → Option (Tensor ℝ)) (cs : List (ℕ × List (Tensor ℝ))) (s : ℕ → GLayer ℝ) : ℕ → GLayer ℝ :=
  fun j => if j ∈ trained then (s j).sgd lr fun k => lionPull β (accumulated cs j k) (exp j k) else s j

/-- The state of `SparseLion` after a step. -/
noncomputable def lionMoms (trained : List ℕ) (β2 : ℝ) (exp : ℕ → ℕ → Option (Tensor ℝ)) (cs : List (ℕ × List (Tensor ℝ))) : ℕ → ℕ → Option (Tensor ℝ) :=
  fun j k => if j ∈ trained then lionMomNext β2 (accumulated cs j k) (exp j k) else exp j k

theorem lion_runs_exact {e : GExpr ℝ} {s : ℕ → GLayer ℝ} {I O : ℕ} (h : e.Built s I O) {cs : List (ℕ × List (Tensor ℝ))} (hcs : ∀ c ∈ cs, (∃ I O, (s c.1).Fits I O) ∧ c.2.length = (s c.1).params.length ∧ AllSound s c) (trained : List ℕ)
    {exp : ℕ → ℕ → Option (Tensor ℝ)} (hexp : LionState s trained exp) (lr wd β β2 : ℝ) :
    (∀ j, lionStep trained lr wd β β2 exp cs s j = .ok (lionStore trained lr β exp cs s j)) ∧ (∀ j k, lionMomenta trained lr wd β β2 exp cs s j k = .ok (lionMoms trained β2 exp cs j k)) ∧
      LionState (lionStore trained lr β exp cs s) trained (lionMoms trained β2 exp cs) ∧ e.Built (lionStore trained lr β exp cs s) I O := by
  have hsound : ∀ c ∈ cs, AllSound s c := fun c hc => (hcs c hc).2.2
  have hfit : ∀ j ∈ trained, ∀ k p, (s j).params[k]? = some p → LionFits p (accumulated cs j k) (exp j k) := by
    intro j hj k p hp g' hg'
    obtain ⟨⟨_, _, hf⟩, -⟩ := order_fits hcs hg'
    obtain ⟨s1, s2⟩ := accumulated_sound hsound hp hg'
    exact ⟨fits_wf hf hp, s1, s2, fun e' he' => hexp j hj k p e' hp he'⟩
  refine ⟨fun j => ?_, fun j k => ?_, fun j hj k p' e' hp' he' => ?_, Built.steps (fun j => ?_) e h⟩
  · unfold lionStep lionStore
    beta_reduce
    by_cases ht : j ∈ trained
    · rw [if_pos ht, if_pos ht]
      exact lion_sgd (hfit j ht) lr wd β β2
    · rw [if_neg ht, if_neg ht]
  · unfold lionMomenta lionMoms
    beta_reduce
    by_cases ht : j ∈ trained
    · rw [if_pos ht, if_pos ht]
      cases hp : (s j).params[k]? with
      | none =>
        cases ha : accumulated cs j k with
        | none => rfl
        | some g' =>
          obtain ⟨-, p, hp'⟩ := order_fits hcs ha
          rw [hp] at hp'
          cases hp'
      | some p => exact (stepParam_real (hfit j ht k p hp) lr wd β β2).2
    · rw [if_neg ht, if_neg ht]
  · unfold lionStore at hp'
    unfold lionMoms at he'
    beta_reduce at hp' he'
    rw [if_pos hj] at hp' he'
    obtain ⟨p, hp, hps⟩ := sgd_params_shape hp'
    rw [hps]
    cases ha : accumulated cs j k with
    | none =>
      rw [ha] at he'
      exact hexp j hj k p e' hp he'
    | some g' =>
      rw [ha] at he'
      cases he'
      exact ⟨Tensor.wf_tabulate _ _, (accumulated_sound hsound hp ha).1⟩
  · unfold lionStore
    beta_reduce
    by_cases ht : j ∈ trained
    · rw [if_pos ht]
      exact ⟨_, _, rfl⟩
    · rw [if_neg ht]
      exact ⟨0, fun _ => none, (sgd_nothing (s j)).symm⟩

theorem sgdStep_scale {c : ℝ} (hc : c ≠ 0) (trained : List ℕ) (lr : ℝ) (cs : List (ℕ × List (Tensor ℝ))) (s : ℕ → GLayer ℝ) : sgdStep trained (lr / c) (scaleGrads c cs) s = sgdStep trained lr cs s := by
  funext j
  unfold sgdStep
  split
  · cases s j <;> simp only [GLayer.sgd, accumulated_scale, sgdParam_scale hc]
  · rfl

theorem lionStore_scale {c : ℝ} (hc : 0 < c) (trained : List ℕ) (lr β : ℝ) (exp : ℕ → ℕ → Option (Tensor ℝ)) (cs : List (ℕ × List (Tensor ℝ))) (s : ℕ → GLayer ℝ) :
    lionStore trained lr β (fun j k => (exp j k).map (scaleT c)) (scaleGrads c cs) s = lionStore trained lr β exp cs s := by
  unfold lionStore
  simp only [accumulated_scale, lionPull_scale hc]

theorem lionMoms_scale {c : ℝ} (hc : 0 < c) (trained : List ℕ) (β2 : ℝ) (exp : ℕ → ℕ → Option (Tensor ℝ)) (cs : List (ℕ × List (Tensor ℝ))) :
    lionMoms trained β2 (fun j k => (exp j k).map (scaleT c)) (scaleGrads c cs) = fun j k => (lionMoms trained β2 exp cs j k).map (scaleT c) := by
  funext j k
  unfold lionMoms
  beta_reduce
  rw [accumulated_scale, lionMomNext_scale hc]
  split <;> rfl

theorem scaleGrads_sound {s : ℕ → GLayer ℝ} (c : ℝ) {cs : List (ℕ × List (Tensor ℝ))} (h : ∀ d ∈ cs, (∃ I O, (s d.1).Fits I O) ∧ d.2.length = (s d.1).params.length ∧ AllSound s d) :
    ∀ d ∈ scaleGrads c cs, (∃ I O, (s d.1).Fits I O) ∧ d.2.length = (s d.1).params.length ∧ AllSound s d := by
  intro d hd
  obtain ⟨a, ha, rfl⟩ := List.mem_map.1 hd
  obtain ⟨h1, h2, h3⟩ := h a ha
  refine ⟨h1, (List.length_map _).trans h2, fun k p hp => ?_⟩
  obtain ⟨gp, g1, g2, g3⟩ := h3 k p hp
  exact ⟨scaleT c gp, by rw [List.getElem?_map, g1]; rfl, g2, Tensor.wf_map g3 _⟩

theorem lionState_scale {s : ℕ → GLayer ℝ} {trained : List ℕ} {exp : ℕ → ℕ → Option (Tensor ℝ)} (c : ℝ) (h : LionState s trained exp) : LionState s trained fun j k => (exp j k).map (scaleT c) := by
  intro j hj k p e hp he
  obtain ⟨a, ha, rfl⟩ := Option.map_eq_some_iff.1 he
  obtain ⟨h1, h2⟩ := h j hj k p a hp ha
  exact ⟨Tensor.wf_map h1 _, h2⟩

end HOL
