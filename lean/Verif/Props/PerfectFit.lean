import Verif.Props.LossScale

/-! # C141: training stands still where the gradients of the outputs are zero, with momentum too -/

namespace HOL
open TorchScalar Spec

theorem sgdParam_zero {p : Tensor ℝ} (hp : p.WF) (lr : ℝ) (g : Tensor ℝ) : sgdParam lr p (some (scaleT 0 g)) = p := by
  refine Tensor.ext_get (Tensor.wf_tabulate _ _) hp rfl fun idx hin => ?_
  refine (Tensor.get_tabulate hin).trans ?_
  rw [scaleT_get, zero_mul, mul_zero, sub_zero]

theorem sgd_still {l : GLayer ℝ} {lr : ℝ} {acc : ℕ → Option (Tensor ℝ)} (h : ∀ k p, l.params[k]? = some p → sgdParam lr p (acc k) = p) : l.sgd lr acc = l := by
  cases l with
  | pw L => exact congrArg GLayer.pw (by rw [h 0 L.w rfl])
  | fn L => exact congrArg GLayer.fn (by rw [h 0 L.w rfl])
  | product L =>
    obtain ⟨fi, fo, al, pe, w, b⟩ := L
    cases b with
    | none =>
      show GLayer.product ⟨fi, fo, al, pe, sgdParam lr w (acc 0), none⟩ = _
      rw [h 0 w rfl]
    | some b =>
      show GLayer.product ⟨fi, fo, al, pe, sgdParam lr w (acc 0), some (sgdParam lr b (acc 1))⟩ = _
      rw [h 0 w rfl, h 1 b rfl]
  | linear w b =>
    show GLayer.linear (sgdParam lr w (acc 0)) (sgdParam lr b (acc 1)) = _
    rw [h 0 w rfl, h 1 b rfl]
  | relu => rfl

theorem accumulated_still {s : ℕ → GLayer ℝ} {cs : List (ℕ × List (Tensor ℝ))} (hcs : ∀ d ∈ cs, (∃ I O, (s d.1).Fits I O) ∧ d.2.length = (s d.1).params.length ∧ AllSound s d) (j k : ℕ) :
    accumulated (scaleGrads 0 cs) j k = none ∨ ∃ g, accumulated (scaleGrads 0 cs) j k = some (scaleT 0 g) ∧ ∀ p, (s j).params[k]? = some p → p.WF := by
  cases ha : accumulated cs j k with
  | none => exact .inl (by rw [accumulated_scale, ha]; rfl)
  | some g =>
    obtain ⟨⟨_, _, hf⟩, -⟩ := order_fits hcs ha
    exact .inr ⟨g, by rw [accumulated_scale, ha]; rfl, fun p hp => fits_wf hf hp⟩

/-- The batch gives no gradient: the loss has derivative zero at the outputs of the network (for instance because they are the targets). -/
def Batch.Flat (e : GExpr ℝ) (s : ℕ → GLayer ℝ) (I O : ℕ) (b : Batch ℝ) : Prop := ∃ (B : ℕ) (X : Fin B → Fin I → ℝ) (Y : Fin B → Fin O → ℝ), b.x = ofMat X ∧ e.forward s b.x = .ok (ofMat Y) ∧ b.lossGrad (ofMat Y) = ofMat fun (_ : Fin B) (_ : Fin O) => 0

/-- **C141 (gradient descent).** Batches that give no gradient change nothing, whatever the rates. -/
theorem C141_sgd (P : Picks ℝ) {e : GExpr ℝ} {I O : ℕ} (trained : List ℕ) {s : ℕ → GLayer ℝ} (h : e.Built s I O) : ∀ {bs : List (Batch ℝ)}, (∀ b ∈ bs, b.Flat e s I O) → train P e trained s bs = .ok s
  | [], _ => rfl
  | b :: bs, hb => by
    obtain ⟨B, X, Y, hx, hy, hl⟩ := hb b List.mem_cons_self
    obtain ⟨GX, cs, -, b2, b3⟩ := scale_backward P 0 e h X fun (_ : Fin B) (_ : Fin O) => 0
    simp only [mul_zero] at b2
    show (trainStep P e trained s b >>= fun s => train P e trained s bs) = _
    have : trainStep P e trained s b = .ok s := by
      show (e.forward s b.x >>= fun y => e.backward P s b.x (b.lossGrad y) >>= fun r => Except.ok (sgdStep trained b.lr r.2 s)) = _
      rw [hy]
      show (e.backward P s b.x (b.lossGrad (ofMat Y)) >>= fun r => Except.ok (sgdStep trained b.lr r.2 s)) = _
      rw [hl, hx, b2]
      refine congrArg Except.ok (funext fun j => ?_)
      show sgdStep trained b.lr (scaleGrads 0 cs) s j = s j
      unfold sgdStep
      split
      · refine sgd_still fun k p hp => ?_
        rcases accumulated_still b3 j k with ha | ⟨g, ha, hw⟩
        · rw [ha]; rfl
        · rw [ha]; exact sgdParam_zero (hw p hp) _ _
      · rfl
    rw [this]
    exact C141_sgd P trained h fun b' hb' => hb b' (List.mem_cons_of_mem _ hb')

/-- **C141 (`SparseLion`).** Such batches change nothing with `SparseLion` either, whatever momentum earlier steps have left, and they leave the momentum as it is. -/
theorem C141_lion (P : Picks ℝ) {e : GExpr ℝ} {I O : ℕ} (trained : List ℕ) (wd β β2 : ℝ) {s : ℕ → GLayer ℝ} (h : e.Built s I O) : ∀ {bs : List (Batch ℝ)} {exp : ℕ → ℕ → Option (Tensor ℝ)}, LionState s trained exp → (∀ b ∈ bs, b.Flat e s I O) →
    ∃ exp', LionTrained P e trained wd β β2 s exp bs s exp' ∧ ∀ j k m, exp j k = some m → j ∈ trained → (∃ p, (s j).params[k]? = some p) → exp' j k = some m
  | [], exp, _, _ => ⟨exp, .nil _ _, fun _ _ _ h _ _ => h⟩
  | b :: bs, exp, hexp, hb => by
    obtain ⟨B, X, Y, hx, hy, hl⟩ := hb b List.mem_cons_self
    obtain ⟨GX, cs, -, b2, b3⟩ := scale_backward P 0 e h X fun (_ : Fin B) (_ : Fin O) => 0
    simp only [mul_zero] at b2
    obtain ⟨a1, a2, a3, a4⟩ := lion_runs_exact h (scaleGrads_sound 0 b3) trained hexp b.lr wd β β2
    have hpull : ∀ j k g, accumulated (scaleGrads 0 cs) j k = some (scaleT 0 g) → lionPull β (accumulated (scaleGrads 0 cs) j k) (exp j k) = some (scaleT 0 (Tensor.tabulate g.shape fun _ => 0)) := by
      intro j k g hg
      rw [hg, scaleT_tabulate]
      refine congrArg some (congrArg (Tensor.tabulate g.shape) (funext fun idx => ?_))
      rw [scaleT_get, zero_mul, zero_mul, if_pos ((eqB_real _ _).2 rfl)]
    have hs : lionStore trained b.lr β exp (scaleGrads 0 cs) s = s := by
      funext j
      unfold lionStore
      split
      · refine sgd_still fun k p hp => ?_
        rcases accumulated_still b3 j k with ha | ⟨g, ha, hw⟩
        · rw [ha]; rfl
        · rw [hpull j k g ha]; exact sgdParam_zero (hw p hp) _ _
      · rfl
    rw [hs] at a1 a3
    obtain ⟨exp', t1, t2⟩ := C141_lion P trained wd β β2 h a3 fun b' hb' => hb b' (List.mem_cons_of_mem _ hb')
    refine ⟨exp', .cons (y := ofMat Y) (gx := ofMat fun q i => 0 * GX q i) (cs := scaleGrads 0 cs) hy ?_ a1 a2 t1, fun j k m hm hj hp => t2 j k m ?_ hj hp⟩
    · rw [hl, hx, b2]
    · unfold lionMoms
      rw [if_pos hj, hm]
      obtain ⟨p, hp⟩ := hp
      obtain ⟨m1, m2⟩ := hexp j hj k p m hp hm
      cases ha : accumulated cs j k with
      | none => rw [accumulated_scale, ha]; rfl
      | some g =>
        rw [accumulated_scale, ha]
        have hg := (accumulated_sound (fun c hc => (b3 c hc).2.2) hp ha).1
        refine congrArg some (Tensor.ext_get (Tensor.wf_tabulate _ _) m1 (hg.trans m2.symm) fun idx hin => ?_)
        refine (Tensor.get_tabulate hin).trans ?_
        rw [scaleT_get, zero_mul]
        unfold lionMom
        rw [if_pos ((eqB_real _ _).2 rfl)]
        rfl

/-- One layer of any kind whose outputs are the targets of its samples (there are such targets for all samples): nothing moves, with any momentum. -/
example (P : Picks ℝ) {l : GLayer ℝ} {I O B : ℕ} (h : l.Fits I O) (X : Fin B → Fin I → ℝ) {T : Fin B → Fin O → ℝ} (hT : l.forward (ofMat X) = .ok (ofMat T)) (m : ℕ → ℕ → Option (Tensor ℝ)) (hm : LionState (fun _ => l) [0] m) (rates : List ℝ) :
    ∃ m', LionTrained P (.leaf 0) [0] 0 (9 / 10) (99 / 100) (fun _ => l) m (rates.map fun lr => sqBatch X T lr) (fun _ => l) m' := by
  obtain ⟨m', t, -⟩ := C141_lion P (e := .leaf 0) (I := I) (O := O) [0] 0 (9 / 10) (99 / 100) (s := fun _ => l) h (bs := rates.map fun lr => sqBatch X T lr) hm (by
    intro b hb
    obtain ⟨lr, -, rfl⟩ := List.mem_map.1 hb
    refine ⟨B, X, T, rfl, hT, (sqBatch_loss _ _ _ _).trans ?_⟩
    simp only [sub_self, mul_zero])
  exact ⟨m', t⟩

end HOL
