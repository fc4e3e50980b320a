import Verif.Lemmas.LossScale
import Verif.Props.SampleCopies

/-! # C140: the scale of the loss -/

namespace HOL
open TorchScalar Spec

/-- The same samples with `c` times the loss and the learning rate divided by `c`, where every batch may have its own `c`. -/
def Batch.Rescaled (I O : ℕ) (b b' : Batch ℝ) : Prop := ∃ c : ℝ, c ≠ 0 ∧ b'.lr = b.lr / c ∧ Batch.ScaledBy c I O b b'

/-- **C140 (gradient descent).** Multiplying the loss by a factor and dividing the learning rate by it gives the same parameters. -/
theorem C140_sgd (P : Picks ℝ) {e : GExpr ℝ} {I O : ℕ} (trained : List ℕ) : ∀ {bs bs' : List (Batch ℝ)} {s : ℕ → GLayer ℝ}, e.Built s I O → List.Forall₂ (Batch.Rescaled I O) bs bs' →
    ∃ s', train P e trained s bs = .ok s' ∧ train P e trained s bs' = .ok s'
  | _, _, s, _, .nil => ⟨s, rfl, rfl⟩
  | _, _, s, h, .cons (a := b) (b := b') (l₁ := bs) (l₂ := bs') hb hbs => by
    obtain ⟨c, hc, hlr, hx', B, X, hx, hl⟩ := hb
    obtain ⟨Y, y1, -⟩ := order_forward (Equiv.refl _) e h X
    obtain ⟨G, g1, g2⟩ := hl Y
    obtain ⟨GX, cs, b1, b2, -⟩ := scale_backward P c e h X G
    obtain ⟨s', t1, t2⟩ := C140_sgd P trained (Built.step trained b.lr cs e h) hbs
    refine ⟨s', ?_, ?_⟩
    · show (trainStep P e trained s b >>= fun s => train P e trained s bs) = _
      have : trainStep P e trained s b = .ok (sgdStep trained b.lr cs s) := by
        show (e.forward s b.x >>= fun y => e.backward P s b.x (b.lossGrad y) >>= fun r => Except.ok (sgdStep trained b.lr r.2 s)) = _
        rw [hx, y1]
        show (e.backward P s (ofMat X) (b.lossGrad (ofMat Y)) >>= fun r => Except.ok (sgdStep trained b.lr r.2 s)) = _
        rw [g1, b1]; rfl
      rw [this]; exact t1
    · show (trainStep P e trained s b' >>= fun s => train P e trained s bs') = _
      have : trainStep P e trained s b' = .ok (sgdStep trained b.lr cs s) := by
        show (e.forward s b'.x >>= fun y => e.backward P s b'.x (b'.lossGrad y) >>= fun r => Except.ok (sgdStep trained b'.lr r.2 s)) = _
        rw [hx', hx, y1]
        show (e.backward P s (ofMat X) (b'.lossGrad (ofMat Y)) >>= fun r => Except.ok (sgdStep trained b'.lr r.2 s)) = _
        rw [g2, b2, hlr]
        exact congrArg Except.ok (sgdStep_scale hc trained b.lr cs s)
      rw [this]; exact t2

/-- **C140 (`SparseLion`).** Multiplying the loss by `c > 0` gives the same parameters with the same learning rates: the state of the optimizer is multiplied by `c`, before and after. -/
theorem C140_lion (P : Picks ℝ) {e : GExpr ℝ} {I O : ℕ} {c : ℝ} (hc : 0 < c) (trained : List ℕ) (wd β β2 : ℝ) : ∀ {bs bs' : List (Batch ℝ)} {s : ℕ → GLayer ℝ} {exp : ℕ → ℕ → Option (Tensor ℝ)}, e.Built s I O → LionState s trained exp →
    List.Forall₂ (fun b b' => b'.lr = b.lr ∧ Batch.ScaledBy c I O b b') bs bs' →
    ∃ s' exp', LionTrained P e trained wd β β2 s exp bs s' exp' ∧ LionTrained P e trained wd β β2 s (fun j k => (exp j k).map (scaleT c)) bs' s' fun j k => (exp' j k).map (scaleT c)
  | _, _, s, exp, _, _, .nil => ⟨s, exp, .nil _ _, .nil _ _⟩
  | _, _, s, exp, h, hexp, .cons (a := b) (b := b') (l₁ := bs) (l₂ := bs') hb hbs => by
    obtain ⟨hlr, hx', B, X, hx, hl⟩ := hb
    obtain ⟨Y, y1, -⟩ := order_forward (Equiv.refl _) e h X
    obtain ⟨G, g1, g2⟩ := hl Y
    obtain ⟨GX, cs, b1, b2, b3⟩ := scale_backward P c e h X G
    obtain ⟨a1, a2, a3, a4⟩ := lion_runs_exact h b3 trained hexp b.lr wd β β2
    obtain ⟨d1, d2, -, -⟩ := lion_runs_exact h (scaleGrads_sound c b3) trained (lionState_scale c hexp) b.lr wd β β2
    rw [lionStore_scale hc] at d1
    rw [lionMoms_scale hc] at d2
    obtain ⟨s', exp', t1, t2⟩ := C140_lion P hc trained wd β β2 a4 a3 hbs
    refine ⟨s', exp', .cons (y := ofMat Y) (gx := ofMat GX) (cs := cs) ?_ ?_ a1 a2 t1, .cons (y := ofMat Y) (gx := ofMat fun q i => c * GX q i) (cs := scaleGrads c cs) ?_ ?_ ?_ ?_ t2⟩
    · rw [hx]; exact y1
    · rw [hx, g1]; exact b1
    · rw [hx', hx]; exact y1
    · rw [hx', hx, g2]; exact b2
    · rw [hlr]; exact d1
    · rw [hlr]; exact d2

/-- **C140 (`SparseLion` from its first step).** Without a state at the start the scale of the loss does not matter at all for the parameters. -/
theorem C140_lion_first (P : Picks ℝ) {e : GExpr ℝ} {I O : ℕ} {c : ℝ} (hc : 0 < c) (trained : List ℕ) (wd β β2 : ℝ) {bs bs' : List (Batch ℝ)} {s : ℕ → GLayer ℝ} (h : e.Built s I O)
    (hbs : List.Forall₂ (fun b b' => b'.lr = b.lr ∧ Batch.ScaledBy c I O b b') bs bs') :
    ∃ s' exp1 exp2, LionTrained P e trained wd β β2 s (fun _ _ => none) bs s' exp1 ∧ LionTrained P e trained wd β β2 s (fun _ _ => none) bs' s' exp2 := by
  obtain ⟨s', exp', t1, t2⟩ := C140_lion P hc trained wd β β2 (exp := fun _ _ => none) h (fun _ _ _ _ _ _ he => by cases he) hbs
  exact ⟨s', exp', _, t1, t2⟩

/-- Squared errors and `c` times squared errors. -/
theorem weightedBatch_scaled {B I O : ℕ} (c : ℝ) (X : Fin B → Fin I → ℝ) (T : Fin B → Fin O → ℝ) (lr lr' : ℝ) : Batch.ScaledBy c I O (weightedBatch (fun _ => 1) X T lr) (weightedBatch (fun _ => c) X T lr') := by
  refine ⟨rfl, B, X, rfl, fun Y => ⟨fun q o => 2 * (Y q o - T q o), (weightedBatch_loss _ _ _ _ _).trans ?_, weightedBatch_loss _ _ _ _ _⟩⟩
  simp only [one_mul]

/-- One layer of any kind, any number of batches: sums of squared errors with rates `lr`, and means over `B` samples with rates `lr * B`. -/
example {l : GLayer ℝ} {I O B : ℕ} (hB : 0 < B) (h : l.Fits I O) (P : Picks ℝ) (data : List ((Fin B → Fin I → ℝ) × (Fin B → Fin O → ℝ) × ℝ)) :
    ∃ s', train P (.leaf 0) [0] (fun _ => l) (data.map fun d => weightedBatch (fun _ => 1) d.1 d.2.1 d.2.2) = .ok s' ∧
      train P (.leaf 0) [0] (fun _ => l) (data.map fun d => weightedBatch (fun _ => 1 / B) d.1 d.2.1 (d.2.2 * B)) = .ok s' := by
  have hB' : (B : ℝ) ≠ 0 := Nat.cast_ne_zero.2 hB.ne'
  refine C140_sgd (e := .leaf 0) (I := I) (O := O) P [0] h ?_
  induction data with
  | nil => exact .nil
  | cons d data ih => exact .cons ⟨1 / B, one_div_ne_zero hB', by show d.2.2 * B = d.2.2 / (1 / B); rw [div_div_eq_mul_div, div_one], weightedBatch_scaled _ _ _ _ _⟩ ih

/-- A linear layer and a second one, trained with `SparseLion`: sums and means of squared errors with the same rates. -/
example (P : Picks ℝ) (A C wd β β2 : ℝ) {B : ℕ} (hB : 0 < B) (data : List ((Fin B → Fin 1 → ℝ) × (Fin B → Fin 1 → ℝ) × ℝ)) :
    let s : ℕ → GLayer ℝ := fun j => .linear (Tensor.tab2 1 1 fun _ _ => if j = 0 then A else C) (Tensor.tab1 1 fun _ => 0)
    ∃ s' exp1 exp2, LionTrained P (.comp (.leaf 0) (.leaf 1)) [0, 1] wd β β2 s (fun _ _ => none) (data.map fun d => weightedBatch (fun _ => 1) d.1 d.2.1 d.2.2) s' exp1 ∧
      LionTrained P (.comp (.leaf 0) (.leaf 1)) [0, 1] wd β β2 s (fun _ _ => none) (data.map fun d => weightedBatch (fun _ => 1 / (B : ℝ)) d.1 d.2.1 d.2.2) s' exp2 := by
  intro s
  have hf : ∀ j, (s j).Fits 1 1 := fun j => ⟨rfl, Tensor.wf_tab2 _ _ _, rfl, Tensor.wf_tabulate _ _⟩
  refine C140_lion_first P (I := 1) (O := 1) (c := 1 / (B : ℝ)) (one_div_pos.2 (Nat.cast_pos.2 hB)) [0, 1] wd β β2 ⟨1, hf 0, hf 1⟩ ?_
  induction data with
  | nil => exact .nil
  | cons d data ih => exact .cons ⟨rfl, weightedBatch_scaled _ _ _ _ _⟩ ih

/-- **C140 (gradient descent with the same rate).** Without dividing the learning rate twice the loss gives other parameters, unlike with `SparseLion`. -/
theorem C140_rate (P : Picks ℝ) : ∃ (s s1 s2 : ℕ → GLayer ℝ) (X T : Fin 1 → Fin 1 → ℝ), GExpr.Built s (.leaf 0) 1 1 ∧ train P (.leaf 0) [0] s [weightedBatch (fun _ => 1) X T 1] = .ok s1 ∧
    train P (.leaf 0) [0] s [weightedBatch (fun _ => 2) X T 1] = .ok s2 ∧ s1 ≠ s2 := by
  obtain ⟨s, s1, s2, X, T, hb, t1, t2, hne⟩ := C139_unweighted P
  have hc := weightedBatch_copied (π := fun _ : Fin 2 => (0 : Fin 1)) (w := fun _ => 1 / 2) (v := fun _ => 2) (X := X) (T := T) (X' := fun _ => X 0) (T' := fun _ => T 0) 1 (fun _ _ => rfl) (fun _ _ => rfl)
    (by intro p; fin_cases p; norm_num [Fin.sum_univ_succ])
  obtain ⟨s', r1, r2⟩ := C139_copies P [0] hb (.cons hc .nil)
  rw [show (fun _ : Fin 2 => (1 / 2 * 2 : ℝ)) = fun _ => 1 from funext fun _ => by norm_num] at r2
  obtain rfl := Except.ok.inj (t2.symm.trans r2)
  exact ⟨s, s1, s2, X, T, hb, t1, r1, hne⟩

end HOL
