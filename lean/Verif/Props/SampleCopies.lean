import Verif.Lemmas.SampleCopies
import Verif.Props.SampleOrder

/-! # C139: copies of samples, weights and padding -/

namespace HOL
open TorchScalar Spec

/-- **C139.** Training by gradient descent on batches with copies of the samples, whose weights in the loss add up to 1 for every sample, and with padding rows of weight 0 that may hold anything, gives the same parameters. -/
theorem C139_copies (P : Picks ℝ) {e : GExpr ℝ} {I O : ℕ} (trained : List ℕ) : ∀ {bs bs' : List (Batch ℝ)} {s : ℕ → GLayer ℝ}, e.Built s I O → List.Forall₂ (Batch.Copied I O) bs bs' →
    ∃ s', train P e trained s bs = .ok s' ∧ train P e trained s bs' = .ok s'
  | _, _, s, _, .nil => ⟨s, rfl, rfl⟩
  | _, _, s, h, .cons (a := b) (b := b') (l₁ := bs) (l₂ := bs') hb hbs => by
    obtain ⟨hlr, B, B', π, w, X, X', hx, hx', hX, hw, hl⟩ := hb
    obtain ⟨Y, Y', y1, y2, y3⟩ := copy_forward e h hX
    obtain ⟨G, g1, g2⟩ := hl Y Y' y3
    obtain ⟨GX, cs, b1, b2, -⟩ := copy_backward P hw e h hX G
    obtain ⟨s', t1, t2⟩ := C139_copies P trained (Built.step trained b.lr cs e h) hbs
    refine ⟨s', ?_, ?_⟩
    · show (trainStep P e trained s b >>= fun s => train P e trained s bs) = _
      have : trainStep P e trained s b = .ok (sgdStep trained b.lr cs s) := by
        show (e.forward s b.x >>= fun y => e.backward P s b.x (b.lossGrad y) >>= fun r => Except.ok (sgdStep trained b.lr r.2 s)) = _
        rw [hx, y1]
        show (e.backward P s (ofMat X) (b.lossGrad (ofMat Y)) >>= fun r => Except.ok (sgdStep trained b.lr r.2 s)) = _
        rw [g1, b1]; rfl
      rw [this]; exact t1
    · show (trainStep P e trained s b' >>= fun s => train P e trained s bs') = _
      have : trainStep P e trained s b' = .ok (sgdStep trained b.lr cs s) := by
        show (e.forward s b'.x >>= fun y => e.backward P s b'.x (b'.lossGrad y) >>= fun r => Except.ok (sgdStep trained b'.lr r.2 s)) = _
        rw [hx', y2]
        show (e.backward P s (ofMat X') (b'.lossGrad (ofMat Y')) >>= fun r => Except.ok (sgdStep trained b'.lr r.2 s)) = _
        rw [g2, b2, hlr]; rfl
      rw [this]; exact t2

/-- **C139 (`SparseLion`).** The same with `SparseLion`, from any state of the optimizer: the same parameters and the same state. -/
theorem C139_lion_copies (P : Picks ℝ) {e : GExpr ℝ} {I O : ℕ} (trained : List ℕ) (wd β β2 : ℝ) : ∀ {bs bs' : List (Batch ℝ)} {s : ℕ → GLayer ℝ} {exp : ℕ → ℕ → Option (Tensor ℝ)}, e.Built s I O → LionState s trained exp →
    List.Forall₂ (Batch.Copied I O) bs bs' → ∃ s' exp', LionTrained P e trained wd β β2 s exp bs s' exp' ∧ LionTrained P e trained wd β β2 s exp bs' s' exp'
  | _, _, s, exp, _, _, .nil => ⟨s, exp, .nil _ _, .nil _ _⟩
  | _, _, s, exp, h, hexp, .cons (a := b) (b := b') (l₁ := bs) (l₂ := bs') hb hbs => by
    obtain ⟨hlr, B, B', π, w, X, X', hx, hx', hX, hw, hl⟩ := hb
    obtain ⟨Y, Y', y1, y2, y3⟩ := copy_forward e h hX
    obtain ⟨G, g1, g2⟩ := hl Y Y' y3
    obtain ⟨GX, cs, b1, b2, b3⟩ := copy_backward P hw e h hX G
    obtain ⟨s1, exp1, a1, a2, a3, a4⟩ := lion_runs h b3 trained hexp b.lr wd β β2
    obtain ⟨s', exp', t1, t2⟩ := C139_lion_copies P trained wd β β2 a4 a3 hbs
    refine ⟨s', exp', .cons (y := ofMat Y) (gx := ofMat GX) (cs := cs) ?_ ?_ a1 a2 t1, .cons (y := ofMat Y') (gx := ofMat fun q i => w q * GX (π q) i) (cs := cs) ?_ ?_ ?_ ?_ t2⟩
    · rw [hx]; exact y1
    · rw [hx, g1]; exact b1
    · rw [hx']; exact y2
    · rw [hx', g2]; exact b2
    · rw [hlr]; exact a1
    · rw [hlr]; exact a2

/-- Squared errors of sample `q` with targets `T q` and weight `w q`. -/
noncomputable def weightedBatch {B I O : ℕ} (w : Fin B → ℝ) (X : Fin B → Fin I → ℝ) (T : Fin B → Fin O → ℝ) (lr : ℝ) : Batch ℝ where
  x := ofMat X
  lossGrad y := ofMat fun q o => w q * (2 * (y.get [(q : ℕ), (o : ℕ)] - T q o))
  lr := lr

theorem weightedBatch_loss {B I O : ℕ} (w : Fin B → ℝ) (X : Fin B → Fin I → ℝ) (T : Fin B → Fin O → ℝ) (lr : ℝ) (Y : Fin B → Fin O → ℝ) : (weightedBatch w X T lr).lossGrad (ofMat Y) = ofMat fun q o => w q * (2 * (Y q o - T q o)) := by
  show (ofMat fun q o => w q * (2 * ((ofMat Y).get [(q : ℕ), (o : ℕ)] - T q o))) = _
  refine congrArg ofMat (funext fun q => funext fun o => ?_)
  rw [ofMat_get]

/-- Squared errors with weights, for copies of samples with the same targets. -/
theorem weightedBatch_copied {B B' I O : ℕ} {π : Fin B' → Fin B} {w : Fin B' → ℝ} {v : Fin B → ℝ} {X : Fin B → Fin I → ℝ} {X' : Fin B' → Fin I → ℝ} {T : Fin B → Fin O → ℝ} {T' : Fin B' → Fin O → ℝ} (lr : ℝ)
    (hX : ∀ q, w q ≠ 0 → X' q = X (π q)) (hT : ∀ q, w q ≠ 0 → T' q = T (π q)) (hw : ∀ p, ∑ q, (if π q = p then w q else 0) = 1) :
    Batch.Copied I O (weightedBatch v X T lr) (weightedBatch (fun q => w q * v (π q)) X' T' lr) := by
  refine ⟨rfl, B, B', π, w, X, X', rfl, rfl, hX, hw, fun Y Y' hY => ⟨fun q o => v q * (2 * (Y q o - T q o)), weightedBatch_loss _ _ _ _ _, (weightedBatch_loss _ _ _ _ _).trans (congrArg ofMat (funext fun q => funext fun o => ?_))⟩⟩
  by_cases hq : w q = 0
  · rw [hq]; ring
  · rw [hY q hq, hT q hq]; ring

/-- Mean squared errors (`1 / B` for each sample): one layer of any kind trained for any number of steps on samples `0` and `1`, or on rows `0, 1, 0, 1` (mean over four), gives the same parameters. -/
example {l : GLayer ℝ} {I O : ℕ} (h : l.Fits I O) (P : Picks ℝ) (data : List ((Fin 2 → Fin I → ℝ) × (Fin 2 → Fin O → ℝ) × ℝ)) :
    ∃ s', train P (.leaf 0) [0] (fun _ => l) (data.map fun d => weightedBatch (fun _ => 1 / 2) d.1 d.2.1 d.2.2) = .ok s' ∧
      train P (.leaf 0) [0] (fun _ => l) (data.map fun d => weightedBatch (fun _ : Fin 4 => 1 / 4) (fun q => d.1 (![0, 1, 0, 1] q)) (fun q => d.2.1 (![0, 1, 0, 1] q)) d.2.2) = .ok s' := by
  refine C139_copies (e := .leaf 0) (I := I) (O := O) P [0] h ?_
  induction data with
  | nil => exact .nil
  | cons d data ih =>
    refine .cons ?_ ih
    have := weightedBatch_copied (π := ![0, 1, 0, 1]) (w := fun _ => 1 / 2) (v := fun _ => 1 / 2) (X := d.1) (T := d.2.1) (X' := fun q => d.1 (![0, 1, 0, 1] q)) (T' := fun q => d.2.1 (![0, 1, 0, 1] q)) d.2.2
      (fun _ _ => rfl) (fun _ _ => rfl) (by intro p; fin_cases p <;> norm_num [Fin.sum_univ_succ])
    norm_num at this ⊢
    exact this

/-- Padding: one sample `x` with target `t`, and the same batch with a second row `z`, `u` of weight 0. -/
example {l : GLayer ℝ} {I O : ℕ} (h : l.Fits I O) (P : Picks ℝ) (x z : Fin I → ℝ) (t u : Fin O → ℝ) (lr : ℝ) :
    ∃ s', train P (.leaf 0) [0] (fun _ => l) [weightedBatch (fun _ : Fin 1 => 1) (fun _ => x) (fun _ => t) lr] = .ok s' ∧ train P (.leaf 0) [0] (fun _ => l) [weightedBatch ![1, 0] ![x, z] ![t, u] lr] = .ok s' := by
  refine C139_copies (e := .leaf 0) (I := I) (O := O) P [0] h (.cons ?_ .nil)
  have := weightedBatch_copied (π := fun _ : Fin 2 => (0 : Fin 1)) (w := ![1, 0]) (v := fun _ => 1) (X := fun _ => x) (T := fun _ => t) (X' := ![x, z]) (T' := ![t, u]) lr
    (by intro q hq; fin_cases q <;> simp_all) (by intro q hq; fin_cases q <;> simp_all) (by intro p; fin_cases p; norm_num [Fin.sum_univ_succ])
  simp only [mul_one] at this
  exact this

/-- One linear layer with weight and bias 0 and `B` copies of the sample 0 with target 1 and weight 1: after one step with rate 1 the bias is `2 B`. -/
theorem unweighted_step (P : Picks ℝ) (B : ℕ) : ∃ (s' : ℕ → GLayer ℝ) (w c : Tensor ℝ),
    train P (.leaf 0) [0] (fun _ => .linear (Tensor.tab2 1 1 fun _ _ => 0) (Tensor.tab1 1 fun _ => 0)) [weightedBatch (fun _ : Fin B => 1) (fun _ (_ : Fin 1) => 0) (fun _ (_ : Fin 1) => 1) 1] = .ok s' ∧ s' 0 = .linear w c ∧ c.get [0] = 2 * B := by
  let w : Tensor ℝ := Tensor.tab2 1 1 fun _ _ => 0
  let c : Tensor ℝ := Tensor.tab1 1 fun _ => 0
  let X : Fin B → Fin 1 → ℝ := fun _ _ => 0
  let b : Batch ℝ := weightedBatch (fun _ : Fin B => 1) X (fun _ (_ : Fin 1) => 1) 1
  have hy : linearFn w c 1 X = fun _ _ => 0 := by
    funext q o
    unfold linearFn
    simp [w, c, X, Tensor.get_tab2, Tensor.get_tab1]
  have hfw : GExpr.forward (fun _ => GLayer.linear w c) (.leaf 0) b.x = .ok (ofMat fun (_ : Fin B) (_ : Fin 1) => 0) := by
    rw [← hy]
    exact linear_mat (w := w) (b := c) (I := 1) (O := 1) rfl X
  let g : Tensor ℝ := ofMat fun (_ : Fin B) (_ : Fin 1) => 1 * (2 * ((0 : ℝ) - 1))
  have ht : train P (.leaf 0) [0] (fun _ => GLayer.linear w c) [b] = .ok (sgdStep [0] 1 [(0, (GLayer.linear w c).paramGrads (ofMat X) g)] fun _ => GLayer.linear w c) := by
    show (trainStep P (.leaf 0) [0] (fun _ => GLayer.linear w c) b >>= fun s => Except.ok s) = _
    have : trainStep P (.leaf 0) [0] (fun _ => GLayer.linear w c) b = .ok (sgdStep [0] 1 [(0, (GLayer.linear w c).paramGrads (ofMat X) g)] fun _ => GLayer.linear w c) := by
      show (GExpr.forward (fun _ => GLayer.linear w c) (.leaf 0) b.x >>= fun y => GExpr.backward P (fun _ => GLayer.linear w c) (.leaf 0) b.x (b.lossGrad y) >>= fun r => Except.ok (sgdStep [0] b.lr r.2 _)) = _
      rw [hfw]
      show (GExpr.backward P (fun _ => GLayer.linear w c) (.leaf 0) b.x (b.lossGrad (ofMat fun (_ : Fin B) (_ : Fin 1) => 0)) >>= fun r => Except.ok (sgdStep [0] b.lr r.2 _)) = _
      rw [weightedBatch_loss]
      rfl
    rw [this]; rfl
  refine ⟨_, sgdParam 1 w (some (linearWeightGrad w (ofMat X) g)), sgdParam 1 c (some (biasGrad g)), ht, rfl, ?_⟩
  have k : (biasGrad g).get [0] = -(2 * B) := by
    refine (Tensor.get_tab1 (f := fun o => sumL ((List.range B).map fun b => g.get [b, o])) Nat.one_pos).trans ?_
    rw [sumL_range]
    have : ∀ q ∈ Finset.range B, g.get [q, 0] = -2 := fun q hq => (ofMat_get (fun (_ : Fin B) (_ : Fin 1) => 1 * (2 * ((0 : ℝ) - 1))) ⟨q, Finset.mem_range.1 hq⟩ 0).trans (by norm_num)
    rw [Finset.sum_congr rfl this, Finset.sum_const, Finset.card_range, nsmul_eq_mul]
    ring
  refine (Tensor.get_tab1 (f := fun o => c.get [o] - 1 * (biasGrad g).get [o]) Nat.one_pos).trans ?_
  rw [k, Tensor.get_tab1 Nat.one_pos]
  ring

/-- **C139 (weights that do not add up to 1).** With a sum over the rows instead of a mean a repeated sample counts twice: the parameters differ after one step. -/
theorem C139_unweighted (P : Picks ℝ) : ∃ (s s1 s2 : ℕ → GLayer ℝ) (X : Fin 1 → Fin 1 → ℝ) (T : Fin 1 → Fin 1 → ℝ), GExpr.Built s (.leaf 0) 1 1 ∧ train P (.leaf 0) [0] s [weightedBatch (fun _ => 1) X T 1] = .ok s1 ∧
    train P (.leaf 0) [0] s [weightedBatch (fun _ : Fin 2 => 1) (fun _ => X 0) (fun _ => T 0) 1] = .ok s2 ∧ s1 ≠ s2 := by
  obtain ⟨s1, w1, c1, a1, a2, a3⟩ := unweighted_step P 1
  obtain ⟨s2, w2, c2, b1, b2, b3⟩ := unweighted_step P 2
  refine ⟨fun _ => .linear (Tensor.tab2 1 1 fun _ _ => 0) (Tensor.tab1 1 fun _ => 0), s1, s2, fun _ _ => 0, fun _ _ => 1, ⟨rfl, Tensor.wf_tab2 _ _ _, rfl, Tensor.wf_tabulate _ _⟩, a1, b1, fun h => ?_⟩
  rw [h, b2] at a2
  rw [← (GLayer.linear.inj a2).2, b3] at a3
  norm_num at a3

end HOL
