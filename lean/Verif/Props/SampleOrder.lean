import Verif.Lemmas.SampleOrder

/-! # C137: the order of samples does not matter, and training on symmetric data keeps symmetric networks symmetric -/

namespace HOL
open TorchScalar Spec

/-- **C137 (order of samples).** Training by gradient descent on batches whose samples are in another order (another one for every batch) gives the same parameters. -/
theorem C137_order (P : Picks ℝ) {e : GExpr ℝ} {I O : ℕ} (trained : List ℕ) : ∀ {bs bs' : List (Batch ℝ)} {s : ℕ → GLayer ℝ}, e.Built s I O → List.Forall₂ (Batch.Reordered I O) bs bs' →
    ∃ s', train P e trained s bs = .ok s' ∧ train P e trained s bs' = .ok s'
  | _, _, s, _, .nil => ⟨s, rfl, rfl⟩
  | _, _, s, h, .cons (a := b) (b := b') (l₁ := bs) (l₂ := bs') hb hbs => by
    obtain ⟨hlr, B, π, X, hx, hx', hl⟩ := hb
    obtain ⟨Y, y1, y2⟩ := order_forward π e h X
    obtain ⟨G, g1, g2⟩ := hl Y
    obtain ⟨GX, cs, b1, b2, -⟩ := order_backward P π e h X G
    obtain ⟨s', t1, t2⟩ := C137_order P trained (Built.step trained b.lr cs e h) hbs
    refine ⟨s', ?_, ?_⟩
    · show (trainStep P e trained s b >>= fun s => train P e trained s bs) = _
      have : trainStep P e trained s b = .ok (sgdStep trained b.lr cs s) := by
        show (e.forward s b.x >>= fun y => e.backward P s b.x (b.lossGrad y) >>= fun r => Except.ok (sgdStep trained b.lr r.2 s)) = _
        rw [hx, y1]
        show (e.backward P s (ofMat X) (b.lossGrad (ofMat Y)) >>= fun r => Except.ok (sgdStep trained b.lr r.2 s)) = _
        rw [g1, b1]; rfl
      rw [this]; exact t1
    · show (trainStep P e trained s b' >>= fun s => train P e trained s bs') = _
      have : trainStep P e trained s b' = .ok (sgdStep trained b.lr cs s) := by
        show (e.forward s b'.x >>= fun y => e.backward P s b'.x (b'.lossGrad y) >>= fun r => Except.ok (sgdStep trained b'.lr r.2 s)) = _
        rw [hx', y2]
        show (e.backward P s (ofMat fun q => X (π q)) (b'.lossGrad (ofMat fun q => Y (π q))) >>= fun r => Except.ok (sgdStep trained b'.lr r.2 s)) = _
        rw [g2, b2, hlr]; rfl
      rw [this]; exact t2

/-- **C137 (order of samples, `SparseLion`).** The same with `SparseLion`, from any state of the optimizer: the same parameters and the same state. -/
theorem C137_lion_order (P : Picks ℝ) {e : GExpr ℝ} {I O : ℕ} (trained : List ℕ) (wd β β2 : ℝ) : ∀ {bs bs' : List (Batch ℝ)} {s : ℕ → GLayer ℝ} {exp : ℕ → ℕ → Option (Tensor ℝ)}, e.Built s I O → LionState s trained exp →
    List.Forall₂ (Batch.Reordered I O) bs bs' → ∃ s' exp', LionTrained P e trained wd β β2 s exp bs s' exp' ∧ LionTrained P e trained wd β β2 s exp bs' s' exp'
  | _, _, s, exp, _, _, .nil => ⟨s, exp, .nil _ _, .nil _ _⟩
  | _, _, s, exp, h, hexp, .cons (a := b) (b := b') (l₁ := bs) (l₂ := bs') hb hbs => by
    obtain ⟨hlr, B, π, X, hx, hx', hl⟩ := hb
    obtain ⟨Y, y1, y2⟩ := order_forward π e h X
    obtain ⟨G, g1, g2⟩ := hl Y
    obtain ⟨GX, cs, b1, b2, b3⟩ := order_backward P π e h X G
    obtain ⟨s1, exp1, a1, a2, a3, a4⟩ := lion_runs h b3 trained hexp b.lr wd β β2
    obtain ⟨s', exp', t1, t2⟩ := C137_lion_order P trained wd β β2 a4 a3 hbs
    refine ⟨s', exp', .cons (y := ofMat Y) (gx := ofMat GX) (cs := cs) ?_ ?_ a1 a2 t1, .cons (y := ofMat fun q => Y (π q)) (gx := ofMat fun q => GX (π q)) (cs := cs) ?_ ?_ ?_ ?_ t2⟩
    · rw [hx]; exact y1
    · rw [hx, g1]; exact b1
    · rw [hx']; exact y2
    · rw [hx', g2]; exact b2
    · rw [hlr]; exact a1
    · rw [hlr]; exact a2

/-- What a symmetric network computes and passes back for a symmetric batch. -/
theorem symmetric_pass (P : Picks ℝ) {e : GExpr ℝ} {ν : Signing} {κ ρ : ℕ → Bool} {I O : ℕ} {s : ℕ → GLayer ℝ} (h : e.SignedFirst s ν κ ρ I O) (hs : signAll ν s = s) {b : Batch ℝ} (hb : b.Symmetric κ ρ I O) :
    ∃ (B : ℕ) (y : Tensor ℝ), b.x.shape = [B, I] ∧ b.x.WF ∧ e.forward s b.x = .ok y ∧ (b.lossGrad y).shape = [B, O] ∧
      ∀ gx cs gx' cs', e.backward P s b.x (b.lossGrad y) = .ok (gx, cs) → e.backward P (signAll ν s) (signed κ b.x) (signed ρ (b.lossGrad y)) = .ok (gx', cs') → cs' = cs := by
  obtain ⟨B, π, X, hx, hX, hl⟩ := hb
  obtain ⟨Y, y1, y2⟩ := order_forward π e (SignedFirst.built e h) X
  obtain ⟨y, f1, f2, f3, f4⟩ := expr_answers e (h.change B) (ofMat X) (ofMat_shape X) (ofMat_wf X)
  have hXs : signed κ (ofMat X) = ofMat fun q => X (π q) := by
    rw [signed_mat]
    exact congrArg ofMat (funext fun q => funext fun i => (hX q i).symm)
  obtain rfl : ofMat Y = y := Except.ok.inj (y1.symm.trans f1)
  rw [hs, hXs, signed_mat] at f4
  have hY : (fun q => Y (π q)) = fun q (o : Fin O) => sg (ρ o) * Y q o := ofMat_inj (Except.ok.inj (y2.symm.trans f4))
  obtain ⟨G, g1, g2⟩ := hl Y fun q o => congrFun (congrFun hY q) o
  have hGs : signed ρ (ofMat G) = ofMat fun q => G (π q) := by
    rw [signed_mat]
    exact congrArg ofMat (funext fun q => funext fun o => (g2 q o).symm)
  obtain ⟨GX, cs0, b1, b2, -⟩ := order_backward P π e (SignedFirst.built e h) X G
  refine ⟨B, ofMat Y, by rw [hx]; rfl, by rw [hx]; exact ofMat_wf X, by rw [hx]; exact y1, by rw [g1]; rfl, fun gx cs gx' cs' h1 h2 => ?_⟩
  rw [hx, g1, b1] at h1
  rw [hs, hx, g1, hXs, hGs, b2] at h2
  exact (Prod.mk.inj (Except.ok.inj h2)).2.symm.trans (Prod.mk.inj (Except.ok.inj h1)).2

/-- **C137 (symmetric data).** A network whose parameters are the same after changing signs of inputs, hidden units and outputs, trained by gradient descent on batches that contain with every sample its mirror image: after any number of steps
the parameters are still the same after changing the signs. So the function stays symmetric, everywhere and not only on the samples. -/
theorem C137_symmetric (P : Picks ℝ) {e : GExpr ℝ} {ν : Signing} {κ ρ : ℕ → Bool} {I O : ℕ} (trained : List ℕ) : ∀ {bs : List (Batch ℝ)} {s : ℕ → GLayer ℝ}, e.SignedFirst s ν κ ρ I O → signAll ν s = s →
    (∀ b ∈ bs, b.Symmetric κ ρ I O) →
    ∃ s', train P e trained s bs = .ok s' ∧ signAll ν s' = s' ∧ ∀ {B : ℕ} {x : Tensor ℝ}, x.shape = [B, I] → x.WF → ∃ y, e.forward s' x = .ok y ∧ e.forward s' (signed κ x) = .ok (signed ρ y)
  | [], s, h, hs, _ => by
    refine ⟨s, rfl, hs, fun {B x} hx hwx => ?_⟩
    obtain ⟨y, y1, -, -, y4⟩ := expr_answers e (h.change B) x hx hwx
    rw [hs] at y4
    exact ⟨y, y1, y4⟩
  | b :: bs, s, h, hs, hbs => by
    obtain ⟨B, y, hx, hwx, y1, hg, hcs⟩ := symmetric_pass P h hs (hbs b List.mem_cons_self)
    obtain ⟨gx, gx', cs, h1, h3, h4⟩ := backward_first P e h b.x (b.lossGrad y) hx hwx hg
    have hc := hcs _ _ _ _ h1 h3
    have hst := step_sign (fun c hc => ⟨(h4 c hc).1, (h4 c hc).2.1⟩) trained b.lr
    rw [hc, hs] at hst
    obtain ⟨s', t1, t2, t3⟩ := C137_symmetric P trained (SignedFirst.step trained b.lr cs e h) hst.symm fun b' hb' => hbs b' (List.mem_cons_of_mem _ hb')
    refine ⟨s', ?_, t2, t3⟩
    show (trainStep P e trained s b >>= fun s => train P e trained s bs) = _
    have : trainStep P e trained s b = .ok (sgdStep trained b.lr cs s) := by
      show (e.forward s b.x >>= fun y => e.backward P s b.x (b.lossGrad y) >>= fun r => Except.ok (sgdStep trained b.lr r.2 s)) = _
      rw [y1]
      show (e.backward P s b.x (b.lossGrad y) >>= fun r => Except.ok (sgdStep trained b.lr r.2 s)) = _
      rw [h1]; rfl
    rw [this]; exact t1

/-- **C137 (symmetric data, `SparseLion`).** The same with `SparseLion`, from any symmetric state of the optimizer (for instance none, at the start). -/
theorem C137_lion_symmetric (P : Picks ℝ) {e : GExpr ℝ} {ν : Signing} {κ ρ : ℕ → Bool} {I O : ℕ} (trained : List ℕ) (wd β β2 : ℝ) : ∀ {bs : List (Batch ℝ)} {s : ℕ → GLayer ℝ} {exp : ℕ → ℕ → Option (Tensor ℝ)},
    e.SignedFirst s ν κ ρ I O → signAll ν s = s → LionState s trained exp → signMomenta ν s exp = exp → (∀ b ∈ bs, b.Symmetric κ ρ I O) →
    ∃ s' exp', LionTrained P e trained wd β β2 s exp bs s' exp' ∧ signAll ν s' = s' ∧
      ∀ {B : ℕ} {x : Tensor ℝ}, x.shape = [B, I] → x.WF → ∃ y, e.forward s' x = .ok y ∧ e.forward s' (signed κ x) = .ok (signed ρ y)
  | [], s, exp, h, hs, _, _, _ => by
    refine ⟨s, exp, .nil _ _, hs, fun {B x} hx hwx => ?_⟩
    obtain ⟨y, y1, -, -, y4⟩ := expr_answers e (h.change B) x hx hwx
    rw [hs] at y4
    exact ⟨y, y1, y4⟩
  | b :: bs, s, exp, h, hs, hexp, hm, hbs => by
    obtain ⟨B, y, hx, hwx, y1, hg, hcs⟩ := symmetric_pass P h hs (hbs b List.mem_cons_self)
    obtain ⟨gx, cs, gx', cs', h1, h2, s1, exp1, a1, a2, a3, a4, a5, a6, a7⟩ := C136_lion_step P h hx hwx hg trained hexp b.lr wd β β2
    obtain rfl := hcs _ _ _ _ h1 h2
    rw [hs, hm] at a3 a4
    have q1 : signAll ν s1 = s1 := funext fun j => Except.ok.inj ((a3 j).symm.trans (a1 j))
    have q2 : signMomenta ν s1 exp1 = exp1 := by
      rw [a7]
      exact funext fun j => funext fun k => Except.ok.inj ((a4 j k).symm.trans (a2 j k))
    obtain ⟨s', exp', t1, t2, t3⟩ := C137_lion_symmetric P trained wd β β2 a6 q1 a5 q2 fun b' hb' => hbs b' (List.mem_cons_of_mem _ hb')
    exact ⟨s', exp', .cons y1 h1 a1 a2 t1, t2, t3⟩

/-- A batch with targets `T` and the sum of squared errors. -/
noncomputable def sqBatch {B I O : ℕ} (X : Fin B → Fin I → ℝ) (T : Fin B → Fin O → ℝ) (lr : ℝ) : Batch ℝ where
  x := ofMat X
  lossGrad y := ofMat fun q o => 2 * (y.get [(q : ℕ), (o : ℕ)] - T q o)
  lr := lr

theorem sqBatch_loss {B I O : ℕ} (X : Fin B → Fin I → ℝ) (T : Fin B → Fin O → ℝ) (lr : ℝ) (Y : Fin B → Fin O → ℝ) : (sqBatch X T lr).lossGrad (ofMat Y) = ofMat fun q o => 2 * (Y q o - T q o) := by
  show (ofMat fun q o => 2 * ((ofMat Y).get [(q : ℕ), (o : ℕ)] - T q o)) = _
  refine congrArg ofMat (funext fun q => funext fun o => ?_)
  rw [ofMat_get]

/-- **C137 (data that are not symmetric).** Without the mirror images the symmetry is lost: one linear layer with weight and bias 0 and the single sample 0 with target 1. After one step with rate 1 the bias is 2. -/
theorem C137_asymmetric (P : Picks ℝ) : ∃ (s : ℕ → GLayer ℝ) (ν : Signing) (b : Batch ℝ), GExpr.SignedFirst s ν (.leaf 0) (fun _ => true) (fun _ => true) 1 1 ∧ signAll ν s = s ∧ (∃ s', train P (.leaf 0) [0] s [b] = .ok s') ∧
    ∀ s', train P (.leaf 0) [0] s [b] = .ok s' → signAll ν s' ≠ s' := by
  let w : Tensor ℝ := Tensor.tab2 1 1 fun _ _ => 0
  let c : Tensor ℝ := Tensor.tab1 1 fun _ => 0
  let X : Fin 1 → Fin 1 → ℝ := fun _ _ => 0
  let b : Batch ℝ := sqBatch X (fun (_ : Fin 1) (_ : Fin 1) => 1) 1
  have e1 : signMatrix (fun _ => true) (fun _ => true) w = w := by
    refine Tensor.ext_get (Tensor.wf_tabulate _ _) (Tensor.wf_tabulate _ _) rfl fun idx hin => ?_
    obtain ⟨o, i, rfl, ho, hi⟩ := inShape2_exists (a := 1) (b := 1) hin
    rw [signMatrix_get (O := 1) (I := 1) rfl ho hi]
    norm_num [sg]
  have e2 : signOut (fun _ => true) c = c := by
    refine Tensor.ext_get (Tensor.wf_tabulate _ _) (Tensor.wf_tabulate _ _) rfl fun idx hin => ?_
    obtain ⟨o, rfl, ho⟩ := inShape1_exists (n := 1) hin
    rw [signOut_get (O := 1) rfl ho, Tensor.get_tab1 ho, mul_zero]
  have hy : linearFn w c 1 X = fun _ _ => 0 := by
    funext q o
    unfold linearFn
    simp [w, c, X, Tensor.get_tab2, Tensor.get_tab1]
  have hfw : GExpr.forward (fun _ => GLayer.linear w c) (.leaf 0) b.x = .ok (ofMat fun (_ : Fin 1) (_ : Fin 1) => 0) := by
    rw [← hy]
    exact linear_mat (w := w) (b := c) (I := 1) (O := 1) rfl X
  let g : Tensor ℝ := ofMat fun (_ : Fin 1) (_ : Fin 1) => 2 * ((0 : ℝ) - 1)
  have ht : train P (.leaf 0) [0] (fun _ => GLayer.linear w c) [b] = .ok (sgdStep [0] 1 [(0, (GLayer.linear w c).paramGrads (ofMat X) g)] fun _ => GLayer.linear w c) := by
    show (trainStep P (.leaf 0) [0] (fun _ => GLayer.linear w c) b >>= fun s => Except.ok s) = _
    have : trainStep P (.leaf 0) [0] (fun _ => GLayer.linear w c) b = .ok (sgdStep [0] 1 [(0, (GLayer.linear w c).paramGrads (ofMat X) g)] fun _ => GLayer.linear w c) := by
      show (GExpr.forward (fun _ => GLayer.linear w c) (.leaf 0) b.x >>= fun y => GExpr.backward P (fun _ => GLayer.linear w c) (.leaf 0) b.x (b.lossGrad y) >>= fun r => Except.ok (sgdStep [0] b.lr r.2 _)) = _
      rw [hfw]
      show (GExpr.backward P (fun _ => GLayer.linear w c) (.leaf 0) b.x (b.lossGrad (ofMat fun (_ : Fin 1) (_ : Fin 1) => 0)) >>= fun r => Except.ok (sgdStep [0] b.lr r.2 _)) = _
      rw [sqBatch_loss]
      rfl
    rw [this]; rfl
  refine ⟨fun _ => .linear w c, fun _ => some (fun _ => true, fun _ => true), b, ⟨⟨rfl, Tensor.wf_tab2 _ _ _, rfl, Tensor.wf_tabulate _ _⟩, trivial, rfl⟩, funext fun _ => congrArg₂ GLayer.linear e1 e2, ⟨_, ht⟩, fun s' hs' hsym => ?_⟩
  obtain rfl := Except.ok.inj (ht.symm.trans hs')
  have h0 := congrFun hsym 0
  have h1 : signOut (fun _ => true) (sgdParam 1 c (some (biasGrad g))) = sgdParam 1 c (some (biasGrad g)) := (GLayer.linear.inj h0).2
  have h2 := congrArg (fun t : Tensor ℝ => t.get [0]) h1
  beta_reduce at h2
  rw [signOut_get (O := 1) rfl Nat.one_pos] at h2
  have h3 : (sgdParam 1 c (some (biasGrad g))).get [0] = 2 := by
    have k : (biasGrad g).get [0] = -2 := by
      refine (Tensor.get_tab1 (f := fun o => sumL ((List.range 1).map fun b => g.get [b, o])) Nat.one_pos).trans ?_
      rw [sumL_range]
      have := ofMat_get (fun (_ : Fin 1) (_ : Fin 1) => 2 * ((0 : ℝ) - 1)) 0 0
      simp only [Finset.range_one, Finset.sum_singleton]
      refine this.trans ?_
      norm_num
    refine (Tensor.get_tab1 (f := fun o => c.get [o] - 1 * (biasGrad g).get [o]) Nat.one_pos).trans ?_
    rw [k, Tensor.get_tab1 Nat.one_pos]
    norm_num
  rw [h3] at h2
  norm_num [sg] at h2

/-- Squared errors treat the samples alike. -/
example {l : GLayer ℝ} {I O B : ℕ} (h : l.Fits I O) (P : Picks ℝ) (π : Equiv.Perm (Fin B)) (X : Fin B → Fin I → ℝ) (T : Fin B → Fin O → ℝ) (lr : ℝ) :
    ∃ s', train P (.leaf 0) [0] (fun _ => l) [sqBatch X T lr] = .ok s' ∧ train P (.leaf 0) [0] (fun _ => l) [sqBatch (fun q => X (π q)) (fun q => T (π q)) lr] = .ok s' :=
  C137_order (e := .leaf 0) (I := I) (O := O) P [0] h (.cons ⟨rfl, B, π, X, rfl, rfl, fun Y => ⟨fun q o => 2 * (Y q o - T q o), sqBatch_loss _ _ _ _, sqBatch_loss _ _ _ _⟩⟩ .nil)

/-- Two linear layers without biases (that is, with biases 0), trained with squared errors on a sample and its negative, whose targets are negatives: after any number of steps with any rates the network is an odd function. -/
example (P : Picks ℝ) (A C : ℝ) (data : List (ℝ × ℝ × ℝ)) :
    let s : ℕ → GLayer ℝ := fun j => .linear (Tensor.tab2 1 1 fun _ _ => if j = 0 then A else C) (Tensor.tab1 1 fun _ => 0)
    let bs : List (Batch ℝ) := data.map fun d => sqBatch (fun (q : Fin 2) (_ : Fin 1) => if q = 0 then d.1 else -d.1) (fun (q : Fin 2) (_ : Fin 1) => if q = 0 then d.2.1 else -d.2.1) d.2.2
    ∃ s', train P (.comp (.leaf 0) (.leaf 1)) [0, 1] s bs = .ok s' ∧
      ∀ {B : ℕ} {x : Tensor ℝ}, x.shape = [B, 1] → x.WF → ∃ y, GExpr.forward s' (.comp (.leaf 0) (.leaf 1)) x = .ok y ∧ GExpr.forward s' (.comp (.leaf 0) (.leaf 1)) (signed (fun _ => true) x) = .ok (signed (fun _ => true) y) := by
  intro s bs
  let ν : Signing := fun _ => some (fun _ => true, fun _ => true)
  have hf : ∀ j, (s j).Fits 1 1 := fun j => ⟨rfl, Tensor.wf_tab2 _ _ _, rfl, Tensor.wf_tabulate _ _⟩
  have h : GExpr.SignedFirst s ν (.comp (.leaf 0) (.leaf 1)) (fun _ => true) (fun _ => true) 1 1 := ⟨fun _ => true, 1, ⟨hf 0, trivial, rfl⟩, ⟨hf 1, trivial, trivial, rfl⟩⟩
  have hs : signAll ν s = s := by
    funext j
    refine congrArg₂ GLayer.linear (Tensor.ext_get (Tensor.wf_tabulate _ _) (Tensor.wf_tabulate _ _) rfl fun idx hin => ?_) (Tensor.ext_get (Tensor.wf_tabulate _ _) (Tensor.wf_tabulate _ _) rfl fun idx hin => ?_)
    · obtain ⟨o, i, rfl, ho, hi⟩ := inShape2_exists (a := 1) (b := 1) hin
      rw [signMatrix_get (O := 1) (I := 1) rfl ho hi]
      norm_num [sg]
    · obtain ⟨o, rfl, ho⟩ := inShape1_exists (n := 1) hin
      rw [signOut_get (O := 1) rfl ho, Tensor.get_tab1 ho]
      norm_num [sg]
  obtain ⟨s', t1, -, t3⟩ := C137_symmetric (I := 1) (O := 1) P [0, 1] h hs (bs := bs) fun b hb => by
    obtain ⟨d, -, rfl⟩ := List.mem_map.1 hb
    refine ⟨2, Equiv.swap 0 1, fun q _ => if q = 0 then d.1 else -d.1, rfl, fun q i => ?_, fun Y hY => ⟨fun q o => 2 * (Y q o - if q = 0 then d.2.1 else -d.2.1), sqBatch_loss _ _ _ _, fun q o => ?_⟩⟩
    · fin_cases q <;> simp [sg]
    · show 2 * (Y (Equiv.swap 0 1 q) o - _) = _
      rw [hY q o]
      fin_cases q <;> simp [sg] <;> ring
  exact ⟨s', t1, t3⟩

end HOL
