import Verif.Props.SampleOrder

/-! # C138: training on data that do not distinguish units keeps networks that do not distinguish them -/

namespace HOL
open TorchScalar Spec

theorem columns_mat {B I : ℕ} {κ : ℕ → ℕ} {π : Equiv.Perm (Fin B)} {X : Fin B → Fin I → ℝ} (h : ∀ (q : Fin B) (i : Fin I), X (π q) i = (ofMat X).get [(q : ℕ), κ i]) : columns κ (ofMat X) = ofMat fun q => X (π q) :=
  rows_of (t := columns κ (ofMat X)) (ofMat_shape X) (Tensor.wf_tabulate _ _) fun q i => by rw [columns_get (ofMat_shape X) q.2 i.2, h q i]

/-- What a symmetric network computes and passes back for a symmetric batch. -/
theorem alike_pass (P : Picks ℝ) {e : GExpr ℝ} {ν : Numbering} {κ ρ : ℕ → ℕ} {I O : ℕ} {s : ℕ → GLayer ℝ} (h : e.Numbered s ν κ ρ I O) (hs : renumberAll ν s = s) {b : Batch ℝ} (hb : b.Alike κ ρ I O) :
    ∃ (B : ℕ) (y : Tensor ℝ), b.x.shape = [B, I] ∧ b.x.WF ∧ e.forward s b.x = .ok y ∧ (b.lossGrad y).shape = [B, O] ∧
      ∀ gx cs gx' cs', e.backward P s b.x (b.lossGrad y) = .ok (gx, cs) → e.backward P (renumberAll ν s) (columns κ b.x) (columns ρ (b.lossGrad y)) = .ok (gx', cs') → cs' = cs := by
  obtain ⟨B, π, X, hx, hX, hl⟩ := hb
  obtain ⟨Y, y1, y2⟩ := order_forward π e (Numbered.built e h) X
  obtain ⟨y, f1, f2, f3, f4⟩ := (expr_follows e (h.renumbered B)).2 (ofMat X) (ofMat_shape X) (ofMat_wf X)
  have hXs : columns κ (ofMat X) = ofMat fun q => X (π q) := columns_mat hX
  obtain rfl : ofMat Y = y := Except.ok.inj (y1.symm.trans f1)
  rw [hs, hXs] at f4
  have hY : ∀ (q : Fin B) (o : Fin O), Y (π q) o = (ofMat Y).get [(q : ℕ), ρ o] := fun q o => by
    have := congrArg (fun t : Tensor ℝ => t.get [(q : ℕ), (o : ℕ)]) (Except.ok.inj (y2.symm.trans f4))
    beta_reduce at this
    rw [ofMat_get, columns_get (ofMat_shape Y) q.2 o.2] at this
    exact this
  obtain ⟨G, g1, g2⟩ := hl Y hY
  have hGs : columns ρ (ofMat G) = ofMat fun q => G (π q) := columns_mat g2
  obtain ⟨GX, cs0, b1, b2, -⟩ := order_backward P π e (Numbered.built e h) X G
  refine ⟨B, ofMat Y, by rw [hx]; rfl, by rw [hx]; exact ofMat_wf X, by rw [hx]; exact y1, by rw [g1]; rfl, fun gx cs gx' cs' h1 h2 => ?_⟩
  rw [hx, g1, b1] at h1
  rw [hs, hx, g1, hXs, hGs, b2] at h2
  exact (Prod.mk.inj (Except.ok.inj h2)).2.symm.trans (Prod.mk.inj (Except.ok.inj h1)).2

/-- **C138 (symmetric data).** A network whose parameters are the same after renumbering inputs, hidden units and outputs, trained by gradient descent on batches that contain with every sample the renumbered one: after any number of steps
the parameters are still the same after renumbering. So the function stays symmetric, everywhere and not only on the samples. -/
theorem C138_training (P : Picks ℝ) {e : GExpr ℝ} {ν : Numbering} {κ ρ : ℕ → ℕ} {I O : ℕ} (trained : List ℕ) : ∀ {bs : List (Batch ℝ)} {s : ℕ → GLayer ℝ}, e.Numbered s ν κ ρ I O → renumberAll ν s = s →
    (∀ b ∈ bs, b.Alike κ ρ I O) →
    ∃ s', train P e trained s bs = .ok s' ∧ renumberAll ν s' = s' ∧ ∀ {B : ℕ} {x : Tensor ℝ}, x.shape = [B, I] → x.WF → ∃ y, e.forward s' x = .ok y ∧ e.forward s' (columns κ x) = .ok (columns ρ y)
  | [], s, h, hs, _ => by
    refine ⟨s, rfl, hs, fun {B x} hx hwx => ?_⟩
    obtain ⟨y, y1, -, -, y4⟩ := (expr_follows e (h.renumbered B)).2 x hx hwx
    rw [hs] at y4
    exact ⟨y, y1, y4⟩
  | b :: bs, s, h, hs, hbs => by
    obtain ⟨B, y, hx, hwx, y1, hg, hcs⟩ := alike_pass P h hs (hbs b List.mem_cons_self)
    obtain ⟨gx, cs, h1, -, h3, h4⟩ := backward_follows P e h b.x (b.lossGrad y) hx hwx hg
    have hc := hcs _ _ _ _ h1 h3
    have hst := step_renumber (fun c hc => ⟨(h4 c hc).1, (h4 c hc).2.1⟩) trained b.lr
    rw [hc, hs] at hst
    obtain ⟨s', t1, t2, t3⟩ := C138_training P trained (Numbered.step trained b.lr cs e h) hst.symm fun b' hb' => hbs b' (List.mem_cons_of_mem _ hb')
    refine ⟨s', ?_, t2, t3⟩
    show (trainStep P e trained s b >>= fun s => train P e trained s bs) = _
    have : trainStep P e trained s b = .ok (sgdStep trained b.lr cs s) := by
      show (e.forward s b.x >>= fun y => e.backward P s b.x (b.lossGrad y) >>= fun r => Except.ok (sgdStep trained b.lr r.2 s)) = _
      rw [y1]
      show (e.backward P s b.x (b.lossGrad y) >>= fun r => Except.ok (sgdStep trained b.lr r.2 s)) = _
      rw [h1]; rfl
    rw [this]; exact t1

/-- **C138 (symmetric data, `SparseLion`).** The same with `SparseLion`, from any symmetric state of the optimizer (for instance none, at the start). -/
theorem C138_lion_training (P : Picks ℝ) {e : GExpr ℝ} {ν : Numbering} {κ ρ : ℕ → ℕ} {I O : ℕ} (trained : List ℕ) (wd β β2 : ℝ) : ∀ {bs : List (Batch ℝ)} {s : ℕ → GLayer ℝ} {exp : ℕ → ℕ → Option (Tensor ℝ)},
    e.Numbered s ν κ ρ I O → renumberAll ν s = s → LionState s trained exp → renumberMomenta ν exp = exp → (∀ b ∈ bs, b.Alike κ ρ I O) →
    ∃ s' exp', LionTrained P e trained wd β β2 s exp bs s' exp' ∧ renumberAll ν s' = s' ∧
      ∀ {B : ℕ} {x : Tensor ℝ}, x.shape = [B, I] → x.WF → ∃ y, e.forward s' x = .ok y ∧ e.forward s' (columns κ x) = .ok (columns ρ y)
  | [], s, exp, h, hs, _, _, _ => by
    refine ⟨s, exp, .nil _ _, hs, fun {B x} hx hwx => ?_⟩
    obtain ⟨y, y1, -, -, y4⟩ := (expr_follows e (h.renumbered B)).2 x hx hwx
    rw [hs] at y4
    exact ⟨y, y1, y4⟩
  | b :: bs, s, exp, h, hs, hexp, hm, hbs => by
    obtain ⟨B, y, hx, hwx, y1, hg, hcs⟩ := alike_pass P h hs (hbs b List.mem_cons_self)
    obtain ⟨gx, cs, gx', cs', h1, h2, s1, exp1, a1, a2, a3, a4, a5, a6⟩ := C132_lion_step P h hx hwx hg trained hexp b.lr wd β β2
    obtain rfl := hcs _ _ _ _ h1 h2
    rw [hs, hm] at a3 a4
    have q1 : renumberAll ν s1 = s1 := funext fun j => Except.ok.inj ((a3 j).symm.trans (a1 j))
    have q2 : renumberMomenta ν exp1 = exp1 := by
      exact funext fun j => funext fun k => Except.ok.inj ((a4 j k).symm.trans (a2 j k))
    obtain ⟨s', exp', t1, t2, t3⟩ := C138_lion_training P trained wd β β2 a6 q1 a5 q2 fun b' hb' => hbs b' (List.mem_cons_of_mem _ hb')
    exact ⟨s', exp', .cons y1 h1 a1 a2 t1, t2, t3⟩

/-- One linear layer that weighs its two inputs alike, trained with squared errors on samples `(a, b)` and `(b, a)` with one target: after any number of steps with any rates its output does not depend on the order of the inputs. -/
example (P : Picks ℝ) (A C : ℝ) (data : List (ℝ × ℝ × ℝ × ℝ)) :
    let s : ℕ → GLayer ℝ := fun _ => .linear (Tensor.tab2 1 2 fun _ _ => A) (Tensor.tab1 1 fun _ => C)
    let bs : List (Batch ℝ) := data.map fun d => sqBatch (fun (q : Fin 2) (i : Fin 2) => if q = i then d.1 else d.2.1) (fun (_ : Fin 2) (_ : Fin 1) => d.2.2.1) d.2.2.2
    ∃ s', train P (.leaf 0) [0] s bs = .ok s' ∧ ∀ {B : ℕ} {x : Tensor ℝ}, x.shape = [B, 2] → x.WF → ∃ y, GExpr.forward s' (.leaf 0) x = .ok y ∧ GExpr.forward s' (.leaf 0) (columns (fun i => 1 - i) x) = .ok (columns (fun o => o) y) := by
  intro s bs
  let ν : Numbering := fun _ => some (fun i => 1 - i, fun o => o)
  have hsw : Renumbers (fun i => 1 - i) 2 := by
    refine ⟨fun i hi => ?_, fun i hi j hj h => ?_, fun i hi => ⟨1 - i, ?_, ?_⟩⟩
    · exact Set.mem_Iio.2 (show 1 - i < 2 by omega)
    · have h' : 1 - i = 1 - j := h
      have := Set.mem_Iio.1 hi
      have := Set.mem_Iio.1 hj
      omega
    · exact Set.mem_Iio.2 (by omega)
    · show 1 - (1 - i) = i
      have := Set.mem_Iio.1 hi
      omega
  have hid : Renumbers (fun o => o) 1 := Set.bijOn_id _
  have h : GExpr.Numbered s ν (.leaf 0) (fun i => 1 - i) (fun o => o) 2 1 := ⟨⟨rfl, Tensor.wf_tab2 _ _ _, rfl, Tensor.wf_tabulate _ _⟩, (by intro hc; cases hc), rfl, hsw, hid⟩
  have hs : renumberAll ν s = s := by
    funext j
    refine congrArg₂ GLayer.linear (Tensor.ext_get (Tensor.wf_tabulate _ _) (Tensor.wf_tabulate _ _) rfl fun idx hin => ?_) (Tensor.ext_get (Tensor.wf_tabulate _ _) (Tensor.wf_tabulate _ _) rfl fun idx hin => ?_)
    · change InShape [1, 2] idx at hin
      obtain ⟨o, i, rfl, ho, hi⟩ := inShape2_exists hin
      refine (Tensor.get_tabulate hin).trans ?_
      show (Tensor.tab2 1 2 fun _ _ => A).get [o, 1 - i] = (Tensor.tab2 1 2 fun _ _ => A).get [o, i]
      rw [Tensor.get_tab2 ho hi, Tensor.get_tab2 ho (by omega)]
    · change InShape [1] idx at hin
      obtain ⟨o, rfl, ho⟩ := inShape1_exists hin
      exact Tensor.get_tabulate hin
  obtain ⟨s', t1, -, t3⟩ := C138_training (I := 2) (O := 1) P [0] h hs (bs := bs) fun b hb => by
    obtain ⟨d, -, rfl⟩ := List.mem_map.1 hb
    refine ⟨2, Equiv.swap 0 1, fun q i => if q = i then d.1 else d.2.1, rfl, fun q i => ?_, fun Y hY => ⟨fun q o => 2 * (Y q o - d.2.2.1), sqBatch_loss _ _ _ _, fun q o => ?_⟩⟩
    · have e : (1 - (i : ℕ)) = ((Equiv.swap (0 : Fin 2) 1 i : Fin 2) : ℕ) := by fin_cases i <;> rfl
      beta_reduce
      rw [e, ofMat_get]
      fin_cases q <;> fin_cases i <;> rfl
    · have := hY q o
      rw [ofMat_get] at this ⊢
      show 2 * (Y (Equiv.swap 0 1 q) o - _) = _
      rw [this]
  exact ⟨s', t1, t3⟩

end HOL
