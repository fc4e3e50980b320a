import Verif.Props.SampleCopies
import Verif.Props.SampleOrderNetwork

/-! # C139 for `HighOrderMLP`: copies of samples, weights and padding -/

namespace HOL
open TorchScalar Spec

/-- Training of the heap on batches with copies of samples, as long as the network computes the expression. -/
theorem Heap.train_copies (P : Picks ℝ) {net : ℕ} {e : GExpr ℝ} {I O : ℕ} (trained : List ℕ) : ∀ {bs bs' : List (Batch ℝ)} {h : Heap ℝ}, h.Ordered → h.ParamsWF →
    (∀ h' : Heap ℝ, h.Later h' → h'.Ordered → h'.ParamsWF → h'.expr = h.expr → h'.forward net = e.forward h'.store) → e.Built h.store I O → List.Forall₂ (Batch.Copied I O) bs bs' →
    ∃ hT, Heap.train P net e trained h bs = .ok hT ∧ Heap.train P net e trained h bs' = .ok hT
  | _, _, h, _, _, _, _, .nil => ⟨h, rfl, rfl⟩
  | _, _, h, ho, hw, hf, hb, .cons (a := b) (b := b') (l₁ := bs) (l₂ := bs') hr hbs => by
    obtain ⟨hlr, B, B', π, w, X, X', hx, hx', hX, hw', hl⟩ := hr
    obtain ⟨Y, Y', y1, y2, y3⟩ := copy_forward e hb hX
    obtain ⟨G, g1, g2⟩ := hl Y Y' y3
    obtain ⟨GX, cs, b1, b2, -⟩ := copy_backward P hw' e hb hX G
    obtain ⟨l1, l2, l3⟩ := Heap.sgd_later ho hw trained b.lr cs
    have hex := Heap.sgd_expr h trained b.lr cs
    have hf0 := hf h (fun j m hj => ⟨m, hj, .refl _⟩) ho hw rfl
    obtain ⟨hT, t1, t2⟩ := Heap.train_copies P trained l2 l3 (fun h' q1 q2 q3 q4 => hf h' (l1.trans q1) q2 q3 (q4.trans hex)) (by rw [Heap.sgd_store]; exact Built.step trained b.lr cs e hb) hbs
    refine ⟨hT, ?_, ?_⟩
    · show (h.forward net b.x >>= fun y => e.backward P h.store b.x (b.lossGrad y) >>= fun r => Heap.train P net e trained (h.sgd trained b.lr r.2) bs) = _
      rw [hf0, hx, y1]
      show (e.backward P h.store (ofMat X) (b.lossGrad (ofMat Y)) >>= fun r => Heap.train P net e trained (h.sgd trained b.lr r.2) bs) = _
      rw [g1, b1]
      exact t1
    · show (h.forward net b'.x >>= fun y => e.backward P h.store b'.x (b'.lossGrad y) >>= fun r => Heap.train P net e trained (h.sgd trained b'.lr r.2) bs') = _
      rw [hf0, hx', y2]
      show (e.backward P h.store (ofMat X') (b'.lossGrad (ofMat Y')) >>= fun r => Heap.train P net e trained (h.sgd trained b'.lr r.2) bs') = _
      rw [g2, b2, hlr]
      exact t2

/-- **C139 (`HighOrderMLP`).** Any state `h` of a network without normalization: training it on batches with copies of the samples, whose weights add up to 1 for every sample, and with padding of weight 0 ends in the same state, for every kind of layer the library can build in a network. -/
theorem C139_mlp (rng : Rng ℝ) {c : MLPArgs ℝ} {kind kindIn : FcKind} (hk : fcTable.lookup c.layerType = some kind)
    (hki : fcTable.lookup (orStr c.layerTypeIn c.layerType) = some kindIn) (hI : Usable kindIn c.inputArgs)
    (hH : Usable kind c.hiddenArgs) (hO : Usable kind c.outputArgs) (hper : ∀ p, c.periodicity = some p → 0 < p)
    (hnorm : c.normalization = none) (hdrop : c.dropout ≤ 0) {h0 : Heap ℝ} (hord : h0.Ordered)
    (hnl : ∀ j ∈ c.nonLinearity, h0[j]? = some (.other fun x => .ok (reluT x))) (P : Picks ℝ) :
    ∃ (net : ℕ) (h1 : Heap ℝ) (inp out : ℕ) (hid : ℕ → ℕ), mlpInit rng c h0 = .ok (net, h1) ∧ (inp :: out :: (List.range c.hiddenLayers).map hid).Nodup ∧
      ∀ h : Heap ℝ, h1.Later h → h.Ordered → h.ParamsWF → ∀ (trained : List ℕ) (bs bs' : List (Batch ℝ)), List.Forall₂ (Batch.Copied c.inWidth c.outWidth) bs bs' →
        ∃ hT : Heap ℝ, Heap.train P net (h.mlpExpr c none inp out hid) trained h bs = .ok hT ∧ Heap.train P net (h.mlpExpr c none inp out hid) trained h bs' = .ok hT := by
  obtain ⟨net, h1, inp, out, hid, e1, hnd, hall⟩ := mlp_shared rng hk hki hI hH hO hper (N := none) hnorm hdrop hord hnl
  refine ⟨net, h1, inp, out, hid, e1, hnd, fun h hl ho hw trained bs bs' hbs => ?_⟩
  obtain ⟨O, e, hb⟩ := Plain.built _ (mlpExpr_plain c h inp out hid) ((hall h hl ho hw).2.2.2.2 1 (by rintro n ⟨⟩))
  simp only [List.cons.injEq, and_true, true_and] at e
  subst e
  refine Heap.train_copies P trained ho hw (fun h' g1 g2 g3 g4 => ?_) hb hbs
  have he : h'.mlpExpr c none inp out hid = h.mlpExpr c none inp out hid := by
    unfold Heap.mlpExpr
    rw [g4]
  rw [(hall h' (hl.trans g1) g2 g3).2.2.2.1, he]

/-- A network with two hidden layers, residual sums and `relu`, trained with squared errors on any number of batches of two samples: on rows `1, 0, 1` with weights 1/3, 1, 2/3, and a fourth row `z`, `u` of weight 0, it ends in the same state. -/
example (rng : Rng ℝ) (P : Picks ℝ) : ∃ net h1 inp out hid, mlpInit rng exResNet [.other fun x => .ok (reluT x)] = .ok (net, h1) ∧ ∀ h : Heap ℝ, h1.Later h → h.Ordered → h.ParamsWF →
    ∀ (trained : List ℕ) (z : Fin 2 → ℝ) (u : Fin 1 → ℝ) (data : List ((Fin 2 → Fin 2 → ℝ) × (Fin 2 → Fin 1 → ℝ) × ℝ)),
      ∃ hT, Heap.train P net (h.mlpExpr exResNet none inp out hid) trained h (data.map fun d => weightedBatch (fun _ => 1) d.1 d.2.1 d.2.2) = .ok hT ∧
        Heap.train P net (h.mlpExpr exResNet none inp out hid) trained h (data.map fun d => weightedBatch ![1 / 3, 1, 2 / 3, 0] ![d.1 1, d.1 0, d.1 1, z] ![d.2.1 1, d.2.1 0, d.2.1 1, u] d.2.2) = .ok hT := by
  obtain ⟨u1, u2, u3⟩ := exNet_usable "continuous" (n := 3) (s := 2) (by norm_num) (by norm_num) .continuous
  obtain ⟨net, h1, inp, out, hid, e, -, hall⟩ := C139_mlp rng (c := exResNet) (kind := .leaf (.pw .continuous)) (kindIn := .leaf (.pw .continuous)) (h0 := [.other fun x => .ok (reluT x)])
    (by show List.lookup "continuous" _ = _; decide) (by show List.lookup "continuous" _ = _; decide) u1 u2 u3 (by simp [exResNet, exNet]) rfl le_rfl
    (by intro i m hm j hj; match i, hm with | 0, hm => cases hm; cases hj) (by rintro j ⟨⟩; rfl) P
  refine ⟨net, h1, inp, out, hid, e, fun h a b c trained z u data => hall h a b c trained _ _ ?_⟩
  induction data with
  | nil => exact .nil
  | cons d data ih =>
    refine .cons ?_ ih
    have := weightedBatch_copied (π := ![1, 0, 1, 0]) (w := ![1 / 3, 1, 2 / 3, 0]) (v := fun _ => 1) (X := d.1) (T := d.2.1) (X' := ![d.1 1, d.1 0, d.1 1, z]) (T' := ![d.2.1 1, d.2.1 0, d.2.1 1, u]) d.2.2
      (by intro q hq; fin_cases q <;> simp_all) (by intro q hq; fin_cases q <;> simp_all) (by intro p; fin_cases p <;> norm_num [Fin.sum_univ_succ])
    simp only [mul_one] at this
    exact this

end HOL
