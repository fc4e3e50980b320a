import Verif.Props.LossScale
import Verif.Props.SampleOrderNetwork

/-! # C140 for `HighOrderMLP`: the scale of the loss -/

namespace HOL
open TorchScalar Spec

theorem Heap.sgd_scale {c : ℝ} (hc : c ≠ 0) (h : Heap ℝ) (trained : List ℕ) (lr : ℝ) (cs : List (ℕ × List (Tensor ℝ))) : h.sgd trained (lr / c) (scaleGrads c cs) = h.sgd trained lr cs := by
  unfold Heap.sgd
  refine congrArg (fun f => List.mapIdx f h) (funext fun j => funext fun m => ?_)
  split
  · cases m <;> simp only [Mod.sgd, accumulated_scale, sgdParam_scale hc]
  · rfl

/-- Training of the heap with another scale of the loss, as long as the network computes the expression. -/
theorem Heap.train_scale (P : Picks ℝ) {net : ℕ} {e : GExpr ℝ} {I O : ℕ} (trained : List ℕ) : ∀ {bs bs' : List (Batch ℝ)} {h : Heap ℝ}, h.Ordered → h.ParamsWF →
    (∀ h' : Heap ℝ, h.Later h' → h'.Ordered → h'.ParamsWF → h'.expr = h.expr → h'.forward net = e.forward h'.store) → e.Built h.store I O → List.Forall₂ (Batch.Rescaled I O) bs bs' →
    ∃ hT, Heap.train P net e trained h bs = .ok hT ∧ Heap.train P net e trained h bs' = .ok hT
  | _, _, h, _, _, _, _, .nil => ⟨h, rfl, rfl⟩
  | _, _, h, ho, hw, hf, hb, .cons (a := b) (b := b') (l₁ := bs) (l₂ := bs') hr hbs => by
    obtain ⟨c, hc, hlr, hx', B, X, hx, hl⟩ := hr
    obtain ⟨Y, y1, -⟩ := order_forward (Equiv.refl _) e hb X
    obtain ⟨G, g1, g2⟩ := hl Y
    obtain ⟨GX, cs, b1, b2, -⟩ := scale_backward P c e hb X G
    obtain ⟨l1, l2, l3⟩ := Heap.sgd_later ho hw trained b.lr cs
    have hex := Heap.sgd_expr h trained b.lr cs
    have hf0 := hf h (fun j m hj => ⟨m, hj, .refl _⟩) ho hw rfl
    obtain ⟨hT, t1, t2⟩ := Heap.train_scale P trained l2 l3 (fun h' q1 q2 q3 q4 => hf h' (l1.trans q1) q2 q3 (q4.trans hex)) (by rw [Heap.sgd_store]; exact Built.step trained b.lr cs e hb) hbs
    refine ⟨hT, ?_, ?_⟩
    · show (h.forward net b.x >>= fun y => e.backward P h.store b.x (b.lossGrad y) >>= fun r => Heap.train P net e trained (h.sgd trained b.lr r.2) bs) = _
      rw [hf0, hx, y1]
      show (e.backward P h.store (ofMat X) (b.lossGrad (ofMat Y)) >>= fun r => Heap.train P net e trained (h.sgd trained b.lr r.2) bs) = _
      rw [g1, b1]
      exact t1
    · show (h.forward net b'.x >>= fun y => e.backward P h.store b'.x (b'.lossGrad y) >>= fun r => Heap.train P net e trained (h.sgd trained b'.lr r.2) bs') = _
      rw [hf0, hx', hx, y1]
      show (e.backward P h.store (ofMat X) (b'.lossGrad (ofMat Y)) >>= fun r => Heap.train P net e trained (h.sgd trained b'.lr r.2) bs') = _
      rw [g2, b2, hlr]
      show Heap.train P net e trained (h.sgd trained (b.lr / c) (scaleGrads c cs)) bs' = _
      rw [Heap.sgd_scale hc]
      exact t2

/-- **C140 (`HighOrderMLP`).** Any state `h` of a network without normalization: training it with the loss multiplied by a factor and the learning rate divided by it ends in the same state, for every kind of layer the library can build in a network. -/
theorem C140_mlp (rng : Rng ℝ) {c : MLPArgs ℝ} {kind kindIn : FcKind} (hk : fcTable.lookup c.layerType = some kind)
    (hki : fcTable.lookup (orStr c.layerTypeIn c.layerType) = some kindIn) (hI : Usable kindIn c.inputArgs)
    (hH : Usable kind c.hiddenArgs) (hO : Usable kind c.outputArgs) (hper : ∀ p, c.periodicity = some p → 0 < p)
    (hnorm : c.normalization = none) (hdrop : c.dropout ≤ 0) {h0 : Heap ℝ} (hord : h0.Ordered)
    (hnl : ∀ j ∈ c.nonLinearity, h0[j]? = some (.other fun x => .ok (reluT x))) (P : Picks ℝ) :
    ∃ (net : ℕ) (h1 : Heap ℝ) (inp out : ℕ) (hid : ℕ → ℕ), mlpInit rng c h0 = .ok (net, h1) ∧ (inp :: out :: (List.range c.hiddenLayers).map hid).Nodup ∧
      ∀ h : Heap ℝ, h1.Later h → h.Ordered → h.ParamsWF → ∀ (trained : List ℕ) (bs bs' : List (Batch ℝ)), List.Forall₂ (Batch.Rescaled c.inWidth c.outWidth) bs bs' →
        ∃ hT : Heap ℝ, Heap.train P net (h.mlpExpr c none inp out hid) trained h bs = .ok hT ∧ Heap.train P net (h.mlpExpr c none inp out hid) trained h bs' = .ok hT := by
  obtain ⟨net, h1, inp, out, hid, e1, hnd, hall⟩ := mlp_shared rng hk hki hI hH hO hper (N := none) hnorm hdrop hord hnl
  refine ⟨net, h1, inp, out, hid, e1, hnd, fun h hl ho hw trained bs bs' hbs => ?_⟩
  obtain ⟨O, e, hb⟩ := Plain.built _ (mlpExpr_plain c h inp out hid) ((hall h hl ho hw).2.2.2.2 1 (by rintro n ⟨⟩))
  simp only [List.cons.injEq, and_true, true_and] at e
  subst e
  refine Heap.train_scale P trained ho hw (fun h' g1 g2 g3 g4 => ?_) hb hbs
  have he : h'.mlpExpr c none inp out hid = h.mlpExpr c none inp out hid := by
    unfold Heap.mlpExpr
    rw [g4]
  rw [(hall h' (hl.trans g1) g2 g3).2.2.2.1, he]

/-- A network with two hidden layers, residual sums and `relu`: squared errors with rates `lr`, and half of them with rates `2 lr`. -/
example (rng : Rng ℝ) (P : Picks ℝ) : ∃ net h1 inp out hid, mlpInit rng exResNet [.other fun x => .ok (reluT x)] = .ok (net, h1) ∧ ∀ h : Heap ℝ, h1.Later h → h.Ordered → h.ParamsWF →
    ∀ (trained : List ℕ) (B : ℕ) (data : List ((Fin B → Fin 2 → ℝ) × (Fin B → Fin 1 → ℝ) × ℝ)),
      ∃ hT, Heap.train P net (h.mlpExpr exResNet none inp out hid) trained h (data.map fun d => weightedBatch (fun _ => 1) d.1 d.2.1 d.2.2) = .ok hT ∧
        Heap.train P net (h.mlpExpr exResNet none inp out hid) trained h (data.map fun d => weightedBatch (fun _ => 1 / 2) d.1 d.2.1 (2 * d.2.2)) = .ok hT := by
  obtain ⟨u1, u2, u3⟩ := exNet_usable "continuous" (n := 3) (s := 2) (by norm_num) (by norm_num) .continuous
  obtain ⟨net, h1, inp, out, hid, e, -, hall⟩ := C140_mlp rng (c := exResNet) (kind := .leaf (.pw .continuous)) (kindIn := .leaf (.pw .continuous)) (h0 := [.other fun x => .ok (reluT x)])
    (by show List.lookup "continuous" _ = _; decide) (by show List.lookup "continuous" _ = _; decide) u1 u2 u3 (by simp [exResNet, exNet]) rfl le_rfl
    (by intro i m hm j hj; match i, hm with | 0, hm => cases hm; cases hj) (by rintro j ⟨⟩; rfl) P
  refine ⟨net, h1, inp, out, hid, e, fun h a b c trained B data => hall h a b c trained _ _ ?_⟩
  induction data with
  | nil => exact .nil
  | cons d data ih => exact .cons ⟨1 / 2, by norm_num, by show 2 * d.2.2 = d.2.2 / (1 / 2); ring, weightedBatch_scaled _ _ _ _ _⟩ ih

end HOL
