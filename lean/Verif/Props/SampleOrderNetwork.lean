import Verif.Props.AlikeUnits
import Verif.Props.RenumberTrainingNetwork

/-! # C137 for `HighOrderMLP`: the order of samples does not matter -/

namespace HOL
open TorchScalar Spec

/-- Layers and `relu` only: no normalization. -/
def GExpr.Plain : GExpr ℝ → Prop
  | .leaf _ => True
  | .fixed (.base (.dense .relu)) => True
  | .fixed _ => False
  | .comp a b | .add a b | .mul a b => a.Plain ∧ b.Plain

theorem Plain.built {s : ℕ → GLayer ℝ} : ∀ (e : GExpr ℝ), e.Plain → ∀ {I : ℕ} {T : List ℕ}, e.Takes s [1, I] T → ∃ O, T = [1, O] ∧ e.Built s I O
  | .leaf _, _, I, T, ⟨B, I', O, e1, e2, e3⟩ => by
    simp only [List.cons.injEq, and_true] at e1
    obtain ⟨rfl, rfl⟩ := e1
    exact ⟨O, e2, e3⟩
  | .fixed (.base (.dense .relu)), _, I, T, ⟨B, I', O, e1, e2, e3⟩ => by
    simp only [List.cons.injEq, and_true] at e1
    obtain ⟨rfl, rfl⟩ := e1
    exact ⟨O, e2, e3⟩
  | .comp a b, h, I, T, ⟨M, t1, t2⟩ => by
    obtain ⟨M', rfl, h1⟩ := Plain.built a h.1 t1
    obtain ⟨O, rfl, h2⟩ := Plain.built b h.2 t2
    exact ⟨O, rfl, M', h1, h2⟩
  | .add a b, h, I, T, ⟨t1, t2⟩ => by
    obtain ⟨O, rfl, h1⟩ := Plain.built a h.1 t1
    obtain ⟨O', e, h2⟩ := Plain.built b h.2 t2
    simp only [List.cons.injEq, and_true, true_and] at e
    subst e
    exact ⟨O, rfl, h1, h2⟩
  | .mul a b, h, I, T, ⟨t1, t2⟩ => by
    obtain ⟨O, rfl, h1⟩ := Plain.built a h.1 t1
    obtain ⟨O', e, h2⟩ := Plain.built b h.2 t2
    simp only [List.cons.injEq, and_true, true_and] at e
    subst e
    exact ⟨O, rfl, h1, h2⟩

theorem chain_plain : ∀ {es : List (GExpr ℝ)} {e : GExpr ℝ}, e.Plain → (∀ f ∈ es, f.Plain) → (e.chain es).Plain
  | [], _, h, _ => h
  | f :: _, e, h, hs => chain_plain (e := .comp e f) ⟨h, hs f List.mem_cons_self⟩ fun g hg => hs g (List.mem_cons_of_mem _ hg)

theorem expr_plain (h : Heap ℝ) (j : ℕ) : (h.expr j).Plain := by
  unfold Heap.expr
  split
  · exact ⟨trivial, trivial⟩
  · exact ⟨trivial, trivial⟩
  · exact trivial

theorem resExpr_plain {pre : List (GExpr ℝ)} {hid : ℕ → GExpr ℝ} (hpre : ∀ e ∈ pre, e.Plain) (hh : ∀ i, (hid i).Plain) : ∀ i, (resExpr pre hid i).Plain
  | 0 => hh 0
  | i + 1 => by
    refine ⟨hh _, ?_⟩
    cases pre using List.reverseRecOn with
    | nil => exact resExpr_plain hpre hh i
    | append_singleton l a _ =>
      rw [List.getLastD_concat]
      exact hpre a (by simp)

theorem mlpExpr_plain (c : MLPArgs ℝ) (h : Heap ℝ) (inp out : ℕ) (hid : ℕ → ℕ) : (h.mlpExpr c none inp out hid).Plain := by
  have hpre : ∀ e ∈ (none : Option (NormModule ℝ)).toList.map (fun n => GExpr.fixed (.norm n)) ++ (if c.nonLinearity.isSome then [.fixed (.base (.dense .relu))] else []), e.Plain := by
    intro e he
    rcases List.mem_append.1 he with he | he
    · simp at he
    · split at he
      · rw [List.mem_singleton.1 he]
        exact trivial
      · simp at he
  unfold Heap.mlpExpr netExpr
  refine chain_plain (expr_plain h inp) fun f hf => ?_
  obtain ⟨l, hl, hf⟩ := List.mem_flatMap.1 hf
  rcases List.mem_append.1 hf with hf | hf
  · exact hpre f hf
  · rw [List.mem_singleton.1 hf]
    rcases List.mem_append.1 hl with hl | hl
    · obtain ⟨i, -, rfl⟩ := List.mem_map.1 hl
      split
      · exact resExpr_plain hpre (fun k => expr_plain h _) i
      · exact expr_plain h _
    · rw [List.mem_singleton.1 hl]
      exact expr_plain h out

/-- Training of the heap on reordered batches, as long as the network computes the expression. -/
theorem Heap.train_order (P : Picks ℝ) {net : ℕ} {e : GExpr ℝ} {I O : ℕ} (trained : List ℕ) : ∀ {bs bs' : List (Batch ℝ)} {h : Heap ℝ}, h.Ordered → h.ParamsWF →
    (∀ h' : Heap ℝ, h.Later h' → h'.Ordered → h'.ParamsWF → h'.expr = h.expr → h'.forward net = e.forward h'.store) → e.Built h.store I O → List.Forall₂ (Batch.Reordered I O) bs bs' →
    ∃ hT, Heap.train P net e trained h bs = .ok hT ∧ Heap.train P net e trained h bs' = .ok hT
  | _, _, h, _, _, _, _, .nil => ⟨h, rfl, rfl⟩
  | _, _, h, ho, hw, hf, hb, .cons (a := b) (b := b') (l₁ := bs) (l₂ := bs') hr hbs => by
    obtain ⟨hlr, B, π, X, hx, hx', hl⟩ := hr
    obtain ⟨Y, y1, y2⟩ := order_forward π e hb X
    obtain ⟨G, g1, g2⟩ := hl Y
    obtain ⟨GX, cs, b1, b2, -⟩ := order_backward P π e hb X G
    obtain ⟨l1, l2, l3⟩ := Heap.sgd_later ho hw trained b.lr cs
    have hex := Heap.sgd_expr h trained b.lr cs
    have hf0 := hf h (fun j m hj => ⟨m, hj, .refl _⟩) ho hw rfl
    obtain ⟨hT, t1, t2⟩ := Heap.train_order P trained l2 l3 (fun h' q1 q2 q3 q4 => hf h' (l1.trans q1) q2 q3 (q4.trans hex)) (by rw [Heap.sgd_store]; exact Built.step trained b.lr cs e hb) hbs
    refine ⟨hT, ?_, ?_⟩
    · show (h.forward net b.x >>= fun y => e.backward P h.store b.x (b.lossGrad y) >>= fun r => Heap.train P net e trained (h.sgd trained b.lr r.2) bs) = _
      rw [hf0, hx, y1]
      show (e.backward P h.store (ofMat X) (b.lossGrad (ofMat Y)) >>= fun r => Heap.train P net e trained (h.sgd trained b.lr r.2) bs) = _
      rw [g1, b1]
      exact t1
    · show (h.forward net b'.x >>= fun y => e.backward P h.store b'.x (b'.lossGrad y) >>= fun r => Heap.train P net e trained (h.sgd trained b'.lr r.2) bs') = _
      rw [hf0, hx', y2]
      show (e.backward P h.store (ofMat fun q => X (π q)) (b'.lossGrad (ofMat fun q => Y (π q))) >>= fun r => Heap.train P net e trained (h.sgd trained b'.lr r.2) bs') = _
      rw [g2, b2, hlr]
      exact t2

/-- **C137 (order of samples, `HighOrderMLP`).** Any state `h` of a network without normalization: training it on the samples of every batch in another order ends in the same state, for every kind of layer the library can build in a network. -/
theorem C137_mlp (rng : Rng ℝ) {c : MLPArgs ℝ} {kind kindIn : FcKind} (hk : fcTable.lookup c.layerType = some kind)
    (hki : fcTable.lookup (orStr c.layerTypeIn c.layerType) = some kindIn) (hI : Usable kindIn c.inputArgs)
    (hH : Usable kind c.hiddenArgs) (hO : Usable kind c.outputArgs) (hper : ∀ p, c.periodicity = some p → 0 < p)
    (hnorm : c.normalization = none) (hdrop : c.dropout ≤ 0) {h0 : Heap ℝ} (hord : h0.Ordered)
    (hnl : ∀ j ∈ c.nonLinearity, h0[j]? = some (.other fun x => .ok (reluT x))) (P : Picks ℝ) :
    ∃ (net : ℕ) (h1 : Heap ℝ) (inp out : ℕ) (hid : ℕ → ℕ), mlpInit rng c h0 = .ok (net, h1) ∧ (inp :: out :: (List.range c.hiddenLayers).map hid).Nodup ∧
      ∀ h : Heap ℝ, h1.Later h → h.Ordered → h.ParamsWF → ∀ (trained : List ℕ) (bs bs' : List (Batch ℝ)), List.Forall₂ (Batch.Reordered c.inWidth c.outWidth) bs bs' →
        ∃ hT : Heap ℝ, Heap.train P net (h.mlpExpr c none inp out hid) trained h bs = .ok hT ∧ Heap.train P net (h.mlpExpr c none inp out hid) trained h bs' = .ok hT := by
  obtain ⟨net, h1, inp, out, hid, e1, hnd, hall⟩ := mlp_shared rng hk hki hI hH hO hper (N := none) hnorm hdrop hord hnl
  refine ⟨net, h1, inp, out, hid, e1, hnd, fun h hl ho hw trained bs bs' hbs => ?_⟩
  obtain ⟨O, e, hb⟩ := Plain.built _ (mlpExpr_plain c h inp out hid) ((hall h hl ho hw).2.2.2.2 1 (by rintro n ⟨⟩))
  simp only [List.cons.injEq, and_true, true_and] at e
  subst e
  refine Heap.train_order P trained ho hw (fun h' g1 g2 g3 g4 => ?_) hb hbs
  have he : h'.mlpExpr c none inp out hid = h.mlpExpr c none inp out hid := by
    unfold Heap.mlpExpr
    rw [g4]
  rw [(hall h' (hl.trans g1) g2 g3).2.2.2.1, he]

/-- A network with two hidden layers, residual sums and `relu`, trained with squared errors: any number of batches, the samples of each in any order. -/
example (rng : Rng ℝ) (P : Picks ℝ) : ∃ net h1 inp out hid, mlpInit rng exResNet [.other fun x => .ok (reluT x)] = .ok (net, h1) ∧ ∀ h : Heap ℝ, h1.Later h → h.Ordered → h.ParamsWF →
    ∀ (trained : List ℕ) (B : ℕ) (data : List ((Fin B → Fin 2 → ℝ) × (Fin B → Fin 1 → ℝ) × ℝ × Equiv.Perm (Fin B))),
      ∃ hT, Heap.train P net (h.mlpExpr exResNet none inp out hid) trained h (data.map fun d => sqBatch d.1 d.2.1 d.2.2.1) = .ok hT ∧
        Heap.train P net (h.mlpExpr exResNet none inp out hid) trained h (data.map fun d => sqBatch (fun q => d.1 (d.2.2.2 q)) (fun q => d.2.1 (d.2.2.2 q)) d.2.2.1) = .ok hT := by
  obtain ⟨u1, u2, u3⟩ := exNet_usable "continuous" (n := 3) (s := 2) (by norm_num) (by norm_num) .continuous
  obtain ⟨net, h1, inp, out, hid, e, -, hall⟩ := C137_mlp rng (c := exResNet) (kind := .leaf (.pw .continuous)) (kindIn := .leaf (.pw .continuous)) (h0 := [.other fun x => .ok (reluT x)])
    (by show List.lookup "continuous" _ = _; decide) (by show List.lookup "continuous" _ = _; decide) u1 u2 u3 (by simp [exResNet, exNet]) rfl le_rfl
    (by intro i m hm j hj; match i, hm with | 0, hm => cases hm; cases hj) (by rintro j ⟨⟩; rfl) P
  refine ⟨net, h1, inp, out, hid, e, fun h a b c trained B data => hall h a b c trained _ _ ?_⟩
  induction data with
  | nil => exact .nil
  | cons d data ih => exact .cons ⟨rfl, B, d.2.2.2, d.1, rfl, rfl, fun Y => ⟨fun q o => 2 * (Y q o - d.2.1 q o), sqBatch_loss _ _ _ _, sqBatch_loss _ _ _ _⟩⟩ ih

/-- **C138 (`HighOrderMLP`).** A state `h` of a network without normalization, of layers that are one module each, that is the same after renumbering its units: inputs of the input layer by `κ`, its outputs by `μ 0`, inputs and outputs of
hidden layer `i` by `μ i` and `μ (i + 1)`, inputs of the output layer by the last `μ`, its outputs by `ρ` (with `resnet` all `μ` are the same). Trained on batches that contain with every sample the renumbered one it ends in a state that is the same
after renumbering, and that computes for all renumbered inputs the renumbered outputs. -/
theorem C138_mlp (rng : Rng ℝ) {c : MLPArgs ℝ} {kind kindIn : FcKind} (hk : fcTable.lookup c.layerType = some kind)
    (hki : fcTable.lookup (orStr c.layerTypeIn c.layerType) = some kindIn) (hsk : kind.Single) (hski : kindIn.Single) (hI : Usable kindIn c.inputArgs)
    (hH : Usable kind c.hiddenArgs) (hO : Usable kind c.outputArgs) (hper : ∀ p, c.periodicity = some p → 0 < p)
    (hnorm : c.normalization = none) (hdrop : c.dropout ≤ 0) {h0 : Heap ℝ} (hord : h0.Ordered)
    (hnl : ∀ j ∈ c.nonLinearity, h0[j]? = some (.other fun x => .ok (reluT x))) (P : Picks ℝ) :
    ∃ (net : ℕ) (h1 : Heap ℝ) (inp out : ℕ) (hid : ℕ → ℕ), mlpInit rng c h0 = .ok (net, h1) ∧ (inp :: out :: (List.range c.hiddenLayers).map hid).Nodup ∧
      ∀ h : Heap ℝ, h1.Later h → h.Ordered → h.ParamsWF → (IsLayer kindIn c.inputArgs h inp ∧ (∀ i < c.hiddenLayers, IsLayer kind c.hiddenArgs h (hid i)) ∧ IsLayer kind c.outputArgs h out) ∧
      ∀ (κ ρ : ℕ → ℕ) (μ : ℕ → ℕ → ℕ), Renumbers κ c.inWidth → Renumbers ρ c.outWidth → (∀ i ≤ c.hiddenLayers, Renumbers (μ i) c.hiddenWidth) → (c.resnet = true → ∀ i ≤ c.hiddenLayers, μ i = μ 0) →
      (h.store inp).renumber κ (μ 0) = h.store inp → (∀ i < c.hiddenLayers, (h.store (hid i)).renumber (μ i) (μ (i + 1)) = h.store (hid i)) → (h.store out).renumber (μ c.hiddenLayers) ρ = h.store out →
      ∀ (trained : List ℕ) (bs : List (Batch ℝ)), (∀ b ∈ bs, b.Alike κ ρ c.inWidth c.outWidth) →
        ∃ hT : Heap ℝ, Heap.train P net (h.mlpExpr c none inp out hid) trained h bs = .ok hT ∧
          (hT.store inp).renumber κ (μ 0) = hT.store inp ∧ (∀ i < c.hiddenLayers, (hT.store (hid i)).renumber (μ i) (μ (i + 1)) = hT.store (hid i)) ∧ (hT.store out).renumber (μ c.hiddenLayers) ρ = hT.store out ∧
          ∀ (B : ℕ) (x : Tensor ℝ), x.shape = [B, c.inWidth] → x.WF → ∃ y, hT.forward net x = .ok y ∧ hT.forward net (columns κ x) = .ok (columns ρ y) := by
  classical
  obtain ⟨net, h1, inp, out, hid, e1, hnd, hall⟩ := mlp_shared rng hk hki hI hH hO hper (N := none) hnorm hdrop hord hnl
  refine ⟨net, h1, inp, out, hid, e1, hnd, fun h hl ho hw => ?_⟩
  obtain ⟨l1, l2, l3, -, -⟩ := hall h hl ho hw
  refine ⟨⟨l1, l2, l3⟩, fun κ ρ μ hκ hρ hμ hres s1 s2 s3 trained bs hbs => ?_⟩
  obtain ⟨n1, n2⟩ := List.nodup_cons.1 hnd
  obtain ⟨n2, n3⟩ := List.nodup_cons.1 n2
  have hne : inp ≠ out := fun hc => n1 (hc ▸ List.mem_cons_self)
  have hinp : ∀ i < c.hiddenLayers, hid i ≠ inp := fun i hi hc => n1 (List.mem_cons_of_mem _ (List.mem_map.2 ⟨i, List.mem_range.2 hi, hc⟩))
  have hout : ∀ i < c.hiddenLayers, hid i ≠ out := fun i hi hc => n2 (List.mem_map.2 ⟨i, List.mem_range.2 hi, hc⟩)
  have hinj : ∀ i < c.hiddenLayers, ∀ k < c.hiddenLayers, hid i = hid k → i = k := fun i hi k hk hc =>
    List.inj_on_of_nodup_map n3 (List.mem_range.2 hi) (List.mem_range.2 hk) hc
  let maps : Numbering := fun j =>
    if j = inp then some (κ, μ 0) else if j = out then some (μ c.hiddenLayers, ρ)
    else if hj : ∃ i, i < c.hiddenLayers ∧ hid i = j then some (μ hj.choose, μ (hj.choose + 1)) else none
  have p1 : maps inp = some (κ, μ 0) := if_pos rfl
  have p2 : maps out = some (μ c.hiddenLayers, ρ) := (if_neg hne.symm).trans (if_pos rfl)
  have p3 : ∀ i < c.hiddenLayers, maps (hid i) = some (μ i, μ (i + 1)) := by
    intro i hi
    refine (if_neg (hinp i hi)).trans ((if_neg (hout i hi)).trans ?_)
    have hj : ∃ k, k < c.hiddenLayers ∧ hid k = hid i := ⟨i, hi, rfl⟩
    rw [dif_pos hj, hinj _ hj.choose_spec.1 i hi hj.choose_spec.2]
  have p4 : ∀ j, j ∉ inp :: out :: (List.range c.hiddenLayers).map hid → maps j = none := by
    intro j hj
    refine (if_neg fun hc : j = inp => hj (hc ▸ List.mem_cons_self)).trans ((if_neg fun hc : j = out => hj (hc ▸ List.mem_cons_of_mem _ List.mem_cons_self)).trans (dif_neg ?_))
    rintro ⟨i, hi, rfl⟩
    exact hj (List.mem_cons_of_mem _ (List.mem_cons_of_mem _ (List.mem_map.2 ⟨i, List.mem_range.2 hi, rfl⟩)))
  have leaf : ∀ {k : FcKind} {a : FcArgs ℝ} {j : ℕ} {α β : ℕ → ℕ}, Usable k a → k.Single → IsLayer k a h j → maps j = some (α, β) → ∀ m ∈ (h.expr j).modules, h.store m ≠ .relu ∧ maps m = some (α, β) := by
    intro k a j α β hu hs hlay hm m hmem
    obtain ⟨q1, q2⟩ := hlay.single hu hs
    rw [q1] at hmem
    obtain rfl : m = j := by simpa [GExpr.modules] using hmem
    exact ⟨q2, hm⟩
  have hnum := mlp_numbered hI hH hO hper ho hw l1 l2 l3 hκ hρ hμ hres (leaf hI hski l1 p1) (fun i hi => leaf hH hsk (l2 i hi) (p3 i hi)) (leaf hO hsk l3 p2)
  have at' : ∀ (s : ℕ → GLayer ℝ) {j : ℕ} {α β : ℕ → ℕ}, maps j = some (α, β) → renumberAll maps s j = (s j).renumber α β := by
    intro s j α β hm
    unfold renumberAll
    rw [hm]
  have hs : renumberAll maps h.store = h.store := by
    funext j
    by_cases hj : j ∈ inp :: out :: (List.range c.hiddenLayers).map hid
    · rcases List.mem_cons.1 hj with rfl | hj
      · exact (at' _ p1).trans s1
      rcases List.mem_cons.1 hj with rfl | hj
      · exact (at' _ p2).trans s3
      obtain ⟨i, hi, rfl⟩ := List.mem_map.1 hj
      exact (at' _ (p3 i (List.mem_range.1 hi))).trans (s2 i (List.mem_range.1 hi))
    · unfold renumberAll
      rw [p4 j hj]
  have hfwd : ∀ h' : Heap ℝ, h.Later h' → h'.Ordered → h'.ParamsWF → h'.expr = h.expr → h'.forward net = (h.mlpExpr c none inp out hid).forward h'.store := by
    intro h' g1 g2 g3 g4
    have he : h'.mlpExpr c none inp out hid = h.mlpExpr c none inp out hid := by
      unfold Heap.mlpExpr
      rw [g4]
    rw [(hall h' (hl.trans g1) g2 g3).2.2.2.1, he]
  obtain ⟨s', a1, a2, a3⟩ := C138_training P trained hnum hs hbs
  obtain ⟨hT, t1, t2, t3, t4, t5, t6⟩ := Heap.train_store P trained bs ho hw hfwd a1
  rw [← t2] at a2 a3
  refine ⟨hT, t1, (at' _ p1).symm.trans (congrFun a2 _), fun i hi => (at' _ (p3 i hi)).symm.trans (congrFun a2 _), (at' _ p2).symm.trans (congrFun a2 _), fun B x hx hwx => ?_⟩
  rw [hfwd hT t3 t4 t5 t6]
  exact a3 hx hwx

/-! ## example -/

/-- The module with all links of a piecewise layer equal to the same function: all parameters are 1. -/
noncomputable def Mod.ones : Mod ℝ → Mod ℝ
  | .pw L => .pw { L with w := Tensor.tabulate L.w.shape fun _ => 1 }
  | m => m

noncomputable def Heap.ones (h : Heap ℝ) : Heap ℝ := List.map Mod.ones h

theorem Heap.ones_later {h : Heap ℝ} (ho : h.Ordered) (hw : h.ParamsWF) : h.Later h.ones ∧ h.ones.Ordered ∧ h.ones.ParamsWF := by
  have hget : ∀ j, h.ones[j]? = h[j]?.map Mod.ones := fun j => List.getElem?_map
  have hl : h.Later h.ones := by
    intro j m hj
    refine ⟨m.ones, by rw [hget, hj]; rfl, ?_⟩
    cases m with
    | pw L => exact .pw L _ rfl (Tensor.wf_tabulate _ _)
    | _ => exact .refl _
  refine ⟨hl, hl.ordered (List.length_map _) ho, fun j w b hj => ?_, fun j L hj => ?_⟩
  · rw [hget] at hj
    obtain ⟨m, hm, hj⟩ := Option.map_eq_some_iff.1 hj
    cases m <;> cases hj
    exact hw.1 _ _ _ hm
  · rw [hget] at hj
    obtain ⟨m, hm, hj⟩ := Option.map_eq_some_iff.1 hj
    cases m <;> cases hj
    exact hw.2 _ _ hm

/-- A layer of them is the same after renumbering. -/
theorem Heap.ones_renumber {h : Heap ℝ} {j I O : ℕ} (hf : (h.ones.store j).Fits I O) {L : PwLayer ℝ} (hL : h.ones[j]? = some (.pw L)) {κ ρ : ℕ → ℕ} (hκ : Renumbers κ I) (hρ : Renumbers ρ O) :
    (h.ones.store j).renumber κ ρ = h.ones.store j := by
  have hs : h.ones.store j = .pw L := by
    unfold Heap.store
    rw [hL]
  have hw : L.w = Tensor.tabulate L.w.shape fun _ => 1 := by
    have hget : h.ones[j]? = h[j]?.map Mod.ones := List.getElem?_map
    rw [hget] at hL
    obtain ⟨m, -, hm⟩ := Option.map_eq_some_iff.1 hL
    cases m <;> cases hm
    rfl
  rw [hs] at hf ⊢
  obtain ⟨hwf, -, -, rfl, rfl⟩ := hf
  have hsh := hwf.w_shape
  refine congrArg GLayer.pw ?_
  show { L with w := renumberLinks κ ρ L.w } = L
  have : renumberLinks κ ρ L.w = L.w := by
    refine Tensor.ext_get (Tensor.wf_tabulate _ _) hwf.w_wf rfl fun idx hin => ?_
    have hin' : InShape L.w.shape idx := hin
    rw [hsh] at hin'
    obtain ⟨o, i, r, rfl, h1, h2, h3⟩ := inShape3_exists hin'
    rw [renumberLinks_get3 hsh h1 h2 h3, hw, Tensor.get_tabulate, Tensor.get_tabulate]
    · rw [hsh]; exact inShape3.2 ⟨h1, h2, h3⟩
    · rw [hsh]; exact inShape3.2 ⟨hρ.lt h1, hκ.lt h2, h3⟩
  rw [this]

theorem IsLayer.piecewise {cls : PwClass} {a : FcArgs ℝ} (hu : Usable (.leaf (.pw cls)) a) {h : Heap ℝ} {j : ℕ} (hl : IsLayer (.leaf (.pw cls)) a h j) : h.expr j = .leaf j ∧ ∃ L, h[j]? = some (.pw L) := by
  refine ⟨(hl.single hu trivial).1, ?_⟩
  obtain ⟨rng, base, ms, e1, e2, e3⟩ := hl
  obtain ⟨n, s, hn, hs, h1, h2, h3, h4⟩ := hu
  simp only [fcMods, leafMods, hn, hs] at e1
  cases e1
  have hj : j = base + 0 := by simpa using e2
  obtain ⟨m', f1, f2⟩ := e3 0 _ rfl
  rw [← hj] at f1
  obtain ⟨L, rfl⟩ : ∃ L, m' = .pw L := by cases f2 <;> exact ⟨_, rfl⟩
  exact ⟨_, f1⟩

/-- The first two exchanged. -/
def exchange (i : ℕ) : ℕ := if i = 0 then 1 else if i = 1 then 0 else i

theorem exchange_renumbers {n : ℕ} (hn : 2 ≤ n) : Renumbers exchange n := by
  have lt : ∀ i < n, exchange i < n := by
    intro i hi
    unfold exchange
    split_ifs <;> omega
  have inv : ∀ i, exchange (exchange i) = i := by
    intro i
    unfold exchange
    by_cases h0 : i = 0
    · subst h0; rfl
    · by_cases h1 : i = 1
      · subst h1; rfl
      · rw [if_neg h0, if_neg h1, if_neg h0, if_neg h1]
  exact ⟨fun i hi => Set.mem_Iio.2 (lt i (Set.mem_Iio.1 hi)), fun i _ j _ h => by rw [← inv i, ← inv j]; exact congrArg exchange h,
    fun i hi => ⟨exchange i, Set.mem_Iio.2 (lt i (Set.mem_Iio.1 hi)), inv i⟩⟩

/-- Two inputs, two hidden layers of three units, one output, all links the same; trained with squared errors on samples `(a, b)` and `(b, a)` with the same target. After any number of steps the output for `(x, y)` is that for `(y, x)`. -/
example (rng : Rng ℝ) (P : Picks ℝ) : ∃ net h1 inp out hid, mlpInit rng (exNet "continuous" 3 2) [] = .ok (net, h1) ∧ ∀ h : Heap ℝ, h1.Later h → h.Ordered → h.ParamsWF →
    ∀ (trained : List ℕ) (data : List (ℝ × ℝ × ℝ × ℝ)),
      ∃ hT, Heap.train P net (h.ones.mlpExpr (exNet "continuous" 3 2) none inp out hid) trained h.ones
          (data.map fun d => sqBatch (fun (q : Fin 2) (i : Fin 2) => if q = i then d.1 else d.2.1) (fun (_ : Fin 2) (_ : Fin 1) => d.2.2.1) d.2.2.2) = .ok hT ∧
        ∀ (B : ℕ) (x : Tensor ℝ), x.shape = [B, 2] → x.WF → ∃ y, hT.forward net x = .ok y ∧ hT.forward net (columns exchange x) = .ok (columns (fun o => o) y) := by
  obtain ⟨u1, u2, u3⟩ := exNet_usable "continuous" (n := 3) (s := 2) (by norm_num) (by norm_num) .continuous
  have hper : ∀ p, (exNet "continuous" 3 2).periodicity = some p → 0 < p := by simp [exNet]
  obtain ⟨net, h1, inp, out, hid, e, -, hall⟩ := C138_mlp rng (c := exNet "continuous" 3 2) (kind := .leaf (.pw .continuous)) (kindIn := .leaf (.pw .continuous)) (h0 := [])
    (by show List.lookup "continuous" _ = _; decide) (by show List.lookup "continuous" _ = _; decide) trivial trivial u1 u2 u3 hper rfl le_rfl ordered_nil (by intro j hj; simp [exNet] at hj) P
  refine ⟨net, h1, inp, out, hid, e, fun h hl ho hw trained data => ?_⟩
  obtain ⟨o1, o2, o3⟩ := Heap.ones_later ho hw
  obtain ⟨⟨l1, l2, l3⟩, hmain⟩ := hall h.ones (hl.trans o1) o2 o3
  have sym : ∀ {a : FcArgs ℝ} {j : ℕ} {κ ρ : ℕ → ℕ}, Usable (.leaf (.pw .continuous)) a → (∀ p, a.periodicity = some p → 0 < p) → IsLayer (.leaf (.pw .continuous)) a h.ones j →
      Renumbers κ a.inFeatures → Renumbers ρ a.outFeatures → (h.ones.store j).renumber κ ρ = h.ones.store j := by
    intro a j κ ρ hu hp hlay hκ hρ
    obtain ⟨q1, L, q2⟩ := hlay.piecewise hu
    have ht := (hlay.expr hu hp o2 o3).2 1
    rw [q1] at ht
    obtain ⟨B', I', O', f1, f2, f3⟩ := ht
    simp only [List.cons.injEq, and_true] at f1 f2
    obtain ⟨-, rfl⟩ := f1
    obtain ⟨-, rfl⟩ := f2
    exact Heap.ones_renumber f3 q2 hκ hρ
  have hid1 : Renumbers (fun o => o) 1 := Set.bijOn_id _
  obtain ⟨hT, t1, -, -, -, t5⟩ := hmain exchange (fun o => o) (fun _ => exchange) (exchange_renumbers (by decide : 2 ≤ 2)) hid1 (fun i _ => exchange_renumbers (by decide : 2 ≤ 3)) (fun _ _ _ => rfl)
    (sym u1 hper l1 (exchange_renumbers (by decide : 2 ≤ 2)) (exchange_renumbers (by decide : 2 ≤ 3))) (fun i hi => sym u2 hper (l2 i hi) (exchange_renumbers (by decide : 2 ≤ 3)) (exchange_renumbers (by decide : 2 ≤ 3)))
    (sym u3 hper l3 (exchange_renumbers (by decide : 2 ≤ 3)) hid1) trained
    (data.map fun d => sqBatch (fun (q : Fin 2) (i : Fin 2) => if q = i then d.1 else d.2.1) (fun (_ : Fin 2) (_ : Fin 1) => d.2.2.1) d.2.2.2) fun b hb => by
      obtain ⟨d, -, rfl⟩ := List.mem_map.1 hb
      refine ⟨2, Equiv.swap 0 1, fun (q : Fin 2) (i : Fin 2) => if q = i then d.1 else d.2.1, rfl, fun (q : Fin 2) (i : Fin 2) => ?_, fun Y hY => ⟨fun q o => 2 * (Y q o - d.2.2.1), sqBatch_loss _ _ _ _, fun q o => ?_⟩⟩
      · have e : exchange (i : ℕ) = ((Equiv.swap (0 : Fin 2) 1 i : Fin 2) : ℕ) := by fin_cases i <;> rfl
        rw [e]
        refine Eq.trans ?_ (ofMat_get (I := 2) _ q (Equiv.swap (0 : Fin 2) 1 i)).symm
        fin_cases q <;> fin_cases i <;> rfl
      · have := hY q o
        rw [ofMat_get] at this ⊢
        show 2 * (Y (Equiv.swap 0 1 q) o - _) = _
        rw [this]
  exact ⟨hT, t1, t5⟩

end HOL
