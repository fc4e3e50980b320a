import Verif.Props.RenumberLion

/-! # C132 for `HighOrderMLP`: training does not depend on the numbering of the units -/

namespace HOL
open TorchScalar Spec

/-- The loop for the network `net` that computes the expression `e`: forward pass, backward pass, and the step on the parameters of the modules `trained` (examples/function_example.py:112-125). -/
def Heap.train {K : Type} [TorchScalar K] (P : Picks K) (net : ℕ) (e : GExpr K) (trained : List ℕ) : Heap K → List (Batch K) → Py (Heap K)
  | h, [] => .ok h
  | h, b :: bs => do
    let y ← h.forward net b.x
    let r ← e.backward P h.store b.x (b.lossGrad y)
    Heap.train P net e trained (h.sgd trained b.lr r.2) bs

/-- Modules one after the other. -/
inductive NumberedPath (σ : ℕ → GLayer ℝ) (ν : Numbering) : List (GExpr ℝ) → (ℕ → ℕ) → (ℕ → ℕ) → ℕ → ℕ → Prop
  | nil (κ : ℕ → ℕ) (I : ℕ) : NumberedPath σ ν [] κ κ I I
  | cons {e : GExpr ℝ} {es : List (GExpr ℝ)} {κ μ ρ : ℕ → ℕ} {I M O : ℕ} (h : e.Numbered σ ν κ μ I M) (hs : NumberedPath σ ν es μ ρ M O) : NumberedPath σ ν (e :: es) κ ρ I O

theorem NumberedPath.append {σ : ℕ → GLayer ℝ} {ν : Numbering} {es fs : List (GExpr ℝ)} {κ μ ρ : ℕ → ℕ} {I M O : ℕ} (h : NumberedPath σ ν es κ μ I M) (h' : NumberedPath σ ν fs μ ρ M O) : NumberedPath σ ν (es ++ fs) κ ρ I O := by
  induction h with
  | nil => exact h'
  | cons h _ ih => exact .cons h (ih h')

theorem NumberedPath.chain {σ : ℕ → GLayer ℝ} {ν : Numbering} {es : List (GExpr ℝ)} {κ μ ρ : ℕ → ℕ} {I M O : ℕ} (h : NumberedPath σ ν es μ ρ M O) : ∀ {e : GExpr ℝ}, e.Numbered σ ν κ μ I M →
    (e.chain es).Numbered σ ν κ ρ I O := by
  induction h with
  | nil => exact fun he => he
  | cons h _ ih => exact fun he => ih ⟨_, _, he, h⟩

theorem NumberedPath.same {σ : ℕ → GLayer ℝ} {ν : Numbering} {es : List (GExpr ℝ)} {μ : ℕ → ℕ} {W : ℕ} (h : ∀ e ∈ es, e.Numbered σ ν μ μ W W) : NumberedPath σ ν es μ μ W W := by
  induction es with
  | nil => exact .nil _ _
  | cons e es ih => exact .cons (h e List.mem_cons_self) (ih fun f hf => h f (List.mem_cons_of_mem _ hf))

theorem net_numbered {σ : ℕ → GLayer ℝ} {ν : Numbering} {pre : List (GExpr ℝ)} {inp out : GExpr ℝ} {entry : ℕ → GExpr ℝ} {H : ℕ} {κ ρ : ℕ → ℕ} {μ : ℕ → ℕ → ℕ} {I W O : ℕ}
    (hi : inp.Numbered σ ν κ (μ 0) I W) (hpre : ∀ e ∈ pre, ∀ i ≤ H, e.Numbered σ ν (μ i) (μ i) W W) (he : ∀ i < H, (entry i).Numbered σ ν (μ i) (μ (i + 1)) W W)
    (ho : out.Numbered σ ν (μ H) ρ W O) : (netExpr pre inp ((List.range H).map entry ++ [out])).Numbered σ ν κ ρ I O := by
  have key : ∀ k ≤ H, NumberedPath σ ν (((List.range k).map entry).flatMap fun l => pre ++ [l]) (μ 0) (μ k) W W := by
    intro k
    induction k with
    | zero => exact fun _ => .nil _ _
    | succ k ih =>
      intro hk
      rw [List.range_succ, List.map_append, List.flatMap_append, List.map_singleton, List.flatMap_singleton]
      exact (ih (by omega)).append ((NumberedPath.same fun e he => hpre e he k (by omega)).append (.cons (he k (by omega)) (.nil _ _)))
  unfold netExpr
  refine NumberedPath.chain ?_ hi
  rw [List.flatMap_append, List.flatMap_singleton]
  exact (key H le_rfl).append ((NumberedPath.same fun e he => hpre e he H le_rfl).append (.cons ho (.nil _ _)))

theorem resExpr_numbered {σ : ℕ → GLayer ℝ} {ν : Numbering} {pre : List (GExpr ℝ)} {hid : ℕ → GExpr ℝ} {H : ℕ} {μ : ℕ → ℕ} {W : ℕ} (hpre : ∀ e ∈ pre, e.Numbered σ ν μ μ W W)
    (hh : ∀ i < H, (hid i).Numbered σ ν μ μ W W) : ∀ i < H, (resExpr pre hid i).Numbered σ ν μ μ W W
  | 0, hi => hh 0 hi
  | i + 1, hi => by
    refine ⟨hh _ hi, ?_⟩
    have := resExpr_numbered hpre hh i (by omega)
    cases pre using List.reverseRecOn with
    | nil => exact this
    | append_singleton l a _ =>
      rw [List.getLastD_concat]
      exact hpre a (by simp)

/-- The modules of one layer. -/
theorem layer_numbered {h : Heap ℝ} {j I O : ℕ} (ht : (h.expr j).Takes h.store [1, I] [1, O]) {ν : Numbering} {κ ρ : ℕ → ℕ} (hκ : Renumbers κ I) (hρ : Renumbers ρ O)
    (hm : ∀ m ∈ (h.expr j).modules, h.store m ≠ .relu ∧ ν m = some (κ, ρ)) : (h.expr j).Numbered h.store ν κ ρ I O := by
  have leaf : ∀ m, (GExpr.leaf m).Takes h.store [1, I] [1, O] → h.store m ≠ .relu ∧ ν m = some (κ, ρ) → (GExpr.leaf m).Numbered h.store ν κ ρ I O := by
    rintro m ⟨B', I', O', e1, e2, e3⟩ hr
    simp only [List.cons.injEq, and_true] at e1 e2
    obtain ⟨rfl, rfl⟩ := e1
    obtain ⟨-, rfl⟩ := e2
    exact ⟨e3, hr.1, hr.2, hκ, hρ⟩
  have forms : (∃ f, h.expr j = .comp (.leaf f) (.fixed (.base (.dense .relu)))) ∨ (∃ a b, h.expr j = .mul (.leaf a) (.leaf b)) ∨ h.expr j = .leaf j := by
    unfold Heap.expr
    split
    · exact Or.inl ⟨_, rfl⟩
    · exact Or.inr (Or.inl ⟨_, _, rfl⟩)
    · exact Or.inr (Or.inr rfl)
  rcases forms with ⟨f, he⟩ | ⟨a, b, he⟩ | he <;> rw [he] at ht hm ⊢
  · obtain ⟨M, ⟨B', I', O', e1, rfl, e3⟩, t2⟩ := ht
    simp only [List.cons.injEq, and_true] at e1
    obtain ⟨rfl, rfl⟩ := e1
    obtain ⟨B'', I'', O'', f1, f2, f3⟩ := t2
    simp only [List.cons.injEq, and_true] at f1 f2
    obtain ⟨rfl, rfl⟩ := f1
    obtain ⟨-, rfl⟩ := f2
    obtain rfl : O' = O := f3
    obtain ⟨m1, m2⟩ := hm f (by simp [GExpr.modules])
    exact ⟨ρ, O', ⟨e3, m1, m2, hκ, hρ⟩, rfl, rfl, hρ⟩
  · exact ⟨leaf _ ht.1 (hm _ (by simp [GExpr.modules])), leaf _ ht.2 (hm _ (by simp [GExpr.modules]))⟩
  · exact leaf _ ht (hm _ (by simp [GExpr.modules]))

theorem Heap.renumber_all (ν : Numbering) (h : Heap ℝ) : (h.renumber ν).store = renumberAll ν h.store := by
  funext j
  unfold renumberAll
  cases hν : ν j with
  | some m => exact Heap.renumber_store h hν
  | none =>
    unfold Heap.store
    rw [Heap.renumber_get, hν]
    cases h[j]? <;> rfl

/-- Training of the heap is training of its parameters, as long as the network computes the expression. -/
theorem Heap.train_store (P : Picks ℝ) {net : ℕ} {e : GExpr ℝ} (trained : List ℕ) : ∀ (bs : List (Batch ℝ)) {h : Heap ℝ} {σ' : ℕ → GLayer ℝ}, h.Ordered → h.ParamsWF →
    (∀ h' : Heap ℝ, h.Later h' → h'.Ordered → h'.ParamsWF → h'.expr = h.expr → h'.forward net = e.forward h'.store) → HOL.train P e trained h.store bs = .ok σ' →
    ∃ hT, Heap.train P net e trained h bs = .ok hT ∧ hT.store = σ' ∧ h.Later hT ∧ hT.Ordered ∧ hT.ParamsWF ∧ hT.expr = h.expr
  | [], h, σ', ho, hw, _, ht => ⟨h, rfl, Except.ok.inj ht, fun j m hj => ⟨m, hj, .refl _⟩, ho, hw, rfl⟩
  | b :: bs, h, σ', ho, hw, hf, ht => by
    have ht : (trainStep P e trained h.store b >>= fun σ => HOL.train P e trained σ bs) = .ok σ' := ht
    cases hy : e.forward h.store b.x with
    | error er =>
      have : trainStep P e trained h.store b = .error er := by
        show (e.forward h.store b.x >>= fun y => _) = _
        rw [hy]; rfl
      rw [this] at ht
      cases ht
    | ok y =>
      cases hr : e.backward P h.store b.x (b.lossGrad y) with
      | error er =>
        have : trainStep P e trained h.store b = .error er := by
          show (e.forward h.store b.x >>= fun y => e.backward P h.store b.x (b.lossGrad y) >>= fun r => Except.ok (sgdStep trained b.lr r.2 h.store)) = _
          rw [hy]
          show (e.backward P h.store b.x (b.lossGrad y) >>= fun r => Except.ok (sgdStep trained b.lr r.2 h.store)) = _
          rw [hr]; rfl
        rw [this] at ht
        cases ht
      | ok r =>
        have hs : trainStep P e trained h.store b = .ok (h.sgd trained b.lr r.2).store := by
          show (e.forward h.store b.x >>= fun y => e.backward P h.store b.x (b.lossGrad y) >>= fun r => Except.ok (sgdStep trained b.lr r.2 h.store)) = _
          rw [hy]
          show (e.backward P h.store b.x (b.lossGrad y) >>= fun r => Except.ok (sgdStep trained b.lr r.2 h.store)) = _
          rw [hr, Heap.sgd_store]; rfl
        rw [hs] at ht
        obtain ⟨l1, l2, l3⟩ := Heap.sgd_later ho hw trained b.lr r.2
        have hex := Heap.sgd_expr h trained b.lr r.2
        obtain ⟨hT, t1, t2, t3, t4, t5, t6⟩ := Heap.train_store P trained bs l2 l3 (fun h' g1 g2 g3 g4 => hf h' (l1.trans g1) g2 g3 (g4.trans hex)) ht
        refine ⟨hT, ?_, t2, l1.trans t3, t4, t5, t6.trans hex⟩
        show (h.forward net b.x >>= fun y => e.backward P h.store b.x (b.lossGrad y) >>= fun r => Heap.train P net e trained (h.sgd trained b.lr r.2) bs) = _
        rw [hf h (fun j m hj => ⟨m, hj, .refl _⟩) ho hw rfl, hy]
        show (e.backward P h.store b.x (b.lossGrad y) >>= fun r => Heap.train P net e trained (h.sgd trained b.lr r.2) bs) = _
        rw [hr]
        exact t1

/-- The expression of a network without normalization, with numberings of the units of its layers. -/
theorem mlp_numbered {c : MLPArgs ℝ} {kind kindIn : FcKind} (hI : Usable kindIn c.inputArgs) (hH : Usable kind c.hiddenArgs) (hO : Usable kind c.outputArgs) (hper : ∀ p, c.periodicity = some p → 0 < p)
    {h : Heap ℝ} {inp out : ℕ} {hid : ℕ → ℕ} (ho : h.Ordered) (hw : h.ParamsWF) (l1 : IsLayer kindIn c.inputArgs h inp) (l2 : ∀ i < c.hiddenLayers, IsLayer kind c.hiddenArgs h (hid i)) (l3 : IsLayer kind c.outputArgs h out)
    {ν : Numbering} {κ ρ : ℕ → ℕ} {μ : ℕ → ℕ → ℕ}
    (hκ : Renumbers κ c.inWidth) (hρ : Renumbers ρ c.outWidth) (hμ : ∀ i ≤ c.hiddenLayers, Renumbers (μ i) c.hiddenWidth) (hres : c.resnet = true → ∀ i ≤ c.hiddenLayers, μ i = μ 0)
    (m1 : ∀ m ∈ (h.expr inp).modules, h.store m ≠ .relu ∧ ν m = some (κ, μ 0))
    (m2 : ∀ i < c.hiddenLayers, ∀ m ∈ (h.expr (hid i)).modules, h.store m ≠ .relu ∧ ν m = some (μ i, μ (i + 1)))
    (m3 : ∀ m ∈ (h.expr out).modules, h.store m ≠ .relu ∧ ν m = some (μ c.hiddenLayers, ρ)) : (h.mlpExpr c none inp out hid).Numbered h.store ν κ ρ c.inWidth c.outWidth := by
  have hin := layer_numbered ((l1.expr hI hper ho hw).2 1) hκ (hμ 0 (Nat.zero_le _)) m1
  have hout := layer_numbered ((l3.expr hO hper ho hw).2 1) (hμ _ le_rfl) hρ m3
  have hmid : ∀ i < c.hiddenLayers, (h.expr (hid i)).Numbered h.store ν (μ i) (μ (i + 1)) c.hiddenWidth c.hiddenWidth := fun i hi =>
    layer_numbered (((l2 i hi).expr hH hper ho hw).2 1) (hμ i hi.le) (hμ (i + 1) hi) (m2 i hi)
  have hpre : ∀ e ∈ (none : Option (NormModule ℝ)).toList.map (fun n => GExpr.fixed (.norm n)) ++ (if c.nonLinearity.isSome then [.fixed (.base (.dense .relu))] else []), ∀ i ≤ c.hiddenLayers,
      e.Numbered h.store ν (μ i) (μ i) c.hiddenWidth c.hiddenWidth := by
    intro e he i hi
    rcases List.mem_append.1 he with he | he
    · simp at he
    · split at he
      · rw [List.mem_singleton.1 he]
        exact ⟨rfl, rfl, hμ i hi⟩
      · simp at he
  refine net_numbered hin hpre (fun i hi => ?_) hout
  by_cases hr : c.resnet = true
  · rw [if_pos hr, hres hr i hi.le, hres hr (i + 1) hi]
    refine resExpr_numbered (H := c.hiddenLayers) (fun e he => ?_) (fun k hk => ?_) i hi
    · exact hpre e he 0 (Nat.zero_le _)
    · have := hmid k hk
      rw [hres hr k hk.le, hres hr (k + 1) hk] at this
      exact this
  · rw [if_neg hr]
    exact hmid i hi

/-- **C132 (`HighOrderMLP`).** Any state `h` of a network without normalization, and the state with renumbered units: inputs of the input layer by `κ`, its outputs by `μ 0`, inputs and outputs of hidden layer `i` by `μ i` and
`μ (i + 1)`, inputs of the output layer by the last `μ`, its outputs by `ρ` (with `resnet` all `μ` are the same). Training both on batches with inputs renumbered by `κ` and losses that count the outputs renumbered by `ρ` alike ends in states that differ
by the same renumbering, and the second computes for renumbered inputs the renumbered outputs of the first. For every kind of layer the library can build in a network. -/
theorem C132_mlp (rng : Rng ℝ) {c : MLPArgs ℝ} {kind kindIn : FcKind} (hk : fcTable.lookup c.layerType = some kind)
    (hki : fcTable.lookup (orStr c.layerTypeIn c.layerType) = some kindIn) (hI : Usable kindIn c.inputArgs)
    (hH : Usable kind c.hiddenArgs) (hO : Usable kind c.outputArgs) (hper : ∀ p, c.periodicity = some p → 0 < p)
    (hnorm : c.normalization = none) (hdrop : c.dropout ≤ 0) {h0 : Heap ℝ} (hord : h0.Ordered)
    (hnl : ∀ j ∈ c.nonLinearity, h0[j]? = some (.other fun x => .ok (reluT x))) (P : Picks ℝ) :
    ∃ (net : ℕ) (h1 : Heap ℝ) (inp out : ℕ) (hid : ℕ → ℕ), mlpInit rng c h0 = .ok (net, h1) ∧ (inp :: out :: (List.range c.hiddenLayers).map hid).Nodup ∧
      ∀ h : Heap ℝ, h1.Later h → h.Ordered → h.ParamsWF → ∀ (ν : Numbering) (κ ρ : ℕ → ℕ) (μ : ℕ → ℕ → ℕ),
      Renumbers κ c.inWidth → Renumbers ρ c.outWidth → (∀ i ≤ c.hiddenLayers, Renumbers (μ i) c.hiddenWidth) → (c.resnet = true → ∀ i ≤ c.hiddenLayers, μ i = μ 0) →
      (∀ m ∈ (h.expr inp).modules, h.store m ≠ .relu ∧ ν m = some (κ, μ 0)) →
      (∀ i < c.hiddenLayers, ∀ m ∈ (h.expr (hid i)).modules, h.store m ≠ .relu ∧ ν m = some (μ i, μ (i + 1))) →
      (∀ m ∈ (h.expr out).modules, h.store m ≠ .relu ∧ ν m = some (μ c.hiddenLayers, ρ)) →
      ∀ (trained : List ℕ) (bs bs' : List (Batch ℝ)), List.Forall₂ (Batch.Renumbered κ ρ c.inWidth c.outWidth) bs bs' →
        ∃ hT hT' : Heap ℝ, Heap.train P net (h.mlpExpr c none inp out hid) trained h bs = .ok hT ∧ Heap.train P net (h.mlpExpr c none inp out hid) trained (h.renumber ν) bs' = .ok hT' ∧
          hT'.store = renumberAll ν hT.store ∧ ∀ (B : ℕ) (x : Tensor ℝ), x.shape = [B, c.inWidth] → x.WF →
            ∃ y, hT.forward net x = .ok y ∧ y.shape = [B, c.outWidth] ∧ hT'.forward net (columns κ x) = .ok (columns ρ y) := by
  obtain ⟨net, h1, inp, out, hid, e1, hnd, hall⟩ := mlp_shared rng hk hki hI hH hO hper (N := none) hnorm hdrop hord hnl
  refine ⟨net, h1, inp, out, hid, e1, hnd, fun h hl ho hw ν κ ρ μ hκ hρ hμ hres m1 m2 m3 trained bs bs' hbs => ?_⟩
  obtain ⟨l1, l2, l3, -, -⟩ := hall h hl ho hw
  have hnum := mlp_numbered hI hH hO hper ho hw l1 l2 l3 hκ hρ hμ hres m1 m2 m3
  have hfwd : ∀ h' : Heap ℝ, h.Later h' → h'.Ordered → h'.ParamsWF → h'.expr = h.expr → h'.forward net = (h.mlpExpr c none inp out hid).forward h'.store := by
    intro h' g1 g2 g3 g4
    have he : h'.mlpExpr c none inp out hid = h.mlpExpr c none inp out hid := by
      unfold Heap.mlpExpr
      rw [g4]
    rw [(hall h' (hl.trans g1) g2 g3).2.2.2.1, he]
  obtain ⟨σ', s1, s2, s3⟩ := C132_training P trained hnum hbs
  rw [← Heap.renumber_all] at s2
  obtain ⟨r1, r2, r3, r4⟩ := Heap.renumber_later ν ho hw
  have rex := r1.expr_eq r2
  obtain ⟨hT, t1, t2, t3, t4, t5, t6⟩ := Heap.train_store P trained bs ho hw hfwd s1
  obtain ⟨hT', u1, u2, u3, u4, u5, u6⟩ := Heap.train_store P trained bs' r3 r4 (fun h' g1 g2 g3 g4 => hfwd h' (r1.trans g1) g2 g3 (g4.trans rex)) s2
  refine ⟨hT, hT', t1, u1, by rw [u2, t2], fun B x hx hwx => ?_⟩
  obtain ⟨y, y1, y2, y3, y4⟩ := C131_expression (s3.renumbered B) hx hwx
  rw [hfwd hT t3 t4 t5 t6, hfwd hT' (r1.trans u3) u4 u5 (u6.trans rex), t2, u2]
  exact ⟨y, y1, y2, y4⟩

/-! ## examples -/

/-- The gradient of the mean squared error `mean((y - t)²)` by `y` is `2 (y - t) / n`. With targets renumbered like the outputs it counts the outputs alike. -/
theorem mse_renumbered {κ ρ : ℕ → ℕ} {B I O : ℕ} (hρ : Renumbers ρ O) {x t : Tensor ℝ} (hx : x.shape = [B, I]) (hwx : x.WF) (ht : t.shape = [B, O]) (lr : ℝ) :
    Batch.Renumbered κ ρ I O ⟨x, fun y => Tensor.tabulate y.shape fun idx => 2 * (y.get idx - t.get idx) / (B * O : ℕ), lr⟩
      ⟨columns κ x, fun y => Tensor.tabulate y.shape fun idx => 2 * (y.get idx - (columns ρ t).get idx) / (B * O : ℕ), lr⟩ := by
  refine ⟨rfl, rfl, hwx, B, hx, fun y hy hwy => ⟨hy, ?_⟩⟩
  refine Tensor.ext_get (Tensor.wf_tabulate _ _) (Tensor.wf_tabulate _ _) rfl fun idx hin => ?_
  have hin' : InShape [B, O] idx := by rw [← hy]; exact hin
  obtain ⟨b, o, rfl, hb, ho⟩ := inShape2_exists hin'
  have hs : (Tensor.tabulate y.shape fun idx => 2 * (y.get idx - t.get idx) / ((B * O : ℕ) : ℝ)).shape = [B, O] := hy
  have h1 : InShape y.shape [b, ρ o] := by rw [hy]; exact inShape2.2 ⟨hb, hρ.lt ho⟩
  show (Tensor.tabulate (columns ρ y).shape fun idx => 2 * ((columns ρ y).get idx - (columns ρ t).get idx) / ((B * O : ℕ) : ℝ)).get [b, o] =
    (columns ρ (Tensor.tabulate y.shape fun idx => 2 * (y.get idx - t.get idx) / ((B * O : ℕ) : ℝ))).get [b, o]
  rw [columns_get hs hb ho, Tensor.get_tabulate (show InShape (columns ρ y).shape [b, o] from hin), Tensor.get_tabulate h1, columns_get hy hb ho, columns_get ht hb ho]

/-- Two hidden units that start with the same parameters: `y = 3 max (x) 0 + 3 max (x) 0`. -/
noncomputable def exTwins : ℕ → GLayer ℝ := fun j => if j = 0 then .linear (Tensor.tab2 2 1 fun _ _ => 1) (Tensor.tab1 2 fun _ => 0) else .linear (Tensor.tab2 1 2 fun _ _ => 3) (Tensor.tab1 1 fun _ => 0)

/-- The numbering that exchanges them. -/
def exTwinsSwap : Numbering := fun j => if j = 0 then some (fun i => i, fun i => 1 - i) else if j = 1 then some (fun i => 1 - i, fun i => i) else none

theorem exTwins_numbered : (GExpr.comp (.comp (.leaf 0) (.fixed (.base (.dense .relu)))) (.leaf 1)).Numbered exTwins exTwinsSwap (fun i => i) (fun i => i) 1 1 :=
    ⟨fun i => 1 - i, 2, ⟨fun i => 1 - i, 2, ⟨⟨rfl, Tensor.wf_tabulate _ _, rfl, Tensor.wf_tabulate _ _⟩, fun h => (nomatch h), rfl, Renumbers.id _, swap_renumbers⟩, rfl, rfl, swap_renumbers⟩,
      ⟨rfl, Tensor.wf_tabulate _ _, rfl, Tensor.wf_tabulate _ _⟩, fun h => (nomatch h), rfl, swap_renumbers, Renumbers.id _⟩

theorem exTwins_swap : renumberAll exTwinsSwap exTwins = exTwins := by
  funext j
  rcases j with _ | _ | j
  · refine congrArg₂ GLayer.linear ?_ ?_
    · refine Tensor.ext_get (Tensor.wf_tabulate _ _) (Tensor.wf_tabulate _ _) rfl fun idx hin => ?_
      obtain ⟨o, i, rfl, ho, hi⟩ := inShape2_exists (a := 2) (b := 1) hin
      rw [renumberLinks_get2 (O := 2) (I := 1) rfl ho hi, Tensor.get_tab2 ho hi, Tensor.get_tab2 (by omega) hi]
    · refine Tensor.ext_get (Tensor.wf_tabulate _ _) (Tensor.wf_tabulate _ _) rfl fun idx hin => ?_
      obtain ⟨o, rfl, ho⟩ := inShape1_exists (n := 2) hin
      rw [renumberOut_get (O := 2) rfl ho, Tensor.get_tab1 ho, Tensor.get_tab1 (by omega)]
  · refine congrArg₂ GLayer.linear ?_ ?_
    · refine Tensor.ext_get (Tensor.wf_tabulate _ _) (Tensor.wf_tabulate _ _) rfl fun idx hin => ?_
      obtain ⟨o, i, rfl, ho, hi⟩ := inShape2_exists (a := 1) (b := 2) hin
      rw [renumberLinks_get2 (O := 1) (I := 2) rfl ho hi, Tensor.get_tab2 ho hi, Tensor.get_tab2 ho (by omega)]
    · refine Tensor.ext_get (Tensor.wf_tabulate _ _) (Tensor.wf_tabulate _ _) rfl fun idx hin => ?_
      obtain ⟨o, rfl, ho⟩ := inShape1_exists (n := 1) hin
      rw [renumberOut_get (O := 1) rfl ho, Tensor.get_tab1 ho]
  · rfl

/-- However long such a network is trained with the mean squared error, exchanging the two units changes nothing. -/
example (P : Picks ℝ) {B : ℕ} {x t : Tensor ℝ} (hx : x.shape = [B, 1]) (hwx : x.WF) (lr : ℝ) (steps : ℕ) :
    ∃ σ', train P (GExpr.comp (.comp (.leaf 0) (.fixed (.base (.dense .relu)))) (.leaf 1)) [0, 1] exTwins
      (List.replicate steps ⟨x, fun y => Tensor.tabulate y.shape fun idx => 2 * (y.get idx - t.get idx) / (B * 1 : ℕ), lr⟩) = .ok σ' ∧ renumberAll exTwinsSwap σ' = σ' := by
  refine C132_equal_units P [0, 1] exTwins_numbered exTwins_swap fun b hb => ?_
  obtain rfl := List.eq_of_mem_replicate hb
  exact ⟨hwx, B, hx, fun y hy hwy => ⟨hy, Tensor.wf_tabulate _ _⟩⟩

/-- Nor with `SparseLion`. -/
example (P : Picks ℝ) {B : ℕ} {x t : Tensor ℝ} (hx : x.shape = [B, 1]) (hwx : x.WF) (lr : ℝ) (steps : ℕ) :
    ∃ σ' exp', LionTrained P (GExpr.comp (.comp (.leaf 0) (.fixed (.base (.dense .relu)))) (.leaf 1)) [0, 1] 0 0.9 0.99 exTwins (fun _ _ => none)
      (List.replicate steps ⟨x, fun y => Tensor.tabulate y.shape fun idx => 2 * (y.get idx - t.get idx) / (B * 1 : ℕ), lr⟩) σ' exp' ∧ renumberAll exTwinsSwap σ' = σ' := by
  refine C132_lion_equal_units P [0, 1] 0 0.9 0.99 exTwins_numbered exTwins_swap fun b hb => ?_
  obtain rfl := List.eq_of_mem_replicate hb
  exact ⟨hwx, B, hx, fun y hy hwy => ⟨hy, Tensor.wf_tabulate _ _⟩⟩

end HOL
