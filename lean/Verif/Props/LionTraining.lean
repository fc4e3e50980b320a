import Verif.Props.LionNetwork

/-! # C128: steps of `SparseLion` for `HighOrderMLP` -/

namespace HOL
open TorchScalar Spec GLayer

/-- The module with all parameters moved along a line. -/
noncomputable def Mod.along (V : Entry → ℝ) (t : ℝ) : Mod ℝ → Mod ℝ
  | .pw L => .pw { L with w := lineParam t L.w fun idx => V (0, idx) }
  | .fn L => .fn { L with w := lineParam t L.w fun idx => V (0, idx) }
  | .product L => .product { L with weight := lineParam t L.weight fun idx => V (0, idx), bias := L.bias.map fun b => lineParam t b fun idx => V (1, idx) }
  | .linear w b => .linear (lineParam t w fun idx => V (0, idx)) (lineParam t b fun idx => V (1, idx))
  | m => m

/-- The heap with the parameters of the modules `M` moved along lines. -/
noncomputable def Heap.along (h : Heap ℝ) (M : List ℕ) (V : ℕ → Entry → ℝ) (t : ℝ) : Heap ℝ := h.mapIdx fun j m => if j ∈ M then m.along (V j) t else m

theorem Heap.along_get (h : Heap ℝ) (M : List ℕ) (V : ℕ → Entry → ℝ) (t : ℝ) (j : ℕ) : (h.along M V t)[j]? = h[j]?.map fun x => if j ∈ M then x.along (V j) t else x := by
  unfold Heap.along
  exact List.getElem?_mapIdx

theorem Heap.along_store (h : Heap ℝ) (M : List ℕ) (V : ℕ → Entry → ℝ) (t : ℝ) : (h.along M V t).store = fun j => if j ∈ M then (h.store j).along (V j) t else h.store j := by
  funext j
  unfold Heap.store
  rw [Heap.along_get]
  cases h[j]? with
  | none =>
    by_cases ht : j ∈ M
    · rw [if_pos ht]; rfl
    · rw [if_neg ht]; rfl
  | some x =>
    by_cases ht : j ∈ M
    · simp only [Option.map_some, if_pos ht]
      cases x <;> rfl
    · simp only [Option.map_some, if_neg ht]

theorem Heap.along_expr (h : Heap ℝ) (M : List ℕ) (V : ℕ → Entry → ℝ) (t : ℝ) : (h.along M V t).expr = h.expr := by
  funext j
  unfold Heap.expr
  rw [Heap.along_get]
  cases h[j]? with
  | none => rfl
  | some x =>
    by_cases ht : j ∈ M
    · simp only [Option.map_some, if_pos ht]
      cases x <;> rfl
    · simp only [Option.map_some, if_neg ht]

theorem Mod.along_trained (m : Mod ℝ) (V : Entry → ℝ) (t : ℝ) : m.Trained (m.along V t) := by
  cases m with
  | pw L => exact .pw L _ rfl (Tensor.wf_tabulate _ _)
  | fn L => exact .fn L _ rfl (Tensor.wf_tabulate _ _)
  | product L =>
    unfold Mod.along
    dsimp only
    cases hb : L.bias with
    | none =>
      have := Mod.Trained.product L (lineParam t L.weight fun idx => V (0, idx)) L.weight rfl (by rw [hb]; rintro _ ⟨⟩)
      rw [hb] at this
      exact this
    | some b =>
      have := Mod.Trained.product L (lineParam t L.weight fun idx => V (0, idx)) (lineParam t b fun idx => V (1, idx)) rfl (by
        rw [hb]
        rintro _ ⟨⟩
        rfl)
      rw [hb] at this
      exact this
  | linear w b => exact .linear w b _ _ rfl rfl
  | _ => exact .refl _

theorem Heap.along_later {h : Heap ℝ} (ho : h.Ordered) (hw : h.ParamsWF) (M : List ℕ) (V : ℕ → Entry → ℝ) (t : ℝ) :
    h.Later (h.along M V t) ∧ (h.along M V t).Ordered ∧ (h.along M V t).ParamsWF := by
  have hl : h.Later (h.along M V t) := by
    intro j x hx
    rw [Heap.along_get, hx]
    refine ⟨_, rfl, ?_⟩
    beta_reduce
    by_cases ht : j ∈ M
    · rw [if_pos ht]
      exact x.along_trained _ _
    · rw [if_neg ht]
      exact .refl _
  refine ⟨hl, hl.ordered (List.length_mapIdx) ho, fun j w b hj => ?_, fun j L hj => ?_⟩
  · rw [Heap.along_get] at hj
    obtain ⟨x, hx, hj⟩ := Option.map_eq_some_iff.1 hj
    by_cases hm : j ∈ M
    · rw [if_pos hm] at hj
      cases x with
      | linear w0 b0 =>
        cases hj
        exact ⟨Tensor.wf_tabulate _ _, Tensor.wf_tabulate _ _⟩
      | _ => cases hj
    · rw [if_neg hm] at hj
      subst hj
      exact hw.1 _ _ _ hx
  · rw [Heap.along_get] at hj
    obtain ⟨x, hx, hj⟩ := Option.map_eq_some_iff.1 hj
    by_cases hm : j ∈ M
    · rw [if_pos hm] at hj
      cases x with
      | product L0 =>
        cases hj
        refine ⟨Tensor.wf_tabulate _ _, fun b hb => ?_⟩
        obtain ⟨b0, hb0, rfl⟩ := Option.map_eq_some_iff.1 hb
        exact Tensor.wf_tabulate _ _
      | _ => cases hj
    · rw [if_neg hm] at hj
      subst hj
      exact hw.2 _ _ hx

theorem Mod.lion_none (m : Mod ℝ) (lr wd β β2 : ℝ) (exp : ℕ → Option (Tensor ℝ)) : m.lion lr wd β β2 (fun _ => none) exp = .ok m := by
  cases m with
  | product L =>
    obtain ⟨i, o, f, per, w, b⟩ := L
    cases b <;> rfl
  | _ => rfl

/-- A module of the heap steps like its layer. -/
theorem Mod.lion_along {h : Heap ℝ} {j : ℕ} {m : Mod ℝ} (hm : h[j]? = some m) {V : Entry → ℝ} {t lr wd β β2 : ℝ} {acc exp : ℕ → Option (Tensor ℝ)}
    (hl : (h.store j).lion lr wd β β2 acc exp = .ok ((h.store j).along V t)) : m.lion lr wd β β2 acc exp = .ok (m.along V t) := by
  unfold Heap.store at hl
  rw [hm] at hl
  cases m with
  | pw L =>
    simp only [GLayer.lion, GLayer.along, bind, Except.bind] at hl
    simp only [Mod.lion, Mod.along, bind, Except.bind]
    split at hl
    · cases hl
    · have := Except.ok.inj hl
      injection this with this
      exact congrArg (fun L => Except.ok (Mod.pw L)) this
  | fn L =>
    simp only [GLayer.lion, GLayer.along, bind, Except.bind] at hl
    simp only [Mod.lion, Mod.along, bind, Except.bind]
    split at hl
    · cases hl
    · have := Except.ok.inj hl
      injection this with this
      exact congrArg (fun L => Except.ok (Mod.fn L)) this
  | product L =>
    obtain ⟨i, o, f, per, w, b⟩ := L
    cases b with
    | none =>
      simp only [GLayer.lion, GLayer.along, bind, Except.bind] at hl
      simp only [Mod.lion, Mod.along, bind, Except.bind]
      split at hl
      · cases hl
      · have := Except.ok.inj hl
        injection this with this
        exact congrArg (fun L => Except.ok (Mod.product L)) this
    | some b =>
      simp only [GLayer.lion, GLayer.along, bind, Except.bind] at hl
      simp only [Mod.lion, Mod.along, bind, Except.bind]
      split at hl
      · cases hl
      · split at hl
        · cases hl
        · have := Except.ok.inj hl
          injection this with this
          exact congrArg (fun L => Except.ok (Mod.product L)) this
  | linear w b =>
    simp only [GLayer.lion, GLayer.along, bind, Except.bind] at hl
    simp only [Mod.lion, Mod.along, bind, Except.bind]
    split at hl
    · cases hl
    · split at hl
      · cases hl
      · have := Except.ok.inj hl
        injection this with t1 t2
        rw [t1, t2]
  | _ => rfl

theorem mapM_id_ok {α β : Type} (f : α → Py β) (g : α → β) (l : List α) (hf : ∀ a ∈ l, f a = .ok (g a)) : (l.map f).mapM id = .ok (l.map g) := by
  induction l with
  | nil => rfl
  | cons a l ih =>
    rw [List.map_cons, List.mapM_cons, id, hf a List.mem_cons_self, ih fun b hb => hf b (List.mem_cons_of_mem _ hb)]
    rfl

theorem Heap.lion_ok {h : Heap ℝ} {trained M : List ℕ} {V : ℕ → Entry → ℝ} {lr wd β β2 : ℝ} {exp : ℕ → ℕ → Option (Tensor ℝ)} {cs : List (ℕ × List (Tensor ℝ))}
    (hin : ∀ j ∈ M, j ∈ trained ∧ lionStep trained lr wd β β2 exp cs h.store j = .ok ((h.store j).along (V j) lr)) (hout : ∀ j ∉ M, j ∈ trained → accumulated cs j = fun _ => none) :
    h.lion trained lr wd β β2 exp cs = .ok (h.along M V lr) := by
  unfold Heap.lion Heap.along
  rw [List.mapIdx_eq_zipIdx_map, List.mapIdx_eq_zipIdx_map]
  refine mapM_id_ok _ _ _ ?_
  rintro ⟨m, j⟩ hmj
  have hm : h[j]? = some m := List.mk_mem_zipIdx_iff_getElem?.1 hmj
  dsimp only
  by_cases hj : j ∈ M
  · obtain ⟨ht, this⟩ := hin j hj
    unfold lionStep at this
    rw [if_pos ht] at this
    rw [if_pos hj, if_pos ht]
    exact Mod.lion_along hm this
  · rw [if_neg hj]
    by_cases ht : j ∈ trained
    · rw [if_pos ht, hout j hj ht, Mod.lion_none]
    · rw [if_neg ht]

/-- **C128.** For every `HighOrderMLP` without dropout (as in C122), at any point of its training, a batch of smooth points and a differentiable loss of the output: after `loss.backward()` and one `SparseLion.step()` for the parameters of
the modules `trained`, with any momentum, weight decay and betas, the step succeeds, the network still runs on the batch, and the loss after the step, as a function of the learning rate, starts at the loss before the step with derivative
minus the sum over all entries of gradient times sign of the average of momentum and gradient. Hence for all small enough learning rates the loss is strictly lower after the step if this sum is positive - on the first step it is the
sum of the absolute values of the gradients - and strictly higher if it is negative. Modules that the network does not use do not change. -/
theorem C128_mlp (rng : Rng ℝ) {c : MLPArgs ℝ} {kind kindIn : FcKind} (hk : fcTable.lookup c.layerType = some kind)
    (hki : fcTable.lookup (orStr c.layerTypeIn c.layerType) = some kindIn) (hI : Usable kindIn c.inputArgs)
    (hH : Usable kind c.hiddenArgs) (hO : Usable kind c.outputArgs) (hper : ∀ p, c.periodicity = some p → 0 < p)
    {N : Option (NormModule ℝ)} (hnorm : c.normalization = N.map NormModule.apply) (hdrop : c.dropout ≤ 0) {h0 : Heap ℝ} (hord : h0.Ordered)
    (hnl : ∀ j ∈ c.nonLinearity, h0[j]? = some (.other fun x => .ok (reluT x))) {P : Picks ℝ} (hP : P.Valid) :
    ∃ (net : ℕ) (h1 : Heap ℝ) (inp out : ℕ) (hid : ℕ → ℕ), mlpInit rng c h0 = .ok (net, h1) ∧ ∀ h : Heap ℝ, h1.Later h → h.Ordered → h.ParamsWF →
      ∀ (B : ℕ) (X : Fin (numel [B, c.inWidth]) → ℝ), (∀ n ∈ N, n.Takes [B, c.hiddenWidth]) → (h.mlpExpr c N inp out hid).Smooth h.store (ofVec [B, c.inWidth] X) →
      ∃ y : Fin (numel [B, c.outWidth]) → ℝ, h.forward net (ofVec [B, c.inWidth] X) = .ok (ofVec [B, c.outWidth] y) ∧
        ∀ (loss : (Fin (numel [B, c.outWidth]) → ℝ) → ℝ) (D : (Fin (numel [B, c.outWidth]) → ℝ) →L[ℝ] ℝ) (g : Tensor ℝ), HasFDerivAt loss D y → GradVec [B, c.outWidth] D g →
          ∃ gx cs, (h.mlpExpr c N inp out hid).backward P h.store (ofVec [B, c.inWidth] X) g = .ok (gx, cs) ∧
            ∀ (trained : List ℕ) (exp : ℕ → ℕ → Option (Tensor ℝ)), LionState h.store trained exp → ∀ wd β β2 : ℝ,
            ∃ H : ℝ → Heap ℝ, (∀ lr, h.lion trained lr wd β β2 exp cs = .ok (H lr)) ∧ (∀ lr, ∀ m ∉ (h.mlpExpr c N inp out hid).modules, (H lr)[m]? = h[m]?) ∧
            ∃ Q : ℝ → Fin (numel [B, c.outWidth]) → ℝ, (∀ lr, (H lr).forward net (ofVec [B, c.inWidth] X) = .ok (ofVec [B, c.outWidth] (Q lr))) ∧ Q 0 = y ∧
              HasDerivAt (fun lr => loss (Q lr)) (-lionSlope h.store (h.mlpExpr c N inp out hid).modules trained β exp cs) 0 ∧
              (0 < lionSlope h.store (h.mlpExpr c N inp out hid).modules trained β exp cs → ∃ ε > 0, ∀ lr, 0 < lr → lr < ε → loss (Q lr) < loss y) ∧
              (lionSlope h.store (h.mlpExpr c N inp out hid).modules trained β exp cs < 0 → ∃ ε > 0, ∀ lr, 0 < lr → lr < ε → loss y < loss (Q lr)) := by
  obtain ⟨net, h1, inp, out, hid, e1, hall⟩ := C122_mlp rng hk hki hI hH hO hper hnorm hdrop hord hnl
  refine ⟨net, h1, inp, out, hid, e1, fun h hl ho hw B X hB hX => ?_⟩
  obtain ⟨r1, r2⟩ := hall h hl ho hw
  obtain ⟨y, f1, f2⟩ := C128_step hP h.store _ (r2 B hB) X hX
  obtain ⟨y', g1, g2⟩ := loss_along hP h.store _ (r2 B hB) X hX
  obtain rfl := ofVec_inj (Except.ok.inj (f1.symm.trans g1))
  refine ⟨y, by rw [r1]; exact f1, fun loss D g hD hg => ?_⟩
  obtain ⟨gx, cs, b1, b2⟩ := f2 loss D g hD hg
  obtain ⟨gx', cs', b1', b3, b4, -⟩ := g2 loss D g hD hg
  obtain ⟨rfl, rfl⟩ := Prod.mk.inj (Except.ok.inj (b1.symm.trans b1'))
  refine ⟨gx, cs, b1, fun trained exp hexp wd β β2 => ?_⟩
  obtain ⟨τ, t1, t2, Q, q1, q2, q3, q4, q5, -⟩ := b2 trained exp hexp wd β β2
  obtain ⟨M, hM⟩ : ∃ M, M = (h.mlpExpr c N inp out hid).modules.filter (· ∈ trained) := ⟨_, rfl⟩
  have hmem : ∀ j, j ∈ M ↔ j ∈ (h.mlpExpr c N inp out hid).modules ∧ j ∈ trained := fun j => by rw [hM, List.mem_filter, decide_eq_true_iff]
  have hstep : ∀ lr, ∀ j ∈ (h.mlpExpr c N inp out hid).modules, lionStep trained lr wd β β2 exp cs h.store j = .ok ((h.store j).along (lionDirs trained β exp cs j) lr) := fun lr j hj => by
    obtain ⟨I, O, hf⟩ := GExpr.Takes.fits _ (r2 B hB) hj
    exact lionStep_along b4 hexp lr wd β β2 hf
  refine ⟨fun lr => h.along M (lionDirs trained β exp cs) lr, fun lr => ?_, fun lr m hm => ?_, Q, fun lr => ?_, q2, q3, q4, q5⟩
  · refine Heap.lion_ok (fun j hj => ⟨((hmem j).1 hj).2, hstep lr j ((hmem j).1 hj).1⟩) fun j hj ht => ?_
    exact accumulated_none (by rw [b3]; exact fun hc => hj ((hmem j).2 ⟨hc, ht⟩))
  · rw [Heap.along_get]
    cases h[m]? with
    | none => rfl
    | some x =>
      rw [Option.map_some, if_neg fun hc => hm ((hmem m).1 hc).1]
  · obtain ⟨l1, l2, l3⟩ := Heap.along_later ho hw M (lionDirs trained β exp cs) lr
    rw [(hall _ (hl.trans l1) l2 l3).1, Heap.along_store]
    have : (h.along M (lionDirs trained β exp cs) lr).mlpExpr c N inp out hid = h.mlpExpr c N inp out hid := by
      unfold Heap.mlpExpr
      rw [Heap.along_expr]
    rw [this, ← q1 lr]
    refine congrFun (GExpr.forward_congr _ fun j hj => ?_) _
    have h2 := t1 lr j
    by_cases ht : j ∈ trained
    · rw [if_pos ((hmem j).2 ⟨hj, ht⟩)]
      exact Except.ok.inj ((hstep lr j hj).symm.trans h2)
    · rw [if_neg fun hc => ht ((hmem j).1 hc).2]
      unfold lionStep at h2
      rw [if_neg ht] at h2
      exact Except.ok.inj h2

/-! ## examples -/

/-- The entries of the example module of C122. -/
theorem exTwice_has {en : Entry} (h : (exTwice 0).Has en) : en = (0, [0, 0]) ∨ en = (1, [0]) := by
  obtain ⟨p, hp, hin⟩ := h
  obtain ⟨k, idx⟩ := en
  match k, hp with
  | 0, hp =>
    obtain rfl := Option.some.inj hp
    obtain ⟨i, j, rfl, hi, hj⟩ := inShape2_exists hin
    obtain rfl : i = 0 := by omega
    obtain rfl : j = 0 := by omega
    exact .inl rfl
  | 1, hp =>
    obtain rfl := Option.some.inj hp
    obtain ⟨i, rfl, hi⟩ := inShape1_exists hin
    obtain rfl : i = 0 := by omega
    exact .inr rfl

/-- The module called twice, `y = w (w x + b) + b` with `w = 2`, `b = 0`, at `x = 1` and with loss `y`, where the gradients are 4 and 3: the first step of `SparseLion` lowers the loss for small learning rates; a step with momentum -100 for
both raises it. -/
theorem C128_momentum {P : Picks ℝ} (hP : P.Valid) : ∃ (cs : List (ℕ × List (Tensor ℝ))), ∀ exp : ℕ → ℕ → Option (Tensor ℝ), LionState exTwice [0] exp →
    ∃ (τ : ℝ → ℕ → GLayer ℝ) (Q : ℝ → Fin (numel [1, 1]) → ℝ), (∀ lr m, lionStep [0] lr 0 0.9 0.99 exp cs exTwice m = .ok (τ lr m)) ∧
      (∀ lr, (GExpr.comp (.leaf 0) (.leaf 0)).forward (τ lr) (ofVec [1, 1] fun _ => 1) = .ok (ofVec [1, 1] (Q lr))) ∧
      ((∀ k, exp 0 k = none) → ∃ ε > 0, ∀ lr, 0 < lr → lr < ε → Q lr ⟨0, by show 0 < 1; norm_num⟩ < Q 0 ⟨0, by show 0 < 1; norm_num⟩) ∧
      (exp 0 0 = some (Tensor.tab2 1 1 fun _ _ => -100) → exp 0 1 = some (Tensor.tab1 1 fun _ => -100) →
        ∃ ε > 0, ∀ lr, 0 < lr → lr < ε → Q 0 ⟨0, by show 0 < 1; norm_num⟩ < Q lr ⟨0, by show 0 < 1; norm_num⟩) := by
  have hfit : ∀ j, (exTwice j).Fits 1 1 := fun j => ⟨rfl, Tensor.wf_tabulate _ _, rfl, Tensor.wf_tabulate _ _⟩
  obtain ⟨y, -, h2⟩ := C128_step hP exTwice (.comp (.leaf 0) (.leaf 0)) (S := [1, 1]) (T := [1, 1]) ⟨[1, 1], ⟨1, 1, 1, rfl, rfl, hfit 0⟩, 1, 1, 1, rfl, rfl, hfit 0⟩ (fun _ => 1)
    ⟨fun idx _ => trivial, fun _ _ idx _ => trivial⟩
  have pos : ∀ p : Fin (numel [1, 1]), p = ⟨0, by show 0 < 1; norm_num⟩ := fun p => Fin.ext (by have : (p : ℕ) < 1 := p.2; simp; omega)
  have hx : ofVec [1, 1] (fun _ => (1 : ℝ)) = Tensor.tab2 1 1 fun _ _ => 1 := by
    refine Tensor.ext_get (ofVec_wf _ _) (Tensor.wf_tabulate _ _) rfl fun idx hin => ?_
    obtain ⟨i, j, rfl, hi, hj⟩ := inShape2_exists hin
    rw [ofVec_get (S := [1, 1]) _ (by exact hin), Tensor.get_tab2 hi hj]
  obtain ⟨gx, cs, h3, h4⟩ := h2 (fun z => z ⟨0, by show 0 < 1; norm_num⟩) (ContinuousLinearMap.proj (R := ℝ) (φ := fun _ : Fin (numel [1, 1]) => ℝ) ⟨0, by show 0 < 1; norm_num⟩) (Tensor.tab2 1 1 fun _ _ => 1)
    (ContinuousLinearMap.hasFDerivAt (ContinuousLinearMap.proj (R := ℝ) (φ := fun _ : Fin (numel [1, 1]) => ℝ) ⟨0, by show 0 < 1; norm_num⟩)) ⟨rfl, Tensor.wf_tabulate _ _, fun p => by
      rw [pos p, show unravel [1, 1] ((⟨0, by show 0 < 1; norm_num⟩ : Fin (numel [1, 1])) : ℕ) = [0, 0] from rfl, Tensor.get_tab2 (by norm_num) (by norm_num)]
      simp⟩
  obtain ⟨gx', cs', gw, gb, k1, -, k2, k3, k4, k5⟩ := exTwice_gradients (P := P)
  rw [hx] at h3
  obtain ⟨rfl, rfl⟩ := Prod.mk.inj (Except.ok.inj (h3.symm.trans k1))
  have hw : gradOf (accumulated cs 0) (0, [0, 0]) = 4 := by
    unfold gradOf
    dsimp only
    rw [k2]
    exact k3
  have hb : gradOf (accumulated cs 0) (1, [0]) = 3 := by
    unfold gradOf
    dsimp only
    rw [k4]
    exact k5
  have hex : ∃ m ∈ [0], m ∈ (GExpr.comp (K := ℝ) (.leaf 0) (.leaf 0)).modules ∧ ∃ en, (exTwice m).Has en ∧ gradOf (accumulated cs m) en ≠ 0 :=
    ⟨0, List.mem_singleton.2 rfl, List.mem_cons_self, (0, [0, 0]), ⟨_, rfl, inShape2.2 ⟨by norm_num, by norm_num⟩⟩, by rw [hw]; norm_num⟩
  refine ⟨cs, fun exp hexp => ?_⟩
  obtain ⟨τ, t1, -, Q, q1, q2, -, q4, q5, -⟩ := h4 [0] exp hexp 0 0.9 0.99
  refine ⟨τ, Q, t1, q1, fun hnone => ?_, fun hm0 hm1 => ?_⟩
  · rw [q2]
    refine q4 (C128_agreeing _ _ _ (by norm_num) (by norm_num) _ _ (fun m ht _ en _ => ?_) hex)
    obtain rfl := List.mem_singleton.1 ht
    have : gradOf (exp 0) en = 0 := by
      unfold gradOf
      rw [hnone]
      rfl
    rw [this, mul_zero]
  · rw [q2]
    refine q5 (C128_opposing _ _ _ _ _ _ (fun m ht _ en hen _ => ?_) hex)
    obtain rfl := List.mem_singleton.1 ht
    have e0 : gradOf (exp 0) (0, [0, 0]) = -100 := by
      unfold gradOf
      dsimp only
      rw [hm0]
      exact Tensor.get_tab2 (by norm_num) (by norm_num)
    have e1 : gradOf (exp 0) (1, [0]) = -100 := by
      unfold gradOf
      dsimp only
      rw [hm1]
      exact Tensor.get_tab1 (by norm_num)
    rcases exTwice_has hen with rfl | rfl
    · rw [hw, e0]; norm_num
    · rw [hb, e1]; norm_num

end HOL
