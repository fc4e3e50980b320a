import Verif.Props.StepLoss
import Verif.Props.SharedNetwork

/-! # C123: training steps of `HighOrderMLP` -/

namespace HOL
open TorchScalar Spec

theorem Heap.sgd_get {K : Type} [TorchScalar K] (h : Heap K) (trained : List ℕ) (lr : K) (cs : List (ℕ × List (Tensor K))) (j : ℕ) :
    (h.sgd trained lr cs)[j]? = h[j]?.map fun x => if j ∈ trained then x.sgd lr (accumulated cs j) else x := by
  unfold Heap.sgd
  exact List.getElem?_mapIdx

theorem Heap.sgd_store {K : Type} [TorchScalar K] (h : Heap K) (trained : List ℕ) (lr : K) (cs : List (ℕ × List (Tensor K))) : (h.sgd trained lr cs).store = sgdStep trained lr cs h.store := by
  funext j
  unfold Heap.store sgdStep
  dsimp only
  rw [Heap.sgd_get]
  cases h[j]? with
  | none =>
    by_cases ht : j ∈ trained
    · rw [if_pos ht]; rfl
    · rw [if_neg ht]; rfl
  | some x =>
    by_cases ht : j ∈ trained
    · simp only [Option.map_some, if_pos ht]
      cases x <;> rfl
    · simp only [Option.map_some, if_neg ht]

theorem Heap.sgd_expr {K : Type} [TorchScalar K] (h : Heap K) (trained : List ℕ) (lr : K) (cs : List (ℕ × List (Tensor K))) : (h.sgd trained lr cs).expr = h.expr := by
  funext j
  unfold Heap.expr
  rw [Heap.sgd_get]
  cases h[j]? with
  | none => rfl
  | some x =>
    by_cases ht : j ∈ trained
    · simp only [Option.map_some, if_pos ht]
      cases x <;> rfl
    · simp only [Option.map_some, if_neg ht]

theorem sgdParam_shape (lr : ℝ) (p : Tensor ℝ) (g : Option (Tensor ℝ)) : (sgdParam lr p g).shape = p.shape := by cases g <;> rfl

theorem sgdParam_wf {lr : ℝ} {p : Tensor ℝ} (hw : p.WF) (g : Option (Tensor ℝ)) : (sgdParam lr p g).WF := by
  cases g with
  | none => exact hw
  | some g => exact Tensor.wf_tabulate _ _

/-- A step is something training may do. -/
theorem Mod.sgd_trained (m : Mod ℝ) (lr : ℝ) (acc : ℕ → Option (Tensor ℝ)) : m.Trained (m.sgd lr acc) := by
  cases m with
  | pw L =>
    unfold Mod.sgd
    dsimp only
    cases acc 0 with
    | none => exact .refl _
    | some g => exact .pw L _ rfl (Tensor.wf_tabulate _ _)
  | fn L =>
    unfold Mod.sgd
    dsimp only
    cases acc 0 with
    | none => exact .refl _
    | some g => exact .fn L _ rfl (Tensor.wf_tabulate _ _)
  | product L =>
    unfold Mod.sgd
    dsimp only
    cases hb : L.bias with
    | none =>
      have := Mod.Trained.product L (sgdParam lr L.weight (acc 0)) L.weight (sgdParam_shape _ _ _) (by rw [hb]; rintro _ ⟨⟩)
      rw [hb] at this
      exact this
    | some b =>
      have := Mod.Trained.product L (sgdParam lr L.weight (acc 0)) (sgdParam lr b (acc 1)) (sgdParam_shape _ _ _) (by
        rw [hb]
        rintro _ ⟨⟩
        exact sgdParam_shape _ _ _)
      rw [hb] at this
      exact this
  | linear w b => exact .linear w b _ _ (sgdParam_shape _ _ _) (sgdParam_shape _ _ _)
  | _ => exact .refl _

theorem Heap.sgd_later {h : Heap ℝ} (ho : h.Ordered) (hw : h.ParamsWF) (trained : List ℕ) (lr : ℝ) (cs : List (ℕ × List (Tensor ℝ))) :
    h.Later (h.sgd trained lr cs) ∧ (h.sgd trained lr cs).Ordered ∧ (h.sgd trained lr cs).ParamsWF := by
  have hl : h.Later (h.sgd trained lr cs) := by
    intro j x hx
    rw [Heap.sgd_get, hx]
    refine ⟨_, rfl, ?_⟩
    beta_reduce
    by_cases ht : j ∈ trained
    · rw [if_pos ht]
      exact x.sgd_trained lr _
    · rw [if_neg ht]
      exact .refl _
  refine ⟨hl, hl.ordered (List.length_mapIdx) ho, fun j w b hj => ?_, fun j L hj => ?_⟩
  · rw [Heap.sgd_get] at hj
    obtain ⟨x, hx, hj⟩ := Option.map_eq_some_iff.1 hj
    by_cases hm : j ∈ trained
    · rw [if_pos hm] at hj
      cases x with
      | linear w0 b0 =>
        obtain ⟨q1, q2⟩ := hw.1 _ _ _ hx
        cases hj
        exact ⟨sgdParam_wf q1 _, sgdParam_wf q2 _⟩
      | _ => cases hj
    · rw [if_neg hm] at hj
      subst hj
      exact hw.1 _ _ _ hx
  · rw [Heap.sgd_get] at hj
    obtain ⟨x, hx, hj⟩ := Option.map_eq_some_iff.1 hj
    by_cases hm : j ∈ trained
    · rw [if_pos hm] at hj
      cases x with
      | product L0 =>
        obtain ⟨q1, q2⟩ := hw.2 _ _ hx
        cases hj
        refine ⟨sgdParam_wf q1 _, fun b hb => ?_⟩
        obtain ⟨b0, hb0, rfl⟩ := Option.map_eq_some_iff.1 hb
        exact sgdParam_wf (q2 b0 hb0) _
      | _ => cases hj
    · rw [if_neg hm] at hj
      subst hj
      exact hw.2 _ _ hx

theorem Mod.sgd_none (m : Mod ℝ) (lr : ℝ) : m.sgd lr (fun _ => none) = m := by
  cases m with
  | product L =>
    unfold Mod.sgd
    dsimp only
    have : L.bias.map (fun b => sgdParam lr b none) = L.bias := by cases L.bias <;> rfl
    rw [this]
    rfl
  | _ => rfl

/-- The contributions are those of the modules, use by use. -/
theorem GExpr.backward_modules {P : Picks ℝ} {σ : ℕ → GLayer ℝ} {e : GExpr ℝ} {x g gx : Tensor ℝ} {cs : List (ℕ × List (Tensor ℝ))} (h : e.backward P σ x g = .ok (gx, cs)) : cs.map Prod.fst = e.modules := by
  induction e generalizing x g gx cs with
  | leaf j =>
    cases h
    rfl
  | fixed s =>
    simp only [GExpr.backward, bind, Except.bind] at h
    split at h
    · cases h
    · cases h
      rfl
  | comp a b iha ihb =>
    simp only [GExpr.backward, bind, Except.bind] at h
    split at h
    · cases h
    split at h
    · cases h
    rename_i rb hb
    split at h
    · cases h
    rename_i ra ha
    cases h
    rw [List.map_append, iha ha, ihb hb]
    rfl
  | add a b iha ihb =>
    simp only [GExpr.backward, bind, Except.bind] at h
    split at h
    · cases h
    rename_i ra ha
    split at h
    · cases h
    rename_i rb hb
    cases h
    rw [List.map_append, iha ha, ihb hb]
    rfl
  | mul a b iha ihb =>
    simp only [GExpr.backward, bind, Except.bind] at h
    split at h
    · cases h
    split at h
    · cases h
    split at h
    · cases h
    rename_i ra ha
    split at h
    · cases h
    rename_i rb hb
    cases h
    rw [List.map_append, iha ha, ihb hb]
    rfl

/-- **C123.** For every `HighOrderMLP` without dropout (as in C122), at any point of its training, a batch of smooth points and a differentiable loss of the output: after `loss.backward()` and one step of
plain gradient descent for the parameters of the modules `trained`, the network still runs on the batch, and the loss after the step, as a function of the learning rate, starts at the loss before the step with
derivative minus the sum of the squares of all entries of the gradients of those parameters. Hence for all small enough learning rates the loss is strictly lower after the step unless all these entries are zero; if
they are, the output of the network does not change. Modules that the network does not use do not change. -/
theorem C123_mlp (rng : Rng ℝ) {c : MLPArgs ℝ} {kind kindIn : FcKind} (hk : fcTable.lookup c.layerType = some kind)
    (hki : fcTable.lookup (orStr c.layerTypeIn c.layerType) = some kindIn) (hI : Usable kindIn c.inputArgs)
    (hH : Usable kind c.hiddenArgs) (hO : Usable kind c.outputArgs) (hper : ∀ p, c.periodicity = some p → 0 < p)
    {N : Option (NormModule ℝ)} (hnorm : c.normalization = N.map NormModule.apply) (hdrop : c.dropout ≤ 0) {h0 : Heap ℝ} (hord : h0.Ordered)
    (hnl : ∀ j ∈ c.nonLinearity, h0[j]? = some (.other fun x => .ok (reluT x))) {P : Picks ℝ} (hP : P.Valid) :
    ∃ (net : ℕ) (h1 : Heap ℝ) (inp out : ℕ) (hid : ℕ → ℕ), mlpInit rng c h0 = .ok (net, h1) ∧ ∀ h : Heap ℝ, h1.Later h → h.Ordered → h.ParamsWF →
      ∀ (B : ℕ) (X : Fin (numel [B, c.inWidth]) → ℝ), (∀ n ∈ N, n.Takes [B, c.hiddenWidth]) → (h.mlpExpr c N inp out hid).Smooth h.store (ofVec [B, c.inWidth] X) →
      ∃ y : Fin (numel [B, c.outWidth]) → ℝ, h.forward net (ofVec [B, c.inWidth] X) = .ok (ofVec [B, c.outWidth] y) ∧
        ∀ (loss : (Fin (numel [B, c.outWidth]) → ℝ) → ℝ) (D : (Fin (numel [B, c.outWidth]) → ℝ) →L[ℝ] ℝ) (g : Tensor ℝ), HasFDerivAt loss D y → GradVec [B, c.outWidth] D g →
          ∃ gx cs, (h.mlpExpr c N inp out hid).backward P h.store (ofVec [B, c.inWidth] X) g = .ok (gx, cs) ∧ ∀ trained : List ℕ,
            (∀ lr, ∀ m ∉ (h.mlpExpr c N inp out hid).modules, (h.sgd trained lr cs)[m]? = h[m]?) ∧
            ∃ Q : ℝ → Fin (numel [B, c.outWidth]) → ℝ, (∀ lr, (h.sgd trained lr cs).forward net (ofVec [B, c.inWidth] X) = .ok (ofVec [B, c.outWidth] (Q lr))) ∧ Q 0 = y ∧
              HasDerivAt (fun lr => loss (Q lr)) (-gradSquares h.store (h.mlpExpr c N inp out hid).modules trained cs) 0 ∧
              ((∃ m k p gp idx, m ∈ trained ∧ m ∈ (h.mlpExpr c N inp out hid).modules ∧ (h.store m).params[k]? = some p ∧ InShape p.shape idx ∧ accumulated cs m k = some gp ∧ gp.get idx ≠ 0) →
                ∃ ε > 0, ∀ lr, 0 < lr → lr < ε → loss (Q lr) < loss y) ∧
              ((∀ m k p gp idx, m ∈ trained → m ∈ (h.mlpExpr c N inp out hid).modules → (h.store m).params[k]? = some p → InShape p.shape idx → accumulated cs m k = some gp → gp.get idx = 0) →
                ∀ lr, Q lr = y) := by
  obtain ⟨net, h1, inp, out, hid, e1, hall⟩ := C122_mlp rng hk hki hI hH hO hper hnorm hdrop hord hnl
  refine ⟨net, h1, inp, out, hid, e1, fun h hl ho hw B X hB hX => ?_⟩
  obtain ⟨r1, r2⟩ := hall h hl ho hw
  obtain ⟨y, f1, f2⟩ := C123_step hP h.store _ (r2 B hB) X hX
  refine ⟨y, by rw [r1]; exact f1, fun loss D g hD hg => ?_⟩
  obtain ⟨gx, cs, b1, b2⟩ := f2 loss D g hD hg
  refine ⟨gx, cs, b1, fun trained => ⟨fun lr m hm => ?_, ?_⟩⟩
  · rw [Heap.sgd_get, accumulated_none (by rw [GExpr.backward_modules b1]; exact hm)]
    cases h[m]? with
    | none => rfl
    | some x =>
      rw [Option.map_some]
      by_cases ht : m ∈ trained
      · rw [if_pos ht, Mod.sgd_none]
      · rw [if_neg ht]
  obtain ⟨-, Q, q1, q2⟩ := b2 trained
  refine ⟨Q, fun lr => ?_, q2⟩
  obtain ⟨l1, l2, l3⟩ := Heap.sgd_later ho hw trained lr cs
  rw [(hall _ (hl.trans l1) l2 l3).1, Heap.sgd_store]
  have : (h.sgd trained lr cs).mlpExpr c N inp out hid = h.mlpExpr c N inp out hid := by
    unfold Heap.mlpExpr
    rw [Heap.sgd_expr]
  rw [this]
  exact q1 lr

/-! ## examples -/

/-- A module called twice, `y = w (w x + b) + b` with `w = 2`, `b = 0`, at `x = 1` and with loss `y`: the gradients are 4 and 3 (see C122), so after a step with learning rate `lr` the weight is `2 - 4 lr` and
the bias `-3 lr`: the loss 4 has derivative `-25 = -(4² + 3²)` and is 1.78 for `lr = 1/10`. -/
example : (fun lr : ℝ => (2 - lr * 4) * ((2 - lr * 4) * 1 + (0 - lr * 3)) + (0 - lr * 3)) 0 = 4 ∧ (fun lr : ℝ => (2 - lr * 4) * ((2 - lr * 4) * 1 + (0 - lr * 3)) + (0 - lr * 3)) (1 / 10) = 1.78 := by
  norm_num

/-- The module after that step. -/
example (lr : ℝ) : ((exTwice 0).sgd lr fun k => some (if k = 0 then Tensor.tab2 1 1 fun _ _ => 4 else Tensor.tab1 1 fun _ => 3)) = .linear (Tensor.tab2 1 1 fun _ _ => 2 - lr * 4) (Tensor.tab1 1 fun _ => 0 - lr * 3) := by
  show GLayer.linear (sgdParam lr _ _) (sgdParam lr _ _) = _
  have h1 : sgdParam lr (Tensor.tab2 1 1 fun _ _ => (2 : ℝ)) (some (Tensor.tab2 1 1 fun _ _ => 4)) = Tensor.tab2 1 1 fun _ _ => 2 - lr * 4 := by
    refine Tensor.ext_get (Tensor.wf_tabulate _ _) (Tensor.wf_tabulate _ _) rfl fun idx hin => ?_
    obtain ⟨i, j, rfl, hi, hj⟩ := inShape2_exists hin
    unfold sgdParam
    dsimp only
    rw [Tensor.get_tabulate (by exact hin), Tensor.get_tab2 hi hj, Tensor.get_tab2 hi hj, Tensor.get_tab2 hi hj]
  have h2 : sgdParam lr (Tensor.tab1 1 fun _ => (0 : ℝ)) (some (Tensor.tab1 1 fun _ => 3)) = Tensor.tab1 1 fun _ => 0 - lr * 3 := by
    refine Tensor.ext_get (Tensor.wf_tabulate _ _) (Tensor.wf_tabulate _ _) rfl fun idx hin => ?_
    obtain ⟨i, rfl, hi⟩ := inShape1_exists hin
    unfold sgdParam
    dsimp only
    rw [Tensor.get_tabulate (by exact hin), Tensor.get_tab1 hi, Tensor.get_tab1 hi, Tensor.get_tab1 hi]
  have e : (if 0 = 0 then Tensor.tab2 1 1 fun _ _ => 4 else Tensor.tab1 1 fun _ => (3 : ℝ)) = Tensor.tab2 1 1 fun _ _ => 4 := if_pos rfl
  have e' : (if 1 = 0 then Tensor.tab2 1 1 fun _ _ => 4 else Tensor.tab1 1 fun _ => (3 : ℝ)) = Tensor.tab1 1 fun _ => 3 := if_neg (by norm_num)
  beta_reduce
  rw [e, e', h1, h2]

/-- The theorem gives it without computing: the weight has gradient 4, so the loss is below 4 after small steps. -/
example {P : Picks ℝ} (hP : P.Valid) : ∃ (cs : List (ℕ × List (Tensor ℝ))) (Q : ℝ → Fin (numel [1, 1]) → ℝ),
    (∀ lr, (GExpr.comp (.leaf 0) (.leaf 0)).forward (sgdStep [0] lr cs exTwice) (ofVec [1, 1] fun _ => 1) = .ok (ofVec [1, 1] (Q lr))) ∧
      ∃ ε > 0, ∀ lr, 0 < lr → lr < ε → Q lr ⟨0, by show 0 < 1; norm_num⟩ < Q 0 ⟨0, by show 0 < 1; norm_num⟩ := by
  have hfit : ∀ j, (exTwice j).Fits 1 1 := fun j => ⟨rfl, Tensor.wf_tabulate _ _, rfl, Tensor.wf_tabulate _ _⟩
  obtain ⟨y, -, h2⟩ := C123_step hP exTwice (.comp (.leaf 0) (.leaf 0)) (S := [1, 1]) (T := [1, 1]) ⟨[1, 1], ⟨1, 1, 1, rfl, rfl, hfit 0⟩, 1, 1, 1, rfl, rfl, hfit 0⟩ (fun _ => 1)
    ⟨fun idx _ => trivial, fun _ _ idx _ => trivial⟩
  have pos : ∀ p : Fin (numel [1, 1]), p = ⟨0, by show 0 < 1; norm_num⟩ := fun p => Fin.ext (by have : (p : ℕ) < 1 := p.2; simp; omega)
  have hx : ofVec [1, 1] (fun _ => (1 : ℝ)) = Tensor.tab2 1 1 fun _ _ => 1 := by
    refine Tensor.ext_get (ofVec_wf _ _) (Tensor.wf_tabulate _ _) rfl fun idx hin => ?_
    obtain ⟨i, j, rfl, hi, hj⟩ := inShape2_exists hin
    rw [ofVec_get (S := [1, 1]) _ (by exact hin), Tensor.get_tab2 hi hj]
  obtain ⟨gx, cs, h3, h4⟩ := h2 (fun z => z ⟨0, by show 0 < 1; norm_num⟩) (ContinuousLinearMap.proj (R := ℝ) (φ := fun _ : Fin (numel [1, 1]) => ℝ) ⟨0, by show 0 < 1; norm_num⟩) (Tensor.tab2 1 1 fun _ _ => 1)
    (ContinuousLinearMap.hasFDerivAt (ContinuousLinearMap.proj (R := ℝ) (φ := fun _ : Fin (numel [1, 1]) => ℝ) ⟨0, by show 0 < 1; norm_num⟩)) ⟨rfl, Tensor.wf_tabulate _ _, fun p => by
      rw [pos p, show unravel [1, 1] ((⟨0, by show 0 < 1; norm_num⟩ : Fin (numel [1, 1])) : ℕ) = [0, 0] from rfl, Tensor.get_tab2 (by norm_num) (by norm_num)]
      simp⟩
  obtain ⟨gx', cs', gw, gb, k1, -, k2, k3, -⟩ := exTwice_gradients (P := P)
  rw [hx] at h3
  obtain ⟨rfl, rfl⟩ := Prod.mk.inj (Except.ok.inj (h3.symm.trans k1))
  obtain ⟨-, Q, q1, q2, -, q4, -⟩ := h4 [0]
  refine ⟨cs, Q, q1, ?_⟩
  rw [q2]
  exact q4 ⟨0, 0, _, gw, [0, 0], List.mem_singleton.2 rfl, List.mem_cons_self, rfl, inShape2.2 ⟨by norm_num, by norm_num⟩, k2, by rw [k3]; norm_num⟩

end HOL
