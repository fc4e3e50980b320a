import Verif.Props.NetworkDepth
import Verif.Props.NetworkExamples
import Verif.Props.NetworkRefinementLimits

/-! # C124: concrete networks -/

namespace HOL
open TorchScalar Relation Spec

/-- Networks of step functions with one input, one output, hidden layers of width one and `H` hidden layers. -/
noncomputable def exStack (H : ℕ) (nl : Option ℕ) : MLPArgs ℝ :=
  { layerType := "discontinuous", layerTypeIn := none, n := .int 1, nIn := none, nOut := none, nHidden := none
    inWidth := 1, outWidth := 1, hiddenLayers := H, hiddenWidth := 1, inSegments := some (.int 2), outSegments := some (.int 2)
    hiddenSegments := some (.int 2), periodicity := none, normalization := none, nonLinearity := nl, resnet := false
    dropout := 0, dropoutFn := fun x => .ok x, scale := 1, rescaleOutput := false, initialization := "" }

theorem exStack_orders (H : ℕ) (nl : Option ℕ) : (exStack H nl).HasOrders ⟨1, 2, 1, 2, 1, 2⟩ :=
  ⟨rfl, rfl, rfl, rfl, rfl, rfl, by norm_num, by simp [exStack]⟩

theorem exStack_blocks (H H' : ℕ) (nl : Option ℕ) : (exStack H nl).SameBlocks (exStack H' nl) := ⟨rfl, rfl, rfl, rfl, rfl, rfl, rfl, rfl, rfl⟩

theorem exStack_match (H H' : ℕ) (nl : Option ℕ) : (exStack H nl).LayersMatch (exStack H' nl) := by
  intro i _ _
  have : ∀ k, (exStack k nl).layerOut i = 1 := by
    intro k
    unfold MLPArgs.layerOut
    by_cases h : i < (exStack k nl).hiddenLayers
    · rw [if_pos h]; rfl
    · rw [if_neg h]; rfl
  rw [this, this]

theorem exStack_paired (H H' : ℕ) : Orders.Paired (fun n s n' s' => n ≤ n' ∧ s' = s) H H' ⟨1, 2, 1, 2, 1, 2⟩ ⟨1, 2, 1, 2, 1, 2⟩ := by
  refine ⟨⟨le_rfl, rfl⟩, fun i _ _ => ?_⟩
  simp [Orders.layer]

/-- The modules of a network without hidden layers (4) and of one with one hidden layer (10). -/
noncomputable def exStackHeap (A1 A2 B1 B2 B3 : PwLayer ℝ) : Heap ℝ :=
  [.other fun x => .ok x, .pw A1, .pw A2, .seq [1, 2], .mlp 0 1 2 3,
   .other fun x => .ok x, .pw B1, .pw B2, .pw B3, .seq [6, 7, 8], .mlp 5 6 8 9]

theorem exStack_built0 (h : Heap ℝ) : mlpInit (fun _ _ _ => 0) (exStack 0 none) h = .ok (h.length + 4, h ++ [.other fun x => .ok x, .pw exL0, .pw exL0,
    .seq [h.length + 1, h.length + 2], .mlp h.length (h.length + 1) (h.length + 2) (h.length + 3)]) := by
  have hlt : ltB (0 : ℝ) 0 = false := by simp [ltB]
  have hl : fcTable.lookup "discontinuous" = some (.leaf (.pw .discontinuous)) := by decide
  simp only [mlpInit, fcLayer, exStack, orStr, hl, bind, Except.bind, fcMods, leafMods, hiddenLoop, hiddenStep, appendPre, hlt,
    MLPArgs.inputArgs, MLPArgs.hiddenArgs, MLPArgs.outputArgs, orElse]
  simp [exL0]

theorem exStack_built1 (h : Heap ℝ) : mlpInit (fun _ _ _ => 0) (exStack 1 none) h = .ok (h.length + 5, h ++ [.other fun x => .ok x, .pw exL0, .pw exL0, .pw exL0,
    .seq [h.length + 1, h.length + 2, h.length + 3], .mlp h.length (h.length + 1) (h.length + 3) (h.length + 4)]) := by
  have hlt : ltB (0 : ℝ) 0 = false := by simp [ltB]
  have hl : fcTable.lookup "discontinuous" = some (.leaf (.pw .discontinuous)) := by decide
  simp only [mlpInit, fcLayer, exStack, orStr, hl, bind, Except.bind, fcMods, leafMods, hiddenLoop, hiddenStep, appendPre, hlt,
    MLPArgs.inputArgs, MLPArgs.hiddenArgs, MLPArgs.outputArgs, orElse]
  simp [exL0]

theorem exStackHeap_ordered (A1 A2 B1 B2 B3 : PwLayer ℝ) : (exStackHeap A1 A2 B1 B2 B3).Ordered := by
  intro i m hm j hj
  rcases i with _ | _ | _ | _ | _ | _ | _ | _ | _ | _ | _ | i <;> simp [exStackHeap] at hm <;> subst hm <;>
    simp [Mod.refs, Mod.hidden, Mod.children] at hj <;> omega

theorem exStep_trained (u v : ℝ) : (Mod.pw exL0 : Mod ℝ).Trained (.pw (exStep u v)) := .pw exL0 _ rfl (Tensor.wf_tabulate _ _)

theorem exStack_later (u1 v1 u2 v2 u3 v3 u4 v4 u5 v5 : ℝ) : (exStackHeap exL0 exL0 exL0 exL0 exL0).Later
    (exStackHeap (exStep u1 v1) (exStep u2 v2) (exStep u3 v3) (exStep u4 v4) (exStep u5 v5)) := by
  intro i m hm
  rcases i with _ | _ | _ | _ | _ | _ | _ | _ | _ | _ | _ | i <;> simp [exStackHeap] at hm <;> subst hm <;>
    first
    | exact ⟨_, rfl, exStep_trained _ _⟩
    | exact ⟨_, rfl, .refl _⟩

theorem exStack_keep (H : ℕ) (h : Heap ℝ) : (exStack H none).KeepShapes h :=
  ⟨(by intro f hf; cases hf), (by intro f hf; cases hf), by intro B x y hx hw hy; cases hy; exact ⟨hx, hw⟩⟩

theorem exStack_two (u1 v1 u2 v2 u3 v3 u4 v4 u5 v5 : ℝ) : TwoNetworks (exStack 0 none) (exStack 1 none) 4 10
    (exStackHeap (exStep u1 v1) (exStep u2 v2) (exStep u3 v3) (exStep u4 v4) (exStep u5 v5)) ∧
    TwoNetworks (exStack 1 none) (exStack 0 none) 10 4
    (exStackHeap (exStep u1 v1) (exStep u2 v2) (exStep u3 v3) (exStep u4 v4) (exStep u5 v5)) := by
  have o1 : Heap.Ordered ([.other fun x => .ok x, .pw exL0, .pw exL0, .seq [1, 2], .mlp 0 1 2 3] : Heap ℝ) := by
    intro i m hm j hj
    rcases i with _ | _ | _ | _ | _ | i <;> simp at hm <;> subst hm <;> simp [Mod.refs, Mod.hidden, Mod.children] at hj <;> omega
  exact ⟨⟨_, _, _, _, _, _, ordered_nil, o1, exStackHeap_ordered _ _ _ _ _, exStack_built0 [], exStack_built1 _, exStack_keep _ _, exStack_keep _ _,
      Or.inl ⟨later_refl _, exStack_later _ _ _ _ _ _ _ _ _ _⟩⟩,
    ⟨_, _, _, _, _, _, o1, ordered_nil, exStackHeap_ordered _ _ _ _ _, exStack_built1 _, exStack_built0 [], exStack_keep _ _, exStack_keep _ _,
      Or.inr ⟨later_refl _, exStack_later _ _ _ _ _ _ _ _ _ _⟩⟩⟩

theorem exStack_forward {A1 A2 B1 B2 B3 : PwLayer ℝ} {x y z : ℝ} (e1 : A1.forward (one x) = .ok (one y)) (e2 : A2.forward (one y) = .ok (one z)) :
    (exStackHeap A1 A2 B1 B2 B3).forward 4 (one x) = .ok (one z) := by
  have ho := exStackHeap_ordered A1 A2 B1 B2 B3
  rw [Heap.forward_eq ho (i := 4) (m := .mlp 0 1 2 3) rfl]
  simp only [Mod.forward]
  rw [Heap.forward_eq ho (i := 3) (m := .seq [1, 2]) rfl]
  have f1 : (exStackHeap A1 A2 B1 B2 B3).forward 1 (one x) = .ok (one y) := by rw [Heap.forward_eq ho (i := 1) (m := .pw A1) rfl]; exact e1
  have f2 : (exStackHeap A1 A2 B1 B2 B3).forward 2 (one y) = .ok (one z) := by rw [Heap.forward_eq ho (i := 2) (m := .pw A2) rfl]; exact e2
  simp only [Mod.forward, List.map, seqForward, f1, f2, bind, Except.bind]

/-- **C124 (counterexample).** `a` has no hidden layer, `b` one, with all widths one. `interpolate_high_order_mlp(a, b)` returns normally, and then `b` gives 7, the value of its own
output layer, where `a` gives 3. -/
theorem C124_counterexample : ∃ h1 h2 h h' : Heap ℝ, mlpInit (fun _ _ _ => 0) (exStack 0 none) [] = .ok (4, h1) ∧
    mlpInit (fun _ _ _ => 0) (exStack 1 none) h1 = .ok (10, h2) ∧ h2.Later h ∧ interpolateNetwork 4 10 h = (.ok (), h') ∧
    h.forward 4 (one 1) = .ok (one 3) ∧ h'.forward 4 (one 1) = .ok (one 3) ∧ h'.forward 10 (one 1) = .ok (one 7) := by
  have two := (exStack_two 0 2 0 3 0 0 0 0 5 7).1
  have fa : (exStackHeap (exStep 0 2) (exStep 0 3) (exStep 0 0) (exStep 0 0) (exStep 5 7)).forward 4 (one 1) = .ok (one 3) :=
    exStack_forward (exStep_forward _ _ _) (by rw [exStep_forward]; norm_num)
  obtain ⟨h', q1, q2, q3, -⟩ := C124_interpolate two (exStack_blocks _ _ _) (exStack_match _ _ _) (Or.inr (Or.inl rfl)) (Or.inr (Or.inl rfl))
    (Or.inl rfl) (Or.inl rfl) (exStack_orders _ _) (exStack_orders _ _) (exStack_paired _ _) (msA := [1, 2]) (msB := [6, 7, 8]) ⟨3, rfl, rfl⟩ ⟨9, rfl, rfl⟩
  refine ⟨_, _, _, h', exStack_built0 [], exStack_built1 _, exStack_later 0 2 0 3 0 0 0 0 5 7, q1, fa, by rw [q2]; exact fa, ?_⟩
  rw [q3 (by show 0 ≤ 1; norm_num) 1 (one 1) rfl (Tensor.wf_tabulate _ _), fa]
  simp only [List.length_cons, List.length_nil, List.drop, List.map_cons, List.map_nil, bind, Except.bind, seqForward]
  rw [Heap.forward_eq (exStackHeap_ordered _ _ _ _ _) (i := 8) (m := .pw (exStep 5 7)) rfl]
  simp only [Mod.forward]
  rw [exStep_forward]
  norm_num

/-- The other way: `b` without the hidden layer is `a` without its output layer; no error. -/
example : ∃ h' : Heap ℝ, interpolateNetwork 10 4 (exStackHeap (exStep 0 2) (exStep 0 3) (exStep 4 6) (exStep 0 1) (exStep 5 7)) = (.ok (), h') ∧
    ∀ x : ℝ, (exStackHeap (exStep 0 2) (exStep 0 3) (exStep 4 6) (exStep 0 1) (exStep 5 7)).forward 10 (one x) =
      (h'.forward 4 (one x) >>= seqForward [(exStackHeap (exStep 0 2) (exStep 0 3) (exStep 4 6) (exStep 0 1) (exStep 5 7)).forward 8]) := by
  have two := (exStack_two 0 2 0 3 4 6 0 1 5 7).2
  obtain ⟨h', q1, -, -, q3⟩ := C124_interpolate two (exStack_blocks _ _ _) (exStack_match _ _ _) (Or.inr (Or.inl rfl)) (Or.inr (Or.inl rfl))
    (Or.inl rfl) (Or.inl rfl) (exStack_orders _ _) (exStack_orders _ _) (exStack_paired _ _) (msA := [6, 7, 8]) (msB := [1, 2]) ⟨9, rfl, rfl⟩ ⟨3, rfl, rfl⟩
  exact ⟨h', q1, fun x => q3 (by show 0 ≤ 1; norm_num) 1 (one x) rfl (Tensor.wf_tabulate _ _)⟩

/-! ## A nonlinearity in one of the two networks -/

/-- The nonlinearity (0), the modules of a network with it (6) and of one without it (12), each with one hidden layer. -/
noncomputable def exReluHeap (f : Fwd ℝ) (A1 A2 A3 B1 B2 B3 : PwLayer ℝ) : Heap ℝ :=
  [.other f, .other fun x => .ok x, .pw A1, .pw A2, .pw A3, .seq [2, 0, 3, 0, 4], .mlp 1 2 4 5,
   .other fun x => .ok x, .pw B1, .pw B2, .pw B3, .seq [8, 9, 10], .mlp 7 8 10 11]

theorem exRelu_built (f : Fwd ℝ) : mlpInit (fun _ _ _ => 0) (exStack 1 (some 0)) [.other f] = .ok (6, [.other f, .other fun x => .ok x, .pw exL0, .pw exL0, .pw exL0,
    .seq [2, 0, 3, 0, 4], .mlp 1 2 4 5]) := by
  have hlt : ltB (0 : ℝ) 0 = false := by simp [ltB]
  have hl : fcTable.lookup "discontinuous" = some (.leaf (.pw .discontinuous)) := by decide
  simp only [mlpInit, fcLayer, exStack, orStr, hl, bind, Except.bind, fcMods, leafMods, hiddenLoop, hiddenStep, appendPre, hlt,
    MLPArgs.inputArgs, MLPArgs.hiddenArgs, MLPArgs.outputArgs, orElse]
  simp [exL0]

theorem exReluHeap_ordered (f : Fwd ℝ) (A1 A2 A3 B1 B2 B3 : PwLayer ℝ) : (exReluHeap f A1 A2 A3 B1 B2 B3).Ordered := by
  intro i m hm j hj
  rcases i with _ | _ | _ | _ | _ | _ | _ | _ | _ | _ | _ | _ | _ | i <;> simp [exReluHeap] at hm <;> subst hm <;>
    simp [Mod.refs, Mod.hidden, Mod.children] at hj <;> omega

theorem exRelu_transfer (op : PwLayer ℝ → PwLayer ℝ → Eff (PwLayer ℝ)) (f : Fwd ℝ) (A1 A2 A3 B1 B2 B3 C1 C3 : PwLayer ℝ)
    (e1 : op A1 B1 = (.ok (), C1)) (e3 : op A2 B3 = (.ok (), C3)) :
    transferNetwork op 6 12 (exReluHeap f A1 A2 A3 B1 B2 B3) = (.ok (), exReluHeap f A1 A2 A3 C1 B2 C3) := by
  have step : ∀ (p : ℕ × ℕ) (ps : List (ℕ × ℕ)) (h h' : Heap ℝ), transferBody op p h = (.ok (), h') →
      forEach (transferBody op) (p :: ps) h = forEach (transferBody op) ps h' := by
    intro p ps h h' e
    simp only [forEach, e]
  have pw : ∀ (p : ℕ × ℕ) (h : Heap ℝ) (La Lb Lc : PwLayer ℝ), h[p.1]? = some (.pw La) → h[p.2]? = some (.pw Lb) → op La Lb = (.ok (), Lc) →
      transferBody op p h = (.ok (), h.set p.2 (.pw Lc)) := by
    intro p h La Lb Lc h1 h2 e
    unfold transferBody Heap.method
    rw [h1, method_pw op h1]
    simp only [Option.map_some, Mod.hasMethod, Option.getD_some, if_true, pairOp, h1, h2, e]
  have hmi : (exReluHeap f A1 A2 A3 B1 B2 B3).model 6 = .ok 5 := rfl
  have hmo : (exReluHeap f A1 A2 A3 B1 B2 B3).model 12 = .ok 11 := rfl
  have hl1 : (exReluHeap f A1 A2 A3 B1 B2 B3).layers 5 = [2, 0, 3, 4] := by
    simp [Heap.layers, Heap.modules, Heap.fold, exReluHeap, visitor, Mod.children, Mod.isSeq]
  have hl2 : (exReluHeap f A1 A2 A3 B1 B2 B3).layers 11 = [8, 9, 10] := by
    simp [Heap.layers, Heap.modules, Heap.fold, exReluHeap, visitor, Mod.children, Mod.isSeq]
  unfold transferNetwork
  rw [hmi, hmo]
  dsimp only
  rw [hl1, hl2]
  change forEach (transferBody op) [(2, 8), (0, 9), (3, 10)] _ = _
  rw [step _ _ _ (exReluHeap f A1 A2 A3 C1 B2 B3) (pw (2, 8) _ A1 B1 C1 rfl rfl e1),
    step _ _ _ (exReluHeap f A1 A2 A3 C1 B2 B3) (by rfl),
    step _ _ _ (exReluHeap f A1 A2 A3 C1 B2 C3) (pw (3, 10) _ A2 B3 C3 rfl rfl e3)]
  rfl

/-- **C124 (shifted layers).** If `a` has a nonlinearity and `b` has none, the layers after the first are paired with the wrong ones, without an error: with one hidden layer, the
hidden layer of `b` keeps its weights and the output layer of `b` becomes the hidden layer of `a`. For all step functions and every nonlinearity. -/
theorem C124_shift (f : Fwd ℝ) (u1 v1 u2 v2 u3 v3 u4 v4 u5 v5 u6 v6 : ℝ) : ∃ h1 h2 h h' : Heap ℝ,
    mlpInit (fun _ _ _ => 0) (exStack 1 (some 0)) [.other f] = .ok (6, h1) ∧ mlpInit (fun _ _ _ => 0) (exStack 1 none) h1 = .ok (12, h2) ∧ h2.Later h ∧
    h[2]? = some (.pw (exStep u1 v1)) ∧ h[3]? = some (.pw (exStep u2 v2)) ∧ h[4]? = some (.pw (exStep u3 v3)) ∧
    h[8]? = some (.pw (exStep u4 v4)) ∧ h[9]? = some (.pw (exStep u5 v5)) ∧ h[10]? = some (.pw (exStep u6 v6)) ∧
    h[6]? = some (.mlp 1 2 4 5) ∧ h[12]? = some (.mlp 7 8 10 11) ∧
    interpolateNetwork 6 12 h = (.ok (), h') ∧
    ∀ x, h'.forward 12 (one x) = (h.forward 2 (one x) >>= h.forward 9) >>= h.forward 3 := by
  obtain ⟨C1, p1, -, q1⟩ := C20_p_refinement_exact (exStep u1 v1) (exStep u4 v4) (exStep_wf _ _) (exStep_wf _ _) (Or.inr rfl) rfl rfl rfl rfl rfl rfl le_rfl
  obtain ⟨C3, p3, -, q3⟩ := C20_p_refinement_exact (exStep u2 v2) (exStep u6 v6) (exStep_wf _ _) (exStep_wf _ _) (Or.inr rfl) rfl rfl rfl rfl rfl rfl le_rfl
  refine ⟨_, _, exReluHeap f (exStep u1 v1) (exStep u2 v2) (exStep u3 v3) (exStep u4 v4) (exStep u5 v5) (exStep u6 v6), _, exRelu_built f, exStack_built1 _, ?_,
    rfl, rfl, rfl, rfl, rfl, rfl, rfl, rfl, exRelu_transfer _ _ _ _ _ _ _ _ C1 C3 p1 p3, ?_⟩
  · intro i m hm
    rcases i with _ | _ | _ | _ | _ | _ | _ | _ | _ | _ | _ | _ | _ | i <;> simp at hm <;> subst hm <;>
      first
      | exact ⟨_, rfl, exStep_trained _ _⟩
      | exact ⟨_, rfl, .refl _⟩
  · intro x
    have ho := exReluHeap_ordered f (exStep u1 v1) (exStep u2 v2) (exStep u3 v3) (exStep u4 v4) (exStep u5 v5) (exStep u6 v6)
    have ho' := exReluHeap_ordered f (exStep u1 v1) (exStep u2 v2) (exStep u3 v3) C1 (exStep u5 v5) C3
    rw [Heap.forward_eq ho (i := 2) (m := .pw (exStep u1 v1)) rfl, Heap.forward_eq ho (i := 9) (m := .pw (exStep u5 v5)) rfl,
      Heap.forward_eq ho (i := 3) (m := .pw (exStep u2 v2)) rfl, Heap.forward_eq ho' (i := 12) (m := .mlp 7 8 10 11) rfl]
    simp only [Mod.forward]
    rw [Heap.forward_eq ho' (i := 11) (m := .seq [8, 9, 10]) rfl]
    simp only [Mod.forward, List.map, seqForward]
    rw [Heap.forward_eq ho' (i := 8) (m := .pw C1) rfl, Heap.forward_eq ho' (i := 9) (m := .pw (exStep u5 v5)) rfl,
      Heap.forward_eq ho' (i := 10) (m := .pw C3) rfl]
    simp only [Mod.forward]
    rw [q1 1 (one x) rfl (Tensor.wf_tabulate _ _), exStep_forward]
    simp only [bind, Except.bind]
    rw [exStep_forward]
    simp only [bind, Except.bind]
    simp only [Mod.forward]
    rw [exStep_forward]
    dsimp only
    rw [q3 1 (one (if (if x < 0 then u1 else v1) < 0 then u5 else v5)) rfl (Tensor.wf_tabulate _ _), exStep_forward]

/-- With the nonlinearity `relu` in `b` only: `AttributeError`, for all weights. -/
example (u1 v1 u2 v2 u3 v3 : ℝ) : ∃ h', interpolateNetwork 12 6 (exReluHeap (fun x => .ok x) (exStep 0 0) (exStep 0 0) (exStep 0 0) (exStep u1 v1) (exStep u2 v2) (exStep u3 v3)) =
      (.error .attributeError, h') ∧ ∀ x, h'.forward 2 (one x) = .ok (one (if x < 0 then u1 else v1)) := by
  have o1 : Heap.Ordered ([.other fun x => .ok x] : Heap ℝ) := by
    intro i m hm j hj
    rcases i with _ | i <;> simp at hm
    subst hm; simp [Mod.refs, Mod.hidden, Mod.children] at hj
  have o2 : Heap.Ordered ([.other fun x => .ok x, .other fun x => .ok x, .pw exL0, .pw exL0, .pw exL0, .seq [2, 0, 3, 0, 4], .mlp 1 2 4 5] : Heap ℝ) := by
    intro i m hm j hj
    rcases i with _ | _ | _ | _ | _ | _ | _ | i <;> simp at hm <;> subst hm <;> simp [Mod.refs, Mod.hidden, Mod.children] at hj <;> omega
  have two : TwoNetworks (exStack 1 none) (exStack 1 (some 0)) 12 6
      (exReluHeap (fun x => .ok x) (exStep 0 0) (exStep 0 0) (exStep 0 0) (exStep u1 v1) (exStep u2 v2) (exStep u3 v3)) := by
    refine ⟨_, _, _, _, _, _, o2, o1, exReluHeap_ordered _ _ _ _ _ _ _, exStack_built1 _, exRelu_built _, exStack_keep _ _, ⟨?_, ?_, ?_⟩, Or.inr ⟨later_refl _, ?_⟩⟩
    · intro f hf; cases hf
    · intro j hj
      cases hj
      exact ⟨_, rfl, by intro B x y hx hw hy; cases hy; exact ⟨hx, hw⟩⟩
    · intro B x y hx hw hy; cases hy; exact ⟨hx, hw⟩
    · intro i m hm
      rcases i with _ | _ | _ | _ | _ | _ | _ | _ | _ | _ | _ | _ | _ | i <;> simp at hm <;> subst hm <;>
        first
        | exact ⟨_, rfl, exStep_trained _ _⟩
        | exact ⟨_, rfl, .refl _⟩
  obtain ⟨h', q1, q2⟩ := C124_attribute_error two ⟨rfl, rfl, rfl, rfl, rfl⟩ ⟨rfl, rfl, by simp [exStack, ltB]⟩ (by rintro ⟨-, h, -⟩; cases h)
    (Or.inr (Or.inl rfl)) (Or.inr (Or.inl rfl)) (Or.inl rfl) (Or.inl rfl) (exStack_orders _ _) (exStack_orders _ _) le_rfl rfl
  refine ⟨h', q1, fun x => ?_⟩
  rw [(q2 7 8 10 11 1 2 4 5 rfl rfl).1 1 (one x) rfl (Tensor.wf_tabulate _ _),
    Heap.forward_eq (exReluHeap_ordered _ _ _ _ _ _ _) (i := 8) (m := .pw (exStep u1 v1)) rfl]
  exact exStep_forward _ _ _

end HOL
