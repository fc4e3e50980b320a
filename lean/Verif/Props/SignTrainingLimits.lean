import Verif.Props.SignTraining
import Verif.Props.SignLion
import Verif.Props.SignsNetwork
import Verif.Props.InputGradient

/-! # C136: the hypotheses are needed; examples -/

namespace HOL
open TorchScalar Spec

/-- **C136 (kinks).** At a common end of two segments with a kink the gradient of the inputs of a piecewise layer is that of the right segment and does not follow the sign of the input: the layer with weights 1, 0, 1 (the absolute value) is
itself when the order of the weights is inverted, and its gradient at 0 is 1 for both signs. So a piecewise layer behind trained layers is not covered by the other parts. -/
theorem C136_kink : ∃ (L : PwLayer ℝ) (x g : Tensor ℝ) (σ ρ : ℕ → Bool), L.WF ∧ (GLayer.pw L).TakesSigns ρ ∧ x.shape = [1, L.inFeatures] ∧ g.shape = [1, L.outFeatures] ∧ (GLayer.pw L).sign σ ρ = .pw L ∧
    ((GLayer.pw L).sign σ ρ).inputGrad (signed σ x) (signed ρ g) ≠ signed σ ((GLayer.pw L).inputGrad x g) := by
  have hw : signLinks (fun _ => true) (fun _ => false) (lineLayer 2 fun r => if r = 1 then 0 else 1).w = (lineLayer 2 fun r => if r = 1 then 0 else 1).w := by
    refine Tensor.ext_get (signLinks_wf _ _ _) (lineLayer_wf (by norm_num) _).w_wf rfl fun idx hin => ?_
    obtain ⟨o, i, r, rfl, ho, hi, hr⟩ := inShape3_exists (a := 1) (b := 1) (c := 3) hin
    rw [signLinks_get (O := 1) (I := 1) (S := 3) rfl ho hi hr, sg_false, one_mul]
    show (Tensor.tab3 1 1 3 fun _ _ r => if r = 1 then (0 : ℝ) else 1).get _ = (Tensor.tab3 1 1 3 fun _ _ r => if r = 1 then (0 : ℝ) else 1).get _
    rw [Tensor.get_tab3 ho hi (inverted_lt hr), Tensor.get_tab3 ho hi hr]
    interval_cases r <;> norm_num [inverted]
  have hx : signed (fun _ => true) (Tensor.tab2 1 1 fun _ _ => (0 : ℝ)) = Tensor.tab2 1 1 fun _ _ => (0 : ℝ) := by
    rw [signed_tab2]
    exact tab2_congr fun _ _ _ _ => mul_zero _
  have hg : signed (fun _ => false) (Tensor.tab2 1 1 fun _ _ => (1 : ℝ)) = Tensor.tab2 1 1 fun _ _ => (1 : ℝ) := signed_none rfl (Tensor.wf_tabulate _ _)
  have hs : (GLayer.pw (lineLayer 2 fun r => if r = 1 then 0 else 1)).sign (fun _ => true) (fun _ => false) = .pw (lineLayer 2 fun r => if r = 1 then 0 else 1) :=
    congrArg (fun w => GLayer.pw { (lineLayer 2 fun r => if r = 1 then 0 else 1) with w := w }) hw
  refine ⟨lineLayer 2 fun r => if r = 1 then 0 else 1, Tensor.tab2 1 1 fun _ _ => 0, Tensor.tab2 1 1 fun _ _ => 1, fun _ => true, fun _ => false, lineLayer_wf (by norm_num) _, ⟨rfl, Or.inl rfl⟩, rfl, rfl, hs, fun h => ?_⟩
  rw [hs, hx, hg] at h
  have e := congrArg (fun t : Tensor ℝ => t.get [0, 0]) h
  have k : ((GLayer.pw (lineLayer 2 fun r => if r = 1 then 0 else 1)).inputGrad (Tensor.tab2 1 1 fun _ _ => 0) (Tensor.tab2 1 1 fun _ _ => 1)).get [0, 0] = 1 := C91_kink.1
  have e' : (1 : ℝ) = sg true * 1 := by
    rw [← k]
    refine e.trans ?_
    exact signed_get (B := 1) (I := 1) rfl (by norm_num) (by norm_num)
  norm_num [sg] at e'

/-- A piecewise layer with two outputs followed by a linear layer. -/
noncomputable def exPair (u w c : Tensor ℝ) : ℕ → GLayer ℝ
  | 0 => .pw { cls := .continuous, n := 2, segments := 2, inFeatures := 1, outFeatures := 2, length := 2, periodicity := none, w := u }
  | _ => .linear w c

/-- The sign of the second of the two hidden units is changed. Trained with squared errors, any number of steps with any rates, the two networks always compute the same. -/
example {u w c : Tensor ℝ} (hu : u.shape = [2, 1, 3]) (hwu : u.WF) (hw : w.shape = [1, 2]) (hww : w.WF) (hc : c.shape = [1]) (hwc : c.WF) (P : Picks ℝ) (data : List (Tensor ℝ × Tensor ℝ × ℝ))
    (hd : ∀ d ∈ data, d.1.WF ∧ ∃ B, d.1.shape = [B, 1]) :
    let bs : List (Batch ℝ) := data.map fun d => { x := d.1, lossGrad := fun y => Tensor.tabulate y.shape fun idx => 2 * (y.get idx - d.2.1.get idx), lr := d.2.2 }
    let ν : Signing := fun j => if j = 0 then some (fun _ => false, fun o => o == 1) else some (fun o => o == 1, fun _ => false)
    ∃ s', train P (.comp (.leaf 0) (.leaf 1)) [0, 1] (exPair u w c) bs = .ok s' ∧ train P (.comp (.leaf 0) (.leaf 1)) [0, 1] (signAll ν (exPair u w c)) bs = .ok (signAll ν s') ∧
      ∀ {B : ℕ} {x : Tensor ℝ}, x.shape = [B, 1] → x.WF → ∃ y, GExpr.forward s' (.comp (.leaf 0) (.leaf 1)) x = .ok y ∧ GExpr.forward (signAll ν s') (.comp (.leaf 0) (.leaf 1)) x = .ok y := by
  intro bs ν
  have hf : GExpr.SignedFirst (exPair u w c) ν (.comp (.leaf 0) (.leaf 1)) (fun _ => false) (fun _ => false) 1 1 :=
    ⟨fun o => o == 1, 2, ⟨⟨⟨Nat.two_pos, Nat.two_pos, Nat.one_pos, Nat.two_pos, hu, hwu⟩, two_pos, fun p hp => (by cases hp), rfl, rfl⟩, ⟨rfl, Or.inl rfl⟩, rfl⟩, ⟨⟨hw, hww, hc, hwc⟩, trivial, trivial, rfl⟩⟩
  refine C136_hidden_units (O := 1) P [0, 1] hf fun b hb => ?_
  obtain ⟨d, hd1, rfl⟩ := List.mem_map.1 hb
  obtain ⟨h1, B, h2⟩ := hd d hd1
  exact ⟨h1, B, h2, fun y hy _ => ⟨hy, Tensor.wf_tabulate _ _⟩⟩

/-- The same with `SparseLion`, from the start of training. -/
example {u w c : Tensor ℝ} (hu : u.shape = [2, 1, 3]) (hwu : u.WF) (hw : w.shape = [1, 2]) (hww : w.WF) (hc : c.shape = [1]) (hwc : c.WF) (P : Picks ℝ) (wd β β2 : ℝ) (data : List (Tensor ℝ × Tensor ℝ × ℝ))
    (hd : ∀ d ∈ data, d.1.WF ∧ ∃ B, d.1.shape = [B, 1]) :
    let bs : List (Batch ℝ) := data.map fun d => { x := d.1, lossGrad := fun y => Tensor.tabulate y.shape fun idx => 2 * (y.get idx - d.2.1.get idx), lr := d.2.2 }
    let ν : Signing := fun j => if j = 0 then some (fun _ => false, fun o => o == 1) else some (fun o => o == 1, fun _ => false)
    ∃ s' m m', LionTrained P (.comp (.leaf 0) (.leaf 1)) [0, 1] wd β β2 (exPair u w c) (fun _ _ => none) bs s' m ∧
      LionTrained P (.comp (.leaf 0) (.leaf 1)) [0, 1] wd β β2 (signAll ν (exPair u w c)) (fun _ _ => none) bs (signAll ν s') m' ∧
      ∀ {B : ℕ} {x : Tensor ℝ}, x.shape = [B, 1] → x.WF → ∃ y, GExpr.forward s' (.comp (.leaf 0) (.leaf 1)) x = .ok y ∧ GExpr.forward (signAll ν s') (.comp (.leaf 0) (.leaf 1)) x = .ok y := by
  intro bs ν
  have hf : GExpr.SignedFirst (exPair u w c) ν (.comp (.leaf 0) (.leaf 1)) (fun _ => false) (fun _ => false) 1 1 :=
    ⟨fun o => o == 1, 2, ⟨⟨⟨Nat.two_pos, Nat.two_pos, Nat.one_pos, Nat.two_pos, hu, hwu⟩, two_pos, fun p hp => (by cases hp), rfl, rfl⟩, ⟨rfl, Or.inl rfl⟩, rfl⟩, ⟨⟨hw, hww, hc, hwc⟩, trivial, trivial, rfl⟩⟩
  refine C136_lion_hidden_units (O := 1) P [0, 1] wd β β2 hf fun b hb => ?_
  obtain ⟨d, hd1, rfl⟩ := List.mem_map.1 hb
  obtain ⟨h1, B, h2⟩ := hd d hd1
  exact ⟨h1, B, h2, fun y hy _ => ⟨hy, Tensor.wf_tabulate _ _⟩⟩

/-- A dead unit: zeros lead to the second hidden unit, and its outgoing weight is zero. After any training the outgoing weight is still zero. -/
example {u w c : Tensor ℝ} (hu : u.shape = [2, 1, 3]) (hwu : u.WF) (hw : w.shape = [1, 2]) (hww : w.WF) (hc : c.shape = [1]) (hwc : c.WF) (hu0 : ∀ r < 3, u.get [1, 0, r] = 0) (hw0 : w.get [0, 1] = 0) (P : Picks ℝ)
    (data : List (Tensor ℝ × Tensor ℝ × ℝ)) (hd : ∀ d ∈ data, d.1.WF ∧ ∃ B, d.1.shape = [B, 1]) :
    let bs : List (Batch ℝ) := data.map fun d => { x := d.1, lossGrad := fun y => Tensor.tabulate y.shape fun idx => 2 * (y.get idx - d.2.1.get idx), lr := d.2.2 }
    ∃ s', train P (.comp (.leaf 0) (.leaf 1)) [0, 1] (exPair u w c) bs = .ok s' ∧ ∀ w' c', s' 1 = .linear w' c' → w'.shape = [1, 2] → w'.get [0, 1] = 0 := by
  intro bs
  let ν : Signing := fun j => if j = 0 then some (fun _ => false, fun o => o == 1) else if j = 1 then some (fun o => o == 1, fun _ => false) else none
  have hf : GExpr.SignedFirst (exPair u w c) ν (.comp (.leaf 0) (.leaf 1)) (fun _ => false) (fun _ => false) 1 1 :=
    ⟨fun o => o == 1, 2, ⟨⟨⟨Nat.two_pos, Nat.two_pos, Nat.one_pos, Nat.two_pos, hu, hwu⟩, two_pos, fun p hp => (by cases hp), rfl, rfl⟩, ⟨rfl, Or.inl rfl⟩, rfl⟩, ⟨⟨hw, hww, hc, hwc⟩, trivial, trivial, rfl⟩⟩
  have e1 : signLinks (fun _ => false) (fun o => o == 1) u = u := by
    refine Tensor.ext_get (signLinks_wf _ _ _) hwu rfl fun idx hin => ?_
    change InShape u.shape idx at hin
    rw [hu] at hin
    obtain ⟨o, i, r, rfl, ho, hi, hr⟩ := inShape3_exists hin
    rw [signLinks_get hu ho hi hr]
    have hi0 : i = 0 := by omega
    subst hi0
    have hinv : inverted false 3 r = r := rfl
    rw [hinv]
    interval_cases o
    · norm_num [sg]
    · rw [hu0 r hr, mul_zero]
  have e2 : signMatrix (fun o => o == 1) (fun _ => false) w = w := by
    refine Tensor.ext_get (Tensor.wf_tabulate _ _) hww rfl fun idx hin => ?_
    change InShape w.shape idx at hin
    rw [hw] at hin
    obtain ⟨o, i, rfl, ho, hi⟩ := inShape2_exists hin
    rw [signMatrix_get hw ho hi]
    have ho0 : o = 0 := by omega
    subst ho0
    interval_cases i
    · norm_num [sg]
    · rw [hw0, mul_zero, mul_zero]
  have e3 : signOut (fun _ => false) c = c := by
    refine Tensor.ext_get (Tensor.wf_tabulate _ _) hwc rfl fun idx hin => ?_
    change InShape c.shape idx at hin
    rw [hc] at hin
    obtain ⟨o, rfl, ho⟩ := inShape1_exists hin
    rw [signOut_get hc ho]
    norm_num [sg]
  have hs : signAll ν (exPair u w c) = exPair u w c := by
    funext j
    match j with
    | 0 => exact congrArg (fun t : Tensor ℝ => GLayer.pw { cls := .continuous, n := 2, segments := 2, inFeatures := 1, outFeatures := 2, length := 2, periodicity := none, w := t }) e1
    | 1 => exact congrArg₂ GLayer.linear e2 e3
    | _ + 2 => rfl
  obtain ⟨s', t1, t2⟩ := C136_dead_units (O := 1) P [0, 1] hf hs (bs := bs) fun b hb => by
    obtain ⟨d, hd1, rfl⟩ := List.mem_map.1 hb
    obtain ⟨h1, B, h2⟩ := hd d hd1
    exact ⟨h1, B, h2, fun y hy _ => ⟨hy, Tensor.wf_tabulate _ _⟩⟩
  refine ⟨s', t1, fun w' c' hs' hw' => ?_⟩
  have h1 : (s' 1).sign (fun o => o == 1) (fun _ => false) = s' 1 := congrFun t2 1
  rw [hs'] at h1
  have h2 : signMatrix (fun o => o == 1) (fun _ => false) w' = w' := (GLayer.linear.inj h1).1
  have h3 := congrArg (fun t : Tensor ℝ => t.get [0, 1]) h2
  beta_reduce at h3
  rw [signMatrix_get hw' (by norm_num) (by norm_num)] at h3
  norm_num [sg] at h3
  linarith

/-- An odd step: with the input and the output of other sign, the slope of a linear layer is the same and the bias has the other sign. -/
example (a b : ℝ) : (GLayer.linear (Tensor.tab2 1 1 fun _ _ => a) (Tensor.tab1 1 fun _ => b)).sign (fun _ => true) (fun _ => true) = .linear (Tensor.tab2 1 1 fun _ _ => a) (Tensor.tab1 1 fun _ => -b) := by
  refine congrArg₂ GLayer.linear (Tensor.ext_get (Tensor.wf_tabulate _ _) (Tensor.wf_tabulate _ _) rfl fun idx hin => ?_) (Tensor.ext_get (Tensor.wf_tabulate _ _) (Tensor.wf_tabulate _ _) rfl fun idx hin => ?_)
  · obtain ⟨o, i, rfl, ho, hi⟩ := inShape2_exists (a := 1) (b := 1) hin
    rw [signMatrix_get (O := 1) (I := 1) rfl ho hi, Tensor.get_tab2 ho hi]
    norm_num [sg]
  · obtain ⟨o, rfl, ho⟩ := inShape1_exists (n := 1) hin
    rw [signOut_get (O := 1) rfl ho, Tensor.get_tab1 ho, Tensor.get_tab1 ho]
    norm_num [sg]

end HOL
