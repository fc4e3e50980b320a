import Verif.Model.LionNetwork
import Verif.Lemmas.SparseLion
import Verif.Spec.LionStep
import Verif.Props.StepNetwork

/-! # C128: when a step of `SparseLion` lowers the loss of a network -/

namespace HOL
open TorchScalar Spec Filter GLayer

/-! ## gradients have the shape of their parameters -/

/-- The contribution holds a gradient of the right shape for every parameter. -/
def AllSound (σ : ℕ → GLayer ℝ) (c : ℕ × List (Tensor ℝ)) : Prop := ∀ (k : ℕ) (p : Tensor ℝ), (σ c.1).params[k]? = some p → ∃ gp : Tensor ℝ, c.2[k]? = some gp ∧ gp.shape = p.shape ∧ gp.WF

theorem gatherBackward_shape (shape : List ℕ) (a b : Tensor ℤ) (u : Tensor ℝ) : (gatherBackward shape a b u).shape = shape ∧ (gatherBackward shape a b u).WF := by
  unfold gatherBackward
  split
  · exact ⟨rfl, Tensor.wf_tab3 _ _ _ _⟩
  · exact ⟨rfl, Tensor.wf_tabulate _ _⟩

theorem paramGrads_sound {l : GLayer ℝ} {B I O : ℕ} (h : l.Fits I O) {x g : Tensor ℝ} (hx : x.shape = [B, I]) (hg : g.shape = [B, O]) (k : ℕ) (p : Tensor ℝ) (hp : l.params[k]? = some p) :
    ∃ gp : Tensor ℝ, (l.paramGrads x g)[k]? = some gp ∧ gp.shape = p.shape ∧ gp.WF := by
  have one : ∀ {a p : Tensor ℝ} {k : ℕ}, [a][k]? = some p → k = 0 ∧ p = a := by
    intro a p k h
    match k, h with
    | 0, h => exact ⟨rfl, (Option.some.inj h).symm⟩
  have two : ∀ {a b p : Tensor ℝ} {k : ℕ}, [a, b][k]? = some p → k = 0 ∧ p = a ∨ k = 1 ∧ p = b := by
    intro a b p k h
    match k, h with
    | 0, h => exact .inl ⟨rfl, (Option.some.inj h).symm⟩
    | 1, h => exact .inr ⟨rfl, (Option.some.inj h).symm⟩
  cases l with
  | pw L =>
    obtain ⟨rfl, rfl⟩ := one hp
    refine ⟨_, rfl, ?_⟩
    unfold PwLayer.weightGrad PwLayer.gradW
    rw [hx]
    exact gatherBackward_shape _ _ _ _
  | fn L =>
    obtain ⟨rfl, rfl⟩ := one hp
    refine ⟨_, rfl, ?_⟩
    unfold FnLayer.weightGrad
    rw [hx]
    exact ⟨h.1.w_shape.symm, Tensor.wf_tab3 _ _ _ _⟩
  | product L =>
    obtain ⟨b, hb, hbs, hbw⟩ := h.1.bias
    rcases two hp with ⟨rfl, rfl⟩ | ⟨rfl, rfl⟩
    · refine ⟨_, rfl, ?_⟩
      unfold ProductLayer.weightGrad
      rw [hx]
      exact ⟨h.1.w_shape.symm, Tensor.wf_tab2 _ _ _⟩
    · refine ⟨_, rfl, ?_⟩
      unfold biasGrad
      rw [hg, hb]
      exact ⟨by rw [Option.getD_some, hbs, ← h.2.2]; rfl, Tensor.wf_tab1 _ _⟩
  | linear w b =>
    rcases two hp with ⟨rfl, rfl⟩ | ⟨rfl, rfl⟩
    · refine ⟨_, rfl, ?_⟩
      unfold linearWeightGrad
      rw [hx, h.1]
      exact ⟨rfl, Tensor.wf_tab2 _ _ _⟩
    · refine ⟨_, rfl, ?_⟩
      unfold biasGrad
      rw [hg]
      exact ⟨h.2.2.1.symm, Tensor.wf_tab1 _ _⟩
  | relu => cases hp

theorem joint_sound {P : Picks ℝ} (hP : P.Valid) (σ : ℕ → GLayer ℝ) (V : ℕ → Entry → ℝ) (j B I O : ℕ) (X : Fin (numel [B, I]) → ℝ) (h : (σ j).Fits I O)
    (hX : ∀ idx, InShape [B, I] idx → (σ j).SmoothAt ((ofVec [B, I] X).get idx)) :
    ∃ Φ A, Joint (fun t => ((σ j).along (V j) t).forward) [B, I] [B, O] 0 X (fun g => .ok ((σ j).inputGrad (ofVec [B, I] X) g, [(j, (σ j).paramGrads (ofVec [B, I] X) g)])) (ctrLine σ V) (AllSound σ) [j] Φ A := by
  obtain ⟨Φ, A, hJ⟩ := joint_along hP σ V j B I O X h hX
  refine ⟨Φ, A, hJ.run, hJ.deriv, fun g hs hw => ?_⟩
  obtain ⟨gx, cs, e1, e2, e3, e4, -, e6⟩ := hJ.back g hs hw
  refine ⟨gx, cs, e1, e2, e3, e4, ?_, e6⟩
  obtain ⟨-, rfl⟩ := Prod.mk.inj (Except.ok.inj e1)
  intro c hc k p hp
  rw [List.mem_singleton.1 hc] at hp ⊢
  exact paramGrads_sound h rfl hs k p hp

theorem accumulated_sound {σ : ℕ → GLayer ℝ} {cs : List (ℕ × List (Tensor ℝ))} (hc : ∀ c ∈ cs, AllSound σ c) {m k : ℕ} {p gp : Tensor ℝ} (hp : (σ m).params[k]? = some p)
    (ha : accumulated cs m k = some gp) : gp.shape = p.shape ∧ gp.WF := by
  have hall : ∀ g ∈ contributions cs m k, g.shape = p.shape ∧ g.WF := by
    intro g hg
    obtain ⟨c, h1, h2⟩ := List.mem_filterMap.1 hg
    by_cases he : c.1 = m
    · rw [if_pos he] at h2
      obtain ⟨gp, h3, h4⟩ := hc c h1 k p (by rw [he]; exact hp)
      rw [h3] at h2
      rw [← Option.some.inj h2]
      exact h4
    · rw [if_neg he] at h2
      cases h2
  have hfold : ∀ (gs : List (Tensor ℝ)) (g : Tensor ℝ), g.shape = p.shape ∧ g.WF → (gs.foldl addT g).shape = p.shape ∧ (gs.foldl addT g).WF := by
    intro gs
    induction gs with
    | nil => exact fun g hg => hg
    | cons a gs ih => exact fun g hg => ih _ ⟨hg.1, Tensor.wf_tabulate _ _⟩
  unfold accumulated at ha
  cases hl : contributions cs m k with
  | nil => rw [hl] at ha; cases ha
  | cons g gs =>
    rw [hl] at ha hall
    cases ha
    exact hfold gs g (hall g List.mem_cons_self)

/-! ## the loss along any direction -/

theorem loss_along {P : Picks ℝ} (hP : P.Valid) (σ : ℕ → GLayer ℝ) (e : GExpr ℝ) {S T : List ℕ} (h : e.Takes σ S T) (X : Fin (numel S) → ℝ) (hX : e.Smooth σ (ofVec S X)) :
    ∃ y : Fin (numel T) → ℝ, e.forward σ (ofVec S X) = .ok (ofVec T y) ∧
      ∀ (loss : (Fin (numel T) → ℝ) → ℝ) (D : (Fin (numel T) → ℝ) →L[ℝ] ℝ) (g : Tensor ℝ), HasFDerivAt loss D y → GradVec T D g →
        ∃ gx cs, e.backward P σ (ofVec S X) g = .ok (gx, cs) ∧ cs.map Prod.fst = e.modules ∧ (∀ c ∈ cs, AllSound σ c) ∧
          ∀ V : ℕ → Entry → ℝ, ∃ Q : ℝ → Fin (numel T) → ℝ, (∀ t, e.forward (fun j => (σ j).along (V j) t) (ofVec S X) = .ok (ofVec T (Q t))) ∧ Q 0 = y ∧
            HasDerivAt (fun t => loss (Q t)) (∑ m ∈ e.modules.toFinset, ((σ m).entries.map fun en => V m en * gradOf (accumulated cs m) en).sum) 0 := by
  have hfit : ∀ j ∈ e.modules, ∃ I O, (σ j).Fits I O := fun j hj => GExpr.Takes.fits e h hj
  have joint : ∀ V : ℕ → Entry → ℝ, ∃ Φ A, Joint (fun t => e.forward fun j => (σ j).along (V j) t) S T 0 X (e.backward P σ (ofVec S X)) (ctrLine σ V) (AllSound σ) e.modules Φ A := fun V =>
    joint_expr hP σ (fun t j => (σ j).along (V j) t) 0 rfl (ctrLine_append σ V) e
      (fun j hj => by
        obtain ⟨I, O, hf⟩ := hfit j hj
        exact along_zero hf fun e _ => zero_mul _)
      (fun j _ B I O X hf hX => joint_sound hP σ V j B I O X hf hX) h X hX
  have hzero : ∀ V : ℕ → Entry → ℝ, e.forward (fun j => (σ j).along (V j) 0) = e.forward σ := fun V => GExpr.forward_congr e fun j hj => by
    obtain ⟨I, O, hf⟩ := hfit j hj
    exact along_zero hf fun e _ => zero_mul _
  obtain ⟨Φ0, A0, hJ0⟩ := joint fun _ _ => 0
  have hy := hJ0.run 0 X
  rw [hzero] at hy
  refine ⟨Φ0 0 X, hy, fun loss D g hD hg => ?_⟩
  obtain ⟨gx, cs, e1, -, -, f1, o1, -, -⟩ := hJ0.back g hg.1 hg.2.1
  refine ⟨gx, cs, e1, f1, o1, fun V => ?_⟩
  obtain ⟨Φ, A, hJ⟩ := joint V
  have hself : Φ 0 X = Φ0 0 X := by
    have := hJ.run 0 X
    rw [hzero] at this
    exact ofVec_inj (Except.ok.inj (this.symm.trans hy))
  have hacc : ∀ m ∈ e.modules, ∀ en, (σ m).Has en → gradOf (accumulated cs m) en = ctrOf m en.1 en.2 cs := by
    rintro m hm en ⟨p, hp, hin⟩
    obtain ⟨gp, g1, -, g3⟩ := accumulated_eq (cs := cs) (m := m) (k := en.1) (shape := p.shape) (fun c hc hcm => by
      subst hcm
      obtain ⟨gp, q1, q2, -⟩ := o1 c hc _ p hp
      exact ⟨gp, q1, q2⟩) (f1 ▸ hm) hin
    unfold gradOf
    rw [g1]
    exact g3
  refine ⟨fun t => Φ t X, fun t => hJ.run t X, hself, ?_⟩
  have h1 : HasDerivAt (fun t : ℝ => (t, X)) ((1 : ℝ), (0 : Fin (numel S) → ℝ)) (0 : ℝ) := (hasDerivAt_id _).prodMk (hasDerivAt_const _ X)
  have hQ : HasDerivAt (fun t => Φ t X) (A (1, 0)) 0 := HasFDerivAt.comp_hasDerivAt (l := fun q : ℝ × (Fin (numel S) → ℝ) => Φ q.1 q.2) _ hJ.deriv h1
  rw [← hself] at hD
  have := hD.comp_hasDerivAt _ hQ
  obtain ⟨gx', cs', e2, -, -, -, -, -, k2⟩ := hJ.back g hg.1 hg.2.1
  obtain ⟨rfl, rfl⟩ := Prod.mk.inj (Except.ok.inj (e1.symm.trans e2))
  refine this.congr_deriv ?_
  rw [hg.apply, ← k2, ctrLine_group σ V e.modules.toFinset cs fun c hc => List.mem_toFinset.2 (f1 ▸ List.mem_map.2 ⟨c, hc, rfl⟩)]
  refine Finset.sum_congr rfl fun m hm => ?_
  congr 1
  refine List.map_congr_left fun en hen => ?_
  rw [hacc m (List.mem_toFinset.1 hm) en (mem_entries.1 hen)]

/-- A function with negative derivative is lower right after. -/
theorem lower_after {f : ℝ → ℝ} {d : ℝ} (h : HasDerivAt f d 0) (hd : d < 0) : ∃ ε > 0, ∀ t, 0 < t → t < ε → f t < f 0 := by
  have hev := (hasDerivAt_iff_tendsto_slope.1 h).eventually (gt_mem_nhds hd)
  rw [eventually_nhdsWithin_iff] at hev
  obtain ⟨ε, hε, hball⟩ := Metric.eventually_nhds_iff.1 hev
  refine ⟨ε, hε, fun t h0 h1 => ?_⟩
  have := hball (y := t) (by rw [Real.dist_eq, sub_zero, abs_of_pos h0]; exact h1) (by simpa using h0.ne')
  rw [slope_def_field, sub_zero] at this
  have h2 := (div_lt_iff₀ h0).1 this
  rw [zero_mul] at h2
  linarith

theorem higher_after {f : ℝ → ℝ} {d : ℝ} (h : HasDerivAt f d 0) (hd : 0 < d) : ∃ ε > 0, ∀ t, 0 < t → t < ε → f 0 < f t := by
  obtain ⟨ε, hε, hb⟩ := lower_after h.neg (by linarith : -d < 0)
  exact ⟨ε, hε, fun t h0 h1 => neg_lt_neg_iff.1 (hb t h0 h1)⟩

/-! ## the step is a step along a line -/

/-- The direction in which an entry moves. -/
noncomputable def lionDir (β : ℝ) (acc exp : ℕ → Option (Tensor ℝ)) (e : Entry) : ℝ :=
  if gradOf acc e = 0 then 0 else -Real.sign (β * gradOf exp e + (1 - β) * gradOf acc e)

theorem lionParam_line {p : Tensor ℝ} (hw : p.WF) (lr wd β β2 : ℝ) (acc exp : ℕ → Option (Tensor ℝ)) (k : ℕ) (ha : ∀ g, acc k = some g → g.shape = p.shape ∧ g.WF)
    (he : ∀ e, exp k = some e → e.WF ∧ e.shape = p.shape) : lionParam lr wd β β2 p (acc k) (exp k) = .ok (lineParam lr p fun idx => lionDir β acc exp (k, idx)) := by
  unfold lionParam
  rw [stepParam_eq _ _ _ _ _ ⟨hw, fun g hg => (ha g hg).symm, he⟩]
  refine congrArg Except.ok ?_
  unfold LionParam.next
  cases hg : acc k with
  | none =>
    refine (lineParam_zero hw fun idx _ => ?_).symm
    unfold lionDir
    rw [if_pos (by unfold gradOf; dsimp only; rw [hg]; rfl), mul_zero]
  | some g =>
    dsimp only
    unfold lineParam
    refine tabulate_congr fun idx hin => ?_
    have h1 : gradOf acc (k, idx) = g.get idx := by
      unfold gradOf
      dsimp only
      rw [hg]
      rfl
    have h2 : (LionParam.mom ⟨p, some g, exp k⟩).get idx = gradOf exp (k, idx) := by
      unfold LionParam.mom gradOf
      dsimp only
      cases exp k with
      | none => exact Tensor.get_tabulate hin
      | some e => rfl
    unfold lionData lionDir
    beta_reduce
    rw [h1, h2]
    by_cases h0 : g.get idx = 0
    · rw [if_pos (by rw [eqB_real]; exact h0), if_pos h0, mul_zero, add_zero]
    · rw [if_neg (by rw [eqB_real]; exact h0), if_neg h0]
      show _ + -lr * Real.sign _ = _
      rw [mul_comm (gradOf exp (k, idx)) β]
      ring

theorem lion_along {l : GLayer ℝ} {I O : ℕ} (h : l.Fits I O) (lr wd β β2 : ℝ) (acc exp : ℕ → Option (Tensor ℝ))
    (ha : ∀ k p g, l.params[k]? = some p → acc k = some g → g.shape = p.shape ∧ g.WF) (he : ∀ k p e, l.params[k]? = some p → exp k = some e → e.WF ∧ e.shape = p.shape) :
    l.lion lr wd β β2 acc exp = .ok (l.along (lionDir β acc exp) lr) := by
  cases l with
  | pw L =>
    unfold GLayer.lion along
    dsimp only
    rw [lionParam_line h.1.w_wf lr wd β β2 acc exp 0 (fun g => ha 0 _ g rfl) (fun e => he 0 _ e rfl)]
    rfl
  | fn L =>
    unfold GLayer.lion along
    dsimp only
    rw [lionParam_line h.1.w_wf lr wd β β2 acc exp 0 (fun g => ha 0 _ g rfl) (fun e => he 0 _ e rfl)]
    rfl
  | product L =>
    obtain ⟨bias, hb, -, hbw⟩ := h.1.bias
    have hp1 : (GLayer.product L).params[1]? = some bias := by unfold GLayer.params; dsimp only; rw [hb]; rfl
    unfold GLayer.lion along
    dsimp only
    rw [lionParam_line h.1.w_wf lr wd β β2 acc exp 0 (fun g => ha 0 _ g rfl) (fun e => he 0 _ e rfl), hb]
    show (lionParam lr wd β β2 bias (acc 1) (exp 1) >>= _) = _
    rw [lionParam_line hbw lr wd β β2 acc exp 1 (fun g => ha 1 _ g hp1) (fun e => he 1 _ e hp1)]
    rfl
  | linear w b =>
    unfold GLayer.lion along
    dsimp only
    rw [lionParam_line h.2.1 lr wd β β2 acc exp 0 (fun g => ha 0 _ g rfl) (fun e => he 0 _ e rfl)]
    show (lionParam lr wd β β2 b (acc 1) (exp 1) >>= _) = _
    rw [lionParam_line h.2.2.2 lr wd β β2 acc exp 1 (fun g => ha 1 _ g rfl) (fun e => he 1 _ e rfl)]
    rfl
  | relu => rfl

theorem lion_none (l : GLayer ℝ) (lr wd β β2 : ℝ) (exp : ℕ → Option (Tensor ℝ)) : l.lion lr wd β β2 (fun _ => none) exp = .ok l := by
  cases l with
  | product L =>
    obtain ⟨i, o, f, per, w, b⟩ := L
    cases b <;> rfl
  | _ => rfl

/-! ## the theorem -/

/-- The direction in which the entries of the modules move. -/
noncomputable def lionDirs (trained : List ℕ) (β : ℝ) (exp : ℕ → ℕ → Option (Tensor ℝ)) (cs : List (ℕ × List (Tensor ℝ))) (m : ℕ) (en : Entry) : ℝ :=
  if m ∈ trained then lionDir β (accumulated cs m) (exp m) en else 0

theorem lionStep_along {σ : ℕ → GLayer ℝ} {cs : List (ℕ × List (Tensor ℝ))} (hc : ∀ c ∈ cs, AllSound σ c) {trained : List ℕ} {exp : ℕ → ℕ → Option (Tensor ℝ)} (hexp : LionState σ trained exp)
    (lr wd β β2 : ℝ) {m I O : ℕ} (hf : (σ m).Fits I O) : lionStep trained lr wd β β2 exp cs σ m = .ok ((σ m).along (lionDirs trained β exp cs m) lr) := by
  unfold lionStep
  by_cases ht : m ∈ trained
  · rw [if_pos ht, lion_along hf lr wd β β2 _ _ (fun k p g hp ha => accumulated_sound hc hp ha) (fun k p e hp he => hexp m ht k p e hp he)]
    have : lionDirs trained β exp cs m = lionDir β (accumulated cs m) (exp m) := by
      funext en
      exact if_pos ht
    rw [this]
  · rw [if_neg ht]
    refine congrArg Except.ok (along_zero hf fun en _ => ?_).symm
    unfold lionDirs
    rw [if_neg ht, mul_zero]

theorem lionSlope_eq (σ : ℕ → GLayer ℝ) (mods trained : List ℕ) (β : ℝ) (exp : ℕ → ℕ → Option (Tensor ℝ)) (cs : List (ℕ × List (Tensor ℝ))) :
    ∑ m ∈ mods.toFinset, ((σ m).entries.map fun en => lionDirs trained β exp cs m en * gradOf (accumulated cs m) en).sum = -lionSlope σ mods trained β exp cs := by
  unfold lionSlope
  rw [← Finset.sum_neg_distrib]
  refine Finset.sum_congr rfl fun m _ => ?_
  unfold lionDirs
  by_cases ht : m ∈ trained
  · simp only [if_pos ht]
    have hneg : ∀ (es : List Entry) (f : Entry → ℝ), -(es.map f).sum = (es.map fun e => -f e).sum := by
      intro es f
      induction es with
      | nil => simp
      | cons a es ih => simp only [List.map_cons, List.sum_cons]; rw [← ih]; ring
    rw [hneg]
    congr 1
    refine List.map_congr_left fun en _ => ?_
    unfold lionDir
    by_cases h0 : gradOf (accumulated cs m) en = 0
    · rw [if_pos h0, h0]; ring
    · rw [if_neg h0]; ring
  · simp only [if_neg ht]
    simp

/-- Networks of sums, products and compositions of modules, each used any number of times; `loss.backward()` and one `SparseLion.step()` for the parameters of any of the modules, whatever the momentum: the step succeeds, modules that are
not used do not change, and as a function of the learning rate the loss after the step starts at the loss before the step with derivative minus `lionSlope`, the sum of gradient times sign of the average of momentum and gradient. So for
all small enough learning rates the loss is strictly lower after the step if `lionSlope` is positive and strictly higher if it is negative. If all entries of the gradients are zero the step changes nothing. Weight decay and the second
beta do not matter. -/
theorem C128_step {P : Picks ℝ} (hP : P.Valid) (σ : ℕ → GLayer ℝ) (e : GExpr ℝ) {S T : List ℕ} (h : e.Takes σ S T) (X : Fin (numel S) → ℝ) (hX : e.Smooth σ (ofVec S X)) :
    ∃ y : Fin (numel T) → ℝ, e.forward σ (ofVec S X) = .ok (ofVec T y) ∧
      ∀ (loss : (Fin (numel T) → ℝ) → ℝ) (D : (Fin (numel T) → ℝ) →L[ℝ] ℝ) (g : Tensor ℝ), HasFDerivAt loss D y → GradVec T D g →
        ∃ gx cs, e.backward P σ (ofVec S X) g = .ok (gx, cs) ∧ ∀ (trained : List ℕ) (exp : ℕ → ℕ → Option (Tensor ℝ)), LionState σ trained exp → ∀ wd β β2 : ℝ,
          ∃ τ : ℝ → ℕ → GLayer ℝ, (∀ lr m, lionStep trained lr wd β β2 exp cs σ m = .ok (τ lr m)) ∧ (∀ lr, ∀ m ∉ e.modules, τ lr m = σ m) ∧
          ∃ Q : ℝ → Fin (numel T) → ℝ, (∀ lr, e.forward (τ lr) (ofVec S X) = .ok (ofVec T (Q lr))) ∧ Q 0 = y ∧
            HasDerivAt (fun lr => loss (Q lr)) (-lionSlope σ e.modules trained β exp cs) 0 ∧
            (0 < lionSlope σ e.modules trained β exp cs → ∃ ε > 0, ∀ lr, 0 < lr → lr < ε → loss (Q lr) < loss y) ∧
            (lionSlope σ e.modules trained β exp cs < 0 → ∃ ε > 0, ∀ lr, 0 < lr → lr < ε → loss y < loss (Q lr)) ∧
            ((∀ m k p gp idx, m ∈ trained → m ∈ e.modules → (σ m).params[k]? = some p → InShape p.shape idx → accumulated cs m k = some gp → gp.get idx = 0) → ∀ lr, τ lr = σ) := by
  obtain ⟨y, hy, hall⟩ := loss_along hP σ e h X hX
  refine ⟨y, hy, fun loss D g hD hg => ?_⟩
  obtain ⟨gx, cs, e1, f1, o1, hV⟩ := hall loss D g hD hg
  refine ⟨gx, cs, e1, fun trained exp hexp wd β β2 => ?_⟩
  obtain ⟨Q, q1, q2, q3⟩ := hV (lionDirs trained β exp cs)
  rw [lionSlope_eq] at q3
  have hin : ∀ m ∈ e.modules, ∀ lr, lionStep trained lr wd β β2 exp cs σ m = .ok ((σ m).along (lionDirs trained β exp cs m) lr) := fun m hm lr => by
    obtain ⟨I, O, hf⟩ := GExpr.Takes.fits e h hm
    exact lionStep_along o1 hexp lr wd β β2 hf
  have hout : ∀ m ∉ e.modules, ∀ lr, lionStep trained lr wd β β2 exp cs σ m = .ok (σ m) := fun m hm lr => by
    unfold lionStep
    rw [accumulated_none (by rw [f1]; exact hm), lion_none, ite_self]
  refine ⟨fun lr m => if m ∈ e.modules then (σ m).along (lionDirs trained β exp cs m) lr else σ m, fun lr m => ?_, fun lr m hm => if_neg hm, Q, fun lr => ?_, q2, q3, fun hs => ?_, fun hs => ?_, fun hz lr => ?_⟩
  · beta_reduce
    by_cases hm : m ∈ e.modules
    · rw [if_pos hm, hin m hm]
    · rw [if_neg hm, hout m hm]
  · rw [← q1 lr, GExpr.forward_congr (σ := fun j => (σ j).along (lionDirs trained β exp cs j) lr) e fun j hj => if_pos hj]
  · have := lower_after q3 (by linarith)
    rw [q2] at this
    exact this
  · have := higher_after q3 (by linarith)
    rw [q2] at this
    exact this
  · funext m
    beta_reduce
    by_cases hm : m ∈ e.modules
    · rw [if_pos hm]
      obtain ⟨I, O, hf⟩ := GExpr.Takes.fits e h hm
      refine along_zero hf fun en ⟨p, hp, hi⟩ => ?_
      unfold lionDirs lionDir
      by_cases ht : m ∈ trained
      · have : gradOf (accumulated cs m) en = 0 := by
          unfold gradOf
          cases ha : accumulated cs m en.1 with
          | none => rfl
          | some gp => exact hz m _ p gp _ ht hm hp hi ha
        rw [if_pos ht, if_pos this, mul_zero]
      · rw [if_neg ht, mul_zero]
    · rw [if_neg hm]

/-- On the first step, with no momentum yet, the rate is the sum of the absolute values of the gradients. -/
theorem C128_first (σ : ℕ → GLayer ℝ) (mods trained : List ℕ) {β : ℝ} (hβ : β < 1) (exp : ℕ → ℕ → Option (Tensor ℝ)) (hexp : ∀ m ∈ trained, ∀ k, exp m k = none) (cs : List (ℕ × List (Tensor ℝ))) :
    lionSlope σ mods trained β exp cs = gradAbs σ mods trained cs := by
  unfold lionSlope gradAbs
  refine Finset.sum_congr rfl fun m _ => ?_
  by_cases ht : m ∈ trained
  · rw [if_pos ht, if_pos ht]
    congr 1
    refine List.map_congr_left fun en _ => ?_
    have h0 : gradOf (exp m) en = 0 := by
      unfold gradOf
      rw [hexp m ht]
      rfl
    rw [h0, mul_zero, zero_add]
    rcases lt_trichotomy (gradOf (accumulated cs m) en) 0 with h | h | h
    · rw [Real.sign_of_neg (mul_neg_of_pos_of_neg (by linarith) h), abs_of_neg h]; ring
    · rw [h]; simp
    · rw [Real.sign_of_pos (mul_pos (by linarith) h), abs_of_pos h, mul_one]
  · rw [if_neg ht, if_neg ht]

theorem lionSlope_pos {σ : ℕ → GLayer ℝ} {mods trained : List ℕ} {β : ℝ} {exp : ℕ → ℕ → Option (Tensor ℝ)} {cs : List (ℕ × List (Tensor ℝ))}
    (hall : ∀ m ∈ trained, m ∈ mods → ∀ en, (σ m).Has en → 0 ≤ gradOf (accumulated cs m) en * Real.sign (β * gradOf (exp m) en + (1 - β) * gradOf (accumulated cs m) en))
    (hex : ∃ m ∈ trained, m ∈ mods ∧ ∃ en, (σ m).Has en ∧ 0 < gradOf (accumulated cs m) en * Real.sign (β * gradOf (exp m) en + (1 - β) * gradOf (accumulated cs m) en)) :
    0 < lionSlope σ mods trained β exp cs := by
  obtain ⟨m, ht, hm, en, hen, hpos⟩ := hex
  unfold lionSlope
  refine Finset.sum_pos' (fun m' hm' => ?_) ⟨m, List.mem_toFinset.2 hm, ?_⟩
  · by_cases ht' : m' ∈ trained
    · rw [if_pos ht']
      refine List.sum_nonneg fun x hx => ?_
      obtain ⟨en, hen, rfl⟩ := List.mem_map.1 hx
      exact hall m' ht' (List.mem_toFinset.1 hm') en (mem_entries.1 hen)
    · rw [if_neg ht']
  · rw [if_pos ht]
    refine lt_of_lt_of_le hpos (List.single_le_sum (fun x hx => ?_) _ (List.mem_map.2 ⟨en, mem_entries.2 hen, rfl⟩))
    obtain ⟨en', hen', rfl⟩ := List.mem_map.1 hx
    exact hall m ht hm en' (mem_entries.1 hen')

/-- If no momentum opposes its gradient and some gradient is not zero, the rate is positive (and the loss goes down). -/
theorem C128_agreeing (σ : ℕ → GLayer ℝ) (mods trained : List ℕ) {β : ℝ} (h0 : 0 ≤ β) (h1 : β < 1) (exp : ℕ → ℕ → Option (Tensor ℝ)) (cs : List (ℕ × List (Tensor ℝ)))
    (hall : ∀ m ∈ trained, m ∈ mods → ∀ en, (σ m).Has en → 0 ≤ gradOf (accumulated cs m) en * gradOf (exp m) en)
    (hex : ∃ m ∈ trained, m ∈ mods ∧ ∃ en, (σ m).Has en ∧ gradOf (accumulated cs m) en ≠ 0) : 0 < lionSlope σ mods trained β exp cs := by
  have key : ∀ g m : ℝ, 0 ≤ g * m → g ≠ 0 → 0 < g * Real.sign (β * m + (1 - β) * g) := by
    intro g m hgm hg
    rcases lt_or_gt_of_ne hg with h | h
    · have hm : m ≤ 0 := by
        by_contra hc
        have := mul_neg_of_neg_of_pos h (not_le.1 hc)
        linarith
      have : β * m + (1 - β) * g < 0 := by
        have := mul_nonpos_of_nonneg_of_nonpos h0 hm
        have := mul_neg_of_pos_of_neg (by linarith : 0 < 1 - β) h
        linarith
      rw [Real.sign_of_neg this]
      linarith
    · have hm : 0 ≤ m := by
        by_contra hc
        have := mul_neg_of_pos_of_neg h (not_le.1 hc)
        linarith
      have : 0 < β * m + (1 - β) * g := by
        have := mul_nonneg h0 hm
        have := mul_pos (by linarith : 0 < 1 - β) h
        linarith
      rw [Real.sign_of_pos this]
      linarith
  refine lionSlope_pos (fun m ht hm en hen => ?_) ?_
  · by_cases hg : gradOf (accumulated cs m) en = 0
    · rw [hg, zero_mul]
    · exact (key _ _ (hall m ht hm en hen) hg).le
  · obtain ⟨m, ht, hm, en, hen, hg⟩ := hex
    exact ⟨m, ht, hm, en, hen, key _ _ (hall m ht hm en hen) hg⟩

/-- If the average of momentum and gradient has the wrong sign for every gradient that is not zero, the rate is negative (and the loss goes up). -/
theorem C128_opposing (σ : ℕ → GLayer ℝ) (mods trained : List ℕ) (β : ℝ) (exp : ℕ → ℕ → Option (Tensor ℝ)) (cs : List (ℕ × List (Tensor ℝ)))
    (hall : ∀ m ∈ trained, m ∈ mods → ∀ en, (σ m).Has en → gradOf (accumulated cs m) en ≠ 0 → gradOf (accumulated cs m) en * (β * gradOf (exp m) en + (1 - β) * gradOf (accumulated cs m) en) < 0)
    (hex : ∃ m ∈ trained, m ∈ mods ∧ ∃ en, (σ m).Has en ∧ gradOf (accumulated cs m) en ≠ 0) : lionSlope σ mods trained β exp cs < 0 := by
  have key : ∀ g a : ℝ, g * a < 0 → 0 < -g * Real.sign a := by
    intro g a h
    rcases lt_trichotomy a 0 with ha | ha | ha
    · have : 0 < g := by
        by_contra hc
        have := mul_nonneg_of_nonpos_of_nonpos (not_lt.1 hc) ha.le
        linarith
      rw [Real.sign_of_neg ha]
      linarith
    · rw [ha, mul_zero] at h
      exact absurd h (lt_irrefl _)
    · have : g < 0 := by
        by_contra hc
        have := mul_nonneg (not_lt.1 hc) ha.le
        linarith
      rw [Real.sign_of_pos ha]
      linarith
  have hneg : lionSlope σ mods trained β exp cs = -∑ m ∈ mods.toFinset, if m ∈ trained then ((σ m).entries.map fun e => -gradOf (accumulated cs m) e * Real.sign (β * gradOf (exp m) e + (1 - β) * gradOf (accumulated cs m) e)).sum else 0 := by
    unfold lionSlope
    rw [← Finset.sum_neg_distrib]
    refine Finset.sum_congr rfl fun m _ => ?_
    by_cases ht : m ∈ trained
    · rw [if_pos ht, if_pos ht]
      induction (σ m).entries with
      | nil => simp
      | cons a es ih => simp only [List.map_cons, List.sum_cons]; rw [ih]; ring
    · rw [if_neg ht, if_neg ht, neg_zero]
  have hnn : ∀ m ∈ trained, m ∈ mods → ∀ en, (σ m).Has en → 0 ≤ -gradOf (accumulated cs m) en * Real.sign (β * gradOf (exp m) en + (1 - β) * gradOf (accumulated cs m) en) := by
    intro m ht hm en hen
    by_cases hg : gradOf (accumulated cs m) en = 0
    · rw [hg, neg_zero, zero_mul]
    · exact (key _ _ (hall m ht hm en hen hg)).le
  rw [hneg, neg_lt_zero]
  obtain ⟨m, ht, hm, en, hen, hg⟩ := hex
  refine Finset.sum_pos' (fun m' hm' => ?_) ⟨m, List.mem_toFinset.2 hm, ?_⟩
  · by_cases ht' : m' ∈ trained
    · rw [if_pos ht']
      refine List.sum_nonneg fun x hx => ?_
      obtain ⟨en, hen, rfl⟩ := List.mem_map.1 hx
      exact hnn m' ht' (List.mem_toFinset.1 hm') en (mem_entries.1 hen)
    · rw [if_neg ht']
  · rw [if_pos ht]
    refine lt_of_lt_of_le (key _ _ (hall m ht hm en hen hg)) (List.single_le_sum (fun x hx => ?_) _ (List.mem_map.2 ⟨en, mem_entries.2 hen, rfl⟩))
    obtain ⟨en', hen', rfl⟩ := List.mem_map.1 hx
    exact hnn m ht hm en' (mem_entries.1 hen')

end HOL
