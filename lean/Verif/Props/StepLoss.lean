import Verif.Model.StepNetwork
import Verif.Spec.Step
import Verif.Props.SharedGradient

/-! # C123: a gradient step with a small learning rate reduces the loss -/

namespace HOL
open TorchScalar Spec Filter GLayer

/-- The derivative along the direction `V` that the contributions add up to. -/
noncomputable def ctrLine (σ : ℕ → GLayer ℝ) (V : ℕ → Entry → ℝ) (cs : List (ℕ × List (Tensor ℝ))) : ℝ :=
  (cs.map fun c => ((σ c.1).entries.map fun e => V c.1 e * gradOf (fun k => c.2[k]?) e).sum).sum

theorem ctrLine_append (σ : ℕ → GLayer ℝ) (V : ℕ → Entry → ℝ) (cs cs' : List (ℕ × List (Tensor ℝ))) : ctrLine σ V (cs ++ cs') = ctrLine σ V cs + ctrLine σ V cs' := by
  unfold ctrLine
  rw [List.map_append, List.sum_append]

/-- The contribution holds a gradient of the right shape for every parameter with entries. -/
def AllFitting (σ : ℕ → GLayer ℝ) (c : ℕ × List (Tensor ℝ)) : Prop := ∀ (k : ℕ) (p : Tensor ℝ) (idx : List ℕ), (σ c.1).params[k]? = some p → InShape p.shape idx → ∃ gp : Tensor ℝ, c.2[k]? = some gp ∧ gp.shape = p.shape

theorem sum_list_mul {ι T : Type} [Fintype T] (es : List ι) (b : ι → ℝ) (s : ι → T → ℝ) (g : T → ℝ) :
    ∑ r : T, g r * (es.map fun e => b e • s e).sum r = (es.map fun e => b e * ∑ r : T, g r * s e r).sum := by
  induction es with
  | nil => simp
  | cons e es ih =>
    simp only [List.map_cons, List.sum_cons, Pi.add_apply, Pi.smul_apply, smul_eq_mul, mul_add]
    rw [Finset.sum_add_distrib, ih]
    congr 1
    rw [Finset.mul_sum]
    exact Finset.sum_congr rfl fun r _ => by ring

/-- A use of a module all of whose parameters move along a line. -/
theorem joint_along {P : Picks ℝ} (hP : P.Valid) (σ : ℕ → GLayer ℝ) (V : ℕ → Entry → ℝ) (j B I O : ℕ) (X : Fin (numel [B, I]) → ℝ) (h : (σ j).Fits I O)
    (hX : ∀ idx, InShape [B, I] idx → (σ j).SmoothAt ((ofVec [B, I] X).get idx)) :
    ∃ Φ A, Joint (fun t => ((σ j).along (V j) t).forward) [B, I] [B, O] 0 X (fun g => .ok ((σ j).inputGrad (ofVec [B, I] X) g, [(j, (σ j).paramGrads (ofVec [B, I] X) g)])) (ctrLine σ V) (AllFitting σ) [j] Φ A := by
  have hr : (σ j).Ready B I O X := ⟨h, hX⟩
  have hes : ∀ e ∈ (σ j).entries, (σ j).Has e := fun e he => mem_entries.1 he
  obtain ⟨A, hA, hA1⟩ := move_deriv hP (σ j).value (V j) (σ j).entries (nodup_entries _) (σ j) hr hes
  have hz : (σ j).along (V j) 0 = σ j := along_zero h fun e _ => zero_mul _
  have hm : ∀ t, move (σ j).value (V j) (σ j).entries t (σ j) = (σ j).along (V j) t := fun t => move_along h (V j) t
  simp only [hm] at hA hA1
  rw [hz] at hA1
  obtain ⟨F, AF, hF, hAF, hB⟩ := stage_vec hP (.base (.dense (σ j))) (S := [B, I]) (T := [B, O]) ⟨B, I, O, rfl, rfl, h⟩ X hX
  have hFeq : (fun Y => ((σ j).along (V j) 0).vecFn [B, I] [B, O] Y) = F := by
    funext Y
    rw [hz]
    exact vecFn_eq (hF Y)
  have hA0 : ∀ v, A (0, v) = AF v := by
    have h1 : HasFDerivAt (fun Y => ((σ j).along (V j) 0).vecFn [B, I] [B, O] Y) (A.comp (ContinuousLinearMap.inr ℝ ℝ _)) X :=
      HasFDerivAt.comp (g := fun q : ℝ × (Fin (numel [B, I]) → ℝ) => ((σ j).along (V j) q.1).vecFn [B, I] [B, O] q.2) X hA ((hasFDerivAt_const (0 : ℝ) X).prodMk (hasFDerivAt_id X))
    rw [hFeq] at h1
    intro v
    rw [← h1.unique hAF]
    rfl
  refine ⟨fun t Y => ((σ j).along (V j) t).vecFn [B, I] [B, O] Y, A, ⟨fun t Y => ?_, hA, fun g hs hw => ?_⟩⟩
  · have := move_ready (σ j).value (V j) (σ j).entries t hr hes
    rw [hm] at this
    exact this.run hP Y
  · obtain ⟨gx, gps, e1, e2, s1, w1, x1, hpar⟩ := hB g hs hw
    obtain rfl := Except.ok.inj e1
    have e2' : (σ j).paramGrads (ofVec [B, I] X) g = gps := Except.ok.inj e2
    refine ⟨_, _, rfl, s1, w1, rfl, ?_, fun q => ?_, ?_⟩
    · intro c hc k p idx hp hin
      rw [List.mem_singleton.1 hc] at hp ⊢
      obtain ⟨gp, Q, q1, q2, -, -⟩ := hpar k p idx hp hin
      exact ⟨gp, by rw [e2']; exact q1, q2⟩
    · rw [x1 q, hA0]
    · have hc : ctrLine σ V [(j, (σ j).paramGrads (ofVec [B, I] X) g)] = ((σ j).entries.map fun e => V j e * gradOf (fun k => gps[k]?) e).sum := by
        unfold ctrLine
        rw [List.map_singleton, List.sum_singleton, e2']
      rw [hc, hA1, sum_list_mul]
      congr 1
      refine List.map_congr_left fun e he => ?_
      congr 1
      obtain ⟨p, hp, hin⟩ := hes e he
      obtain ⟨gp, Q, q1, q2, q3, q4⟩ := hpar e.1 p e.2 hp hin
      have hQ : Q = fun t => ((σ j).setEntry e 0).vecFn [B, I] [B, O] X + t • (σ j).slope [B, I] [B, O] X e := by
        funext t
        rw [← hr.line ⟨p, hp, hin⟩]
        refine (vecFn_eq ?_).symm
        rw [setEntry_eq hp]
        exact q3 t
      have hd : HasDerivAt (fun t => ∑ r : Fin (numel [B, O]), g.get (unravel [B, O] r) * Q t r) (∑ r : Fin (numel [B, O]), g.get (unravel [B, O] r) * (σ j).slope [B, I] [B, O] X e r) (p.get e.2) := by
        refine HasDerivAt.fun_sum fun r _ => HasDerivAt.const_mul _ ?_
        rw [hQ]
        show HasDerivAt (fun t => ((σ j).setEntry e 0).vecFn [B, I] [B, O] X r + t * (σ j).slope [B, I] [B, O] X e r) _ _
        have := ((hasDerivAt_id (p.get e.2)).mul_const ((σ j).slope [B, I] [B, O] X e r)).const_add (((σ j).setEntry e 0).vecFn [B, I] [B, O] X r)
        rw [one_mul] at this
        exact this
      rw [← q4.unique hd]
      unfold gradOf
      dsimp only
      rw [q1]
      rfl

/-- Contributions sorted by module. -/
theorem ctrLine_group (σ : ℕ → GLayer ℝ) (V : ℕ → Entry → ℝ) (F : Finset ℕ) (cs : List (ℕ × List (Tensor ℝ))) (hF : ∀ c ∈ cs, c.1 ∈ F) :
    ctrLine σ V cs = ∑ m ∈ F, ((σ m).entries.map fun e => V m e * ctrOf m e.1 e.2 cs).sum := by
  induction cs with
  | nil =>
    unfold ctrLine ctrOf contributions
    simp
  | cons c cs ih =>
    have h1 : ctrLine σ V (c :: cs) = ((σ c.1).entries.map fun e => V c.1 e * gradOf (fun k => c.2[k]?) e).sum + ctrLine σ V cs := by
      unfold ctrLine
      rw [List.map_cons, List.sum_cons]
    have h2 : ∀ m (e : Entry), ctrOf m e.1 e.2 (c :: cs) = (if c.1 = m then gradOf (fun k => c.2[k]?) e else 0) + ctrOf m e.1 e.2 cs := by
      intro m e
      unfold ctrOf contributions gradOf
      rw [List.filterMap_cons]
      by_cases h : c.1 = m
      · rw [if_pos h, if_pos h]
        dsimp only
        cases c.2[e.1]? with
        | none => simp
        | some g => simp
      · rw [if_neg h, if_neg h]
        simp
    have hsum : ∀ m (es : List Entry), (es.map fun e => V m e * ctrOf m e.1 e.2 (c :: cs)).sum
        = (if c.1 = m then (es.map fun e => V m e * gradOf (fun k => c.2[k]?) e).sum else 0) + (es.map fun e => V m e * ctrOf m e.1 e.2 cs).sum := by
      intro m es
      simp only [h2]
      by_cases h : c.1 = m
      · simp only [if_pos h]
        induction es with
        | nil => simp
        | cons e es ih => simp only [List.map_cons, List.sum_cons]; rw [ih]; ring
      · simp only [if_neg h, zero_add]
    rw [h1, ih fun c' hc' => hF c' (List.mem_cons_of_mem _ hc')]
    simp only [hsum]
    rw [Finset.sum_add_distrib, Finset.sum_ite_eq, if_pos (hF c List.mem_cons_self)]

theorem sgdParam_line {p : Tensor ℝ} (hw : p.WF) (lr : ℝ) (acc : ℕ → Option (Tensor ℝ)) (k : ℕ) : sgdParam lr p (acc k) = lineParam lr p fun idx => -gradOf acc (k, idx) := by
  unfold gradOf
  cases h : acc k with
  | none =>
    refine (lineParam_zero hw fun idx _ => ?_).symm
    dsimp only
    rw [h]
    simp
  | some g =>
    unfold sgdParam lineParam
    dsimp only
    rw [h]
    congr 1
    funext idx
    show p.get idx - lr * g.get idx = p.get idx + lr * -(g.get idx)
    ring

theorem sgd_along {l : GLayer ℝ} {I O : ℕ} (h : l.Fits I O) (lr : ℝ) (acc : ℕ → Option (Tensor ℝ)) : l.sgd lr acc = l.along (fun e => -gradOf acc e) lr := by
  cases l with
  | pw L =>
    unfold GLayer.sgd along
    dsimp only
    rw [sgdParam_line h.1.w_wf]
  | fn L =>
    unfold GLayer.sgd along
    dsimp only
    rw [sgdParam_line h.1.w_wf]
  | product L =>
    obtain ⟨bias, hb, -, hbw⟩ := h.1.bias
    unfold GLayer.sgd along
    dsimp only
    rw [sgdParam_line h.1.w_wf, hb, Option.map_some, Option.map_some, sgdParam_line hbw]
  | linear w b =>
    unfold GLayer.sgd along
    dsimp only
    rw [sgdParam_line h.2.1, sgdParam_line h.2.2.2]
  | relu => rfl

theorem accumulated_none {cs : List (ℕ × List (Tensor ℝ))} {m : ℕ} (hm : m ∉ cs.map Prod.fst) : accumulated cs m = fun _ => none := by
  funext k
  have : contributions cs m k = [] := by
    refine List.filterMap_eq_nil_iff.2 fun c hc => ?_
    rw [if_neg]
    intro he
    exact hm (List.mem_map.2 ⟨c, hc, he⟩)
  unfold accumulated
  rw [this]

theorem sgd_none (l : GLayer ℝ) (lr : ℝ) : l.sgd lr (fun _ => none) = l := by
  cases l with
  | product L =>
    unfold GLayer.sgd
    dsimp only
    have : L.bias.map (fun b => sgdParam lr b none) = L.bias := by cases L.bias <;> rfl
    rw [this]
    rfl
  | _ => rfl

theorem GExpr.forward_congr {σ τ : ℕ → GLayer ℝ} (e : GExpr ℝ) (he : ∀ j ∈ e.modules, τ j = σ j) : e.forward τ = e.forward σ := by
  induction e with
  | leaf j =>
    show (τ j).forward = _
    rw [he j List.mem_cons_self]
    rfl
  | fixed s => rfl
  | comp a b iha ihb =>
    show (fun x => a.forward τ x >>= fun y => b.forward τ y) = _
    rw [iha fun j hj => he j (List.mem_append_left _ hj), ihb fun j hj => he j (List.mem_append_right _ hj)]
    rfl
  | add a b iha ihb =>
    show (fun x => a.forward τ x >>= fun u => b.forward τ x >>= fun v => zipBcast (· + ·) u v) = _
    rw [iha fun j hj => he j (List.mem_append_left _ hj), ihb fun j hj => he j (List.mem_append_right _ hj)]
    rfl
  | mul a b iha ihb =>
    show (fun x => a.forward τ x >>= fun u => b.forward τ x >>= fun v => zipBcast (· * ·) u v >>= fun r => if r.shape = u.shape then Except.ok r else Except.error .runtimeError) = _
    rw [iha fun j hj => he j (List.mem_append_left _ hj), ihb fun j hj => he j (List.mem_append_right _ hj)]
    rfl

/-- Networks of sums, products and compositions of modules, each used any number of times; `loss.backward()` and one step of plain gradient descent for the parameters of any of the modules: as a function of the
learning rate the loss after the step starts at the loss before the step with derivative minus the squared length of the gradient. So the loss is strictly lower after the step for all small enough learning
rates if some entry of the gradients is not zero; if all are zero the step changes no output. Modules that are not used do not change. -/
theorem C123_step {P : Picks ℝ} (hP : P.Valid) (σ : ℕ → GLayer ℝ) (e : GExpr ℝ) {S T : List ℕ} (h : e.Takes σ S T) (X : Fin (numel S) → ℝ) (hX : e.Smooth σ (ofVec S X)) :
    ∃ y : Fin (numel T) → ℝ, e.forward σ (ofVec S X) = .ok (ofVec T y) ∧
      ∀ (loss : (Fin (numel T) → ℝ) → ℝ) (D : (Fin (numel T) → ℝ) →L[ℝ] ℝ) (g : Tensor ℝ), HasFDerivAt loss D y → GradVec T D g →
        ∃ gx cs, e.backward P σ (ofVec S X) g = .ok (gx, cs) ∧ ∀ trained : List ℕ, (∀ lr, ∀ m ∉ e.modules, sgdStep trained lr cs σ m = σ m) ∧
          ∃ Q : ℝ → Fin (numel T) → ℝ, (∀ lr, e.forward (sgdStep trained lr cs σ) (ofVec S X) = .ok (ofVec T (Q lr))) ∧ Q 0 = y ∧
            HasDerivAt (fun lr => loss (Q lr)) (-gradSquares σ e.modules trained cs) 0 ∧
            ((∃ m k p gp idx, m ∈ trained ∧ m ∈ e.modules ∧ (σ m).params[k]? = some p ∧ InShape p.shape idx ∧ accumulated cs m k = some gp ∧ gp.get idx ≠ 0) →
              ∃ ε > 0, ∀ lr, 0 < lr → lr < ε → loss (Q lr) < loss y) ∧
            ((∀ m k p gp idx, m ∈ trained → m ∈ e.modules → (σ m).params[k]? = some p → InShape p.shape idx → accumulated cs m k = some gp → gp.get idx = 0) → ∀ lr, Q lr = y) := by
  have hfit : ∀ j ∈ e.modules, ∃ I O, (σ j).Fits I O := fun j hj => GExpr.Takes.fits e h hj
  -- the network with all parameters moved
  have joint : ∀ V : ℕ → Entry → ℝ, ∃ Φ A, Joint (fun t => e.forward fun j => (σ j).along (V j) t) S T 0 X (e.backward P σ (ofVec S X)) (ctrLine σ V) (AllFitting σ) e.modules Φ A := fun V =>
    joint_expr hP σ (fun t j => (σ j).along (V j) t) 0 rfl (ctrLine_append σ V) e
      (fun j hj => by
        obtain ⟨I, O, hf⟩ := hfit j hj
        exact along_zero hf fun e _ => zero_mul _)
      (fun j _ B I O X hf hX => joint_along hP σ V j B I O X hf hX) h X hX
  have hzero : ∀ V : ℕ → Entry → ℝ, e.forward (fun j => (σ j).along (V j) 0) = e.forward σ := fun V => GExpr.forward_congr e fun j hj => by
    obtain ⟨I, O, hf⟩ := hfit j hj
    exact along_zero hf fun e _ => zero_mul _
  obtain ⟨Φ0, A0, hJ0⟩ := joint fun _ _ => 0
  have hy := hJ0.run 0 X
  rw [hzero] at hy
  refine ⟨Φ0 0 X, hy, fun loss D g hD hg => ?_⟩
  obtain ⟨gx, cs, e1, -, -, f1, o1, -, -⟩ := hJ0.back g hg.1 hg.2.1
  refine ⟨gx, cs, e1, fun trained => ⟨fun lr m hm => ?_, ?_⟩⟩
  · unfold sgdStep
    rw [accumulated_none (by rw [f1]; exact hm), sgd_none, ite_self]
  obtain ⟨V, hV⟩ : ∃ V : ℕ → Entry → ℝ, V = fun m e => if m ∈ trained then -gradOf (accumulated cs m) e else 0 := ⟨_, rfl⟩
  obtain ⟨Φ, A, hJ⟩ := joint V
  have hstep : ∀ lr, e.forward (sgdStep trained lr cs σ) = e.forward fun j => (σ j).along (V j) lr := fun lr => GExpr.forward_congr e fun j hj => by
    obtain ⟨I, O, hf⟩ := hfit j hj
    unfold sgdStep
    rw [hV]
    by_cases ht : j ∈ trained
    · simp only [if_pos ht]
      exact sgd_along hf lr _
    · simp only [if_neg ht]
      exact (along_zero hf fun e _ => mul_zero _).symm
  have hself : Φ 0 X = Φ0 0 X := by
    have := hJ.run 0 X
    rw [hzero] at this
    exact ofVec_inj (Except.ok.inj (this.symm.trans hy))
  -- the derivative
  have hacc : ∀ m ∈ e.modules, ∀ en, (σ m).Has en → gradOf (accumulated cs m) en = ctrOf m en.1 en.2 cs := by
    rintro m hm en ⟨p, hp, hin⟩
    obtain ⟨gp, g1, -, g3⟩ := accumulated_eq (cs := cs) (m := m) (k := en.1) (shape := p.shape) (fun c hc hcm => by
      subst hcm
      exact o1 c hc _ p _ hp hin) (f1 ▸ hm) hin
    unfold gradOf
    rw [g1]
    exact g3
  have hd : HasDerivAt (fun lr => loss (Φ lr X)) (-gradSquares σ e.modules trained cs) 0 := by
    have h1 : HasDerivAt (fun t : ℝ => (t, X)) ((1 : ℝ), (0 : Fin (numel S) → ℝ)) (0 : ℝ) := (hasDerivAt_id _).prodMk (hasDerivAt_const _ X)
    have hQ : HasDerivAt (fun t => Φ t X) (A (1, 0)) 0 := HasFDerivAt.comp_hasDerivAt (l := fun q : ℝ × (Fin (numel S) → ℝ) => Φ q.1 q.2) _ hJ.deriv h1
    rw [← hself] at hD
    have := hD.comp_hasDerivAt _ hQ
    obtain ⟨gx', cs', e2, -, -, -, -, -, k2⟩ := hJ.back g hg.1 hg.2.1
    obtain ⟨rfl, rfl⟩ := Prod.mk.inj (Except.ok.inj (e1.symm.trans e2))
    refine this.congr_deriv ?_
    rw [hg.apply, ← k2, ctrLine_group σ V e.modules.toFinset cs fun c hc => List.mem_toFinset.2 (f1 ▸ List.mem_map.2 ⟨c, hc, rfl⟩)]
    unfold gradSquares
    rw [← Finset.sum_neg_distrib]
    refine Finset.sum_congr rfl fun m hm => ?_
    rw [hV]
    by_cases ht : m ∈ trained
    · simp only [if_pos ht]
      have hneg : ∀ (es : List Entry) (f : Entry → ℝ), -(es.map f).sum = (es.map fun e => -f e).sum := by
        intro es f
        induction es with
        | nil => simp
        | cons a es ih => simp only [List.map_cons, List.sum_cons]; rw [← ih]; ring
      rw [hneg]
      congr 1
      refine List.map_congr_left fun en hen => ?_
      rw [← hacc m (List.mem_toFinset.1 hm) en (mem_entries.1 hen)]
      ring
    · simp only [if_neg ht]
      simp
  refine ⟨fun lr => Φ lr X, fun lr => by rw [hstep]; exact hJ.run lr X, hself, hd, ?_, fun hall lr => ?_⟩
  · rintro ⟨m, k, p, gp, idx, ht, hm, hp, hin, ha, hne⟩
    have hpos : 0 < gradSquares σ e.modules trained cs := by
      unfold gradSquares
      have hnn : ∀ (acc : ℕ → Option (Tensor ℝ)) (es : List Entry), 0 ≤ (es.map fun e => gradOf acc e ^ 2).sum := fun acc es => List.sum_nonneg (by
        intro x hx
        obtain ⟨en, -, rfl⟩ := List.mem_map.1 hx
        exact sq_nonneg _)
      refine Finset.sum_pos' (fun m' _ => ?_) ⟨m, List.mem_toFinset.2 hm, ?_⟩
      · by_cases ht' : m' ∈ trained
        · rw [if_pos ht']; exact hnn _ _
        · rw [if_neg ht']
      · rw [if_pos ht]
        have hmem : ((k, idx) : Entry) ∈ (σ m).entries := mem_entries.2 ⟨p, hp, hin⟩
        have hg : gradOf (accumulated cs m) (k, idx) = gp.get idx := by
          unfold gradOf
          rw [ha]
          rfl
        refine lt_of_lt_of_le (a := 0) (b := gradOf (accumulated cs m) (k, idx) ^ 2) (by rw [hg]; positivity) ?_
        refine List.single_le_sum (fun x hx => ?_) _ (List.mem_map.2 ⟨(k, idx), hmem, rfl⟩)
        obtain ⟨en, -, rfl⟩ := List.mem_map.1 hx
        exact sq_nonneg _
    have hslope := hasDerivAt_iff_tendsto_slope.1 hd
    have hev := hslope.eventually (gt_mem_nhds (show -gradSquares σ e.modules trained cs < 0 by linarith))
    rw [eventually_nhdsWithin_iff] at hev
    obtain ⟨ε, hε, hball⟩ := Metric.eventually_nhds_iff.1 hev
    refine ⟨ε, hε, fun lr h0 h1 => ?_⟩
    have := hball (y := lr) (by rw [Real.dist_eq, sub_zero, abs_of_pos h0]; exact h1) (by simpa using h0.ne')
    rw [slope_def_field, sub_zero] at this
    have h2 := (div_lt_iff₀ h0).1 this
    rw [zero_mul, hself] at h2
    linarith
  · have hsame : ∀ j ∈ e.modules, (σ j).along (V j) lr = σ j := fun j hj => by
      obtain ⟨I, O, hf⟩ := hfit j hj
      refine along_zero hf fun en ⟨p, hp, hin⟩ => ?_
      rw [hV]
      by_cases ht : j ∈ trained
      · simp only [if_pos ht]
        have : gradOf (accumulated cs j) en = 0 := by
          unfold gradOf
          cases ha : accumulated cs j en.1 with
          | none => rfl
          | some gp => exact hall j _ p gp _ ht hj hp hin ha
        rw [this]
        ring
      · simp only [if_neg ht, mul_zero]
    have := hJ.run lr X
    rw [GExpr.forward_congr e hsame] at this
    exact ofVec_inj (Except.ok.inj (this.symm.trans hy))

end HOL
