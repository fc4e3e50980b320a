import Verif.Props.SignTraining
import Verif.Props.RenumberLion

/-! # C136 for `SparseLion`: training does not depend on the signs of the units -/

namespace HOL
open TorchScalar Spec

theorem signParam_shape (σ ρ : ℕ → Bool) (l : GLayer ℝ) (k : ℕ) (g : Tensor ℝ) : (l.signParam σ ρ k g).shape = g.shape := by
  unfold GLayer.signParam
  split
  · cases l with
    | fn L => exact signCoeffs_shape _ _ _ _
    | _ => rfl
  · rfl

theorem signParam_wf (σ ρ : ℕ → Bool) (l : GLayer ℝ) (k : ℕ) (g : Tensor ℝ) : (l.signParam σ ρ k g).WF := by
  unfold GLayer.signParam
  split
  · cases l with
    | fn L => exact signCoeffs_wf _ _ _ _
    | _ => exact Tensor.wf_tabulate _ _
  · exact Tensor.wf_tabulate _ _

theorem momOr_sign {T : Tensor ℝ → Tensor ℝ} {S : List ℕ} (hT : Commutes T S) (exp : Option (Tensor ℝ)) : momOr S (exp.map T) = T (momOr S exp) := by
  cases exp with
  | none => exact hT.2 (fun _ _ => 0) (fun b _ _ => (mul_zero _).symm) (Tensor.tabulate S fun _ => 0) (Tensor.tabulate S fun _ => 0) rfl rfl
  | some e => rfl

theorem eqB_sg (b : Bool) (u : ℝ) : (eqB (sg b * u) 0 = true) ↔ eqB u 0 = true := by
  rw [eqB_real, eqB_real]
  cases b <;> simp [sg]

theorem sign_sg (b : Bool) (u : ℝ) : TorchScalar.sign (sg b * u) = sg b * TorchScalar.sign u := by
  cases b with
  | false => rw [sg_false, one_mul, one_mul]
  | true =>
    rw [sg_true, neg_one_mul, neg_one_mul]
    rw [sign_real, sign_real]
    exact Real.sign_neg

theorem lion_sign {T : Tensor ℝ → Tensor ℝ} {acc exp : Option (Tensor ℝ)} (h : ∀ g, acc = some g → Commutes T g.shape ∧ ∀ e, exp = some e → e.shape = g.shape) (β β2 : ℝ) :
    lionPull β (acc.map T) (exp.map T) = (lionPull β acc exp).map T ∧ lionMomNext β2 (acc.map T) (exp.map T) = (lionMomNext β2 acc exp).map T := by
  cases acc with
  | none => exact ⟨rfl, rfl⟩
  | some g =>
    obtain ⟨h1, h2⟩ := h g rfl
    unfold lionPull lionMomNext
    simp only [Option.map_some, h1.1, momOr_sign h1]
    refine ⟨congrArg some (h1.2 (fun a m => if eqB a 0 then 0 else TorchScalar.sign (m * β + (1 - β) * a)) (fun b u v => ?_) g (momOr g.shape exp) rfl (momOr_shape h2)),
      congrArg some (h1.2 (fun a m => lionMom β2 m a) (fun b u v => ?_) g (momOr g.shape exp) rfl (momOr_shape h2))⟩
    · by_cases h0 : eqB u 0 = true
      · rw [if_pos h0, if_pos ((eqB_sg b u).2 h0), mul_zero]
      · rw [if_neg h0, if_neg fun hc => h0 ((eqB_sg b u).1 hc), ← sign_sg]
        congr 1
        ring
    · unfold lionMom
      by_cases h0 : eqB u 0 = true
      · rw [if_pos h0, if_pos ((eqB_sg b u).2 h0)]
      · rw [if_neg h0, if_neg fun hc => h0 ((eqB_sg b u).1 hc)]
        ring

theorem sign_params {l : GLayer ℝ} {σ ρ : ℕ → Bool} {k : ℕ} {p : Tensor ℝ} (hp : (l.sign σ ρ).params[k]? = some p) : p.WF ∧ ∃ q, l.params[k]? = some q ∧ p.shape = q.shape := by
  match l, k, hp with
  | .pw L, 0, rfl => exact ⟨Tensor.wf_tabulate _ _, _, rfl, rfl⟩
  | .fn L, 0, hp =>
    rw [sign_fn] at hp
    obtain rfl : signCoeffs L.poly.basis σ ρ L.w = p := Option.some.inj hp
    exact ⟨signCoeffs_wf _ _ _ _, _, rfl, signCoeffs_shape _ _ _ _⟩
  | .fn L, k + 1, hp =>
    rw [sign_fn] at hp
    exact absurd hp (by simp [GLayer.params])
  | .product L, 0, rfl => exact ⟨Tensor.wf_tabulate _ _, _, rfl, rfl⟩
  | .product L, 1, hp =>
    have : (L.bias.map (signOut ρ)).getD (Tensor.tab1 0 fun _ => 0) = p := by simpa [GLayer.params, GLayer.sign] using hp
    rw [← this]
    refine ⟨?_, _, rfl, ?_⟩
    · cases L.bias with
      | none => exact Tensor.wf_tabulate [0] fun _ => 0
      | some b => exact (Tensor.wf_tabulate _ _ : (signOut ρ b).WF)
    · cases L.bias <;> rfl
  | .linear w b, 0, rfl => exact ⟨Tensor.wf_tabulate _ _, _, rfl, rfl⟩
  | .linear w b, 1, rfl => exact ⟨Tensor.wf_tabulate _ _, _, rfl, rfl⟩

theorem accumulated_known {s : ℕ → GLayer ℝ} {ν : Signing} {cs : List (ℕ × List (Tensor ℝ))} (h : ∀ c ∈ cs, Signed.Good s ν c.1 ∧ c.2.map Tensor.shape = (s c.1).params.map Tensor.shape) {j k : ℕ} {g : Tensor ℝ}
    (hg : accumulated cs j k = some g) : Signed.Good s ν j ∧ ∃ p, (s j).params[k]? = some p := by
  unfold accumulated at hg
  cases hc : contributions cs j k with
  | nil => rw [hc] at hg; cases hg
  | cons t ts =>
    obtain ⟨h1, p, h2, -⟩ := contribution_sign_shape h (j := j) (k := k) (t := t) (by rw [hc]; exact List.mem_cons_self)
    exact ⟨h1, p, h2⟩

theorem accumulated_answers {s : ℕ → GLayer ℝ} {ν : Signing} {cs : List (ℕ × List (Tensor ℝ))} (h : ∀ c ∈ cs, Signed.Good s ν c.1 ∧ c.2.map Tensor.shape = (s c.1).params.map Tensor.shape) {j : ℕ} {σ ρ : ℕ → Bool}
    (hν : ν j = some (σ, ρ)) : ∀ k, accumulated (signGrads ν s cs) j k = (accumulated cs j k).map ((s j).signParam σ ρ k) ∧
      ∀ p g, (s j).params[k]? = some p → accumulated cs j k = some g → g.shape = p.shape ∧ Commutes ((s j).signParam σ ρ k) p.shape := by
  intro k
  cases ha : accumulated cs j k with
  | none =>
    refine ⟨?_, fun p g _ hg => by cases hg⟩
    unfold accumulated at ha ⊢
    rw [contributions_sign hν]
    cases hc : contributions cs j k with
    | nil => rfl
    | cons t ts => rw [hc] at ha; cases ha
  | some g =>
    obtain ⟨⟨_, _, I, O, -, hf⟩, p, hp⟩ := accumulated_known h ha
    obtain ⟨h1, h2⟩ := accumulated_sign h hν hf k p hp
    rw [ha] at h1 h2
    refine ⟨h1, fun p' g' hp' hg' => ?_⟩
    cases hg'
    rw [hp] at hp'
    cases hp'
    exact ⟨h2 _ rfl, fits_linear hf σ ρ hp⟩

theorem sgd_signs (l : GLayer ℝ) {σ ρ : ℕ → Bool} (lr : ℝ) {acc acc' : ℕ → Option (Tensor ℝ)} (ha : ∀ k, acc' k = (acc k).map (l.signParam σ ρ k))
    (h : ∀ k p g, l.params[k]? = some p → acc k = some g → g.shape = p.shape ∧ Commutes (l.signParam σ ρ k) p.shape) : (l.sign σ ρ).sgd lr acc' = (l.sgd lr acc).sign σ ρ := by
  have key : ∀ k p, l.params[k]? = some p → sgdParam lr (l.signParam σ ρ k p) (acc' k) = l.signParam σ ρ k (sgdParam lr p (acc k)) := fun k p hp => by
    rw [ha]
    cases hk : acc k with
    | none => rfl
    | some g =>
      obtain ⟨h1, h2⟩ := h k p g hp hk
      exact sgdParam_linear (acc := some g) h2 lr fun g' hg' => by cases hg'; exact h1
  exact sgd_of_key lr key

theorem SignedFirst.steps {s τ : ℕ → GLayer ℝ} {ν : Signing} : ∀ (e : GExpr ℝ) {σ ρ : ℕ → Bool} {I O : ℕ}, (∀ j, ∃ lr acc, τ j = (s j).sgd lr acc) → e.SignedFirst s ν σ ρ I O → e.SignedFirst τ ν σ ρ I O
  | .leaf j, σ, ρ, I, O, hτ, ⟨h1, h2, h3⟩ => by
    obtain ⟨lr, acc, hj⟩ := hτ j
    show (τ j).Fits I O ∧ (τ j).TakesSigns ρ ∧ _
    rw [hj]
    exact ⟨GLayer.sgd_fits h1 lr _, TakesSigns.sgd h2 lr _, h3⟩
  | .comp a b, σ, ρ, I, O, hτ, ⟨μ, M, h1, h2⟩ => ⟨μ, M, SignedFirst.steps a hτ h1, later b hτ h2⟩
  | .add a b, σ, ρ, I, O, hτ, ⟨h1, h2⟩ => ⟨SignedFirst.steps a hτ h1, SignedFirst.steps b hτ h2⟩
  | .mul a b, σ, ρ, I, O, hτ, ⟨μ, ν', h1, h2, h3⟩ => ⟨μ, ν', SignedFirst.steps a hτ h1, SignedFirst.steps b hτ h2, h3⟩
where
  later : ∀ (e : GExpr ℝ) {σ ρ : ℕ → Bool} {I O : ℕ}, (∀ j, ∃ lr acc, τ j = (s j).sgd lr acc) → e.Signed s ν σ ρ I O → e.Signed τ ν σ ρ I O
    | .leaf j, σ, ρ, I, O, hτ, ⟨h1, h2, h3, h4⟩ => by
      obtain ⟨lr, acc, hj⟩ := hτ j
      show (τ j).Fits I O ∧ (τ j).TakesSigns ρ ∧ (τ j).Smooth ∧ _
      rw [hj]
      exact ⟨GLayer.sgd_fits h1 lr _, TakesSigns.sgd h2 lr _, Smooth.sgd h3 lr _, h4⟩
    | .comp a b, σ, ρ, I, O, hτ, ⟨μ, M, h1, h2⟩ => ⟨μ, M, later a hτ h1, later b hτ h2⟩
    | .add a b, σ, ρ, I, O, hτ, ⟨h1, h2⟩ => ⟨later a hτ h1, later b hτ h2⟩
    | .mul a b, σ, ρ, I, O, hτ, ⟨μ, ν', h1, h2, h3⟩ => ⟨μ, ν', later a hτ h1, later b hτ h2, h3⟩

/-- Steps do not change the kinds of the layers. -/
theorem signParam_sgd (σ ρ : ℕ → Bool) (l : GLayer ℝ) (lr : ℝ) (acc : ℕ → Option (Tensor ℝ)) : (l.sgd lr acc).signParam σ ρ = l.signParam σ ρ := by cases l <;> rfl

/-- **C136 (`SparseLion`, one step).** One step of `SparseLion` on the network with changed signs, with the state of the optimizer changed alike, gives the parameters with changed signs and the state changed alike. -/
theorem C136_lion_step {σ : ℕ → GLayer ℝ} {ν : Signing} (P : Picks ℝ) {e : GExpr ℝ} {κ ρ : ℕ → Bool} {I O : ℕ} (h : e.SignedFirst σ ν κ ρ I O) {B : ℕ} {x g : Tensor ℝ} (hx : x.shape = [B, I]) (hwx : x.WF)
    (hg : g.shape = [B, O]) (trained : List ℕ) {exp : ℕ → ℕ → Option (Tensor ℝ)} (hexp : LionState σ trained exp) (lr wd β β2 : ℝ) :
    ∃ gx cs gx' cs', e.backward P σ x g = .ok (gx, cs) ∧ e.backward P (signAll ν σ) (signed κ x) (signed ρ g) = .ok (gx', cs') ∧
      ∃ (σ1 : ℕ → GLayer ℝ) (exp1 : ℕ → ℕ → Option (Tensor ℝ)), (∀ j, lionStep trained lr wd β β2 exp cs σ j = .ok (σ1 j)) ∧ (∀ j k, lionMomenta trained lr wd β β2 exp cs σ j k = .ok (exp1 j k)) ∧
        (∀ j, lionStep trained lr wd β β2 (signMomenta ν σ exp) cs' (signAll ν σ) j = .ok (signAll ν σ1 j)) ∧
        (∀ j k, lionMomenta trained lr wd β β2 (signMomenta ν σ exp) cs' (signAll ν σ) j k = .ok (signMomenta ν σ exp1 j k)) ∧ LionState σ1 trained exp1 ∧ e.SignedFirst σ1 ν κ ρ I O ∧
        signMomenta ν σ1 = signMomenta ν σ := by
  obtain ⟨gx, gx', cs, h1, h3, h4⟩ := backward_first P e h x g hx hwx hg
  have hgood : ∀ c ∈ cs, Signed.Good σ ν c.1 ∧ c.2.map Tensor.shape = (σ c.1).params.map Tensor.shape := fun c hc => ⟨(h4 c hc).1, (h4 c hc).2.1⟩
  have hsound : ∀ c ∈ cs, AllSound σ c := fun c hc => (h4 c hc).2.2
  have hfit : ∀ j ∈ trained, ∀ k p, (σ j).params[k]? = some p → LionFits p (accumulated cs j k) (exp j k) := by
    intro j hj k p hp g' hg'
    obtain ⟨⟨_, _, _, _, _, hf⟩, -⟩ := accumulated_known hgood hg'
    obtain ⟨s1, s2⟩ := accumulated_sound hsound hp hg'
    exact ⟨fits_wf hf hp, s1, s2, fun e' he' => hexp j hj k p e' hp he'⟩
  have hnone : ∀ j k, (σ j).params[k]? = none → accumulated cs j k = none := by
    intro j k hp
    cases ha : accumulated cs j k with
    | none => rfl
    | some g' =>
      obtain ⟨-, p, hp'⟩ := accumulated_known hgood ha
      rw [hp] at hp'
      cases hp'
  refine ⟨gx, cs, _, _, h1, h3, fun j => if j ∈ trained then (σ j).sgd lr fun k => lionPull β (accumulated cs j k) (exp j k) else σ j, fun j k => if j ∈ trained then lionMomNext β2 (accumulated cs j k) (exp j k) else exp j k,
    fun j => ?_, fun j k => ?_, fun j => ?_, fun j k => ?_, fun j hj k p' e' hp' he' => ?_, ?_, ?_⟩
  · unfold lionStep
    beta_reduce
    by_cases ht : j ∈ trained
    · rw [if_pos ht, if_pos ht]
      exact lion_sgd (hfit j ht) lr wd β β2
    · rw [if_neg ht, if_neg ht]
  · unfold lionMomenta
    beta_reduce
    by_cases ht : j ∈ trained
    · rw [if_pos ht, if_pos ht]
      cases hp : (σ j).params[k]? with
      | none => rw [hnone j k hp]; rfl
      | some p => exact (stepParam_real (hfit j ht k p hp) lr wd β β2).2
    · rw [if_neg ht, if_neg ht]
  · cases hν : ν j with
    | none =>
      have hacc : accumulated (signGrads ν σ cs) j = accumulated cs j := by
        funext k
        unfold accumulated
        rw [contributions_unsigned hν]
      have hm : signMomenta ν σ exp j = exp j := by
        funext k
        unfold signMomenta
        rw [hν]
      unfold lionStep signAll
      simp only [hν, hacc, hm]
      by_cases ht : j ∈ trained
      · rw [if_pos ht, if_pos ht]
        exact lion_sgd (hfit j ht) lr wd β β2
      · rw [if_neg ht, if_neg ht]
    | some m =>
      obtain ⟨α, γ⟩ := m
      unfold lionStep signAll
      simp only [hν]
      by_cases ht : j ∈ trained
      · rw [if_pos ht, if_pos ht]
        have hacc := accumulated_answers hgood hν
        have hm : ∀ k, signMomenta ν σ exp j k = (exp j k).map ((σ j).signParam α γ k) := by
          intro k
          unfold signMomenta
          rw [hν]
        have hkept : ∀ k g', accumulated cs j k = some g' → Commutes ((σ j).signParam α γ k) g'.shape ∧ ∀ e', exp j k = some e' → e'.shape = g'.shape := by
          intro k g' hg'
          obtain ⟨-, p, hp⟩ := accumulated_known hgood hg'
          obtain ⟨q1, q2⟩ := (hacc k).2 p g' hp hg'
          exact ⟨by rw [q1]; exact q2, fun e' he' => by rw [q1]; exact (hexp j ht k p e' hp he').2⟩
        rw [lion_sgd (fun k p' hp' g' hg' => ?_) lr wd β β2]
        · refine congrArg Except.ok (sgd_signs (σ j) lr (fun k => ?_) fun k p g' hp hg' => ?_)
          · rw [(hacc k).1, hm k]
            exact (lion_sign (hkept k) β β2).1
          · obtain ⟨g0, hg0, rfl⟩ := Option.map_eq_some_iff.1 hg'
            exact (hacc k).2 p g0 hp hg0
        · obtain ⟨w1, p, hp, hps⟩ := sign_params hp'
          rw [(hacc k).1] at hg'
          obtain ⟨g0, hg0, rfl⟩ := Option.map_eq_some_iff.1 hg'
          refine ⟨w1, ?_, signParam_wf _ _ _ _ _, fun e' he' => ?_⟩
          · rw [signParam_shape, hps]
            exact ((hacc k).2 p g0 hp hg0).1
          · rw [hm k] at he'
            obtain ⟨e0, he0, rfl⟩ := Option.map_eq_some_iff.1 he'
            refine ⟨signParam_wf _ _ _ _ _, ?_⟩
            rw [signParam_shape, hps]
            exact (hexp j ht k p e0 hp he0).2
      · rw [if_neg ht, if_neg ht]
  · cases hν : ν j with
    | none =>
      have hacc : accumulated (signGrads ν σ cs) j = accumulated cs j := by
        funext k
        unfold accumulated
        rw [contributions_unsigned hν]
      unfold lionMomenta signMomenta signAll
      simp only [hν, hacc]
      by_cases ht : j ∈ trained
      · rw [if_pos ht, if_pos ht]
        cases hp : (σ j).params[k]? with
        | none => rw [hnone j k hp]; rfl
        | some p => exact (stepParam_real (hfit j ht k p hp) lr wd β β2).2
      · rw [if_neg ht, if_neg ht]
    | some m =>
      obtain ⟨α, γ⟩ := m
      unfold lionMomenta signMomenta signAll
      simp only [hν]
      by_cases ht : j ∈ trained
      · rw [if_pos ht, if_pos ht]
        have hacc := accumulated_answers hgood hν
        have hkept : ∀ g', accumulated cs j k = some g' → Commutes ((σ j).signParam α γ k) g'.shape ∧ ∀ e', exp j k = some e' → e'.shape = g'.shape := by
          intro g' hg'
          obtain ⟨-, p, hp⟩ := accumulated_known hgood hg'
          obtain ⟨q1, q2⟩ := (hacc k).2 p g' hp hg'
          exact ⟨by rw [q1]; exact q2, fun e' he' => by rw [q1]; exact (hexp j ht k p e' hp he').2⟩
        rw [← (lion_sign hkept β β2).2, ← (hacc k).1]
        cases hp' : ((σ j).sign α γ).params[k]? with
        | none =>
          cases ha : accumulated (signGrads ν σ cs) j k with
          | none => rfl
          | some g' =>
            rw [(hacc k).1] at ha
            obtain ⟨g0, hg0, rfl⟩ := Option.map_eq_some_iff.1 ha
            obtain ⟨-, p, hp⟩ := accumulated_known hgood hg0
            have : ((σ j).sign α γ).params.length = (σ j).params.length := by
              cases σ j <;> rfl
            rw [List.getElem?_eq_none_iff, this, ← List.getElem?_eq_none_iff, hp] at hp'
            cases hp'
        | some p' =>
          refine (stepParam_real (fun g' hg' => ?_) lr wd β β2).2
          obtain ⟨w1, p, hp, hps⟩ := sign_params hp'
          rw [(hacc k).1] at hg'
          obtain ⟨g0, hg0, rfl⟩ := Option.map_eq_some_iff.1 hg'
          refine ⟨w1, ?_, signParam_wf _ _ _ _ _, fun e' he' => ?_⟩
          · rw [signParam_shape, hps]
            exact ((hacc k).2 p g0 hp hg0).1
          · obtain ⟨e0, he0, rfl⟩ := Option.map_eq_some_iff.1 he'
            refine ⟨signParam_wf _ _ _ _ _, ?_⟩
            rw [signParam_shape, hps]
            exact (hexp j ht k p e0 hp he0).2
      · rw [if_neg ht, if_neg ht]
  · beta_reduce at hp' he'
    rw [if_pos hj] at hp' he'
    obtain ⟨p, hp, hps⟩ := sgd_params_shape hp'
    rw [hps]
    cases ha : accumulated cs j k with
    | none =>
      rw [ha] at he'
      exact hexp j hj k p e' hp he'
    | some g' =>
      rw [ha] at he'
      cases he'
      exact ⟨Tensor.wf_tabulate _ _, (accumulated_sound hsound hp ha).1⟩
  · exact SignedFirst.steps e (fun j => by
      beta_reduce
      by_cases ht : j ∈ trained
      · rw [if_pos ht]
        exact ⟨_, _, rfl⟩
      · rw [if_neg ht]
        exact ⟨0, fun _ => none, (sgd_nothing (σ j)).symm⟩) h
  · funext m j k
    unfold signMomenta
    beta_reduce
    by_cases ht : j ∈ trained
    · rw [if_pos ht]
      simp only [signParam_sgd]
    · rw [if_neg ht]

/-- **C136 (`SparseLion`).** Training with `SparseLion` (any number of batches, any learning rates, weight decay and betas, on any of the modules): the network with changed signs, trained on the batches with changed signs, ends with the
parameters with changed signs and the state of the optimizer changed alike. -/
theorem C136_lion_training (P : Picks ℝ) {e : GExpr ℝ} {ν : Signing} {κ ρ : ℕ → Bool} {I O : ℕ} (trained : List ℕ) (wd β β2 : ℝ) : ∀ {bs bs' : List (Batch ℝ)} {σ : ℕ → GLayer ℝ} {exp : ℕ → ℕ → Option (Tensor ℝ)},
    e.SignedFirst σ ν κ ρ I O → LionState σ trained exp → List.Forall₂ (Batch.Signed κ ρ I O) bs bs' →
    ∃ σ' exp', LionTrained P e trained wd β β2 σ exp bs σ' exp' ∧ LionTrained P e trained wd β β2 (signAll ν σ) (signMomenta ν σ exp) bs' (signAll ν σ') (signMomenta ν σ exp') ∧ e.SignedFirst σ' ν κ ρ I O
  | _, _, σ, exp, h, _, .nil => ⟨σ, exp, .nil _ _, .nil _ _, h⟩
  | _, _, σ, exp, h, hexp, .cons (a := b) (b := b') (l₁ := bs) (l₂ := bs') hb hbs => by
    obtain ⟨B, hx, hl⟩ := hb.shapes
    obtain ⟨y, y1, y2, y3, y4⟩ := expr_answers e (h.change B) b.x hx hb.wf
    obtain ⟨l1, l2⟩ := hl y y2 y3
    obtain ⟨gx, cs, gx', cs', h1, h2, σ1, exp1, s1, s2, s3, s4, s5, s6, s7⟩ := C136_lion_step P h hx hb.wf l1 trained hexp b.lr wd β β2
    obtain ⟨σ', exp', t1, t2, t3⟩ := C136_lion_training P trained wd β β2 s6 s5 hbs
    rw [s7] at t2
    refine ⟨σ', exp', .cons y1 h1 s1 s2 t1, ?_, t3⟩
    refine .cons (y := signed ρ y) (gx := gx') (cs := cs') ?_ ?_ ?_ ?_ t2
    · rw [hb.x]; exact y4
    · rw [hb.x, l2]; exact h2
    · rw [hb.lr]; exact s3
    · rw [hb.lr]; exact s4

/-- **C136 (`SparseLion`, hidden units).** From the start of training (no state in the optimizer), change only signs of hidden units: training on the same batches gives for all inputs the same outputs. -/
theorem C136_lion_hidden_units (P : Picks ℝ) {e : GExpr ℝ} {ν : Signing} {I O : ℕ} (trained : List ℕ) (wd β β2 : ℝ) {σ : ℕ → GLayer ℝ} (h : e.SignedFirst σ ν (fun _ => false) (fun _ => false) I O)
    {bs : List (Batch ℝ)} (hbs : ∀ b ∈ bs, b.x.WF ∧ ∃ B, b.x.shape = [B, I] ∧ ∀ y : Tensor ℝ, y.shape = [B, O] → y.WF → (b.lossGrad y).shape = [B, O] ∧ (b.lossGrad y).WF) :
    ∃ σ' exp' exp'', LionTrained P e trained wd β β2 σ (fun _ _ => none) bs σ' exp' ∧ LionTrained P e trained wd β β2 (signAll ν σ) (fun _ _ => none) bs (signAll ν σ') exp'' ∧
      ∀ {B : ℕ} {x : Tensor ℝ}, x.shape = [B, I] → x.WF → ∃ y, e.forward σ' x = .ok y ∧ e.forward (signAll ν σ') x = .ok y := by
  have hf : List.Forall₂ (Batch.Signed (fun _ => false) (fun _ => false) I O) bs bs := by
    refine List.forall₂_same.2 fun b hb => ?_
    obtain ⟨h1, B, h2, h3⟩ := hbs b hb
    refine ⟨rfl, (signed_none h2 h1).symm, h1, B, h2, fun y hy hwy => ?_⟩
    obtain ⟨h4, h5⟩ := h3 y hy hwy
    exact ⟨h4, by rw [signed_none hy hwy, signed_none h4 h5]⟩
  obtain ⟨σ', exp', t1, t2, t3⟩ := C136_lion_training P trained wd β β2 h (exp := fun _ _ => none) (fun _ _ _ _ _ _ he => by cases he) hf
  have hm : signMomenta ν σ (fun _ _ => none) = fun _ _ => none := by
    funext j k
    unfold signMomenta
    cases ν j <;> rfl
  rw [hm] at t2
  refine ⟨σ', exp', _, t1, t2, fun {B x} hx hwx => ?_⟩
  obtain ⟨y, y1, y2, y3, y4⟩ := expr_answers e (t3.change B) x hx hwx
  rw [signed_none hx hwx, signed_none y2 y3] at y4
  exact ⟨y, y1, y4⟩

/-- **C136 (`SparseLion`, dead units).** The same with `SparseLion`, from the start of training. -/
theorem C136_lion_dead_units (P : Picks ℝ) {e : GExpr ℝ} {ν : Signing} {I O : ℕ} (trained : List ℕ) (wd β β2 : ℝ) {σ : ℕ → GLayer ℝ} (h : e.SignedFirst σ ν (fun _ => false) (fun _ => false) I O) (hs : signAll ν σ = σ)
    {bs : List (Batch ℝ)} (hbs : ∀ b ∈ bs, b.x.WF ∧ ∃ B, b.x.shape = [B, I] ∧ ∀ y : Tensor ℝ, y.shape = [B, O] → y.WF → (b.lossGrad y).shape = [B, O] ∧ (b.lossGrad y).WF) :
    ∃ σ' exp', LionTrained P e trained wd β β2 σ (fun _ _ => none) bs σ' exp' ∧ signAll ν σ' = σ' := by
  obtain ⟨σ', exp', exp'', t1, t2, -⟩ := C136_lion_hidden_units P trained wd β β2 h hbs
  rw [hs] at t2
  exact ⟨σ', exp', t1, (t1.unique t2).1.symm⟩

end HOL
