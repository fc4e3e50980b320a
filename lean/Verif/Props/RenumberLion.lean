import Verif.Model.LionTraining
import Verif.Props.RenumberTraining

/-! # C132 for `SparseLion`: training does not depend on the numbering of the units -/

namespace HOL
open TorchScalar Spec

/-- The momentum, zero before the first step. -/
noncomputable def momOr (S : List ℕ) (exp : Option (Tensor ℝ)) : Tensor ℝ := match exp with
  | none => Tensor.tabulate S fun _ => 0
  | some e => e

/-- What the step subtracts, in units of the learning rate. -/
noncomputable def lionPull (β : ℝ) (acc exp : Option (Tensor ℝ)) : Option (Tensor ℝ) :=
  acc.map fun g => Tensor.tabulate g.shape fun idx => if eqB (g.get idx) 0 then 0 else TorchScalar.sign ((momOr g.shape exp).get idx * β + (1 - β) * g.get idx)

/-- The momentum after the step. -/
noncomputable def lionMomNext (β2 : ℝ) (acc exp : Option (Tensor ℝ)) : Option (Tensor ℝ) := match acc with
  | none => exp
  | some g => some (Tensor.tabulate g.shape fun idx => lionMom β2 ((momOr g.shape exp).get idx) (g.get idx))

/-- Gradient and state fit the parameter. -/
def LionFits (p : Tensor ℝ) (acc exp : Option (Tensor ℝ)) : Prop := ∀ g, acc = some g → p.WF ∧ g.shape = p.shape ∧ g.WF ∧ ∀ e, exp = some e → e.WF ∧ e.shape = p.shape

theorem stepParam_real {p : Tensor ℝ} {acc exp : Option (Tensor ℝ)} (h : LionFits p acc exp) (lr wd β β2 : ℝ) :
    lionParam lr wd β β2 p acc exp = .ok (sgdParam lr p (lionPull β acc exp)) ∧ lionMomentum lr wd β β2 p acc exp = .ok (lionMomNext β2 acc exp) := by
  cases acc with
  | none => exact ⟨rfl, rfl⟩
  | some g =>
    obtain ⟨h1, h2, h3, h4⟩ := h g rfl
    have hq := stepParam_eq lr wd β β2 ⟨p, some g, exp⟩ ⟨h1, fun _ hg => by cases hg; exact ⟨h3, h2⟩, h4⟩
    have hm : (⟨p, some g, exp⟩ : LionParam ℝ).mom = momOr g.shape exp := by
      unfold LionParam.mom momOr
      cases exp with
      | none => dsimp only; rw [h2]
      | some e => rfl
    unfold lionParam lionMomentum
    rw [hq]
    unfold LionParam.next
    dsimp only
    rw [hm]
    have hd : (Tensor.tabulate p.shape fun idx => lionData lr β (p.get idx) ((momOr g.shape exp).get idx) (g.get idx)) = Tensor.tabulate p.shape fun idx => p.get idx - lr *
        (Tensor.tabulate g.shape fun idx => if eqB (g.get idx) 0 then 0 else TorchScalar.sign ((momOr g.shape exp).get idx * β + (1 - β) * g.get idx)).get idx := by
      refine tabulate_congr fun idx hin => ?_
      rw [Tensor.get_tabulate (by rw [h2]; exact hin)]
      unfold lionData
      by_cases h0 : eqB (g.get idx) 0
      · rw [if_pos h0, if_pos h0, mul_zero, sub_zero]
      · rw [if_neg h0, if_neg h0]
        ring
    refine ⟨congrArg Except.ok hd, congrArg (fun t => Except.ok (some t)) ?_⟩
    rw [h2]

theorem lion_sgd {l : GLayer ℝ} {acc exp : ℕ → Option (Tensor ℝ)} (h : ∀ k p, l.params[k]? = some p → LionFits p (acc k) (exp k)) (lr wd β β2 : ℝ) :
    l.lion lr wd β β2 acc exp = .ok (l.sgd lr fun k => lionPull β (acc k) (exp k)) := by
  cases l with
  | pw L =>
    unfold GLayer.lion
    dsimp only
    rw [(stepParam_real (h 0 _ rfl) lr wd β β2).1]
    rfl
  | fn L =>
    unfold GLayer.lion
    dsimp only
    rw [(stepParam_real (h 0 _ rfl) lr wd β β2).1]
    rfl
  | product L =>
    unfold GLayer.lion GLayer.sgd
    dsimp only
    rw [(stepParam_real (h 0 _ rfl) lr wd β β2).1]
    cases hb : L.bias with
    | none => rfl
    | some b =>
      show (lionParam lr wd β β2 b (acc 1) (exp 1) >>= _) = _
      rw [(stepParam_real (h 1 b (by simp [GLayer.params, hb])) lr wd β β2).1]
      rfl
  | linear w b =>
    unfold GLayer.lion
    dsimp only
    rw [(stepParam_real (h 0 _ rfl) lr wd β β2).1]
    show (lionParam lr wd β β2 b (acc 1) (exp 1) >>= _) = _
    rw [(stepParam_real (h 1 _ rfl) lr wd β β2).1]
    rfl
  | relu => rfl

theorem fits_wf {l : GLayer ℝ} {I O : ℕ} (hf : l.Fits I O) {k : ℕ} {p : Tensor ℝ} (hp : l.params[k]? = some p) : p.WF := by
  match l, hf, k, hp with
  | .pw L, hf, 0, rfl => exact hf.1.w_wf
  | .fn L, hf, 0, rfl => exact hf.1.w_wf
  | .product L, hf, 0, rfl => exact hf.1.w_wf
  | .product L, hf, 1, hp =>
    obtain ⟨b, hb, -, hbw⟩ := hf.1.bias
    have : L.bias.getD (Tensor.tab1 0 fun _ => 0) = p := by simpa [GLayer.params] using hp
    rw [hb] at this
    rw [← this]
    exact hbw
  | .linear w b, ⟨_, h1, _, h2⟩, 0, rfl => exact h1
  | .linear w b, ⟨_, h1, _, h2⟩, 1, rfl => exact h2

theorem sgd_params_shape {l : GLayer ℝ} {lr : ℝ} {acc : ℕ → Option (Tensor ℝ)} {k : ℕ} {p : Tensor ℝ} (hp : (l.sgd lr acc).params[k]? = some p) : ∃ q, l.params[k]? = some q ∧ p.shape = q.shape := by
  match l, k, hp with
  | .pw L, 0, rfl => exact ⟨_, rfl, sgdParam_shape _ _ _⟩
  | .fn L, 0, rfl => exact ⟨_, rfl, sgdParam_shape _ _ _⟩
  | .product L, 0, rfl => exact ⟨_, rfl, sgdParam_shape _ _ _⟩
  | .product L, 1, hp =>
    refine ⟨_, rfl, ?_⟩
    have : (L.bias.map fun b => sgdParam lr b (acc 1)).getD (Tensor.tab1 0 fun _ => 0) = p := by simpa [GLayer.params, GLayer.sgd] using hp
    rw [← this]
    cases L.bias with
    | none => rfl
    | some b => exact sgdParam_shape _ _ _
  | .linear w b, 0, rfl => exact ⟨_, rfl, sgdParam_shape _ _ _⟩
  | .linear w b, 1, rfl => exact ⟨_, rfl, sgdParam_shape _ _ _⟩

/-- The state of the optimizer, renumbered like the parameters. -/
noncomputable def Spec.renumberMomenta (ν : Numbering) (exp : ℕ → ℕ → Option (Tensor ℝ)) : ℕ → ℕ → Option (Tensor ℝ) := fun j k => match ν j with
  | some (κ, ρ) => (exp j k).map (renumberParam κ ρ k)
  | none => exp j k

theorem momOr_renumber {κ ρ : ℕ → ℕ} {k : ℕ} {S : List ℕ} (hk : Kept κ ρ k S) (exp : Option (Tensor ℝ)) : momOr S (exp.map (renumberParam κ ρ k)) = renumberParam κ ρ k (momOr S exp) := by
  cases exp with
  | none =>
    rw [renumberParam_eq]
    exact (tabulate_congr fun idx hin => Tensor.get_tabulate (f := fun _ => (0 : ℝ)) (hk idx hin)).symm
  | some e => rfl

theorem momOr_shape {S : List ℕ} {exp : Option (Tensor ℝ)} (h : ∀ e, exp = some e → e.shape = S) : (momOr S exp).shape = S := by
  cases exp with
  | none => rfl
  | some e => exact h e rfl

theorem lion_renumber {κ ρ : ℕ → ℕ} {k : ℕ} {acc exp : Option (Tensor ℝ)} (h : ∀ g, acc = some g → Kept κ ρ k g.shape ∧ ∀ e, exp = some e → e.shape = g.shape) (β β2 : ℝ) :
    lionPull β (acc.map (renumberParam κ ρ k)) (exp.map (renumberParam κ ρ k)) = (lionPull β acc exp).map (renumberParam κ ρ k) ∧
      lionMomNext β2 (acc.map (renumberParam κ ρ k)) (exp.map (renumberParam κ ρ k)) = (lionMomNext β2 acc exp).map (renumberParam κ ρ k) := by
  cases acc with
  | none => exact ⟨rfl, rfl⟩
  | some g =>
    obtain ⟨h1, h2⟩ := h g rfl
    unfold lionPull lionMomNext
    simp only [Option.map_some, renumberParam_shape, momOr_renumber h1]
    exact ⟨congrArg some (renumberParam_zip (fun a m => if eqB a 0 then 0 else TorchScalar.sign (m * β + (1 - β) * a)) (momOr_shape h2) h1),
      congrArg some (renumberParam_zip (fun a m => lionMom β2 m a) (momOr_shape h2) h1)⟩

theorem renumber_params {l : GLayer ℝ} {κ ρ : ℕ → ℕ} {k : ℕ} {p : Tensor ℝ} (hp : (l.renumber κ ρ).params[k]? = some p) : p.WF ∧ ∃ q, l.params[k]? = some q ∧ p.shape = q.shape := by
  match l, k, hp with
  | .pw L, 0, rfl => exact ⟨Tensor.wf_tabulate _ _, _, rfl, rfl⟩
  | .fn L, 0, rfl => exact ⟨Tensor.wf_tabulate _ _, _, rfl, rfl⟩
  | .product L, 0, rfl => exact ⟨Tensor.wf_tabulate _ _, _, rfl, rfl⟩
  | .product L, 1, hp =>
    have : (L.bias.map (renumberOut ρ)).getD (Tensor.tab1 0 fun _ => 0) = p := by simpa [GLayer.params, GLayer.renumber] using hp
    rw [← this]
    refine ⟨?_, _, rfl, ?_⟩
    · cases L.bias with
      | none => exact Tensor.wf_tabulate [0] fun _ => 0
      | some b => exact (Tensor.wf_tabulate _ _ : (renumberOut ρ b).WF)
    · cases L.bias <;> rfl
  | .linear w b, 0, rfl => exact ⟨Tensor.wf_tabulate _ _, _, rfl, rfl⟩
  | .linear w b, 1, rfl => exact ⟨Tensor.wf_tabulate _ _, _, rfl, rfl⟩

theorem accumulated_good {σ : ℕ → GLayer ℝ} {ν : Numbering} {cs : List (ℕ × List (Tensor ℝ))} (h : ∀ c ∈ cs, Numbered.Good σ ν c.1 ∧ c.2.map Tensor.shape = (σ c.1).params.map Tensor.shape) {j k : ℕ} {g : Tensor ℝ}
    (hg : accumulated cs j k = some g) : Numbered.Good σ ν j ∧ ∃ p, (σ j).params[k]? = some p := by
  unfold accumulated at hg
  cases hc : contributions cs j k with
  | nil => rw [hc] at hg; cases hg
  | cons t ts =>
    obtain ⟨h1, p, h2, -⟩ := contribution_shape h (j := j) (k := k) (t := t) (by rw [hc]; exact List.mem_cons_self)
    exact ⟨h1, p, h2⟩

theorem renumberParam_wf (κ ρ : ℕ → ℕ) (k : ℕ) (g : Tensor ℝ) : (renumberParam κ ρ k g).WF := by rw [renumberParam_eq]; exact Tensor.wf_tabulate _ _

theorem sgd_nothing (l : GLayer ℝ) : l.sgd 0 (fun _ => none) = l := by
  cases l with
  | product L =>
    obtain ⟨i, o, f, per, w, b⟩ := L
    cases b <;> rfl
  | _ => rfl

theorem Numbered.steps {σ τ : ℕ → GLayer ℝ} {ν : Numbering} : ∀ (e : GExpr ℝ) {κ ρ : ℕ → ℕ} {I O : ℕ}, (∀ j, ∃ lr acc, τ j = (σ j).sgd lr acc) → e.Numbered σ ν κ ρ I O → e.Numbered τ ν κ ρ I O
  | .leaf j, κ, ρ, I, O, hτ, ⟨h1, h2, h3⟩ => by
    obtain ⟨lr, acc, hj⟩ := hτ j
    show (τ j).Fits I O ∧ τ j ≠ .relu ∧ _
    rw [hj]
    exact ⟨GLayer.sgd_fits h1 lr _, sgd_ne_relu h2 lr _, h3⟩
  | .fixed (.base (.dense .relu)), κ, ρ, I, O, _, h => h
  | .comp a b, κ, ρ, I, O, hτ, ⟨μ, M, h1, h2⟩ => ⟨μ, M, Numbered.steps a hτ h1, Numbered.steps b hτ h2⟩
  | .add a b, κ, ρ, I, O, hτ, ⟨h1, h2⟩ => ⟨Numbered.steps a hτ h1, Numbered.steps b hτ h2⟩
  | .mul a b, κ, ρ, I, O, hτ, ⟨h1, h2⟩ => ⟨Numbered.steps a hτ h1, Numbered.steps b hτ h2⟩

/-- **C132 (`SparseLion`, one step).** One step of `SparseLion` on the network with renumbered units, with the renumbered state of the optimizer, gives the renumbered parameters and the renumbered state. -/
theorem C132_lion_step {σ : ℕ → GLayer ℝ} {ν : Numbering} (P : Picks ℝ) {e : GExpr ℝ} {κ ρ : ℕ → ℕ} {I O : ℕ} (h : e.Numbered σ ν κ ρ I O) {B : ℕ} {x g : Tensor ℝ} (hx : x.shape = [B, I]) (hwx : x.WF)
    (hg : g.shape = [B, O]) (trained : List ℕ) {exp : ℕ → ℕ → Option (Tensor ℝ)} (hexp : LionState σ trained exp) (lr wd β β2 : ℝ) :
    ∃ gx cs gx' cs', e.backward P σ x g = .ok (gx, cs) ∧ e.backward P (renumberAll ν σ) (columns κ x) (columns ρ g) = .ok (gx', cs') ∧
      ∃ (σ1 : ℕ → GLayer ℝ) (exp1 : ℕ → ℕ → Option (Tensor ℝ)), (∀ j, lionStep trained lr wd β β2 exp cs σ j = .ok (σ1 j)) ∧ (∀ j k, lionMomenta trained lr wd β β2 exp cs σ j k = .ok (exp1 j k)) ∧
        (∀ j, lionStep trained lr wd β β2 (renumberMomenta ν exp) cs' (renumberAll ν σ) j = .ok (renumberAll ν σ1 j)) ∧
        (∀ j k, lionMomenta trained lr wd β β2 (renumberMomenta ν exp) cs' (renumberAll ν σ) j k = .ok (renumberMomenta ν exp1 j k)) ∧ LionState σ1 trained exp1 ∧ e.Numbered σ1 ν κ ρ I O := by
  obtain ⟨gx, cs, h1, -, h3, h4⟩ := backward_follows P e h x g hx hwx hg
  have hgood : ∀ c ∈ cs, Numbered.Good σ ν c.1 ∧ c.2.map Tensor.shape = (σ c.1).params.map Tensor.shape := fun c hc => ⟨(h4 c hc).1, (h4 c hc).2.1⟩
  have hsound : ∀ c ∈ cs, AllSound σ c := fun c hc => (h4 c hc).2.2
  have hfit : ∀ j ∈ trained, ∀ k p, (σ j).params[k]? = some p → LionFits p (accumulated cs j k) (exp j k) := by
    intro j hj k p hp g' hg'
    obtain ⟨⟨_, _, _, _, _, hf, _⟩, -⟩ := accumulated_good hgood hg'
    obtain ⟨s1, s2⟩ := accumulated_sound hsound hp hg'
    exact ⟨fits_wf hf hp, s1, s2, fun e' he' => hexp j hj k p e' hp he'⟩
  have hnone : ∀ j k, (σ j).params[k]? = none → accumulated cs j k = none := by
    intro j k hp
    cases ha : accumulated cs j k with
    | none => rfl
    | some g' =>
      obtain ⟨-, p, hp'⟩ := accumulated_good hgood ha
      rw [hp] at hp'
      cases hp'
  refine ⟨gx, cs, _, _, h1, h3, fun j => if j ∈ trained then (σ j).sgd lr fun k => lionPull β (accumulated cs j k) (exp j k) else σ j, fun j k => if j ∈ trained then lionMomNext β2 (accumulated cs j k) (exp j k) else exp j k,
    fun j => ?_, fun j k => ?_, fun j => ?_, fun j k => ?_, fun j hj k p' e' hp' he' => ?_, ?_⟩
  · unfold lionStep
    beta_reduce
    by_cases ht : j ∈ trained
    · rw [if_pos ht, if_pos ht]
      exact lion_sgd (hfit j ht) lr wd β β2
    · rw [if_neg ht, if_neg ht]
  · unfold lionMomenta
    beta_reduce
    by_cases ht : j ∈ trained
    · rw [if_pos ht, if_pos ht]
      cases hp : (σ j).params[k]? with
      | none => rw [hnone j k hp]; rfl
      | some p => exact (stepParam_real (hfit j ht k p hp) lr wd β β2).2
    · rw [if_neg ht, if_neg ht]
  · cases hν : ν j with
    | none =>
      have hacc : accumulated (renumberGrads ν cs) j = accumulated cs j := by
        funext k
        unfold accumulated
        rw [contributions_none hν]
      have hm : renumberMomenta ν exp j = exp j := by
        funext k
        unfold renumberMomenta
        rw [hν]
      unfold lionStep renumberAll
      simp only [hν, hacc, hm]
      by_cases ht : j ∈ trained
      · rw [if_pos ht, if_pos ht]
        exact lion_sgd (hfit j ht) lr wd β β2
      · rw [if_neg ht, if_neg ht]
    | some m =>
      obtain ⟨α, γ⟩ := m
      unfold lionStep renumberAll
      simp only [hν]
      by_cases ht : j ∈ trained
      · rw [if_pos ht, if_pos ht]
        have hacc := accumulated_follows hgood hν
        have hm : ∀ k, renumberMomenta ν exp j k = (exp j k).map (renumberParam α γ k) := by
          intro k
          unfold renumberMomenta
          rw [hν]
        have hkept : ∀ k g', accumulated cs j k = some g' → Kept α γ k g'.shape ∧ ∀ e', exp j k = some e' → e'.shape = g'.shape := by
          intro k g' hg'
          obtain ⟨-, p, hp⟩ := accumulated_good hgood hg'
          obtain ⟨q1, q2⟩ := (hacc k).2 p g' hp hg'
          exact ⟨by rw [q1]; exact q2, fun e' he' => by rw [q1]; exact (hexp j ht k p e' hp he').2⟩
        rw [lion_sgd (fun k p' hp' g' hg' => ?_) lr wd β β2]
        · refine congrArg Except.ok (sgd_renumber (σ j) lr (fun k => ?_) fun k p g' hp hg' => ?_)
          · rw [(hacc k).1, hm k]
            exact (lion_renumber (hkept k) β β2).1
          · obtain ⟨g0, hg0, rfl⟩ := Option.map_eq_some_iff.1 hg'
            exact (hacc k).2 p g0 hp hg0
        · obtain ⟨w1, p, hp, hps⟩ := renumber_params hp'
          rw [(hacc k).1] at hg'
          obtain ⟨g0, hg0, rfl⟩ := Option.map_eq_some_iff.1 hg'
          refine ⟨w1, ?_, renumberParam_wf _ _ _ _, fun e' he' => ?_⟩
          · rw [renumberParam_shape, hps]
            exact ((hacc k).2 p g0 hp hg0).1
          · rw [hm k] at he'
            obtain ⟨e0, he0, rfl⟩ := Option.map_eq_some_iff.1 he'
            refine ⟨renumberParam_wf _ _ _ _, ?_⟩
            rw [renumberParam_shape, hps]
            exact (hexp j ht k p e0 hp he0).2
      · rw [if_neg ht, if_neg ht]
  · cases hν : ν j with
    | none =>
      have hacc : accumulated (renumberGrads ν cs) j = accumulated cs j := by
        funext k
        unfold accumulated
        rw [contributions_none hν]
      unfold lionMomenta renumberMomenta renumberAll
      simp only [hν, hacc]
      by_cases ht : j ∈ trained
      · rw [if_pos ht, if_pos ht]
        cases hp : (σ j).params[k]? with
        | none => rw [hnone j k hp]; rfl
        | some p => exact (stepParam_real (hfit j ht k p hp) lr wd β β2).2
      · rw [if_neg ht, if_neg ht]
    | some m =>
      obtain ⟨α, γ⟩ := m
      unfold lionMomenta renumberMomenta renumberAll
      simp only [hν]
      by_cases ht : j ∈ trained
      · rw [if_pos ht, if_pos ht]
        have hacc := accumulated_follows hgood hν
        have hkept : ∀ g', accumulated cs j k = some g' → Kept α γ k g'.shape ∧ ∀ e', exp j k = some e' → e'.shape = g'.shape := by
          intro g' hg'
          obtain ⟨-, p, hp⟩ := accumulated_good hgood hg'
          obtain ⟨q1, q2⟩ := (hacc k).2 p g' hp hg'
          exact ⟨by rw [q1]; exact q2, fun e' he' => by rw [q1]; exact (hexp j ht k p e' hp he').2⟩
        rw [← (lion_renumber hkept β β2).2, ← (hacc k).1]
        cases hp' : ((σ j).renumber α γ).params[k]? with
        | none =>
          cases ha : accumulated (renumberGrads ν cs) j k with
          | none => rfl
          | some g' =>
            rw [(hacc k).1] at ha
            obtain ⟨g0, hg0, rfl⟩ := Option.map_eq_some_iff.1 ha
            obtain ⟨-, p, hp⟩ := accumulated_good hgood hg0
            have : ((σ j).renumber α γ).params.length = (σ j).params.length := by
              cases σ j <;> rfl
            rw [List.getElem?_eq_none_iff, this, ← List.getElem?_eq_none_iff, hp] at hp'
            cases hp'
        | some p' =>
          refine (stepParam_real (fun g' hg' => ?_) lr wd β β2).2
          obtain ⟨w1, p, hp, hps⟩ := renumber_params hp'
          rw [(hacc k).1] at hg'
          obtain ⟨g0, hg0, rfl⟩ := Option.map_eq_some_iff.1 hg'
          refine ⟨w1, ?_, renumberParam_wf _ _ _ _, fun e' he' => ?_⟩
          · rw [renumberParam_shape, hps]
            exact ((hacc k).2 p g0 hp hg0).1
          · obtain ⟨e0, he0, rfl⟩ := Option.map_eq_some_iff.1 he'
            refine ⟨renumberParam_wf _ _ _ _, ?_⟩
            rw [renumberParam_shape, hps]
            exact (hexp j ht k p e0 hp he0).2
      · rw [if_neg ht, if_neg ht]
  · beta_reduce at hp' he'
    rw [if_pos hj] at hp' he'
    obtain ⟨p, hp, hps⟩ := sgd_params_shape hp'
    rw [hps]
    cases ha : accumulated cs j k with
    | none =>
      rw [ha] at he'
      exact hexp j hj k p e' hp he'
    | some g' =>
      rw [ha] at he'
      cases he'
      exact ⟨Tensor.wf_tabulate _ _, (accumulated_sound hsound hp ha).1⟩
  · exact Numbered.steps e (fun j => by
      beta_reduce
      by_cases ht : j ∈ trained
      · rw [if_pos ht]
        exact ⟨_, _, rfl⟩
      · rw [if_neg ht]
        exact ⟨0, fun _ => none, (sgd_nothing (σ j)).symm⟩) h

/-- **C132 (`SparseLion`).** Training with `SparseLion` (any number of batches, any learning rates, weight decay and betas, on any of the modules): the network with renumbered units, trained on the renumbered batches, ends with the
renumbered parameters and the renumbered state of the optimizer. -/
theorem C132_lion_training (P : Picks ℝ) {e : GExpr ℝ} {ν : Numbering} {κ ρ : ℕ → ℕ} {I O : ℕ} (trained : List ℕ) (wd β β2 : ℝ) : ∀ {bs bs' : List (Batch ℝ)} {σ : ℕ → GLayer ℝ} {exp : ℕ → ℕ → Option (Tensor ℝ)},
    e.Numbered σ ν κ ρ I O → LionState σ trained exp → List.Forall₂ (Batch.Renumbered κ ρ I O) bs bs' →
    ∃ σ' exp', LionTrained P e trained wd β β2 σ exp bs σ' exp' ∧ LionTrained P e trained wd β β2 (renumberAll ν σ) (renumberMomenta ν exp) bs' (renumberAll ν σ') (renumberMomenta ν exp') ∧ e.Numbered σ' ν κ ρ I O
  | _, _, σ, exp, h, _, .nil => ⟨σ, exp, .nil _ _, .nil _ _, h⟩
  | _, _, σ, exp, h, hexp, .cons (a := b) (b := b') (l₁ := bs) (l₂ := bs') hb hbs => by
    obtain ⟨B, hx, hl⟩ := hb.shapes
    obtain ⟨y, y1, y2, y3, y4⟩ := (expr_follows e (h.renumbered B)).2 b.x hx hb.wf
    obtain ⟨l1, l2⟩ := hl y y2 y3
    obtain ⟨gx, cs, gx', cs', h1, h2, σ1, exp1, s1, s2, s3, s4, s5, s6⟩ := C132_lion_step P h hx hb.wf l1 trained hexp b.lr wd β β2
    obtain ⟨σ', exp', t1, t2, t3⟩ := C132_lion_training P trained wd β β2 s6 s5 hbs
    refine ⟨σ', exp', .cons y1 h1 s1 s2 t1, ?_, t3⟩
    refine .cons (y := columns ρ y) (gx := gx') (cs := cs') ?_ ?_ ?_ ?_ t2
    · rw [hb.x]; exact y4
    · rw [hb.x, l2]; exact h2
    · rw [hb.lr]; exact s3
    · rw [hb.lr]; exact s4

/-- The loop has one end. -/
theorem LionTrained.unique {P : Picks ℝ} {e : GExpr ℝ} {trained : List ℕ} {wd β β2 : ℝ} {bs : List (Batch ℝ)} {σ σ1 σ2 : ℕ → GLayer ℝ} {exp exp1 exp2 : ℕ → ℕ → Option (Tensor ℝ)}
    (h1 : LionTrained P e trained wd β β2 σ exp bs σ1 exp1) (h2 : LionTrained P e trained wd β β2 σ exp bs σ2 exp2) : σ1 = σ2 ∧ exp1 = exp2 := by
  induction h1 with
  | nil => cases h2; exact ⟨rfl, rfl⟩
  | cons hy hb hs he _ ih =>
    cases h2 with
    | cons hy' hb' hs' he' h' =>
      obtain rfl := Except.ok.inj (hy.symm.trans hy')
      obtain ⟨-, rfl⟩ := Prod.mk.inj (Except.ok.inj (hb.symm.trans hb'))
      obtain rfl := funext fun j => Except.ok.inj ((hs j).symm.trans (hs' j))
      obtain rfl := funext fun j => funext fun k => Except.ok.inj ((he j k).symm.trans (he' j k))
      exact ih h'

/-- **C132 (`SparseLion`, equal units stay equal).** From the start of training (no state in the optimizer), if the parameters are the same after renumbering hidden units, this stays so. -/
theorem C132_lion_equal_units (P : Picks ℝ) {e : GExpr ℝ} {ν : Numbering} {I O : ℕ} (trained : List ℕ) (wd β β2 : ℝ) {σ : ℕ → GLayer ℝ} (h : e.Numbered σ ν (fun i => i) (fun i => i) I O) (hs : renumberAll ν σ = σ)
    {bs : List (Batch ℝ)} (hbs : ∀ b ∈ bs, b.x.WF ∧ ∃ B, b.x.shape = [B, I] ∧ ∀ y : Tensor ℝ, y.shape = [B, O] → y.WF → (b.lossGrad y).shape = [B, O] ∧ (b.lossGrad y).WF) :
    ∃ σ' exp', LionTrained P e trained wd β β2 σ (fun _ _ => none) bs σ' exp' ∧ renumberAll ν σ' = σ' := by
  have hf : List.Forall₂ (Batch.Renumbered (fun i => i) (fun i => i) I O) bs bs := by
    refine List.forall₂_same.2 fun b hb => ?_
    obtain ⟨h1, B, h2, h3⟩ := hbs b hb
    refine ⟨rfl, (columns_id h2 h1).symm, h1, B, h2, fun y hy hwy => ?_⟩
    obtain ⟨h4, h5⟩ := h3 y hy hwy
    exact ⟨h4, by rw [columns_id hy hwy, columns_id h4 h5]⟩
  obtain ⟨σ', exp', t1, t2, -⟩ := C132_lion_training P trained wd β β2 h (exp := fun _ _ => none) (fun _ _ _ _ _ _ he => by cases he) hf
  have hm : renumberMomenta ν (fun _ _ => none) = fun _ _ => none := by
    funext j k
    unfold renumberMomenta
    cases ν j <;> rfl
  rw [hs, hm] at t2
  exact ⟨σ', exp', t1, (t1.unique t2).1.symm⟩

end HOL
