import Verif.Lemmas.SignGradients
import Verif.Props.Signs
import Verif.Props.RenumberTraining

/-! # C136: training does not depend on the signs of the units -/

namespace HOL
open TorchScalar Spec

theorem GExpr.Signed.change {s : ℕ → GLayer ℝ} {ν : Signing} (B : ℕ) : ∀ (e : GExpr ℝ) {σ ρ : ℕ → Bool} {I O : ℕ}, e.Signed s ν σ ρ I O → e.SignChange s (signAll ν s) B σ ρ I O
  | .leaf j, σ, ρ, I, O, ⟨h1, h2, _, h4⟩ => ⟨h1, h2, by unfold signAll; rw [h4]⟩
  | .comp a b, σ, ρ, I, O, ⟨μ, M, h1, h2⟩ => ⟨μ, M, GExpr.Signed.change B a h1, GExpr.Signed.change B b h2⟩
  | .add a b, σ, ρ, I, O, ⟨h1, h2⟩ => ⟨GExpr.Signed.change B a h1, GExpr.Signed.change B b h2⟩
  | .mul a b, σ, ρ, I, O, ⟨μ, τ, h1, h2, h3⟩ => ⟨μ, τ, GExpr.Signed.change B a h1, GExpr.Signed.change B b h2, h3⟩

theorem GExpr.SignedFirst.change {s : ℕ → GLayer ℝ} {ν : Signing} (B : ℕ) : ∀ (e : GExpr ℝ) {σ ρ : ℕ → Bool} {I O : ℕ}, e.SignedFirst s ν σ ρ I O → e.SignChange s (signAll ν s) B σ ρ I O
  | .leaf j, σ, ρ, I, O, ⟨h1, h2, h4⟩ => ⟨h1, h2, by unfold signAll; rw [h4]⟩
  | .comp a b, σ, ρ, I, O, ⟨μ, M, h1, h2⟩ => ⟨μ, M, GExpr.SignedFirst.change B a h1, GExpr.Signed.change B b h2⟩
  | .add a b, σ, ρ, I, O, ⟨h1, h2⟩ => ⟨GExpr.SignedFirst.change B a h1, GExpr.SignedFirst.change B b h2⟩
  | .mul a b, σ, ρ, I, O, ⟨μ, τ, h1, h2, h3⟩ => ⟨μ, τ, GExpr.SignedFirst.change B a h1, GExpr.SignedFirst.change B b h2, h3⟩

theorem signed_addT {ρ : ℕ → Bool} {B O : ℕ} {u v : Tensor ℝ} (hu : u.shape = [B, O]) (hv : v.shape = [B, O]) : addT (signed ρ u) (signed ρ v) = signed ρ (addT u v) := by
  refine signed_ext (B := B) (I := O) hu (Tensor.wf_tabulate _ _) hu fun b hb o ho => ?_
  have hin : InShape u.shape [b, o] := by rw [hu]; exact inShape2.2 ⟨hb, ho⟩
  unfold addT
  rw [Tensor.get_tabulate (s := (signed ρ u).shape) hin, Tensor.get_tabulate hin, signed_get hu hb ho, signed_get hv hb ho, mul_add]

theorem signed_mulT {ρ τ μ : ℕ → Bool} (h : ∀ o, sg (μ o) = sg (ρ o) * sg (τ o)) {B O : ℕ} {u v : Tensor ℝ} (hu : u.shape = [B, O]) (hv : v.shape = [B, O]) : mulT (signed ρ u) (signed τ v) = signed μ (mulT u v) := by
  refine signed_ext (B := B) (I := O) hu (Tensor.wf_tabulate _ _) hu fun b hb o ho => ?_
  have hin : InShape u.shape [b, o] := by rw [hu]; exact inShape2.2 ⟨hb, ho⟩
  unfold mulT
  rw [Tensor.get_tabulate (s := (signed ρ u).shape) hin, Tensor.get_tabulate hin, signed_get hu hb ho, signed_get hv hb ho, h]
  ring

theorem signGrads_append (ν : Signing) (s : ℕ → GLayer ℝ) (cs ds : List (ℕ × List (Tensor ℝ))) : signGrads ν s (cs ++ ds) = signGrads ν s cs ++ signGrads ν s ds := List.map_append

/-! ## the parameters -/

/-- A change of the signs and places of numbers of tensors of this shape that commutes with odd functions of corresponding numbers. -/
def Commutes (T : Tensor ℝ → Tensor ℝ) (S : List ℕ) : Prop := (∀ u, (T u).shape = u.shape) ∧ ∀ f : ℝ → ℝ → ℝ, (∀ b u v, f (sg b * u) (sg b * v) = sg b * f u v) → ∀ u v : Tensor ℝ, u.shape = S → v.shape = S →
  (Tensor.tabulate S fun idx => f ((T u).get idx) ((T v).get idx)) = T (Tensor.tabulate S fun idx => f (u.get idx) (v.get idx))

theorem linear_of {T : Tensor ℝ → Tensor ℝ} {S : List ℕ} (hT : ∀ u, (T u).shape = u.shape ∧ (T u).WF) (c d : List ℕ → Bool) (π : List ℕ → List ℕ) (hπ : ∀ idx, InShape S idx → InShape S (π idx))
    (h : ∀ u : Tensor ℝ, u.shape = S → ∀ idx, InShape S idx → (T u).get idx = sg (c idx) * (sg (d idx) * u.get (π idx))) : Commutes T S := by
  refine ⟨fun u => (hT u).1, fun f hf u v hu hv => ?_⟩
  refine Tensor.ext_get (Tensor.wf_tabulate _ _) (hT _).2 (hT (Tensor.tabulate S fun idx => f (u.get idx) (v.get idx))).1.symm fun idx hin => ?_
  change InShape S idx at hin
  rw [Tensor.get_tabulate hin, h (Tensor.tabulate S fun idx => f (u.get idx) (v.get idx)) rfl idx hin, h u hu idx hin, h v hv idx hin, Tensor.get_tabulate (hπ idx hin), hf, hf]

theorem coeffs_linear (f : BasisFn ℝ) (σ ρ : ℕ → Bool) (O I S : ℕ) : Commutes (signCoeffs f σ ρ) [O, I, S] := by
  refine linear_of (fun u => ⟨signCoeffs_shape _ _ _ _, signCoeffs_wf _ _ _ _⟩) (fun idx => ρ (idx.getD 0 0)) (fun idx => par f (σ (idx.getD 1 0)) (idx.getD 2 0))
    (fun idx => [idx.getD 0 0, idx.getD 1 0, mir f (σ (idx.getD 1 0)) S (idx.getD 2 0)]) (fun idx hin => ?_) fun u hu idx hin => ?_
  · obtain ⟨o, i, r, rfl, ho, hi, hr⟩ := inShape3_exists hin
    exact inShape3.2 ⟨ho, hi, mir_lt f hr⟩
  · obtain ⟨o, i, r, rfl, ho, hi, hr⟩ := inShape3_exists hin
    exact signCoeffs_get f hu ho hi hr

theorem matrix_linear (σ ρ : ℕ → Bool) (O I : ℕ) : Commutes (signMatrix σ ρ) [O, I] := by
  refine linear_of (fun u => ⟨rfl, Tensor.wf_tabulate _ _⟩) (fun idx => ρ (idx.getD 0 0)) (fun idx => σ (idx.getD 1 0)) (fun idx => idx) (fun idx hin => hin) fun u hu idx hin => ?_
  obtain ⟨o, i, rfl, ho, hi⟩ := inShape2_exists hin
  exact signMatrix_get hu ho hi

theorem out_linear (ρ : ℕ → Bool) (O : ℕ) : Commutes (signOut ρ) [O] := by
  refine linear_of (fun u => ⟨rfl, Tensor.wf_tabulate _ _⟩) (fun idx => ρ (idx.getD 0 0)) (fun _ => false) (fun idx => idx) (fun idx hin => hin) fun u hu idx hin => ?_
  obtain ⟨o, rfl, ho⟩ := inShape1_exists hin
  rw [signOut_get hu ho, sg_false, one_mul]
  rfl

theorem fits_linear {l : GLayer ℝ} {I O : ℕ} (hf : l.Fits I O) (σ ρ : ℕ → Bool) {k : ℕ} {p : Tensor ℝ} (hp : l.params[k]? = some p) : Commutes (l.signParam σ ρ k) p.shape := by
  match l, hf, k, hp with
  | .pw L, hf, 0, rfl =>
    obtain ⟨h, -, -, rfl, rfl⟩ := hf
    rw [h.w_shape]; exact coeffs_linear .lagrange1 σ ρ _ _ _
  | .fn L, hf, 0, rfl =>
    obtain ⟨h, rfl, rfl⟩ := hf
    rw [h.w_shape]; exact coeffs_linear L.poly.basis σ ρ _ _ _
  | .product L, hf, 0, rfl =>
    obtain ⟨h, rfl, rfl⟩ := hf
    rw [h.w_shape]; exact matrix_linear σ ρ _ _
  | .product L, hf, 1, hp =>
    obtain ⟨h, rfl, rfl⟩ := hf
    obtain ⟨b, hb, hbs, -⟩ := h.bias
    have : L.bias.getD (Tensor.tab1 0 fun _ => 0) = p := by simpa [GLayer.params] using hp
    rw [hb] at this
    rw [← this]
    show Commutes (signOut ρ) b.shape
    rw [hbs]; exact out_linear ρ _
  | .linear w b, ⟨h1, _, h2, _⟩, 0, rfl => rw [h1]; exact matrix_linear σ ρ _ _
  | .linear w b, ⟨h1, _, h2, _⟩, 1, rfl => rw [h2]; exact out_linear ρ _

theorem contributions_sign {ν : Signing} {s : ℕ → GLayer ℝ} {j : ℕ} {σ ρ : ℕ → Bool} (hν : ν j = some (σ, ρ)) (cs : List (ℕ × List (Tensor ℝ))) (k : ℕ) :
    contributions (signGrads ν s cs) j k = (contributions cs j k).map ((s j).signParam σ ρ k) := by
  unfold contributions signGrads
  induction cs with
  | nil => rfl
  | cons c cs ih =>
    rw [List.map_cons, List.filterMap_cons, List.filterMap_cons, ih]
    by_cases hc : c.1 = j
    · simp only [if_pos hc]
      rw [hc, hν]
      simp only [List.getElem?_mapIdx]
      cases c.2[k]? <;> rfl
    · simp only [if_neg hc]

theorem contributions_unsigned {ν : Signing} {s : ℕ → GLayer ℝ} {j : ℕ} (hν : ν j = none) (cs : List (ℕ × List (Tensor ℝ))) (k : ℕ) : contributions (signGrads ν s cs) j k = contributions cs j k := by
  unfold contributions signGrads
  induction cs with
  | nil => rfl
  | cons c cs ih =>
    rw [List.map_cons, List.filterMap_cons, List.filterMap_cons, ih]
    by_cases hc : c.1 = j
    · simp only [if_pos hc]
      rw [hc, hν]
    · simp only [if_neg hc]

theorem foldl_addT_linear {T : Tensor ℝ → Tensor ℝ} {S : List ℕ} (hT : Commutes T S) : ∀ (gs : List (Tensor ℝ)) (g : Tensor ℝ), g.shape = S → (∀ t ∈ gs, t.shape = S) →
    (gs.map T).foldl addT (T g) = T (gs.foldl addT g) ∧ (gs.foldl addT g).shape = S
  | [], g, hg, _ => ⟨rfl, hg⟩
  | t :: gs, g, hg, h => by
    have e : addT (T g) (T t) = T (addT g t) := by
      unfold addT
      rw [hT.1, hg]
      exact hT.2 (· + ·) (fun b u v => (mul_add _ u v).symm) g t hg (h t List.mem_cons_self)
    rw [List.map_cons, List.foldl_cons, List.foldl_cons, e]
    exact foldl_addT_linear hT gs (addT g t) hg fun u hu => h u (List.mem_cons_of_mem _ hu)

theorem sgdParam_linear {T : Tensor ℝ → Tensor ℝ} {p : Tensor ℝ} (hT : Commutes T p.shape) (lr : ℝ) {acc : Option (Tensor ℝ)} (h : ∀ g ∈ acc, g.shape = p.shape) : sgdParam lr (T p) (acc.map T) = T (sgdParam lr p acc) := by
  cases acc with
  | none => rfl
  | some g =>
    show (Tensor.tabulate (T p).shape fun idx => (T p).get idx - lr * (T g).get idx) = _
    rw [hT.1]
    exact hT.2 (fun a b => a - lr * b) (fun b u v => by ring) p g rfl (h g rfl)

theorem sgd_of_key {l : GLayer ℝ} {σ ρ : ℕ → Bool} (lr : ℝ) {acc acc' : ℕ → Option (Tensor ℝ)}
    (key : ∀ k p, l.params[k]? = some p → sgdParam lr (l.signParam σ ρ k p) (acc' k) = l.signParam σ ρ k (sgdParam lr p (acc k))) : (l.sign σ ρ).sgd lr acc' = (l.sgd lr acc).sign σ ρ := by
  cases l with
  | pw L => exact congrArg (fun w => GLayer.pw { L with w := w }) (key 0 _ rfl)
  | fn L =>
    rw [sign_fn]
    show _ = GLayer.sign σ ρ (.fn { L with w := sgdParam lr L.w (acc 0) })
    rw [sign_fn]
    exact congrArg (fun w => GLayer.fn { L with w := w }) (key 0 _ rfl)
  | product L =>
    have h0 : sgdParam lr (signMatrix σ ρ L.weight) (acc' 0) = signMatrix σ ρ (sgdParam lr L.weight (acc 0)) := key 0 _ rfl
    simp only [GLayer.sign, GLayer.sgd]
    cases hb : L.bias with
    | none => simp only [Option.map_none, h0]
    | some b =>
      have h1 : sgdParam lr (signOut ρ b) (acc' 1) = signOut ρ (sgdParam lr b (acc 1)) := key 1 b (by simp [GLayer.params, hb])
      simp only [Option.map_some, h0, h1]
  | linear w b => exact congrArg₂ GLayer.linear (key 0 _ rfl) (key 1 _ rfl)
  | relu => rfl

theorem sgd_sign {l : GLayer ℝ} {I O : ℕ} (hf : l.Fits I O) {σ ρ : ℕ → Bool} (lr : ℝ) {acc acc' : ℕ → Option (Tensor ℝ)}
    (h : ∀ k p, l.params[k]? = some p → acc' k = (acc k).map (l.signParam σ ρ k) ∧ ∀ g ∈ acc k, g.shape = p.shape) : (l.sign σ ρ).sgd lr acc' = (l.sgd lr acc).sign σ ρ := by
  refine sgd_of_key lr fun k p hp => ?_
  rw [(h k p hp).1]
  exact sgdParam_linear (fits_linear hf σ ρ hp) lr (h k p hp).2

/-! ## the backward pass -/

/-- A module of the network fits and has signs. -/
def Signed.Good (s : ℕ → GLayer ℝ) (ν : Signing) (j : ℕ) : Prop := ∃ σ ρ I O, ν j = some (σ, ρ) ∧ (s j).Fits I O

theorem backward_answers {s : ℕ → GLayer ℝ} {ν : Signing} (P : Picks ℝ) {B : ℕ} : ∀ (e : GExpr ℝ) {σ ρ : ℕ → Bool} {I O : ℕ}, e.Signed s ν σ ρ I O → ∀ x g : Tensor ℝ, x.shape = [B, I] → x.WF → g.shape = [B, O] →
    ∃ gx cs, e.backward P s x g = .ok (gx, cs) ∧ gx.shape = [B, I] ∧ e.backward P (signAll ν s) (signed σ x) (signed ρ g) = .ok (signed σ gx, signGrads ν s cs) ∧
      ∀ c ∈ cs, Signed.Good s ν c.1 ∧ c.2.map Tensor.shape = (s c.1).params.map Tensor.shape ∧ AllSound s c
  | .leaf j, σ, ρ, I, O, h, x, g, hx, hwx, hg => by
    obtain ⟨h1, h2, h3, h4⟩ := h
    have hl := layer_params h1 σ h2 hx hwx hg
    have hi := layer_input h1 σ h2 h3 hx hg
    refine ⟨_, _, rfl, hi.shape, ?_, fun c hc => ?_⟩
    · show Except.ok ((signAll ν s j).inputGrad _ _, [(j, (signAll ν s j).paramGrads _ _)]) = Except.ok (_, signGrads ν s [(j, _)])
      unfold signAll signGrads
      simp only [List.map_cons, List.map_nil, h4]
      rw [hi.eq, hl.eq]
    · rw [List.mem_singleton.1 hc]
      exact ⟨⟨σ, ρ, I, O, h4, h1⟩, hl.shape, fun k p hp => paramGrads_sound h1 hx hg k p hp⟩
  | .comp a b, σ, ρ, I, O, ⟨μ, M, h1, h2⟩, x, g, hx, hwx, hg => by
    obtain ⟨y, y1, y2, y3, y4⟩ := expr_answers a (h1.change B) x hx hwx
    obtain ⟨gy, ds, b1, b2, b3, b4⟩ := backward_answers P b h2 y g y2 y3 hg
    obtain ⟨gx, cs, a1, a2, a3, a4⟩ := backward_answers P a h1 x gy hx hwx b2
    refine ⟨gx, cs ++ ds, ?_, a2, ?_, fun c hc => (List.mem_append.1 hc).elim (a4 c) (b4 c)⟩
    · show (a.forward s x >>= fun y => b.backward P s y g >>= fun rb => a.backward P s x rb.1 >>= fun ra => Except.ok (ra.1, ra.2 ++ rb.2)) = _
      rw [y1]
      show (b.backward P s y g >>= fun rb => a.backward P s x rb.1 >>= fun ra => Except.ok (ra.1, ra.2 ++ rb.2)) = _
      rw [b1]
      show (a.backward P s x gy >>= fun ra => Except.ok (ra.1, ra.2 ++ ds)) = _
      rw [a1]; rfl
    · show (a.forward _ _ >>= fun y => b.backward P _ y _ >>= fun rb => a.backward P _ _ rb.1 >>= fun ra => Except.ok (ra.1, ra.2 ++ rb.2)) = _
      rw [y4]
      show (b.backward P _ (signed μ y) _ >>= fun rb => a.backward P _ _ rb.1 >>= fun ra => Except.ok (ra.1, ra.2 ++ rb.2)) = _
      rw [b3]
      show (a.backward P _ _ (signed μ gy) >>= fun ra => Except.ok (ra.1, ra.2 ++ signGrads ν s ds)) = _
      rw [a3, signGrads_append]; rfl
  | .add a b, σ, ρ, I, O, ⟨h1, h2⟩, x, g, hx, hwx, hg => by
    obtain ⟨gy, ds, b1, b2, b3, b4⟩ := backward_answers P b h2 x g hx hwx hg
    obtain ⟨gx, cs, a1, a2, a3, a4⟩ := backward_answers P a h1 x g hx hwx hg
    refine ⟨addT gx gy, cs ++ ds, ?_, a2, ?_, fun c hc => (List.mem_append.1 hc).elim (a4 c) (b4 c)⟩
    · show (a.backward P s x g >>= fun ra => b.backward P s x g >>= fun rb => Except.ok (addT ra.1 rb.1, ra.2 ++ rb.2)) = _
      rw [a1, b1]; rfl
    · show (a.backward P _ _ _ >>= fun ra => b.backward P _ _ _ >>= fun rb => Except.ok (addT ra.1 rb.1, ra.2 ++ rb.2)) = _
      rw [a3, b3, signGrads_append, ← signed_addT a2 b2]; rfl
  | .mul a b, σ, ρ, I, O, ⟨μ, τ, h1, h2, h3⟩, x, g, hx, hwx, hg => by
    obtain ⟨u, u1, u2, u3, u4⟩ := expr_answers a (h1.change B) x hx hwx
    obtain ⟨v, v1, v2, v3, v4⟩ := expr_answers b (h2.change B) x hx hwx
    obtain ⟨gy, ds, b1, b2, b3, b4⟩ := backward_answers P b h2 x (mulT g u) hx hwx hg
    obtain ⟨gx, cs, a1, a2, a3, a4⟩ := backward_answers P a h1 x (mulT g v) hx hwx hg
    have m1 : mulT (signed ρ g) (signed τ v) = signed μ (mulT g v) := signed_mulT (fun o => by rw [h3, sg_xor, mul_assoc, sg_mul_self, mul_one]) hg v2
    have m2 : mulT (signed ρ g) (signed μ u) = signed τ (mulT g u) := signed_mulT (fun o => by
      rw [h3, sg_xor]
      calc _ = sg (μ o) * sg (μ o) * sg (τ o) := by rw [sg_mul_self, one_mul]
        _ = _ := by ring) hg u2
    refine ⟨addT gx gy, cs ++ ds, ?_, a2, ?_, fun c hc => (List.mem_append.1 hc).elim (a4 c) (b4 c)⟩
    · show (a.forward s x >>= fun u => b.forward s x >>= fun v => a.backward P s x (mulT g v) >>= fun ra => b.backward P s x (mulT g u) >>= fun rb => Except.ok (addT ra.1 rb.1, ra.2 ++ rb.2)) = _
      rw [u1, v1]
      show (a.backward P s x (mulT g v) >>= fun ra => b.backward P s x (mulT g u) >>= fun rb => Except.ok (addT ra.1 rb.1, ra.2 ++ rb.2)) = _
      rw [a1, b1]; rfl
    · show (a.forward _ _ >>= fun u => b.forward _ _ >>= fun v => a.backward P _ _ (mulT _ v) >>= fun ra => b.backward P _ _ (mulT _ u) >>= fun rb => Except.ok (addT ra.1 rb.1, ra.2 ++ rb.2)) = _
      rw [u4, v4]
      show (a.backward P _ _ (mulT (signed ρ g) (signed τ v)) >>= fun ra => b.backward P _ _ (mulT (signed ρ g) (signed μ u)) >>= fun rb => Except.ok (addT ra.1 rb.1, ra.2 ++ rb.2)) = _
      rw [m1, m2, a3, b3, signGrads_append, ← signed_addT a2 b2]; rfl

/-- With any layers that take signs at the inputs: the gradients of the parameters. -/
theorem backward_first {s : ℕ → GLayer ℝ} {ν : Signing} (P : Picks ℝ) {B : ℕ} : ∀ (e : GExpr ℝ) {σ ρ : ℕ → Bool} {I O : ℕ}, e.SignedFirst s ν σ ρ I O → ∀ x g : Tensor ℝ, x.shape = [B, I] → x.WF → g.shape = [B, O] →
    ∃ gx gx' cs, e.backward P s x g = .ok (gx, cs) ∧ e.backward P (signAll ν s) (signed σ x) (signed ρ g) = .ok (gx', signGrads ν s cs) ∧
      ∀ c ∈ cs, Signed.Good s ν c.1 ∧ c.2.map Tensor.shape = (s c.1).params.map Tensor.shape ∧ AllSound s c
  | .leaf j, σ, ρ, I, O, h, x, g, hx, hwx, hg => by
    obtain ⟨h1, h2, h4⟩ := h
    have hl := layer_params h1 σ h2 hx hwx hg
    refine ⟨_, ((s j).sign σ ρ).inputGrad (signed σ x) (signed ρ g), _, rfl, ?_, fun c hc => ?_⟩
    · show Except.ok ((signAll ν s j).inputGrad _ _, [(j, (signAll ν s j).paramGrads _ _)]) = Except.ok (_, signGrads ν s [(j, _)])
      unfold signAll signGrads
      simp only [List.map_cons, List.map_nil, h4]
      rw [hl.eq]
    · rw [List.mem_singleton.1 hc]
      exact ⟨⟨σ, ρ, I, O, h4, h1⟩, hl.shape, fun k p hp => paramGrads_sound h1 hx hg k p hp⟩
  | .comp a b, σ, ρ, I, O, ⟨μ, M, h1, h2⟩, x, g, hx, hwx, hg => by
    obtain ⟨y, y1, y2, y3, y4⟩ := expr_answers a (h1.change B) x hx hwx
    obtain ⟨gy, ds, b1, b2, b3, b4⟩ := backward_answers P b h2 y g y2 y3 hg
    obtain ⟨gx, gx', cs, a1, a3, a4⟩ := backward_first P a h1 x gy hx hwx b2
    refine ⟨gx, gx', cs ++ ds, ?_, ?_, fun c hc => (List.mem_append.1 hc).elim (a4 c) (b4 c)⟩
    · show (a.forward s x >>= fun y => b.backward P s y g >>= fun rb => a.backward P s x rb.1 >>= fun ra => Except.ok (ra.1, ra.2 ++ rb.2)) = _
      rw [y1]
      show (b.backward P s y g >>= fun rb => a.backward P s x rb.1 >>= fun ra => Except.ok (ra.1, ra.2 ++ rb.2)) = _
      rw [b1]
      show (a.backward P s x gy >>= fun ra => Except.ok (ra.1, ra.2 ++ ds)) = _
      rw [a1]; rfl
    · show (a.forward _ _ >>= fun y => b.backward P _ y _ >>= fun rb => a.backward P _ _ rb.1 >>= fun ra => Except.ok (ra.1, ra.2 ++ rb.2)) = _
      rw [y4]
      show (b.backward P _ (signed μ y) _ >>= fun rb => a.backward P _ _ rb.1 >>= fun ra => Except.ok (ra.1, ra.2 ++ rb.2)) = _
      rw [b3]
      show (a.backward P _ _ (signed μ gy) >>= fun ra => Except.ok (ra.1, ra.2 ++ signGrads ν s ds)) = _
      rw [a3, signGrads_append]; rfl
  | .add a b, σ, ρ, I, O, ⟨h1, h2⟩, x, g, hx, hwx, hg => by
    obtain ⟨gy, gy', ds, b1, b3, b4⟩ := backward_first P b h2 x g hx hwx hg
    obtain ⟨gx, gx', cs, a1, a3, a4⟩ := backward_first P a h1 x g hx hwx hg
    refine ⟨addT gx gy, addT gx' gy', cs ++ ds, ?_, ?_, fun c hc => (List.mem_append.1 hc).elim (a4 c) (b4 c)⟩
    · show (a.backward P s x g >>= fun ra => b.backward P s x g >>= fun rb => Except.ok (addT ra.1 rb.1, ra.2 ++ rb.2)) = _
      rw [a1, b1]; rfl
    · show (a.backward P _ _ _ >>= fun ra => b.backward P _ _ _ >>= fun rb => Except.ok (addT ra.1 rb.1, ra.2 ++ rb.2)) = _
      rw [a3, b3, signGrads_append]; rfl
  | .mul a b, σ, ρ, I, O, ⟨μ, τ, h1, h2, h3⟩, x, g, hx, hwx, hg => by
    obtain ⟨u, u1, u2, u3, u4⟩ := expr_answers a (h1.change B) x hx hwx
    obtain ⟨v, v1, v2, v3, v4⟩ := expr_answers b (h2.change B) x hx hwx
    obtain ⟨gy, gy', ds, b1, b3, b4⟩ := backward_first P b h2 x (mulT g u) hx hwx hg
    obtain ⟨gx, gx', cs, a1, a3, a4⟩ := backward_first P a h1 x (mulT g v) hx hwx hg
    have m1 : mulT (signed ρ g) (signed τ v) = signed μ (mulT g v) := signed_mulT (fun o => by rw [h3, sg_xor, mul_assoc, sg_mul_self, mul_one]) hg v2
    have m2 : mulT (signed ρ g) (signed μ u) = signed τ (mulT g u) := signed_mulT (fun o => by
      rw [h3, sg_xor]
      calc _ = sg (μ o) * sg (μ o) * sg (τ o) := by rw [sg_mul_self, one_mul]
        _ = _ := by ring) hg u2
    refine ⟨addT gx gy, addT gx' gy', cs ++ ds, ?_, ?_, fun c hc => (List.mem_append.1 hc).elim (a4 c) (b4 c)⟩
    · show (a.forward s x >>= fun u => b.forward s x >>= fun v => a.backward P s x (mulT g v) >>= fun ra => b.backward P s x (mulT g u) >>= fun rb => Except.ok (addT ra.1 rb.1, ra.2 ++ rb.2)) = _
      rw [u1, v1]
      show (a.backward P s x (mulT g v) >>= fun ra => b.backward P s x (mulT g u) >>= fun rb => Except.ok (addT ra.1 rb.1, ra.2 ++ rb.2)) = _
      rw [a1, b1]; rfl
    · show (a.forward _ _ >>= fun u => b.forward _ _ >>= fun v => a.backward P _ _ (mulT _ v) >>= fun ra => b.backward P _ _ (mulT _ u) >>= fun rb => Except.ok (addT ra.1 rb.1, ra.2 ++ rb.2)) = _
      rw [u4, v4]
      show (a.backward P _ _ (mulT (signed ρ g) (signed τ v)) >>= fun ra => b.backward P _ _ (mulT (signed ρ g) (signed μ u)) >>= fun rb => Except.ok (addT ra.1 rb.1, ra.2 ++ rb.2)) = _
      rw [m1, m2, a3, b3, signGrads_append]; rfl

/-- **C136 (gradients).** The backward pass of a network with changed signs of units (linear, polynomial, Fourier and product layers without periodicity; sums and products of modules, modules used several times), for the inputs and the
gradient of the outputs with changed signs, returns the gradient of the inputs with changed signs and for every use of a module the gradients of its parameters, changed like the parameters. -/
theorem C136_gradients {s : ℕ → GLayer ℝ} {ν : Signing} (P : Picks ℝ) {e : GExpr ℝ} {σ ρ : ℕ → Bool} {I O : ℕ} (h : e.Signed s ν σ ρ I O) {B : ℕ} {x g : Tensor ℝ} (hx : x.shape = [B, I]) (hwx : x.WF)
    (hg : g.shape = [B, O]) : ∃ gx cs, e.backward P s x g = .ok (gx, cs) ∧ gx.shape = [B, I] ∧ e.backward P (signAll ν s) (signed σ x) (signed ρ g) = .ok (signed σ gx, signGrads ν s cs) := by
  obtain ⟨gx, cs, h1, h2, h3, -⟩ := backward_answers P e h x g hx hwx hg
  exact ⟨gx, cs, h1, h2, h3⟩

/-- **C136 (gradients of parameters).** If layers of any kind that take signs — also piecewise continuous layers and layers with periodicity — read the inputs of the network and the others are as above, the gradients of all parameters
of the network with changed signs are the gradients of the parameters, changed like the parameters: for all inputs, also at ends of segments. -/
theorem C136_parameters {s : ℕ → GLayer ℝ} {ν : Signing} (P : Picks ℝ) {e : GExpr ℝ} {σ ρ : ℕ → Bool} {I O : ℕ} (h : e.SignedFirst s ν σ ρ I O) {B : ℕ} {x g : Tensor ℝ} (hx : x.shape = [B, I]) (hwx : x.WF)
    (hg : g.shape = [B, O]) : ∃ gx gx' cs, e.backward P s x g = .ok (gx, cs) ∧ e.backward P (signAll ν s) (signed σ x) (signed ρ g) = .ok (gx', signGrads ν s cs) := by
  obtain ⟨gx, gx', cs, h1, h2, -⟩ := backward_first P e h x g hx hwx hg
  exact ⟨gx, gx', cs, h1, h2⟩

theorem contribution_sign_shape {s : ℕ → GLayer ℝ} {ν : Signing} {cs : List (ℕ × List (Tensor ℝ))} (h : ∀ c ∈ cs, Signed.Good s ν c.1 ∧ c.2.map Tensor.shape = (s c.1).params.map Tensor.shape) {j k : ℕ} {t : Tensor ℝ}
    (ht : t ∈ contributions cs j k) : Signed.Good s ν j ∧ ∃ p, (s j).params[k]? = some p ∧ t.shape = p.shape := by
  unfold contributions at ht
  obtain ⟨c, hc, hck⟩ := List.mem_filterMap.1 ht
  split at hck
  · rename_i hj
    subst hj
    obtain ⟨h1, h2⟩ := h c hc
    refine ⟨h1, ?_⟩
    have h3 := congrArg (fun l => l[k]?) h2
    simp only [List.getElem?_map, hck, Option.map_some] at h3
    obtain ⟨p, hp, hps⟩ := Option.map_eq_some_iff.1 h3.symm
    exact ⟨p, hp, hps.symm⟩
  · cases hck

theorem accumulated_sign {s : ℕ → GLayer ℝ} {ν : Signing} {cs : List (ℕ × List (Tensor ℝ))} (h : ∀ c ∈ cs, Signed.Good s ν c.1 ∧ c.2.map Tensor.shape = (s c.1).params.map Tensor.shape) {j : ℕ} {σ ρ : ℕ → Bool} (hν : ν j = some (σ, ρ))
    {I O : ℕ} (hf : (s j).Fits I O) (k : ℕ) (p : Tensor ℝ) (hp : (s j).params[k]? = some p) :
    accumulated (signGrads ν s cs) j k = (accumulated cs j k).map ((s j).signParam σ ρ k) ∧ ∀ g ∈ accumulated cs j k, g.shape = p.shape := by
  have hS : ∀ t ∈ contributions cs j k, t.shape = p.shape := by
    intro t ht
    obtain ⟨-, p', h1, h2⟩ := contribution_sign_shape h ht
    rw [hp] at h1
    cases h1
    exact h2
  unfold accumulated
  rw [contributions_sign hν]
  cases hc : contributions cs j k with
  | nil => exact ⟨rfl, by simp⟩
  | cons g gs =>
    rw [hc] at hS
    obtain ⟨h1, h2⟩ := foldl_addT_linear (fits_linear hf σ ρ hp) gs g (hS g List.mem_cons_self) fun t ht => hS t (List.mem_cons_of_mem _ ht)
    refine ⟨?_, fun t ht => ?_⟩
    · simp only [List.map_cons, Option.map_some, h1]
    · obtain rfl : gs.foldl addT g = t := by simpa using ht
      exact h2

theorem accumulated_unused {s : ℕ → GLayer ℝ} {ν : Signing} {cs : List (ℕ × List (Tensor ℝ))} (h : ∀ c ∈ cs, Signed.Good s ν c.1 ∧ c.2.map Tensor.shape = (s c.1).params.map Tensor.shape) {j : ℕ} (hj : ¬ Signed.Good s ν j) (k : ℕ) :
    contributions cs j k = [] := by
  rcases hcs : contributions cs j k with _ | ⟨t, ts⟩
  · rfl
  · exact absurd (contribution_sign_shape h (j := j) (k := k) (t := t) (by rw [hcs]; exact List.mem_cons_self)).1 hj

theorem sgd_untouched (l : GLayer ℝ) (lr : ℝ) {acc : ℕ → Option (Tensor ℝ)} (h : ∀ k, acc k = none) : l.sgd lr acc = l := by
  cases l with
  | product L =>
    simp only [GLayer.sgd, h]
    cases hb : L.bias <;> simp [sgdParam, ← hb]
  | _ => simp [GLayer.sgd, h, sgdParam]

theorem step_sign {s : ℕ → GLayer ℝ} {ν : Signing} {cs : List (ℕ × List (Tensor ℝ))} (h : ∀ c ∈ cs, Signed.Good s ν c.1 ∧ c.2.map Tensor.shape = (s c.1).params.map Tensor.shape) (trained : List ℕ) (lr : ℝ) :
    sgdStep trained lr (signGrads ν s cs) (signAll ν s) = signAll ν (sgdStep trained lr cs s) := by
  funext j
  cases hν : ν j with
  | none =>
    have hacc : accumulated (signGrads ν s cs) j = accumulated cs j := by
      funext k
      unfold accumulated
      rw [contributions_unsigned hν]
    unfold sgdStep signAll
    rw [hν, hacc]
  | some m =>
    obtain ⟨σ, ρ⟩ := m
    unfold sgdStep signAll
    simp only [hν]
    by_cases ht : j ∈ trained
    · rw [if_pos ht, if_pos ht]
      by_cases hj : Signed.Good s ν j
      · obtain ⟨_, _, I, O, -, hf⟩ := hj
        exact sgd_sign hf lr fun k p hp => accumulated_sign h hν hf k p hp
      · have h0 := accumulated_unused h hj
        rw [sgd_untouched _ lr (fun k => by unfold accumulated; rw [contributions_sign hν, h0]; rfl), sgd_untouched _ lr (fun k => by unfold accumulated; rw [h0])]
    · rw [if_neg ht, if_neg ht]

theorem Smooth.sgd {l : GLayer ℝ} (h : l.Smooth) (lr : ℝ) (acc : ℕ → Option (Tensor ℝ)) : (l.sgd lr acc).Smooth := by cases l <;> exact h

theorem TakesSigns.sgd {l : GLayer ℝ} {ρ : ℕ → Bool} (h : l.TakesSigns ρ) (lr : ℝ) (acc : ℕ → Option (Tensor ℝ)) : (l.sgd lr acc).TakesSigns ρ := by cases l <;> exact h

theorem Signed.step {s : ℕ → GLayer ℝ} {ν : Signing} (trained : List ℕ) (lr : ℝ) (cs : List (ℕ × List (Tensor ℝ))) : ∀ (e : GExpr ℝ) {σ ρ : ℕ → Bool} {I O : ℕ}, e.Signed s ν σ ρ I O → e.Signed (sgdStep trained lr cs s) ν σ ρ I O
  | .leaf j, σ, ρ, I, O, ⟨h1, h2, h3, h4⟩ => by
    show (sgdStep trained lr cs s j).Fits I O ∧ (sgdStep trained lr cs s j).TakesSigns ρ ∧ (sgdStep trained lr cs s j).Smooth ∧ _
    unfold sgdStep
    by_cases ht : j ∈ trained
    · rw [if_pos ht]
      exact ⟨GLayer.sgd_fits h1 lr _, TakesSigns.sgd h2 lr _, Smooth.sgd h3 lr _, h4⟩
    · rw [if_neg ht]
      exact ⟨h1, h2, h3, h4⟩
  | .comp a b, σ, ρ, I, O, ⟨μ, M, h1, h2⟩ => ⟨μ, M, Signed.step trained lr cs a h1, Signed.step trained lr cs b h2⟩
  | .add a b, σ, ρ, I, O, ⟨h1, h2⟩ => ⟨Signed.step trained lr cs a h1, Signed.step trained lr cs b h2⟩
  | .mul a b, σ, ρ, I, O, ⟨μ, τ, h1, h2, h3⟩ => ⟨μ, τ, Signed.step trained lr cs a h1, Signed.step trained lr cs b h2, h3⟩

theorem SignedFirst.step {s : ℕ → GLayer ℝ} {ν : Signing} (trained : List ℕ) (lr : ℝ) (cs : List (ℕ × List (Tensor ℝ))) : ∀ (e : GExpr ℝ) {σ ρ : ℕ → Bool} {I O : ℕ}, e.SignedFirst s ν σ ρ I O →
    e.SignedFirst (sgdStep trained lr cs s) ν σ ρ I O
  | .leaf j, σ, ρ, I, O, ⟨h1, h2, h4⟩ => by
    show (sgdStep trained lr cs s j).Fits I O ∧ (sgdStep trained lr cs s j).TakesSigns ρ ∧ _
    unfold sgdStep
    by_cases ht : j ∈ trained
    · rw [if_pos ht]
      exact ⟨GLayer.sgd_fits h1 lr _, TakesSigns.sgd h2 lr _, h4⟩
    · rw [if_neg ht]
      exact ⟨h1, h2, h4⟩
  | .comp a b, σ, ρ, I, O, ⟨μ, M, h1, h2⟩ => ⟨μ, M, SignedFirst.step trained lr cs a h1, Signed.step trained lr cs b h2⟩
  | .add a b, σ, ρ, I, O, ⟨h1, h2⟩ => ⟨SignedFirst.step trained lr cs a h1, SignedFirst.step trained lr cs b h2⟩
  | .mul a b, σ, ρ, I, O, ⟨μ, τ, h1, h2, h3⟩ => ⟨μ, τ, SignedFirst.step trained lr cs a h1, SignedFirst.step trained lr cs b h2, h3⟩

/-- `b'` is the batch `b` with inputs of signs `σ` and a loss of the outputs of signs `ρ`, with the same learning rate. -/
structure Batch.Signed (σ ρ : ℕ → Bool) (I O : ℕ) (b b' : Batch ℝ) : Prop where
  lr : b'.lr = b.lr
  x : b'.x = signed σ b.x
  wf : b.x.WF
  shapes : ∃ B, b.x.shape = [B, I] ∧ ∀ y : Tensor ℝ, y.shape = [B, O] → y.WF → (b.lossGrad y).shape = [B, O] ∧ b'.lossGrad (signed ρ y) = signed ρ (b.lossGrad y)

/-- **C136 (training).** Training the network with changed signs (gradient descent on the parameters of any of the modules) on the batches whose inputs have changed signs, with losses that count outputs of the other sign alike (for instance
squared differences to targets of the other sign), gives the network with changed signs after training: at all steps the parameters and therefore the outputs are the same up to the signs. -/
theorem C136_training (P : Picks ℝ) {e : GExpr ℝ} {ν : Signing} {σ ρ : ℕ → Bool} {I O : ℕ} (trained : List ℕ) : ∀ {bs bs' : List (Batch ℝ)} {s : ℕ → GLayer ℝ}, e.SignedFirst s ν σ ρ I O → List.Forall₂ (Batch.Signed σ ρ I O) bs bs' →
    ∃ s', train P e trained s bs = .ok s' ∧ train P e trained (signAll ν s) bs' = .ok (signAll ν s') ∧ e.SignedFirst s' ν σ ρ I O
  | _, _, s, h, .nil => ⟨s, rfl, rfl, h⟩
  | _, _, s, h, .cons (a := b) (b := b') (l₁ := bs) (l₂ := bs') hb hbs => by
    obtain ⟨B, hx, hl⟩ := hb.shapes
    obtain ⟨y, y1, y2, y3, y4⟩ := expr_answers e (h.change B) b.x hx hb.wf
    obtain ⟨l1, l2⟩ := hl y y2 y3
    obtain ⟨gx, gx', cs, h1, h3, h4⟩ := backward_first P e h b.x (b.lossGrad y) hx hb.wf l1
    obtain ⟨s', t1, t2, t3⟩ := C136_training P trained (SignedFirst.step trained b.lr cs e h) hbs
    refine ⟨s', ?_, ?_, t3⟩
    · show (trainStep P e trained s b >>= fun s => train P e trained s bs) = _
      have : trainStep P e trained s b = .ok (sgdStep trained b.lr cs s) := by
        show (e.forward s b.x >>= fun y => e.backward P s b.x (b.lossGrad y) >>= fun r => Except.ok (sgdStep trained b.lr r.2 s)) = _
        rw [y1]
        show (e.backward P s b.x (b.lossGrad y) >>= fun r => Except.ok (sgdStep trained b.lr r.2 s)) = _
        rw [h1]; rfl
      rw [this]; exact t1
    · show (trainStep P e trained (signAll ν s) b' >>= fun s => train P e trained s bs') = _
      have : trainStep P e trained (signAll ν s) b' = .ok (signAll ν (sgdStep trained b.lr cs s)) := by
        show (e.forward (signAll ν s) b'.x >>= fun y => e.backward P (signAll ν s) b'.x (b'.lossGrad y) >>= fun r => Except.ok (sgdStep trained b'.lr r.2 (signAll ν s))) = _
        rw [hb.x, y4]
        show (e.backward P (signAll ν s) (signed σ b.x) (b'.lossGrad (signed ρ y)) >>= fun r => Except.ok (sgdStep trained b'.lr r.2 (signAll ν s))) = _
        rw [l2, h3, hb.lr]
        exact congrArg Except.ok (step_sign (fun c hc => ⟨(h4 c hc).1, (h4 c hc).2.1⟩) trained b.lr)
      rw [this]; exact t2

/-- **C136 (hidden units).** Change only signs of hidden units: training on the same batches gives the network with changed signs of hidden units after training, and for all inputs the same outputs. -/
theorem C136_hidden_units (P : Picks ℝ) {e : GExpr ℝ} {ν : Signing} {I O : ℕ} (trained : List ℕ) {s : ℕ → GLayer ℝ} (h : e.SignedFirst s ν (fun _ => false) (fun _ => false) I O) {bs : List (Batch ℝ)}
    (hbs : ∀ b ∈ bs, b.x.WF ∧ ∃ B, b.x.shape = [B, I] ∧ ∀ y : Tensor ℝ, y.shape = [B, O] → y.WF → (b.lossGrad y).shape = [B, O] ∧ (b.lossGrad y).WF) :
    ∃ s', train P e trained s bs = .ok s' ∧ train P e trained (signAll ν s) bs = .ok (signAll ν s') ∧
      ∀ {B : ℕ} {x : Tensor ℝ}, x.shape = [B, I] → x.WF → ∃ y, e.forward s' x = .ok y ∧ e.forward (signAll ν s') x = .ok y := by
  have hf : List.Forall₂ (Batch.Signed (fun _ => false) (fun _ => false) I O) bs bs := by
    refine List.forall₂_same.2 fun b hb => ?_
    obtain ⟨h1, B, h2, h3⟩ := hbs b hb
    refine ⟨rfl, (signed_none h2 h1).symm, h1, B, h2, fun y hy hwy => ?_⟩
    obtain ⟨h4, h5⟩ := h3 y hy hwy
    exact ⟨h4, by rw [signed_none hy hwy, signed_none h4 h5]⟩
  obtain ⟨s', t1, t2, t3⟩ := C136_training P trained h hf
  refine ⟨s', t1, t2, fun {B x} hx hwx => ?_⟩
  obtain ⟨y, y1, y2, y3, y4⟩ := expr_answers e (t3.change B) x hx hwx
  rw [signed_none hx hwx, signed_none y2 y3] at y4
  exact ⟨y, y1, y4⟩

/-- **C136 (dead units).** If the parameters are the same after changing signs of hidden units (nothing but zeros leads to these units, and what leads on from them does not depend on their signs), this stays so. -/
theorem C136_dead_units (P : Picks ℝ) {e : GExpr ℝ} {ν : Signing} {I O : ℕ} (trained : List ℕ) {s : ℕ → GLayer ℝ} (h : e.SignedFirst s ν (fun _ => false) (fun _ => false) I O) (hs : signAll ν s = s) {bs : List (Batch ℝ)}
    (hbs : ∀ b ∈ bs, b.x.WF ∧ ∃ B, b.x.shape = [B, I] ∧ ∀ y : Tensor ℝ, y.shape = [B, O] → y.WF → (b.lossGrad y).shape = [B, O] ∧ (b.lossGrad y).WF) :
    ∃ s', train P e trained s bs = .ok s' ∧ signAll ν s' = s' := by
  obtain ⟨s', t1, t2, -⟩ := C136_hidden_units P trained h hbs
  rw [hs, t1] at t2
  exact ⟨s', t1, (Except.ok.inj t2).symm⟩

end HOL
