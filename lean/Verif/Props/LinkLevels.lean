import Verif.Spec.LinkLevels
import Verif.Model.Training
import Verif.Props.RenumberTraining
import Verif.Props.Basis

/-! # C133: gradient descent keeps the differences of the levels of the links to an output -/

namespace HOL
open TorchScalar Spec

/-! ## layers -/

/-- **C133 (gradients, piecewise layers).** The gradient of the weights of a link, summed over all of them, is the sum over the batch of the gradient of the output times the derivative of the output by the link: all basis functions sum
to one, so where the input lies does not matter. -/
theorem C133_piecewise (L : PwLayer ℝ) (h : L.WF) {B : ℕ} {x : Tensor ℝ} (hx : x.shape = [B, L.inFeatures]) (hwx : x.WF) (g : Tensor ℝ) {o i : ℕ} (ho : o < L.outFeatures) (hi : i < L.inFeatures) :
    (L.weightGrad x g).shape = L.w.shape ∧ linkSum (L.weightGrad x g) o i = ∑ b ∈ Finset.range B, L.linkFactor (fun j => L.linkFn o j (x.get [b, j])) i * g.get [b, o] := by
  have hs : (L.weightGrad x g).shape = L.w.shape := by
    unfold PwLayer.weightGrad
    simp only [hx]
    exact (L.gradW_shape h hx hwx _).1
  refine ⟨hs, ?_⟩
  unfold linkSum
  rw [hs, h.w_shape]
  show ∑ q ∈ Finset.range (PwLayer.wSize L.cls L.n L.segments), _ = _
  rw [Finset.sum_congr rfl fun q hq => weightGrad_get L h hx hwx g ho hi (Finset.mem_range.1 hq), Finset.sum_comm]
  refine Finset.sum_congr rfl fun b _ => ?_
  rw [← Finset.sum_mul, ← Finset.sum_mul, Finset.sum_comm]
  have h1 : ∑ k ∈ Finset.range L.n, ∑ q ∈ Finset.range (PwLayer.wSize L.cls L.n L.segments), (if L.seg (x.get [b, i]) * L.stride + k = q then
      (getLagrangeBasis L.n ((2 : ℕ) : ℝ)).call (L.xIn (x.get [b, i])) k else 0) = 1 := by
    rw [Finset.sum_congr rfl fun k hk => by
      rw [Finset.sum_ite_eq, if_pos (Finset.mem_range.2 (L.widx_lt h.n_pos (L.seg_lt h.seg_pos _) (Finset.mem_range.1 hk)))]]
    exact C03_partition_of_unity L.n h.n_pos _ (by norm_num) _
  rw [h1, one_mul]

/-- **C133 (gradients, `Polynomial`).** -/
theorem C133_polynomial (L : FnLayer ℝ) (h : L.Fits) {length : ℝ} (hl : length ≠ 0) (hb : L.poly.basis = getLagrangeBasis L.poly.n length) {B : ℕ} {x : Tensor ℝ} (hx : x.shape = [B, L.inFeatures]) (g : Tensor ℝ)
    {o i : ℕ} (ho : o < L.outFeatures) (hi : i < L.inFeatures) : (L.weightGrad x g).shape = L.w.shape ∧ linkSum (L.weightGrad x g) o i = ∑ b ∈ Finset.range B, g.get [b, o] := by
  have hw : L.weightGrad x g = Tensor.tab3 L.outFeatures L.inFeatures L.poly.n fun o i p =>
      sumL ((List.range B).map fun b => g.get [b, o] * L.poly.basis.call (periodize L.periodicity (x.get [b, i])) p) := by
    unfold FnLayer.weightGrad
    rw [hx]
  rw [hw, h.w_shape]
  refine ⟨rfl, ?_⟩
  unfold linkSum
  show ∑ q ∈ Finset.range L.poly.n, _ = _
  rw [Finset.sum_congr rfl fun q hq => by rw [Tensor.get_tab3 ho hi (Finset.mem_range.1 hq), sumL_range], Finset.sum_comm]
  refine Finset.sum_congr rfl fun b _ => ?_
  rw [← Finset.mul_sum, hb, C03_partition_of_unity _ h.n_pos _ hl, mul_one]

/-- **C133 (gradients, `FourierSeries`).** -/
theorem C133_fourier (L : FnLayer ℝ) (h : L.Fits) {length : ℝ} (hb : L.poly.basis = .fourier length) {B : ℕ} {x : Tensor ℝ} (hx : x.shape = [B, L.inFeatures]) (g : Tensor ℝ)
    {o i : ℕ} (ho : o < L.outFeatures) (hi : i < L.inFeatures) : (L.weightGrad x g).shape = L.w.shape ∧ (L.weightGrad x g).get [o, i, 0] = 1 / 2 * ∑ b ∈ Finset.range B, g.get [b, o] := by
  have hw : L.weightGrad x g = Tensor.tab3 L.outFeatures L.inFeatures L.poly.n fun o i p =>
      sumL ((List.range B).map fun b => g.get [b, o] * L.poly.basis.call (periodize L.periodicity (x.get [b, i])) p) := by
    unfold FnLayer.weightGrad
    rw [hx]
  rw [hw, h.w_shape]
  refine ⟨rfl, ?_⟩
  rw [Tensor.get_tab3 ho hi h.n_pos, sumL_range, Finset.mul_sum]
  refine Finset.sum_congr rfl fun b _ => ?_
  rw [hb]
  show _ * ((1 / ((2 : ℕ) : ℝ)) + 0 * _) = _
  push_cast
  ring

/-! ## shapes of the values inside of a network -/

theorem layer_shape {l : GLayer ℝ} {I O : ℕ} (hf : l.Fits I O) {B : ℕ} {x : Tensor ℝ} (hx : x.shape = [B, I]) (hwx : x.WF) : ∃ y, l.forward x = .ok y ∧ y.shape = [B, O] ∧ y.WF := by
  by_cases hn : l = .relu
  · subst hn
    obtain rfl : I = O := hf
    exact ⟨reluT x, rfl, hx, Tensor.wf_map hwx _⟩
  · obtain ⟨y, h1, h2, h3, -⟩ := C131_layer hf hn (Renumbers.id I) (Renumbers.id O) hx hwx
    exact ⟨y, h1, h2, h3⟩

theorem reduceDim_shape {f : List ℝ → ℝ} {x y : Tensor ℝ} {dim : ℕ} (h : reduceDim f x dim = .ok y) : y.shape = x.shape.set dim 1 := by
  unfold reduceDim at h
  split at h
  · obtain rfl := Except.ok.inj h
    rfl
  · cases h

theorem maxAbs_shape {x y : Tensor ℝ} {eps : ℝ} {dim : ℕ} (h : maxAbsNormalization x eps dim = .ok y) : y.shape = x.shape ∧ y.WF := by
  unfold maxAbsNormalization at h
  cases hm : maxAbs x dim with
  | error e => rw [hm] at h; cases h
  | ok m =>
    rw [hm] at h
    obtain rfl := Except.ok.inj h
    exact ⟨rfl, Tensor.wf_tabulate _ _⟩

theorem maxCenter_shape {x y : Tensor ℝ} {eps : ℝ} {dim : ℕ} (h : maxCenterNormalization x eps dim = .ok y) : y.shape = x.shape ∧ y.WF := by
  unfold maxCenterNormalization at h
  cases hm : reduceDim maxL x dim with
  | error e => rw [hm] at h; cases h
  | ok m =>
    rw [hm] at h
    cases hm' : reduceDim minL x dim with
    | error e =>
      change (reduceDim minL x dim >>= _) = _ at h
      rw [hm'] at h
      cases h
    | ok m' =>
      change (reduceDim minL x dim >>= _) = _ at h
      rw [hm'] at h
      obtain rfl := Except.ok.inj h
      exact ⟨rfl, Tensor.wf_tabulate _ _⟩

theorem flattenRows_shape {x y : Tensor ℝ} (h : flattenRows x = .ok y) : numel y.shape = numel x.shape := by
  unfold flattenRows at h
  split at h
  · cases h
  · rename_i s0 ss hs
    split at h
    · cases h
    · obtain rfl := Except.ok.inj h
      rw [hs]
      show numel [s0, numel ss] = _
      simp [numel]

theorem norm_shape {N : NormModule ℝ} {S : List ℕ} (ht : N.Takes S) {x y : Tensor ℝ} (h : N.apply x = .ok y) : y.shape = x.shape ∧ y.WF := by
  have plain : ∀ {r : Py (Tensor ℝ)}, Except.map Prod.fst (r >>= fun t => .ok (t, N)) = .ok y → r = .ok y := by
    intro r hr
    cases r with
    | error e => cases hr
    | ok t => exact hr
  cases N with
  | maxAbsLast eps => exact maxAbs_shape (plain h)
  | maxCenterLast eps => exact maxCenter_shape (plain h)
  | maxAbs eps dim => exact maxAbs_shape (plain h)
  | maxCenter eps => exact maxCenter_shape (plain h)
  | maxCenterND eps =>
    have h := plain (r := maxCenterNormalizationND x eps) h
    unfold maxCenterNormalizationND at h
    cases hf : flattenRows x with
    | error e => rw [hf] at h; cases h
    | ok xn =>
      rw [hf] at h
      change (maxCenterNormalization xn eps 1 >>= _) = _ at h
      cases hm : maxCenterNormalization xn eps 1 with
      | error e => rw [hm] at h; cases h
      | ok t =>
        rw [hm] at h
        obtain rfl := Except.ok.inj h
        obtain ⟨h1, h2⟩ := maxCenter_shape hm
        exact ⟨rfl, Tensor.wf_reshape h2 (by rw [h1, flattenRows_shape hf])⟩
  | maxAbsND eps =>
    have h := plain (r := maxAbsNormalizationND x eps) h
    unfold maxAbsNormalizationND at h
    cases hf : flattenRows x with
    | error e => rw [hf] at h; cases h
    | ok xn =>
      rw [hf] at h
      change (maxAbs xn 1 >>= _) = _ at h
      cases hm : maxAbs xn 1 with
      | error e => rw [hm] at h; cases h
      | ok t =>
        rw [hm] at h
        obtain rfl := Except.ok.inj h
        exact ⟨rfl, Tensor.wf_reshape (Tensor.wf_tabulate _ _) (flattenRows_shape hf).symm⟩
  | l2 eps =>
    have h := plain (r := l2Normalization x eps) h
    unfold l2Normalization at h
    cases hm : reduceDim (fun l => sqrt (sumL (l.map fun a => a * a))) x 1 with
    | error e => rw [hm] at h; cases h
    | ok m =>
      rw [hm] at h
      obtain rfl := Except.ok.inj h
      exact ⟨rfl, Tensor.wf_tabulate _ _⟩
  | layerNorm M =>
    have key : ∀ (w : Tensor ℝ) (b : Option (Tensor ℝ)) (t : Tensor ℝ), layerNorm x w b defaultEps = .ok t → t.shape = x.shape ∧ t.WF := by
      intro w b t ht
      unfold layerNorm at ht
      split at ht
      · cases ht
      · split at ht
        · obtain rfl := Except.ok.inj ht
          exact ⟨rfl, Tensor.wf_tabulate _ _⟩
        · cases ht
    obtain ⟨n, w, -, -, hw, -⟩ := ht
    rw [layerNorm_apply hw] at h
    exact key _ _ _ h

theorem stage_shape {s : NStage ℝ} {S T : List ℕ} (h : s.Takes S T) {x y : Tensor ℝ} (hx : x.shape = S) (hwx : x.WF) (hy : s.forward x = .ok y) : y.shape = T ∧ y.WF := by
  have vec : ∀ {F : (Fin (numel S) → ℝ) → Fin (numel T) → ℝ}, (∀ Y, s.forward (ofVec S Y) = .ok (ofVec T (F Y))) → y.shape = T ∧ y.WF := by
    intro F hF
    rw [eq_ofVec hx hwx, hF] at hy
    obtain rfl := Except.ok.inj hy
    exact ⟨rfl, ofVec_wf _ _⟩
  cases s with
  | norm N =>
    obtain ⟨rfl, hN⟩ := h
    obtain ⟨h1, h2⟩ := norm_shape hN (show N.apply x = .ok y from hy)
    exact ⟨h1.trans hx, h2⟩
  | base s =>
    cases s with
    | conv L =>
      have hT : L.Takes S T := h
      obtain ⟨B, C, R, r, rfl, hst⟩ := L.staged hT
      exact vec (L.forward_vec hst L.weight rfl)
    | norm two training channels N =>
      obtain ⟨rfl, B, R, rfl, hR, ht⟩ := h
      exact vec (norm_vec N two training channels B channels R hR fun e => by rw [if_pos e] at ht; exact ht.1)
    | pool d =>
      obtain ⟨hr, hN, rfl⟩ := h
      obtain ⟨F, hb⟩ := backprop_pool d hr hN (fun _ => 0)
      exact vec hb.run
    | flatten =>
      obtain ⟨B, C, R, rfl, rfl⟩ := h
      exact vec (backprop_reshape (f := flatten1) (S := B :: C :: R) (T := [B, numel (C :: R)]) (by simp [numel]) (fun x hx => by unfold flatten1; rw [hx]) (fun _ => 0)).run
    | dense l =>
      obtain ⟨B, I, O, rfl, rfl, hl⟩ := h
      obtain ⟨y', h1, h2, h3⟩ := layer_shape hl hx hwx
      obtain rfl := Except.ok.inj (h1.symm.trans hy)
      exact ⟨h2, h3⟩

theorem zip_shape {f : ℝ → ℝ → ℝ} {u v y : Tensor ℝ} {T : List ℕ} (hu : u.shape = T) (hwu : u.WF) (hv : v.shape = T) (hwv : v.WF) (h : zipBcast f u v = .ok y) : y.shape = T ∧ y.WF := by
  rw [eq_ofVec hu hwu, eq_ofVec hv hwv, zipBcast_vec] at h
  obtain rfl := Except.ok.inj h
  exact ⟨rfl, ofVec_wf _ _⟩

theorem expr_shape {σ : ℕ → GLayer ℝ} : ∀ (e : GExpr ℝ) {S T : List ℕ}, e.Takes σ S T → ∀ {x y : Tensor ℝ}, x.shape = S → x.WF → e.forward σ x = .ok y → y.shape = T ∧ y.WF
  | .leaf j, S, T, h, x, y, hx, hwx, hy => by
    obtain ⟨B, I, O, rfl, rfl, hl⟩ := h
    obtain ⟨y', h1, h2, h3⟩ := layer_shape hl hx hwx
    obtain rfl := Except.ok.inj (h1.symm.trans hy)
    exact ⟨h2, h3⟩
  | .fixed s, S, T, h, x, y, hx, hwx, hy => stage_shape h hx hwx hy
  | .comp a b, S, T, ⟨M, h1, h2⟩, x, y, hx, hwx, hy => by
    change (a.forward σ x >>= b.forward σ) = _ at hy
    cases hu : a.forward σ x with
    | error e => rw [hu] at hy; cases hy
    | ok u =>
      rw [hu] at hy
      obtain ⟨u1, u2⟩ := expr_shape a h1 hx hwx hu
      exact expr_shape b h2 u1 u2 hy
  | .add a b, S, T, ⟨h1, h2⟩, x, y, hx, hwx, hy => by
    change (a.forward σ x >>= fun u => b.forward σ x >>= fun v => zipBcast (· + ·) u v) = _ at hy
    cases hu : a.forward σ x with
    | error e => rw [hu] at hy; cases hy
    | ok u =>
      rw [hu] at hy
      change (b.forward σ x >>= fun v => zipBcast (· + ·) u v) = _ at hy
      cases hv : b.forward σ x with
      | error e => rw [hv] at hy; cases hy
      | ok v =>
        rw [hv] at hy
        obtain ⟨u1, u2⟩ := expr_shape a h1 hx hwx hu
        obtain ⟨v1, v2⟩ := expr_shape b h2 hx hwx hv
        exact zip_shape u1 u2 v1 v2 hy
  | .mul a b, S, T, ⟨h1, h2⟩, x, y, hx, hwx, hy => by
    change (a.forward σ x >>= fun u => b.forward σ x >>= fun v => zipBcast (· * ·) u v >>= fun r => if r.shape = u.shape then .ok r else .error .runtimeError) = _ at hy
    cases hu : a.forward σ x with
    | error e => rw [hu] at hy; cases hy
    | ok u =>
      rw [hu] at hy
      change (b.forward σ x >>= fun v => zipBcast (· * ·) u v >>= fun r => if r.shape = u.shape then .ok r else .error .runtimeError) = _ at hy
      cases hv : b.forward σ x with
      | error e => rw [hv] at hy; cases hy
      | ok v =>
        rw [hv] at hy
        change (zipBcast (· * ·) u v >>= fun r => if r.shape = u.shape then .ok r else .error .runtimeError) = _ at hy
        obtain ⟨u1, u2⟩ := expr_shape a h1 hx hwx hu
        obtain ⟨v1, v2⟩ := expr_shape b h2 hx hwx hv
        cases hr : zipBcast (· * ·) u v with
        | error e => rw [hr] at hy; cases hy
        | ok r =>
          rw [hr] at hy
          change (if r.shape = u.shape then Except.ok r else Except.error PyErr.runtimeError) = _ at hy
          split at hy
          · obtain rfl := Except.ok.inj hy
            exact zip_shape u1 u2 v1 v2 hr
          · cases hy

/-! ## the backward pass of a network -/

/-- A contribution of a backward pass comes from a use of its module, on some input that fits. -/
def FromUse (σ : ℕ → GLayer ℝ) (c : ℕ × List (Tensor ℝ)) : Prop := ∃ (B I O : ℕ) (x g : Tensor ℝ), (σ c.1).Fits I O ∧ x.shape = [B, I] ∧ x.WF ∧ c.2 = (σ c.1).paramGrads x g

theorem backward_uses {σ : ℕ → GLayer ℝ} (P : Picks ℝ) : ∀ (e : GExpr ℝ) {S T : List ℕ}, e.Takes σ S T → ∀ {x g : Tensor ℝ} {r : Tensor ℝ × List (ℕ × List (Tensor ℝ))}, x.shape = S → x.WF →
    e.backward P σ x g = .ok r → ∀ c ∈ r.2, FromUse σ c
  | .leaf j, S, T, h, x, g, r, hx, hwx, hr => by
    obtain ⟨B, I, O, rfl, rfl, hl⟩ := h
    obtain rfl := Except.ok.inj hr
    intro c hc
    obtain rfl := List.mem_singleton.1 hc
    exact ⟨B, I, O, x, g, hl, hx, hwx, rfl⟩
  | .fixed s, S, T, h, x, g, r, hx, hwx, hr => by
    change (s.inputGrad P x g >>= fun gx => .ok (gx, [])) = _ at hr
    cases hs : s.inputGrad P x g with
    | error e => rw [hs] at hr; cases hr
    | ok gx =>
      rw [hs] at hr
      obtain rfl := Except.ok.inj hr
      intro c hc
      cases hc
  | .comp a b, S, T, ⟨M, h1, h2⟩, x, g, r, hx, hwx, hr => by
    change (a.forward σ x >>= fun y => b.backward P σ y g >>= fun rb => a.backward P σ x rb.1 >>= fun ra => .ok (ra.1, ra.2 ++ rb.2)) = _ at hr
    cases hu : a.forward σ x with
    | error e => rw [hu] at hr; cases hr
    | ok u =>
      rw [hu] at hr
      change (b.backward P σ u g >>= fun rb => a.backward P σ x rb.1 >>= fun ra => .ok (ra.1, ra.2 ++ rb.2)) = _ at hr
      obtain ⟨u1, u2⟩ := expr_shape a h1 hx hwx hu
      cases hb : b.backward P σ u g with
      | error e => rw [hb] at hr; cases hr
      | ok rb =>
        rw [hb] at hr
        change (a.backward P σ x rb.1 >>= fun ra => .ok (ra.1, ra.2 ++ rb.2)) = _ at hr
        cases ha : a.backward P σ x rb.1 with
        | error e => rw [ha] at hr; cases hr
        | ok ra =>
          rw [ha] at hr
          obtain rfl := Except.ok.inj hr
          intro c hc
          rcases List.mem_append.1 hc with hc | hc
          · exact backward_uses P a h1 hx hwx ha c hc
          · exact backward_uses P b h2 u1 u2 hb c hc
  | .add a b, S, T, ⟨h1, h2⟩, x, g, r, hx, hwx, hr => by
    change (a.backward P σ x g >>= fun ra => b.backward P σ x g >>= fun rb => .ok (addT ra.1 rb.1, ra.2 ++ rb.2)) = _ at hr
    cases ha : a.backward P σ x g with
    | error e => rw [ha] at hr; cases hr
    | ok ra =>
      rw [ha] at hr
      change (b.backward P σ x g >>= fun rb => .ok (addT ra.1 rb.1, ra.2 ++ rb.2)) = _ at hr
      cases hb : b.backward P σ x g with
      | error e => rw [hb] at hr; cases hr
      | ok rb =>
        rw [hb] at hr
        obtain rfl := Except.ok.inj hr
        intro c hc
        rcases List.mem_append.1 hc with hc | hc
        · exact backward_uses P a h1 hx hwx ha c hc
        · exact backward_uses P b h2 hx hwx hb c hc
  | .mul a b, S, T, ⟨h1, h2⟩, x, g, r, hx, hwx, hr => by
    change (a.forward σ x >>= fun u => b.forward σ x >>= fun v => a.backward P σ x (mulT g v) >>= fun ra => b.backward P σ x (mulT g u) >>= fun rb => .ok (addT ra.1 rb.1, ra.2 ++ rb.2)) = _ at hr
    cases hu : a.forward σ x with
    | error e => rw [hu] at hr; cases hr
    | ok u =>
      rw [hu] at hr
      change (b.forward σ x >>= fun v => a.backward P σ x (mulT g v) >>= fun ra => b.backward P σ x (mulT g u) >>= fun rb => .ok (addT ra.1 rb.1, ra.2 ++ rb.2)) = _ at hr
      cases hv : b.forward σ x with
      | error e => rw [hv] at hr; cases hr
      | ok v =>
        rw [hv] at hr
        change (a.backward P σ x (mulT g v) >>= fun ra => b.backward P σ x (mulT g u) >>= fun rb => .ok (addT ra.1 rb.1, ra.2 ++ rb.2)) = _ at hr
        cases ha : a.backward P σ x (mulT g v) with
        | error e => rw [ha] at hr; cases hr
        | ok ra =>
          rw [ha] at hr
          change (b.backward P σ x (mulT g u) >>= fun rb => .ok (addT ra.1 rb.1, ra.2 ++ rb.2)) = _ at hr
          cases hb : b.backward P σ x (mulT g u) with
          | error e => rw [hb] at hr; cases hr
          | ok rb =>
            rw [hb] at hr
            obtain rfl := Except.ok.inj hr
            intro c hc
            rcases List.mem_append.1 hc with hc | hc
            · exact backward_uses P a h1 hx hwx ha c hc
            · exact backward_uses P b h2 hx hwx hb c hc

/-! ## steps -/

/-- The level as a weighted sum of the weights of the link. -/
noncomputable def weighted (c : ℕ → ℝ) (n : ℕ) (t : Tensor ℝ) (o i : ℕ) : ℝ := ∑ k ∈ Finset.range n, c k * t.get [o, i, k]

/-- A tensor of the shape of the weights whose weighted sums are the same for all links to an output. -/
def Balanced (c : ℕ → ℝ) (O I n : ℕ) (t : Tensor ℝ) : Prop := t.shape = [O, I, n] ∧ ∀ o < O, ∀ i < I, ∀ i' < I, weighted c n t o i = weighted c n t o i'

theorem Balanced.addT {c : ℕ → ℝ} {O I n : ℕ} {s t : Tensor ℝ} (hs : Balanced c O I n s) (ht : Balanced c O I n t) : Balanced c O I n (addT s t) := by
  refine ⟨hs.1, fun o ho i hi i' hi' => ?_⟩
  have key : ∀ j < I, weighted c n (HOL.addT s t) o j = weighted c n s o j + weighted c n t o j := by
    intro j hj
    unfold weighted
    rw [← Finset.sum_add_distrib]
    refine Finset.sum_congr rfl fun k hk => ?_
    unfold HOL.addT
    rw [Tensor.get_tabulate (by rw [hs.1]; exact inShape3.2 ⟨ho, hj, Finset.mem_range.1 hk⟩)]
    ring
  rw [key i hi, key i' hi', hs.2 o ho i hi i' hi', ht.2 o ho i hi i' hi']

theorem Balanced.foldl {c : ℕ → ℝ} {O I n : ℕ} : ∀ (ts : List (Tensor ℝ)) {t : Tensor ℝ}, Balanced c O I n t → (∀ s ∈ ts, Balanced c O I n s) → Balanced c O I n (ts.foldl HOL.addT t)
  | [], t, ht, _ => ht
  | s :: ts, t, ht, h => Balanced.foldl ts (ht.addT (h s List.mem_cons_self)) fun r hr => h r (List.mem_cons_of_mem _ hr)

theorem sgd_weighted {c : ℕ → ℝ} {O I n : ℕ} {p : Tensor ℝ} (hp : p.shape = [O, I, n]) {acc : Option (Tensor ℝ)} (ha : ∀ g, acc = some g → Balanced c O I n g) (lr : ℝ) {o i i' : ℕ} (ho : o < O) (hi : i < I) (hi' : i' < I) :
    weighted c n (sgdParam lr p acc) o i - weighted c n (sgdParam lr p acc) o i' = weighted c n p o i - weighted c n p o i' := by
  cases acc with
  | none => rfl
  | some g =>
    have key : ∀ j < I, weighted c n (sgdParam lr p (some g)) o j = weighted c n p o j - lr * weighted c n g o j := by
      intro j hj
      unfold weighted
      rw [Finset.mul_sum, ← Finset.sum_sub_distrib]
      refine Finset.sum_congr rfl fun k hk => ?_
      unfold sgdParam
      dsimp only
      rw [Tensor.get_tabulate (by rw [hp]; exact inShape3.2 ⟨ho, hj, Finset.mem_range.1 hk⟩)]
      ring
    rw [key i hi, key i' hi', (ha g rfl).2 o ho i hi i' hi']
    ring

/-- The level of the links of a layer, as a weighted sum. -/
theorem layer_balanced {l : GLayer ℝ} {I O : ℕ} (hf : l.Fits I O) (ha : l.AddsLinks) : ∃ (c : ℕ → ℝ) (n : ℕ),
    (∀ lr acc, ∃ p, (l.sgd lr acc).params = [sgdParam lr p (acc 0)] ∧ p.shape = [O, I, n] ∧ ∀ o < O, ∀ i < I, linkLevel l o i = weighted c n p o i ∧ linkLevel (l.sgd lr acc) o i = weighted c n (sgdParam lr p (acc 0)) o i) ∧
    ∀ {B : ℕ} {x : Tensor ℝ} (g : Tensor ℝ), x.shape = [B, I] → x.WF → ∃ t, l.paramGrads x g = [t] ∧ Balanced c O I n t := by
  have hsh : ∀ lr p (acc : Option (Tensor ℝ)), (sgdParam lr p acc).shape = p.shape := by
    intro lr p acc
    cases acc <;> rfl
  have hone : ∀ {t : Tensor ℝ} {n : ℕ}, t.shape = [O, I, n] → ∀ o i, linkSum t o i = weighted (fun _ => 1) n t o i := by
    intro t n ht o i
    unfold linkSum weighted
    rw [ht]
    exact Finset.sum_congr rfl fun k _ => (one_mul _).symm
  match l, hf, ha with
  | .pw L, hf, ha =>
    obtain ⟨hw, -, -, rfl, rfl⟩ := hf
    refine ⟨fun _ => 1, PwLayer.wSize L.cls L.n L.segments, fun lr acc => ⟨L.w, rfl, hw.w_shape, fun o ho i hi => ⟨hone hw.w_shape o i, hone ((hsh _ _ _).trans hw.w_shape) o i⟩⟩, fun {B} {x} g hx hwx => ⟨_, rfl, ?_⟩⟩
    obtain hs := fun o ho i hi => C133_piecewise L hw hx hwx g (o := o) (i := i) ho hi
    have h1 := (hs 0 hw.out_pos 0 hw.in_pos).1.trans hw.w_shape
    refine ⟨h1, fun o ho i hi i' hi' => ?_⟩
    have hfac : ∀ (f : ℕ → ℝ) j, L.linkFactor f j = 1 := by
      intro f j
      unfold PwLayer.linkFactor
      rw [if_neg]
      rcases ha with ha | ha <;> rw [ha] <;> simp
    rw [← hone h1, ← hone h1, (hs o ho i hi).2, (hs o ho i' hi').2]
    exact Finset.sum_congr rfl fun b _ => by rw [hfac, hfac]
  | .fn L, hf, ha =>
    obtain ⟨hw, rfl, rfl⟩ := hf
    rcases ha with ⟨length, hl, hb⟩ | ⟨length, hb⟩
    · have hnf : ∀ r, L.poly.basis ≠ .fourier r := by
        intro r hr
        rw [hb] at hr
        unfold getLagrangeBasis at hr
        split at hr <;> cases hr
      have hlev : ∀ w o i, linkLevel (.fn { L with w := w }) o i = linkSum w o i := by
        intro w o i
        unfold linkLevel
        dsimp only
        split
        · rename_i hr
          exact absurd hr (hnf _)
        · rfl
      refine ⟨fun _ => 1, L.poly.n, fun lr acc => ⟨L.w, rfl, hw.w_shape, fun o ho i hi => ⟨(hlev L.w o i).trans (hone hw.w_shape o i), (hlev _ o i).trans (hone ((hsh _ _ _).trans hw.w_shape) o i)⟩⟩, fun {B} {x} g hx hwx => ⟨_, rfl, ?_⟩⟩
      have hs := fun o ho i hi => C133_polynomial L hw hl hb hx g (o := o) (i := i) ho hi
      have h1 : (L.weightGrad x g).shape = [L.outFeatures, L.inFeatures, L.poly.n] := by
        unfold FnLayer.weightGrad
        rw [hx]
        rfl
      refine ⟨h1, fun o ho i hi i' hi' => ?_⟩
      rw [← hone h1, ← hone h1, (hs o ho i hi).2, (hs o ho i' hi').2]
    · have hlev : ∀ w o i, linkLevel (.fn { L with w := w }) o i = w.get [o, i, 0] := by
        intro w o i
        unfold linkLevel
        dsimp only
        rw [hb]
      have hzero : ∀ (t : Tensor ℝ) o i, t.get [o, i, 0] = weighted (fun k => if k = 0 then 1 else 0) L.poly.n t o i := by
        intro t o i
        unfold weighted
        rw [Finset.sum_eq_single 0 (fun k _ hk => by beta_reduce; rw [if_neg hk, zero_mul]) (fun h => absurd (Finset.mem_range.2 hw.n_pos) h)]
        beta_reduce
        rw [if_pos rfl, one_mul]
      refine ⟨fun k => if k = 0 then 1 else 0, L.poly.n, fun lr acc => ⟨L.w, rfl, hw.w_shape, fun o ho i hi => ⟨(hlev L.w o i).trans (hzero _ o i), (hlev _ o i).trans (hzero _ o i)⟩⟩, fun {B} {x} g hx hwx => ⟨_, rfl, ?_⟩⟩
      have hs := fun o ho i hi => C133_fourier L hw hb hx g (o := o) (i := i) ho hi
      have h1 : (L.weightGrad x g).shape = [L.outFeatures, L.inFeatures, L.poly.n] := by
        unfold FnLayer.weightGrad
        rw [hx]
        rfl
      refine ⟨h1, fun o ho i hi i' hi' => ?_⟩
      rw [← hzero, ← hzero, (hs o ho i hi).2, (hs o ho i' hi').2]

theorem Takes.step {σ : ℕ → GLayer ℝ} (trained : List ℕ) (lr : ℝ) (cs : List (ℕ × List (Tensor ℝ))) : ∀ (e : GExpr ℝ) {S T : List ℕ}, e.Takes σ S T → e.Takes (sgdStep trained lr cs σ) S T
  | .leaf j, S, T, ⟨B, I, O, h1, h2, h3⟩ => by
    refine ⟨B, I, O, h1, h2, ?_⟩
    unfold sgdStep
    split
    · exact GLayer.sgd_fits h3 lr _
    · exact h3
  | .fixed s, S, T, h => h
  | .comp a b, S, T, ⟨M, h1, h2⟩ => ⟨M, Takes.step trained lr cs a h1, Takes.step trained lr cs b h2⟩
  | .add a b, S, T, ⟨h1, h2⟩ => ⟨Takes.step trained lr cs a h1, Takes.step trained lr cs b h2⟩
  | .mul a b, S, T, ⟨h1, h2⟩ => ⟨Takes.step trained lr cs a h1, Takes.step trained lr cs b h2⟩

theorem adds_sgd {l : GLayer ℝ} (h : l.AddsLinks) (lr : ℝ) (acc : ℕ → Option (Tensor ℝ)) : (l.sgd lr acc).AddsLinks := by
  cases l <;> exact h

/-- **C133 (steps).** One step of gradient descent after a backward pass through any network, with the gradient `g` of any loss: the level of all links to an output of a layer that adds its links changes by the same amount. -/
theorem C133_step {σ : ℕ → GLayer ℝ} (P : Picks ℝ) {e : GExpr ℝ} {S T : List ℕ} (h : e.Takes σ S T) {x g : Tensor ℝ} (hx : x.shape = S) (hwx : x.WF) {r : Tensor ℝ × List (ℕ × List (Tensor ℝ))}
    (hr : e.backward P σ x g = .ok r) (trained : List ℕ) (lr : ℝ) {j I O : ℕ} (hf : (σ j).Fits I O) (ha : (σ j).AddsLinks) {o i i' : ℕ} (ho : o < O) (hi : i < I) (hi' : i' < I) :
    linkLevel (sgdStep trained lr r.2 σ j) o i - linkLevel (sgdStep trained lr r.2 σ j) o i' = linkLevel (σ j) o i - linkLevel (σ j) o i' := by
  unfold sgdStep
  by_cases ht : j ∈ trained
  swap
  · rw [if_neg ht]
  rw [if_pos ht]
  obtain ⟨c, n, hl, hg⟩ := layer_balanced hf ha
  obtain ⟨p, -, hp, hlev⟩ := hl lr (accumulated r.2 j)
  rw [(hlev o ho i hi).2, (hlev o ho i' hi').2, (hlev o ho i hi).1, (hlev o ho i' hi').1]
  refine sgd_weighted hp (fun t hacc => ?_) lr ho hi hi'
  have hall : ∀ s ∈ contributions r.2 j 0, Balanced c O I n s := by
    intro s hs
    unfold contributions at hs
    obtain ⟨d, hd, hdk⟩ := List.mem_filterMap.1 hs
    split at hdk
    · rename_i hj
      obtain ⟨B, I', O', y, u, h1, h2, h3, h4⟩ := backward_uses P e h hx hwx hr d hd
      rw [hj] at h1 h4
      obtain ⟨rfl, rfl⟩ : I' = I ∧ O' = O := by
        match hσ : σ j, hf, h1, ha with
        | .pw L, hf, h1, _ => exact ⟨h1.2.2.2.1.symm.trans hf.2.2.2.1, h1.2.2.2.2.symm.trans hf.2.2.2.2⟩
        | .fn L, hf, h1, _ => exact ⟨h1.2.1.symm.trans hf.2.1, h1.2.2.symm.trans hf.2.2⟩
      obtain ⟨t', t1, t2⟩ := hg u h2 h3
      rw [h4, t1] at hdk
      obtain rfl := Option.some.inj hdk
      exact t2
    · cases hdk
  unfold accumulated at hacc
  split at hacc
  · cases hacc
  · rename_i t0 ts hc
    obtain rfl := Option.some.inj hacc
    rw [hc] at hall
    exact Balanced.foldl ts (hall t0 List.mem_cons_self) fun s hs => hall s (List.mem_cons_of_mem _ hs)

/-- **C133 (training).** Whatever the network around, the batches, the losses and the learning rates: training by gradient descent never changes the differences of the levels of the links to an output of a layer that adds its links. -/
theorem C133_training (P : Picks ℝ) {e : GExpr ℝ} (trained : List ℕ) {j I O : ℕ} {o i i' : ℕ} (ho : o < O) (hi : i < I) (hi' : i' < I) : ∀ {bs : List (Batch ℝ)} {σ σ' : ℕ → GLayer ℝ},
    (∀ b ∈ bs, b.x.WF ∧ ∃ T, e.Takes σ b.x.shape T) → (σ j).Fits I O → (σ j).AddsLinks → train P e trained σ bs = .ok σ' →
      linkLevel (σ' j) o i - linkLevel (σ' j) o i' = linkLevel (σ j) o i - linkLevel (σ j) o i' := by
  intro bs
  induction bs with
  | nil =>
    intro σ σ' _ _ _ ht
    obtain rfl := Except.ok.inj ht
    rfl
  | cons b bs ih =>
    intro σ σ' h hf ha ht
    change (trainStep P e trained σ b >>= fun σ => train P e trained σ bs) = _ at ht
    unfold trainStep at ht
    cases hy : e.forward σ b.x with
    | error e => rw [hy] at ht; cases ht
    | ok y =>
      rw [hy] at ht
      change ((e.backward P σ b.x (b.lossGrad y) >>= fun r => .ok (sgdStep trained b.lr r.2 σ)) >>= fun σ => train P e trained σ bs) = _ at ht
      cases hr : e.backward P σ b.x (b.lossGrad y) with
      | error e => rw [hr] at ht; cases ht
      | ok r =>
        rw [hr] at ht
        change train P e trained (sgdStep trained b.lr r.2 σ) bs = _ at ht
        obtain ⟨hw, T, hT⟩ := h b List.mem_cons_self
        have hfa : (sgdStep trained b.lr r.2 σ j).Fits I O ∧ (sgdStep trained b.lr r.2 σ j).AddsLinks := by
          unfold sgdStep
          split
          · exact ⟨GLayer.sgd_fits hf _ _, adds_sgd ha _ _⟩
          · exact ⟨hf, ha⟩
        rw [ih (fun b' hb' => ?_) hfa.1 hfa.2 ht]
        · exact C133_step P hT rfl hw hr trained b.lr hf ha ho hi hi'
        · obtain ⟨hw', T', hT'⟩ := h b' (List.mem_cons_of_mem _ hb')
          exact ⟨hw', T', Takes.step trained b.lr r.2 e hT'⟩

end HOL
