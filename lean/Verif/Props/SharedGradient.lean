import Verif.Lemmas.SharedBackward

/-!
# C122: gradients of networks with branches and shared modules

`GExpr` describes what is computed from the input, referring to modules by number; `σ j` is module `j`.
-/

namespace HOL
open TorchScalar Spec Filter

/-- The contribution of a use of module `m` holds a gradient for parameter `k` of the shape of the parameter. -/
def Fitting (m k : ℕ) (shape : List ℕ) (c : ℕ × List (Tensor ℝ)) : Prop := c.1 = m → ∃ gp, c.2[k]? = some gp ∧ gp.shape = shape

theorem ofVec_inj {T : List ℕ} {u v : Fin (numel T) → ℝ} (h : ofVec T u = ofVec T v) : u = v := by
  funext p
  rw [← ofVec_get_unravel u p, h, ofVec_get_unravel]

theorem joint_fixed {P : Picks ℝ} (hP : P.Valid) (s : NStage ℝ) {S T : List ℕ} (h : s.Takes S T) (X : Fin (numel S) → ℝ) (hX : s.SmoothIn (ofVec S X)) (t0 : ℝ)
    {ctr : List (ℕ × List (Tensor ℝ)) → ℝ} (hc : ctr [] = 0) (good : ℕ × List (Tensor ℝ) → Prop) :
    ∃ Φ A, Joint (fun _ => s.forward) S T t0 X (fun g => do
      let gx ← s.inputGrad P (ofVec S X) g
      .ok (gx, [])) ctr good [] Φ A := by
  obtain ⟨F, A, hF, hA, hB⟩ := stage_vec hP s h X hX
  refine ⟨fun _ => F, A.comp (ContinuousLinearMap.snd ℝ ℝ _), ⟨fun _ => hF, HasFDerivAt.comp (g := F) (t0, X) hA hasFDerivAt_snd, fun g hs hw => ?_⟩⟩
  obtain ⟨gx, gps, e1, -, s1, w1, x1, -⟩ := hB g hs hw
  refine ⟨gx, [], ?_, s1, w1, rfl, (fun c hc => by cases hc), x1, ?_⟩
  · show (s.inputGrad P (ofVec S X) g >>= fun gx => Except.ok (gx, [])) = _
    rw [e1]
    rfl
  · rw [hc]
    show (0 : ℝ) = ∑ r : Fin (numel T), g.get (unravel T r) * A 0 r
    simp

/-- A use of a module: `τ t` is the module with entry `idx` of parameter `k` replaced by `t` if it is module `m`, and the module otherwise. -/
theorem joint_leaf {P : Picks ℝ} (hP : P.Valid) (σ : ℕ → GLayer ℝ) (τ : ℝ → ℕ → GLayer ℝ) {B I O : ℕ} (j : ℕ) (h : (σ j).Fits I O) (X : Fin (numel [B, I]) → ℝ)
    (hX : ∀ idx, InShape [B, I] idx → (σ j).SmoothAt ((ofVec [B, I] X).get idx)) (t0 : ℝ) (m k : ℕ) (idx shape : List ℕ)
    (hτ : (j ≠ m ∧ ∀ t, τ t j = σ j) ∨ (j = m ∧ ∃ p, (σ m).params[k]? = some p ∧ InShape p.shape idx ∧ p.shape = shape ∧ t0 = p.get idx ∧ ∀ t, τ t m = (σ m).setParam k (p.set idx t))) :
    ∃ Φ A, Joint (fun t => (τ t j).forward) [B, I] [B, O] t0 X (fun g => .ok ((σ j).inputGrad (ofVec [B, I] X) g, [(j, (σ j).paramGrads (ofVec [B, I] X) g)])) (ctrOf m k idx) (Fitting m k shape) [j] Φ A := by
  have stage : ∀ l : GLayer ℝ, l.Fits I O → (∀ idx, InShape [B, I] idx → l.SmoothAt ((ofVec [B, I] X).get idx)) → _ :=
    fun l hl hs => stage_vec hP (.base (.dense l)) (S := [B, I]) (T := [B, O]) ⟨B, I, O, rfl, rfl, hl⟩ X hs
  obtain ⟨F, A, hF, hA, hB⟩ := stage (σ j) h hX
  rcases hτ with ⟨hj, hτ⟩ | ⟨rfl, p, hp, hin, hsh, ht0, hτ⟩
  · refine ⟨fun _ => F, A.comp (ContinuousLinearMap.snd ℝ ℝ _), ⟨fun t Y => ?_, HasFDerivAt.comp (g := F) (t0, X) hA hasFDerivAt_snd, fun g hs hw => ?_⟩⟩
    · rw [hτ t]
      exact hF Y
    · obtain ⟨gx, gps, e1, e2, s1, w1, x1, -⟩ := hB g hs hw
      obtain rfl := Except.ok.inj e1
      refine ⟨_, _, rfl, s1, w1, rfl, ?_, x1, ?_⟩
      · intro c hc he
        rw [List.mem_singleton.1 hc] at he
        exact absurd he hj
      · have : ctrOf m k idx [(j, (σ j).paramGrads (ofVec [B, I] X) g)] = 0 := by
          unfold ctrOf contributions
          rw [List.filterMap_cons, if_neg hj]
          rfl
        rw [this]
        show (0 : ℝ) = ∑ r : Fin (numel [B, O]), g.get (unravel [B, O] r) * A 0 r
        simp
  · -- the family is a line between two members
    have hfit := fun t => GLayer.setParam_fits h hp idx t
    have hsm : ∀ t, ∀ i, InShape [B, I] i → ((σ j).setParam k (p.set idx t)).SmoothAt ((ofVec [B, I] X).get i) := fun t i hi => (GLayer.setParam_smooth _ _ _ _).2 (hX i hi)
    obtain ⟨F0, A0, hF0, hA0, -⟩ := stage _ (hfit 0) (hsm 0)
    obtain ⟨F1, A1, hF1, hA1, -⟩ := stage _ (hfit 1) (hsm 1)
    have hrun : ∀ t Y, ((σ j).setParam k (p.set idx t)).forward (ofVec [B, I] Y) = .ok (ofVec [B, O] (F0 Y + t • (F1 Y - F0 Y))) := by
      intro t Y
      obtain ⟨U, C, hU⟩ := GLayer.affine (σ j) h hp hin (matVec B I Y)
      rw [← ofVec_ofMat] at hU
      have key : ∀ t, ((σ j).setParam k (p.set idx t)).forward (ofVec [B, I] Y) = .ok (ofVec [B, O] (vecMat B O fun b o => U b o + (t - p.get idx) * C b o)) := by
        intro t
        rw [hU t, ofMat_ofVec]
      have h0 : F0 Y = vecMat B O fun b o => U b o + (0 - p.get idx) * C b o := ofVec_inj (Except.ok.inj ((hF0 Y).symm.trans (key 0)))
      have h1 : F1 Y = vecMat B O fun b o => U b o + (1 - p.get idx) * C b o := ofVec_inj (Except.ok.inj ((hF1 Y).symm.trans (key 1)))
      rw [key t, h0, h1, ← map_sub, ← map_smul, ← map_add]
      congr 3
      funext b o
      simp only [Pi.add_apply, Pi.smul_apply, Pi.sub_apply, smul_eq_mul]
      ring
    have hself : (σ j).setParam k (p.set idx t0) = σ j := by
      rw [ht0, GLayer.set_get_self (GLayer.params_wf h hp) hin, GLayer.setParam_self h hp]
    have hFt : F = fun Y => F0 Y + t0 • (F1 Y - F0 Y) := by
      funext Y
      refine ofVec_inj (Except.ok.inj ((hF Y).symm.trans ?_))
      have := hrun t0 Y
      rw [hself] at this
      exact this
    have hAt : A = A0 + t0 • (A1 - A0) := by
      refine hA.unique ?_
      rw [hFt]
      exact hA0.add ((hA1.sub hA0).const_smul t0)
    have hsnd : ∀ {G : (Fin (numel [B, I]) → ℝ) → Fin (numel [B, O]) → ℝ} {L}, HasFDerivAt G L X →
        HasFDerivAt (fun q : ℝ × (Fin (numel [B, I]) → ℝ) => G q.2) (L.comp (ContinuousLinearMap.snd ℝ ℝ _)) (t0, X) :=
      fun {G L} hG => HasFDerivAt.comp (g := G) (t0, X) hG hasFDerivAt_snd
    refine ⟨fun t Y => F0 Y + t • (F1 Y - F0 Y), _, ⟨fun t Y => ?_,
      (hsnd hA0).add ((ContinuousLinearMap.fst ℝ ℝ (Fin (numel [B, I]) → ℝ)).hasFDerivAt.smul ((hsnd hA1).sub (hsnd hA0))), fun g hs hw => ?_⟩⟩
    · rw [hτ t]
      exact hrun t Y
    · obtain ⟨gx, gps, e1, e2, s1, w1, x1, hpar⟩ := hB g hs hw
      obtain rfl := Except.ok.inj e1
      obtain ⟨gp, Q, q1, q2, q3, q4⟩ := hpar k p idx hp hin
      have e2' : (σ j).paramGrads (ofVec [B, I] X) g = gps := Except.ok.inj e2
      refine ⟨_, _, rfl, s1, w1, rfl, ?_, fun q => ?_, ?_⟩
      · intro c hc he
        rw [List.mem_singleton.1 hc]
        exact ⟨gp, by rw [e2']; exact q1, q2.trans hsh⟩
      · rw [x1 q, hAt]
        refine Finset.sum_congr rfl fun r _ => ?_
        congr 1
        show A0 (Pi.single q 1) r + t0 * (A1 (Pi.single q 1) r - A0 (Pi.single q 1) r)
          = A0 (Pi.single q 1) r + (t0 * (A1 (Pi.single q 1) r - A0 (Pi.single q 1) r) + 0 * (F1 X r - F0 X r))
        ring
      · have hQ : Q = fun t => F0 X + t • (F1 X - F0 X) := by
          funext t
          exact ofVec_inj (Except.ok.inj ((q3 t).symm.trans (hrun t X)))
        have hd : HasDerivAt (fun t => ∑ r : Fin (numel [B, O]), g.get (unravel [B, O] r) * Q t r) (∑ r : Fin (numel [B, O]), g.get (unravel [B, O] r) * (F1 X r - F0 X r)) (p.get idx) := by
          refine HasDerivAt.fun_sum fun r _ => HasDerivAt.const_mul _ ?_
          rw [hQ]
          show HasDerivAt (fun t => F0 X r + t * (F1 X r - F0 X r)) _ _
          have := ((hasDerivAt_id (p.get idx)).mul_const (F1 X r - F0 X r)).const_add (F0 X r)
          rw [one_mul] at this
          exact this
        have hc : ctrOf j k idx [(j, (σ j).paramGrads (ofVec [B, I] X) g)] = gp.get idx := by
          unfold ctrOf contributions
          rw [List.filterMap_cons, if_pos rfl, e2', q1]
          simp
        rw [hc, q4.unique hd]
        refine Finset.sum_congr rfl fun r _ => ?_
        congr 1
        show F1 X r - F0 X r = A0 0 r + (t0 * (A1 0 r - A0 0 r) + 1 * (F1 X r - F0 X r))
        simp

theorem joint_expr {P : Picks ℝ} (hP : P.Valid) (σ : ℕ → GLayer ℝ) (τ : ℝ → ℕ → GLayer ℝ) (t0 : ℝ) {ctr : List (ℕ × List (Tensor ℝ)) → ℝ} {good : ℕ × List (Tensor ℝ) → Prop}
    (hc0 : ctr [] = 0) (hc : ∀ cs cs', ctr (cs ++ cs') = ctr cs + ctr cs') (e : GExpr ℝ) (h0 : ∀ j ∈ e.modules, τ t0 j = σ j)
    (hτ : ∀ j ∈ e.modules, ∀ (B I O : ℕ) (X : Fin (numel [B, I]) → ℝ), (σ j).Fits I O → (∀ idx, InShape [B, I] idx → (σ j).SmoothAt ((ofVec [B, I] X).get idx)) →
      ∃ Φ A, Joint (fun t => (τ t j).forward) [B, I] [B, O] t0 X (fun g => .ok ((σ j).inputGrad (ofVec [B, I] X) g, [(j, (σ j).paramGrads (ofVec [B, I] X) g)])) ctr good [j] Φ A)
    {S T : List ℕ} (h : e.Takes σ S T) (X : Fin (numel S) → ℝ) (hX : e.Smooth σ (ofVec S X)) :
    ∃ Φ A, Joint (fun t => e.forward (τ t)) S T t0 X (e.backward P σ (ofVec S X)) ctr good e.modules Φ A := by
  have hfw : ∀ e : GExpr ℝ, (∀ j ∈ e.modules, τ t0 j = σ j) → e.forward (τ t0) = e.forward σ := by
    intro e he
    induction e with
    | leaf j =>
      show (τ t0 j).forward = _
      rw [he j List.mem_cons_self]
      rfl
    | fixed s => rfl
    | comp a b iha ihb =>
      show (fun x => a.forward (τ t0) x >>= fun y => b.forward (τ t0) y) = _
      rw [iha fun j hj => he j (List.mem_append_left _ hj), ihb fun j hj => he j (List.mem_append_right _ hj)]
      rfl
    | add a b iha ihb =>
      show (fun x => a.forward (τ t0) x >>= fun u => b.forward (τ t0) x >>= fun v => zipBcast (· + ·) u v) = _
      rw [iha fun j hj => he j (List.mem_append_left _ hj), ihb fun j hj => he j (List.mem_append_right _ hj)]
      rfl
    | mul a b iha ihb =>
      show (fun x => a.forward (τ t0) x >>= fun u => b.forward (τ t0) x >>= fun v => zipBcast (· * ·) u v >>= fun r => if r.shape = u.shape then Except.ok r else Except.error .runtimeError) = _
      rw [iha fun j hj => he j (List.mem_append_left _ hj), ihb fun j hj => he j (List.mem_append_right _ hj)]
      rfl
  induction e generalizing S T with
  | leaf j =>
    obtain ⟨B, I, O, rfl, rfl, hf⟩ := h
    exact hτ j List.mem_cons_self B I O X hf hX
  | fixed s => exact joint_fixed hP s h X hX t0 hc0 good
  | comp a b iha ihb =>
    obtain ⟨M, ha, hb⟩ := h
    have h0a : ∀ j ∈ a.modules, τ t0 j = σ j := fun j hj => h0 j (List.mem_append_left _ hj)
    obtain ⟨Φ, A, hJ⟩ := iha h0a (fun j hj => hτ j (List.mem_append_left _ hj)) ha X hX.1
    have hy : a.forward σ (ofVec S X) = .ok (ofVec M (Φ t0 X)) := by rw [← hfw a h0a]; exact hJ.run t0 X
    obtain ⟨Ψ, C, hK⟩ := ihb (fun j hj => h0 j (List.mem_append_right _ hj)) (fun j hj => hτ j (List.mem_append_right _ hj)) hb (Φ t0 X) (hX.2 _ hy)
    have hR := hJ.comp hc hK
    refine ⟨_, _, hR.run, hR.deriv, fun g hs hw => ?_⟩
    have e : GExpr.backward P σ (a.comp b) (ofVec S X) g = (do
        let rb ← b.backward P σ (ofVec M (Φ t0 X)) g
        let ra ← a.backward P σ (ofVec S X) rb.1
        .ok (ra.1, ra.2 ++ rb.2)) := by
      show (a.forward σ (ofVec S X) >>= _) = _
      rw [hy]
      rfl
    rw [e]
    exact hR.back g hs hw
  | add a b iha ihb =>
    obtain ⟨Φ, A, hJ⟩ := iha (fun j hj => h0 j (List.mem_append_left _ hj)) (fun j hj => hτ j (List.mem_append_left _ hj)) h.1 X hX.1
    obtain ⟨Ψ, C, hK⟩ := ihb (fun j hj => h0 j (List.mem_append_right _ hj)) (fun j hj => hτ j (List.mem_append_right _ hj)) h.2 X hX.2
    exact ⟨_, _, hJ.add hc hK⟩
  | mul a b iha ihb =>
    have h0a : ∀ j ∈ a.modules, τ t0 j = σ j := fun j hj => h0 j (List.mem_append_left _ hj)
    have h0b : ∀ j ∈ b.modules, τ t0 j = σ j := fun j hj => h0 j (List.mem_append_right _ hj)
    obtain ⟨Φ, A, hJ⟩ := iha h0a (fun j hj => hτ j (List.mem_append_left _ hj)) h.1 X hX.1
    obtain ⟨Ψ, C, hK⟩ := ihb h0b (fun j hj => hτ j (List.mem_append_right _ hj)) h.2 X hX.2
    have hy : a.forward σ (ofVec S X) = .ok (ofVec T (Φ t0 X)) := by rw [← hfw a h0a]; exact hJ.run t0 X
    have hz : b.forward σ (ofVec S X) = .ok (ofVec T (Ψ t0 X)) := by rw [← hfw b h0b]; exact hK.run t0 X
    obtain ⟨G, hR⟩ := hJ.mul hc hK
    refine ⟨_, _, hR.run, hR.deriv, fun g hs hw => ?_⟩
    have e : GExpr.backward P σ (a.mul b) (ofVec S X) g = (do
        let ra ← a.backward P σ (ofVec S X) (mulT g (ofVec T (Ψ t0 X)))
        let rb ← b.backward P σ (ofVec S X) (mulT g (ofVec T (Φ t0 X)))
        .ok (addT ra.1 rb.1, ra.2 ++ rb.2)) := by
      show (a.forward σ (ofVec S X) >>= fun u => b.forward σ (ofVec S X) >>= _) = _
      rw [hy, hz]
      rfl
    rw [e]
    exact hR.back g hs hw

theorem foldl_addT {shape : List ℕ} (gs : List (Tensor ℝ)) (g : Tensor ℝ) (hg : g.shape = shape) {idx : List ℕ} (hin : InShape shape idx) :
    (gs.foldl addT g).shape = shape ∧ (gs.foldl addT g).get idx = g.get idx + (gs.map fun g => g.get idx).sum := by
  induction gs generalizing g with
  | nil => simp [hg]
  | cons a gs ih =>
    obtain ⟨h1, h2⟩ := ih (addT g a) hg
    refine ⟨h1, ?_⟩
    rw [List.foldl_cons, h2]
    have : (addT g a).get idx = g.get idx + a.get idx := by
      unfold addT
      rw [Tensor.get_tabulate (by rw [hg]; exact hin)]
    rw [this, List.map_cons, List.sum_cons]
    ring

theorem accumulated_eq {cs : List (ℕ × List (Tensor ℝ))} {m k : ℕ} {idx shape : List ℕ} (hc : ∀ c ∈ cs, Fitting m k shape c) (hm : m ∈ cs.map Prod.fst) (hin : InShape shape idx) :
    ∃ gp, accumulated cs m k = some gp ∧ gp.shape = shape ∧ gp.get idx = ctrOf m k idx cs := by
  have hall : ∀ g ∈ contributions cs m k, g.shape = shape := by
    intro g hg
    obtain ⟨c, h1, h2⟩ := List.mem_filterMap.1 hg
    by_cases he : c.1 = m
    · rw [if_pos he] at h2
      obtain ⟨gp, h3, h4⟩ := hc c h1 he
      rw [h3] at h2
      rw [← Option.some.inj h2]
      exact h4
    · rw [if_neg he] at h2
      cases h2
  have hne : contributions cs m k ≠ [] := by
    obtain ⟨c, h1, h2⟩ := List.mem_map.1 hm
    obtain ⟨gp, h3, -⟩ := hc c h1 h2
    exact List.ne_nil_of_mem (List.mem_filterMap.2 ⟨c, h1, by rw [if_pos h2, h3]⟩)
  unfold accumulated ctrOf
  cases hcs : contributions cs m k with
  | nil => exact absurd hcs hne
  | cons g gs =>
    obtain ⟨h1, h2⟩ := foldl_addT gs g (hall g (by rw [hcs]; exact List.mem_cons_self)) hin
    exact ⟨_, rfl, h1, by rw [h2, List.map_cons, List.sum_cons]⟩

/-- The modules of an expression whose shapes match have parameters that fit. -/
theorem GExpr.Takes.fits {σ : ℕ → GLayer ℝ} {m : ℕ} : ∀ (e : GExpr ℝ) {S T : List ℕ}, e.Takes σ S T → m ∈ e.modules → ∃ I O, (σ m).Fits I O := by
  intro e
  induction e with
  | leaf j =>
    intro S T h hm
    obtain ⟨B, I, O, -, -, hf⟩ := h
    obtain rfl := List.mem_singleton.1 hm
    exact ⟨I, O, hf⟩
  | fixed s => intro S T _ hm; cases hm
  | comp a b iha ihb =>
    intro S T h hm
    obtain ⟨M, ha, hb⟩ := h
    exact (List.mem_append.1 hm).elim (iha ha) (ihb hb)
  | add a b iha ihb => exact fun h hm => (List.mem_append.1 hm).elim (iha h.1) (ihb h.2)
  | mul a b iha ihb => exact fun h hm => (List.mem_append.1 hm).elim (iha h.1) (ihb h.2)

/-- Networks of sums, products and compositions of modules, each module used any number of times: for a differentiable loss of the output with gradient `g` the backward pass returns the gradient of the
input, and what it accumulates for a parameter of a module is, entry by entry, the derivative of the loss when that entry changes in all uses of the module at once. Modules that are not used get no gradient. -/
theorem C122_backpropagation {P : Picks ℝ} (hP : P.Valid) (σ : ℕ → GLayer ℝ) (e : GExpr ℝ) {S T : List ℕ} (h : e.Takes σ S T) (X : Fin (numel S) → ℝ) (hX : e.Smooth σ (ofVec S X)) :
    ∃ F : (Fin (numel S) → ℝ) → Fin (numel T) → ℝ, (∀ Y, e.forward σ (ofVec S Y) = .ok (ofVec T (F Y))) ∧
      ∀ (loss : (Fin (numel T) → ℝ) → ℝ) (D : (Fin (numel T) → ℝ) →L[ℝ] ℝ) (g : Tensor ℝ), HasFDerivAt loss D (F X) → GradVec T D g →
        ∃ gx cs, e.backward P σ (ofVec S X) g = .ok (gx, cs) ∧ (∃ D', HasFDerivAt (fun Y => loss (F Y)) D' X ∧ GradVec S D' gx) ∧
          (∀ m ∉ e.modules, ∀ k, accumulated cs m k = none) ∧
          ∀ m k p idx, m ∈ e.modules → (σ m).params[k]? = some p → InShape p.shape idx →
            ∃ (gp : Tensor ℝ) (Q : ℝ → Fin (numel T) → ℝ), accumulated cs m k = some gp ∧ gp.shape = p.shape ∧
              (∀ t, e.forward (Function.update σ m ((σ m).setParam k (p.set idx t))) (ofVec S X) = .ok (ofVec T (Q t))) ∧
              HasDerivAt (fun t => loss (Q t)) (gp.get idx) (p.get idx) := by
  -- a number that is not used
  obtain ⟨fresh, hfresh⟩ : ∃ fresh, ∀ j ∈ e.modules, j ≠ fresh :=
    ⟨e.modules.sum + 1, fun j hj he => by have := List.le_sum_of_mem hj; omega⟩
  obtain ⟨Φ, A, hJ⟩ := joint_expr hP σ (fun _ => σ) 0 rfl (ctrOf_append fresh 0 []) e (fun _ _ => rfl)
    (fun j hj B I O X hf hX => joint_leaf hP σ (fun _ => σ) j hf X hX 0 fresh 0 [] [] (Or.inl ⟨hfresh j hj, fun _ => rfl⟩)) h X hX
  have hF : HasFDerivAt (fun Y => Φ 0 Y) (A.comp (ContinuousLinearMap.inr ℝ ℝ _)) X :=
    HasFDerivAt.comp (g := fun q : ℝ × (Fin (numel S) → ℝ) => Φ q.1 q.2) X hJ.deriv ((hasFDerivAt_const (0 : ℝ) X).prodMk (hasFDerivAt_id X))
  refine ⟨Φ 0, fun Y => hJ.run 0 Y, fun loss D g hD hg => ?_⟩
  obtain ⟨gx, cs, e1, s1, w1, f1, -, x1, -⟩ := hJ.back g hg.1 hg.2.1
  refine ⟨gx, cs, e1, ⟨_, hD.comp X hF, s1, w1, fun p => ?_⟩, fun m hm k => ?_, fun m k p idx hm hk hin => ?_⟩
  · rw [x1 p, ContinuousLinearMap.comp_apply, hg.apply]
    rfl
  · have : contributions cs m k = [] := by
      refine List.filterMap_eq_nil_iff.2 fun c hc => ?_
      rw [if_neg]
      intro he
      exact hm (f1 ▸ List.mem_map.2 ⟨c, hc, he⟩)
    unfold accumulated
    rw [this]
  · obtain ⟨I, O, hf⟩ := GExpr.Takes.fits e h hm
    have hupd : ∀ t j, j ≠ m → Function.update σ m ((σ m).setParam k (p.set idx t)) j = σ j := fun t j hj => Function.update_of_ne hj _ _
    obtain ⟨Ψ, C, hK⟩ := joint_expr hP σ (fun t => Function.update σ m ((σ m).setParam k (p.set idx t))) (p.get idx) rfl (ctrOf_append m k idx) (good := Fitting m k p.shape) e
      (fun j _ => by
        by_cases hj : j = m
        · subst hj
          rw [Function.update_self, GLayer.set_get_self (GLayer.params_wf hf hk) hin, GLayer.setParam_self hf hk]
        · exact hupd _ j hj)
      (fun j _ B I O X hf hX => joint_leaf hP σ _ j hf X hX _ m k idx p.shape <| by
        by_cases hj : j = m
        · exact Or.inr ⟨hj, p, hk, hin, rfl, rfl, fun t => Function.update_self _ _ _⟩
        · exact Or.inl ⟨hj, fun t => hupd t j hj⟩) h X hX
    obtain ⟨gx', cs', e2, -, -, f2, o2, -, k2⟩ := hK.back g hg.1 hg.2.1
    obtain ⟨rfl, rfl⟩ := Prod.mk.inj (Except.ok.inj (e1.symm.trans e2))
    obtain ⟨gp, g1, g2, g3⟩ := accumulated_eq o2 (f2 ▸ hm) hin
    refine ⟨gp, fun t => Ψ t X, g1, g2, fun t => hK.run t X, ?_⟩
    have hself : Ψ (p.get idx) X = Φ 0 X := by
      refine ofVec_inj (Except.ok.inj ((hK.run _ X).symm.trans (Eq.trans ?_ (hJ.run 0 X))))
      rw [GLayer.set_get_self (GLayer.params_wf hf hk) hin, GLayer.setParam_self hf hk, Function.update_eq_self]
    have hQ : HasDerivAt (fun t => Ψ t X) (C (1, 0)) (p.get idx) := by
      have h1 : HasDerivAt (fun t : ℝ => (t, X)) ((1 : ℝ), (0 : Fin (numel S) → ℝ)) (p.get idx) := (hasDerivAt_id _).prodMk (hasDerivAt_const _ X)
      exact HasFDerivAt.comp_hasDerivAt (l := fun q : ℝ × (Fin (numel S) → ℝ) => Ψ q.1 q.2) _ hK.deriv h1
    rw [← hself] at hD
    have := hD.comp_hasDerivAt _ hQ
    rw [g3, k2, ← hg.apply]
    exact this

end HOL
