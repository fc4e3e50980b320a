import Verif.Lemmas.StageLines
import Verif.Props.LionNetwork

/-!
# Property C130: one step of gradient descent on a convolutional network

The derivative of the loss along every direction in the space of all parameters is the inner product with the gradients of the backward pass, and a small enough step against the gradients lowers the
loss, whenever the gradient of some trained parameter does not vanish.
-/

namespace HOL
open TorchScalar Spec Filter GLayer

/-! ## modules -/

theorem stage_along {P : Picks ℝ} (hP : P.Valid) (s : NStage ℝ) {S T : List ℕ} (h : s.Takes S T) (X : Fin (numel S) → ℝ) (hX : s.SmoothIn (ofVec S X)) (V : Entry → ℝ) :
    ∃ Φ A, StageLine P s S T X V Φ A := by
  cases s with
  | norm N =>
    cases N with
    | layerNorm M =>
      obtain ⟨rfl, h'⟩ := id h
      obtain ⟨n, w, hl, h0, hw, hws, hwf, hb⟩ := h'
      obtain ⟨terms, hlin⟩ := layerNorm_linear hl M hw hws hwf hb
      refine hlin.along_line hP h X hX V ⟨rfl, n, lineParam 1 w fun idx => V (0, idx), hl, h0, ?_, hws, Tensor.wf_tabulate _ _, fun b hb' => ?_⟩ trivial
      · show M.weight.map _ = _
        rw [hw]
        rfl
      · obtain ⟨b', hb'', rfl⟩ := Option.map_eq_some_iff.1 hb'
        exact ⟨(hb b' hb'').1, Tensor.wf_tabulate _ _⟩
    | _ => exact fixed_line hP h X hX V rfl fun t => rfl
  | base s =>
    cases s with
    | conv L =>
      have hw := h.1
      obtain ⟨B, C, R, r, rfl, hst⟩ := L.staged h
      obtain ⟨terms, hlin⟩ := conv_linear L hst hw
      exact hlin.along_line hP h X hX V ⟨Tensor.wf_tabulate _ _, h.2⟩ hX
    | norm two training C N =>
      obtain ⟨rfl, B, R, rfl, hR, hc⟩ := id h
      obtain ⟨terms, hlin⟩ := norm_linear N two training B C R hR (fun ht => by rw [if_pos ht] at hc; exact hc.1)
      exact hlin.along_line hP h X hX V ⟨rfl, B, R, rfl, hR, hc⟩ hX
    | pool d => exact fixed_line hP h X hX V rfl fun t => rfl
    | flatten => exact fixed_line hP h X hX V rfl fun t => rfl
    | dense l =>
      obtain ⟨B, I, O, rfl, rfl, hf⟩ := id h
      obtain ⟨Φ, A, hJ⟩ := joint_along hP (fun _ => l) (fun _ => V) 0 B I O X hf hX
      refine ⟨Φ, A, hJ.run, fun Y => ?_, fun hz t Y => ?_, hJ.deriv, fun g hs hw => ?_⟩
      · have := hJ.run 0 Y
        beta_reduce at this
        rwa [along_zero hf fun e _ => zero_mul _] at this
      · have hs : ∀ t, l.along V t = l := fun t => along_zero hf fun e he => by rw [hz e (mem_entries.2 he), mul_zero]
        have h1 := hJ.run t Y
        have h2 := hJ.run 0 Y
        beta_reduce at h1 h2
        rw [hs] at h1 h2
        exact ofVec_inj (Except.ok.inj (h1.symm.trans h2))
      · obtain ⟨gx, cs, e1, s1, w1, -, -, x1, k1⟩ := hJ.back g hs hw
        obtain ⟨rfl, rfl⟩ := Prod.mk.inj (Except.ok.inj e1)
        refine ⟨_, _, rfl, rfl, s1, w1, x1, ?_⟩
        rw [← k1]
        unfold ctrLine
        rw [List.map_singleton, List.sum_singleton]
        rfl

theorem sgdChannels_line (lr : ℝ) (w : ℕ → ℝ) (acc : ℕ → Option (Tensor ℝ)) (k : ℕ) : sgdChannels lr w (acc k) = fun i => w i + lr * -gradOf acc (k, [i]) := by
  unfold gradOf sgdChannels
  dsimp only
  cases acc k with
  | none =>
    funext i
    simp
  | some g =>
    funext i
    show w i - lr * g.get [i] = w i + lr * -g.get [i]
    ring

/-- A step of the optimizer is a step along the negative gradient. -/
theorem stage_sgd {s : NStage ℝ} {S T : List ℕ} (h : s.Takes S T) (lr : ℝ) (acc : ℕ → Option (Tensor ℝ)) : s.sgd lr acc = s.along (fun e => -gradOf acc e) lr := by
  cases s with
  | norm N =>
    cases N with
    | layerNorm M =>
      obtain ⟨rfl, n, w, hl, h0, hw, hws, hwf, hb⟩ := h
      show NStage.norm (.layerNorm { M with weight := M.weight.map _, bias := M.bias.map _ }) = NStage.norm (.layerNorm { M with weight := M.weight.map _, bias := M.bias.map _ })
      rw [hw]
      simp only [Option.map_some]
      rw [sgdParam_line hwf]
      cases hbias : M.bias with
      | none => rfl
      | some b =>
        simp only [Option.map_some]
        rw [sgdParam_line (hb b hbias).2]
    | _ => rfl
  | base s =>
    cases s with
    | conv L =>
      show NStage.base (.conv { L with weight := _ }) = NStage.base (.conv { L with weight := _ })
      rw [sgdParam_line h.1]
    | norm two training C N =>
      show NStage.base (.norm two training C { N with weight := _, bias := _ }) = NStage.base (.norm two training C { N with weight := _, bias := _ })
      rw [sgdChannels_line, sgdChannels_line]
    | pool d => rfl
    | flatten => rfl
    | dense l =>
      obtain ⟨B, I, O, rfl, rfl, hf⟩ := h
      show NStage.base (.dense _) = NStage.base (.dense _)
      rw [sgd_along hf]

theorem stage_still {s : NStage ℝ} {S T : List ℕ} (h : s.Takes S T) (t : ℝ) : s.along (fun _ => 0) t = s := by
  cases s with
  | norm N =>
    cases N with
    | layerNorm M =>
      obtain ⟨rfl, n, w, hl, h0, hw, hws, hwf, hb⟩ := h
      obtain ⟨wt, ub, bias⟩ := M
      obtain rfl : wt = some w := hw
      show NStage.norm (.layerNorm ⟨Option.map _ (some w), ub, bias.map _⟩) = _
      simp only [Option.map_some]
      rw [lineParam_zero hwf fun _ _ => mul_zero _]
      cases bias with
      | none => rfl
      | some b =>
        simp only [Option.map_some]
        rw [lineParam_zero (hb b rfl).2 fun _ _ => mul_zero _]
    | _ => rfl
  | base s =>
    cases s with
    | conv L =>
      show NStage.base (.conv { L with weight := _ }) = NStage.base (.conv L)
      rw [lineParam_zero h.1 fun _ _ => mul_zero _]
    | norm two training C N =>
      show NStage.base (.norm two training C { N with weight := fun i => N.weight i + t * 0, bias := fun i => N.bias i + t * 0 }) = NStage.base (.norm two training C N)
      simp only [mul_zero, add_zero]
    | pool d => rfl
    | flatten => rfl
    | dense l =>
      obtain ⟨B, I, O, rfl, rfl, hf⟩ := h
      show NStage.base (.dense _) = NStage.base (.dense l)
      rw [along_zero hf fun e _ => mul_zero _]

/-! ## networks -/

theorem stageAlong_cons (V : ℕ → Entry → ℝ) (t : ℝ) (s : NStage ℝ) (ss : List (NStage ℝ)) : stageAlong V t (s :: ss) = s.along (V 0) t :: stageAlong (fun k => V (k + 1)) t ss := by
  unfold stageAlong
  rw [List.mapIdx_cons]

theorem stageInner_cons (V : ℕ → Entry → ℝ) (s : NStage ℝ) (ss : List (NStage ℝ)) (gp : List (Tensor ℝ)) (gps : List (List (Tensor ℝ))) :
    stageInner (s :: ss) V (gp :: gps) = ((paramEntries s.params).map fun e => V 0 e * gradOf (fun j => gp[j]?) e).sum + stageInner ss (fun k => V (k + 1)) gps := by
  unfold stageInner
  rw [List.mapIdx_cons, List.sum_cons]
  rfl

/-- All modules along a line of parameters. -/
theorem stages_along {P : Picks ℝ} (hP : P.Valid) (ss : List (NStage ℝ)) {S T : List ℕ} (h : StagesTake ss S T) (X : Fin (numel S) → ℝ) (hX : StagesSmooth ss (ofVec S X)) (V : ℕ → Entry → ℝ) :
    ∃ (Φ : ℝ → (Fin (numel S) → ℝ) → Fin (numel T) → ℝ) (A : (ℝ × (Fin (numel S) → ℝ)) →L[ℝ] Fin (numel T) → ℝ),
      (∀ t Y, stageForward (stageAlong V t ss) (ofVec S Y) = .ok (ofVec T (Φ t Y))) ∧ (∀ Y, stageForward ss (ofVec S Y) = .ok (ofVec T (Φ 0 Y))) ∧
      ((∀ k s, ss[k]? = some s → ∀ e ∈ paramEntries s.params, V k e = 0) → ∀ t Y, Φ t Y = Φ 0 Y) ∧
      HasFDerivAt (fun q : ℝ × (Fin (numel S) → ℝ) => Φ q.1 q.2) A (0, X) ∧
      ∀ g : Tensor ℝ, g.shape = T → g.WF → ∃ gx gps, stageBackward P ss (ofVec S X) g = .ok (gx, gps) ∧ gx.shape = S ∧ gx.WF ∧
        (∀ p : Fin (numel S), gx.get (unravel S p) = ∑ m : Fin (numel T), g.get (unravel T m) * A (0, Pi.single p 1) m) ∧
        stageInner ss V gps = ∑ m : Fin (numel T), g.get (unravel T m) * A (1, 0) m := by
  induction ss generalizing S V with
  | nil =>
    obtain rfl : S = T := h
    refine ⟨fun _ Y => Y, ContinuousLinearMap.snd ℝ ℝ _, fun _ _ => rfl, fun _ => rfl, fun _ _ _ => rfl, hasFDerivAt_snd, fun g hs hw => ⟨g, [], rfl, hs, hw, fun p => ?_, ?_⟩⟩
    · rw [Finset.sum_eq_single p]
      · show _ = _ * (Pi.single p 1 : Fin (numel S) → ℝ) p
        rw [Pi.single_eq_same, mul_one]
      · intro m _ hne
        show _ * (Pi.single p 1 : Fin (numel S) → ℝ) m = 0
        rw [Pi.single_eq_of_ne hne, mul_zero]
      · intro hc
        exact absurd (Finset.mem_univ p) hc
    · show (0 : ℝ) = ∑ m : Fin (numel S), _ * (0 : ℝ)
      simp
  | cons s ss ih =>
    obtain ⟨M, h1, h2⟩ := h
    obtain ⟨Φ, A, L⟩ := stage_along hP s h1 X hX.1 (V 0)
    obtain ⟨Ψ, C, r2, z2, t2, d2, b2⟩ := ih h2 (Φ 0 X) (hX.2 _ (L.zero X)) fun k => V (k + 1)
    refine ⟨fun t Y => Ψ t (Φ t Y), C.comp ((ContinuousLinearMap.fst ℝ ℝ (Fin (numel S) → ℝ)).prod A), fun t Y => ?_, fun Y => ?_, fun hz t Y => ?_, ?_, fun g hs hw => ?_⟩
    · rw [stageAlong_cons, stageForward_cons (L.run t Y)]
      exact r2 t _
    · rw [stageForward_cons (L.zero Y)]
      exact z2 _
    · show Ψ t (Φ t Y) = Ψ 0 (Φ 0 Y)
      rw [L.still (fun e he => hz 0 s rfl e he) t Y]
      exact t2 (fun k s' hk e he => hz (k + 1) s' hk e he) t _
    · have hp : HasFDerivAt (fun q : ℝ × (Fin (numel S) → ℝ) => (q.1, Φ q.1 q.2)) ((ContinuousLinearMap.fst ℝ ℝ (Fin (numel S) → ℝ)).prod A) (0, X) :=
        (ContinuousLinearMap.fst ℝ ℝ (Fin (numel S) → ℝ)).hasFDerivAt.prodMk L.deriv
      exact HasFDerivAt.comp (g := fun q : ℝ × (Fin (numel M) → ℝ) => Ψ q.1 q.2) (0, X) d2 hp
    · obtain ⟨gy, gps, e1, s1, w1, x1, k1⟩ := b2 g hs hw
      obtain ⟨gx, gp, e2, e3, s2, w2, x2, k2⟩ := L.back gy s1 w1
      have hlin : ∀ v : Fin (numel M) → ℝ, ∑ m : Fin (numel M), gy.get (unravel M m) * v m = ∑ r : Fin (numel T), g.get (unravel T r) * C (0, v) r := by
        intro v
        have hv : ((0 : ℝ), v) = ∑ m : Fin (numel M), v m • ((0 : ℝ), (Pi.single m (1 : ℝ) : Fin (numel M) → ℝ)) := by
          refine Prod.ext ?_ ?_
          · rw [Prod.fst_sum]
            simp
          · rw [Prod.snd_sum]
            funext m
            rw [Finset.sum_apply, Finset.sum_eq_single m]
            · simp
            · intro m' _ hne
              simp [Pi.single_eq_of_ne hne.symm]
            · simp
        rw [hv, map_sum]
        simp only [map_smul, Finset.sum_apply, Pi.smul_apply, smul_eq_mul, Finset.mul_sum]
        rw [Finset.sum_comm]
        refine Finset.sum_congr rfl fun m _ => ?_
        rw [x1 m, Finset.sum_mul]
        exact Finset.sum_congr rfl fun r _ => by ring
      refine ⟨gx, gp :: gps, ?_, s2, w2, fun p => ?_, ?_⟩
      · show (s.forward (ofVec S X) >>= _) = _
        rw [L.zero X]
        show (stageBackward P ss (ofVec M (Φ 0 X)) g >>= _) = _
        rw [e1]
        show (s.inputGrad P (ofVec S X) gy >>= _) = _
        rw [e2]
        show (s.paramGrads (ofVec S X) gy >>= _) = _
        rw [e3]
        rfl
      · rw [x2 p, hlin]
        rfl
      · rw [stageInner_cons, k1, k2, hlin, ← Finset.sum_add_distrib]
        refine Finset.sum_congr rfl fun r _ => ?_
        show _ = _ * C (1, A (1, 0)) r
        have : ((1 : ℝ), A (1, 0)) = (0, A (1, 0)) + (1, 0) := by simp
        rw [this, map_add, ← mul_add]
        rfl

/-- The derivative of the loss along any direction in the space of all parameters. -/
theorem C130_directions {P : Picks ℝ} (hP : P.Valid) (ss : List (NStage ℝ)) {S T : List ℕ} (h : StagesTake ss S T) (X : Fin (numel S) → ℝ) (hX : StagesSmooth ss (ofVec S X)) :
    ∃ F : (Fin (numel S) → ℝ) → Fin (numel T) → ℝ, (∀ Y, stageForward ss (ofVec S Y) = .ok (ofVec T (F Y))) ∧
      ∀ (loss : (Fin (numel T) → ℝ) → ℝ) (D : (Fin (numel T) → ℝ) →L[ℝ] ℝ) (g : Tensor ℝ), HasFDerivAt loss D (F X) → GradVec T D g →
        ∃ gx gps, stageBackward P ss (ofVec S X) g = .ok (gx, gps) ∧ ∀ V : ℕ → Entry → ℝ,
          ∃ Q : ℝ → (Fin (numel S) → ℝ) → Fin (numel T) → ℝ, (∀ t Y, stageForward (stageAlong V t ss) (ofVec S Y) = .ok (ofVec T (Q t Y))) ∧ Q 0 = F ∧
            HasDerivAt (fun t => loss (Q t X)) (stageInner ss V gps) 0 ∧
            ((∀ k s, ss[k]? = some s → ∀ e ∈ paramEntries s.params, V k e = 0) → ∀ t, Q t = F) := by
  obtain ⟨Φ0, A0, -, z0, -, -, b0⟩ := stages_along hP ss h X hX fun _ _ => 0
  refine ⟨Φ0 0, z0, fun loss D g hD hg => ?_⟩
  obtain ⟨gx, gps, e1, -⟩ := b0 g hg.1 hg.2.1
  refine ⟨gx, gps, e1, fun V => ?_⟩
  obtain ⟨Φ, A, r, z, st, d, b⟩ := stages_along hP ss h X hX V
  obtain ⟨gx', gps', e2, -, -, -, k⟩ := b g hg.1 hg.2.1
  obtain ⟨rfl, rfl⟩ := Prod.mk.inj (Except.ok.inj (e1.symm.trans e2))
  have h0 : Φ 0 = Φ0 0 := funext fun Y => ofVec_inj (Except.ok.inj ((z Y).symm.trans (z0 Y)))
  refine ⟨Φ, r, h0, ?_, fun hz t => (funext fun Y => st hz t Y).trans h0⟩
  have hline : HasDerivAt (fun t : ℝ => Φ t X) (A (1, 0)) 0 := by
    have hp : HasDerivAt (fun t : ℝ => (t, X)) ((1 : ℝ), (0 : Fin (numel S) → ℝ)) 0 := (hasDerivAt_id (0 : ℝ)).prodMk (hasDerivAt_const (0 : ℝ) X)
    exact HasFDerivAt.comp_hasDerivAt (f := fun t : ℝ => (t, X)) (l := fun q : ℝ × (Fin (numel S) → ℝ) => Φ q.1 q.2) 0 d hp
  rw [← h0] at hD
  have := HasFDerivAt.comp_hasDerivAt (f := fun t : ℝ => Φ t X) (l := loss) 0 hD hline
  rw [hg.apply, ← k] at this
  exact this

/-- Every module of a list with matching shapes. -/
theorem StagesTake.takes {ss : List (NStage ℝ)} {S T : List ℕ} (h : StagesTake ss S T) {k : ℕ} {s : NStage ℝ} (hk : ss[k]? = some s) : ∃ S' T', s.Takes S' T' := by
  induction ss generalizing S k with
  | nil => cases hk
  | cons s' ss ih =>
    obtain ⟨M, h1, h2⟩ := h
    cases k with
    | zero =>
      obtain rfl : s' = s := Option.some.inj hk
      exact ⟨S, M, h1⟩
    | succ k => exact ih h2 hk

/-- The direction of a step of gradient descent. -/
noncomputable def stageDirs (trained : List ℕ) (gps : List (List (Tensor ℝ))) (k : ℕ) (e : Entry) : ℝ := if k ∈ trained then -gradOf (fun j => (gps.getD k [])[j]?) e else 0

theorem stageSgd_along {ss : List (NStage ℝ)} {S T : List ℕ} (h : StagesTake ss S T) (trained : List ℕ) (lr : ℝ) (gps : List (List (Tensor ℝ))) :
    stageSgd trained lr gps ss = stageAlong (stageDirs trained gps) lr ss := by
  refine List.ext_getElem? fun k => ?_
  unfold stageSgd stageAlong
  rw [List.getElem?_mapIdx, List.getElem?_mapIdx]
  cases hk : ss[k]? with
  | none => rfl
  | some s =>
    obtain ⟨S', T', hs⟩ := h.takes hk
    simp only [Option.map_some]
    congr 1
    by_cases ht : k ∈ trained
    · rw [if_pos ht, stage_sgd hs]
      congr 1
      funext e
      unfold stageDirs
      rw [if_pos ht]
    · rw [if_neg ht]
      have : stageDirs trained gps k = fun _ => 0 := by
        funext e
        unfold stageDirs
        rw [if_neg ht]
      rw [this, stage_still hs]

theorem stageInner_dirs (ss : List (NStage ℝ)) (trained : List ℕ) (gps : List (List (Tensor ℝ))) : stageInner ss (stageDirs trained gps) gps = -stageSquares ss trained gps := by
  unfold stageInner stageSquares
  have key : ∀ (l : List ℝ), (l.map fun x => -x).sum = -l.sum := fun l => by
    induction l with
    | nil => simp
    | cons a l ih => rw [List.map_cons, List.sum_cons, List.sum_cons, ih]; ring
  rw [← key]
  congr 1
  refine List.ext_getElem? fun k => ?_
  rw [List.getElem?_map, List.getElem?_mapIdx, List.getElem?_mapIdx]
  cases ss[k]? with
  | none => rfl
  | some s =>
    simp only [Option.map_some]
    congr 1
    show _ = -(ite _ _ _)
    unfold stageDirs
    by_cases ht : k ∈ trained
    · simp only [if_pos ht]
      rw [← key, List.map_map]
      congr 1
      refine List.map_congr_left fun e _ => ?_
      show _ = -(_ ^ 2)
      ring
    · simp only [if_neg ht]
      simp

theorem stageSquares_pos {ss : List (NStage ℝ)} {trained : List ℕ} {gps : List (List (Tensor ℝ))} {k j : ℕ} {s : NStage ℝ} {p gp : Tensor ℝ} {gs : List (Tensor ℝ)} {idx : List ℕ} (hk : k ∈ trained)
    (hs : ss[k]? = some s) (hp : s.params[j]? = some p) (hin : InShape p.shape idx) (hgs : gps[k]? = some gs) (hgp : gs[j]? = some gp) (hne : gp.get idx ≠ 0) : 0 < stageSquares ss trained gps := by
  have hsum : ∀ (l : List ℝ), (∀ x ∈ l, 0 ≤ x) → ∀ x ∈ l, x ≤ l.sum := fun l hl x hx => List.single_le_sum hl x hx
  unfold stageSquares
  have hmem : (if k ∈ trained then ((paramEntries s.params).map fun e => gradOf (fun j => (gps.getD k [])[j]?) e ^ 2).sum else 0)
      ∈ ss.mapIdx fun k s => if k ∈ trained then ((paramEntries s.params).map fun e => gradOf (fun j => (gps.getD k [])[j]?) e ^ 2).sum else 0 := by
    refine List.mem_of_getElem? (i := k) ?_
    rw [List.getElem?_mapIdx, hs]
    rfl
  refine lt_of_lt_of_le ?_ (hsum _ (fun x hx => ?_) _ hmem)
  · rw [if_pos hk]
    have hm : gradOf (fun j => (gps.getD k [])[j]?) (j, idx) ^ 2 ∈ (paramEntries s.params).map fun e => gradOf (fun j => (gps.getD k [])[j]?) e ^ 2 :=
      List.mem_map.2 ⟨(j, idx), mem_paramEntries.2 ⟨p, hp, hin⟩, rfl⟩
    refine lt_of_lt_of_le ?_ (hsum _ (fun x hx => ?_) _ hm)
    · have : gradOf (fun j => (gps.getD k [])[j]?) (j, idx) = gp.get idx := by
        unfold gradOf
        dsimp only
        rw [List.getD_eq_getElem?_getD, hgs, Option.getD_some, hgp]
        rfl
      rw [this]
      positivity
    · obtain ⟨e, -, rfl⟩ := List.mem_map.1 hx
      positivity
  · obtain ⟨i, hi, rfl⟩ := List.mem_mapIdx.1 hx
    split
    · refine List.sum_nonneg fun x hx => ?_
      obtain ⟨e, -, rfl⟩ := List.mem_map.1 hx
      positivity
    · exact le_rfl

/-- One step of gradient descent on the parameters of the modules at the positions `trained`. -/
theorem C130_step {P : Picks ℝ} (hP : P.Valid) (ss : List (NStage ℝ)) {S T : List ℕ} (h : StagesTake ss S T) (X : Fin (numel S) → ℝ) (hX : StagesSmooth ss (ofVec S X)) :
    ∃ F : (Fin (numel S) → ℝ) → Fin (numel T) → ℝ, (∀ Y, stageForward ss (ofVec S Y) = .ok (ofVec T (F Y))) ∧
      ∀ (loss : (Fin (numel T) → ℝ) → ℝ) (D : (Fin (numel T) → ℝ) →L[ℝ] ℝ) (g : Tensor ℝ), HasFDerivAt loss D (F X) → GradVec T D g →
        ∃ gx gps, stageBackward P ss (ofVec S X) g = .ok (gx, gps) ∧ ∀ trained : List ℕ,
          (∀ lr, ∀ k ∉ trained, (stageSgd trained lr gps ss)[k]? = ss[k]?) ∧
          ∃ Q : ℝ → (Fin (numel S) → ℝ) → Fin (numel T) → ℝ, (∀ lr Y, stageForward (stageSgd trained lr gps ss) (ofVec S Y) = .ok (ofVec T (Q lr Y))) ∧ Q 0 = F ∧
            HasDerivAt (fun lr => loss (Q lr X)) (-stageSquares ss trained gps) 0 ∧
            ((∃ k ∈ trained, ∃ (s : NStage ℝ) (j : ℕ) (p : Tensor ℝ) (gs : List (Tensor ℝ)) (gp : Tensor ℝ) (idx : List ℕ), ss[k]? = some s ∧ s.params[j]? = some p ∧ InShape p.shape idx ∧ gps[k]? = some gs ∧ gs[j]? = some gp ∧ gp.get idx ≠ 0) →
              ∃ ε > 0, ∀ lr, 0 < lr → lr < ε → loss (Q lr X) < loss (F X)) ∧
            ((∀ k ∈ trained, ∀ (s : NStage ℝ) (j : ℕ) (p : Tensor ℝ) (gs : List (Tensor ℝ)) (gp : Tensor ℝ) (idx : List ℕ), ss[k]? = some s → s.params[j]? = some p → InShape p.shape idx → gps[k]? = some gs → gs[j]? = some gp → gp.get idx = 0) → ∀ lr, Q lr = F) := by
  obtain ⟨F, hF, hall⟩ := C130_directions hP ss h X hX
  refine ⟨F, hF, fun loss D g hD hg => ?_⟩
  obtain ⟨gx, gps, e1, hV⟩ := hall loss D g hD hg
  refine ⟨gx, gps, e1, fun trained => ⟨fun lr k hk => ?_, ?_⟩⟩
  · unfold stageSgd
    rw [List.getElem?_mapIdx]
    simp only [if_neg hk]
    cases ss[k]? <;> rfl
  obtain ⟨Q, q1, q2, q3, q4⟩ := hV (stageDirs trained gps)
  rw [stageInner_dirs] at q3
  refine ⟨Q, fun lr Y => ?_, q2, q3, ?_, fun hz => q4 fun k s hs e he => ?_⟩
  · rw [stageSgd_along h]
    exact q1 lr Y
  · rintro ⟨k, hk, s, j, p, gs, gp, idx, hs, hp, hin, hgs, hgp, hne⟩
    obtain ⟨ε, hε, hlow⟩ := lower_after q3 (neg_lt_zero.2 (stageSquares_pos hk hs hp hin hgs hgp hne))
    refine ⟨ε, hε, fun lr h0 h1 => ?_⟩
    have := hlow lr h0 h1
    rwa [q2] at this
  · unfold stageDirs
    by_cases ht : k ∈ trained
    · rw [if_pos ht]
      obtain ⟨p, hp, hin⟩ := mem_paramEntries.1 he
      unfold gradOf
      dsimp only
      rw [List.getD_eq_getElem?_getD]
      cases hgs : gps[k]? with
      | none => simp
      | some gs =>
        rw [Option.getD_some]
        cases hgp : gs[e.1]? with
        | none => simp
        | some gp =>
          have := hz k ht s e.1 p gs gp e.2 hs hp hin hgs hgp
          simpa using this
    · rw [if_neg ht]

end HOL
