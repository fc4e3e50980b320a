import Verif.Props.StepStages

/-!
# Property C130: one step of gradient descent on the fully convolutional and deconvolutional networks
-/

namespace HOL
open TorchScalar Spec Filter GLayer

theorem imageForward_base {K : Type} [TorchScalar K] (ss : List (IStage K)) (x : Tensor K) : stageForward (ss.map NStage.base) x = imageForward ss x := by
  induction ss generalizing x with
  | nil => rfl
  | cons s ss ih =>
    show (s.forward x >>= stageForward (ss.map NStage.base)) = (s.forward x >>= imageForward ss)
    rw [funext ih]

theorem TakesAll.base {ss : List (IStage ℝ)} {S T : List ℕ} (h : TakesAll ss S T) : StagesTake (ss.map NStage.base) S T := by
  induction ss generalizing S with
  | nil => exact h
  | cons s ss ih =>
    obtain ⟨M, h1, h2⟩ := h
    exact ⟨M, h1, ih h2⟩

theorem stageSgd_all {K : Type} [TorchScalar K] (lr : K) (gps : List (List (Tensor K))) (ss : List (NStage K)) :
    stageSgd (List.range ss.length) lr gps ss = ss.mapIdx fun k s => s.sgd lr fun j => (gps.getD k [])[j]? := by
  refine List.ext_getElem? fun k => ?_
  unfold stageSgd
  rw [List.getElem?_mapIdx, List.getElem?_mapIdx]
  cases hk : ss[k]? with
  | none => rfl
  | some s =>
    have : k ∈ List.range ss.length := List.mem_range.2 (List.getElem?_eq_some_iff.1 hk).1
    simp only [if_pos this]

theorem imageStages_length {K : Type} (m : ℕ) (Ls : ℕ → ConvLayer K) (Ns : Option (ℕ → IStage K)) : (imageStages m Ls Ns).length = (if Ns.isSome then 2 else 1) * m := by
  induction m with
  | zero => simp [imageStages]
  | succ m ih =>
    rw [imageStages_succ, List.length_append, ih]
    cases Ns with
    | none => simp
    | some f =>
      simp
      omega

/-- The layers of a network after the step are again such layers, with the parameters after the step. -/
theorem imageStages_step {K : Type} [TorchScalar K] (lr : K) (gps : List (List (Tensor K))) (m : ℕ) (Ls : ℕ → ConvLayer K) (Ns : Option (ℕ → BatchNorm K)) (two training : Bool) (ch : ℕ → ℕ) :
    ((imageStages m Ls (Ns.map fun f i => IStage.norm two training (ch i) (f i))).map NStage.base).mapIdx (fun k s => s.sgd lr fun j => (gps.getD k [])[j]?)
    = (imageStages m (stepConv (if Ns.isSome then 2 else 1) lr gps Ls) (Ns.map fun f i => IStage.norm two training (ch i) (stepNorm lr gps f i))).map NStage.base := by
  induction m with
  | zero => rfl
  | succ m ih =>
    rw [imageStages_succ, imageStages_succ, List.map_append, List.mapIdx_append, ih, List.map_append]
    congr 1
    rw [List.length_map, imageStages_length]
    cases Ns with
    | none =>
      show [NStage.base (.conv _)] = [NStage.base (.conv _)]
      unfold stepConv
      simp
    | some f =>
      show [NStage.base (.conv _), NStage.base (.norm two training (ch m) _)] = [NStage.base (.conv _), NStage.base (.norm two training (ch m) _)]
      unfold stepConv stepNorm
      simp [Nat.add_comm]

/-- One step on all parameters of a network of convolutions and batch normalizations with modules without parameters behind them. -/
theorem step_images {P : Picks ℝ} (hP : P.Valid) {m : ℕ} {Ls : ℕ → ConvLayer ℝ} {Ns : Option (ℕ → BatchNorm ℝ)} {two training : Bool} {ch : ℕ → ℕ} {rest : List (IStage ℝ)}
    (hrest : ∀ s ∈ rest, ∀ lr grad, s.sgd lr grad = s) {S T : List ℕ} {X : Fin (numel S) → ℝ}
    (h : TakesAll (imageStages m Ls (Ns.map fun f i => IStage.norm two training (ch i) (f i)) ++ rest) S T)
    (hX : StagesSmooth ((imageStages m Ls (Ns.map fun f i => IStage.norm two training (ch i) (f i)) ++ rest).map NStage.base) (ofVec S X)) :
    ∃ y, imageForward (imageStages m Ls (Ns.map fun f i => IStage.norm two training (ch i) (f i)) ++ rest) (ofVec S X) = .ok (ofVec T y) ∧
      ∀ (loss : (Fin (numel T) → ℝ) → ℝ) (D : (Fin (numel T) → ℝ) →L[ℝ] ℝ) (g : Tensor ℝ), HasFDerivAt loss D y → GradVec T D g →
        let ss := (imageStages m Ls (Ns.map fun f i => IStage.norm two training (ch i) (f i)) ++ rest).map NStage.base
        ∃ gx gps, stageBackward P ss (ofVec S X) g = .ok (gx, gps) ∧
          ∃ Q : ℝ → Fin (numel T) → ℝ, (∀ lr, imageForward (imageStages m (stepConv (if Ns.isSome then 2 else 1) lr gps Ls) (Ns.map fun f i => IStage.norm two training (ch i) (stepNorm lr gps f i)) ++ rest) (ofVec S X)
              = .ok (ofVec T (Q lr))) ∧ Q 0 = y ∧
            HasDerivAt (fun lr => loss (Q lr)) (-stageSquares ss (List.range ss.length) gps) 0 ∧
            ((∃ (k : ℕ) (s : NStage ℝ) (j : ℕ) (p : Tensor ℝ) (gs : List (Tensor ℝ)) (gp : Tensor ℝ) (idx : List ℕ), ss[k]? = some s ∧ s.params[j]? = some p ∧ InShape p.shape idx ∧ gps[k]? = some gs ∧
                gs[j]? = some gp ∧ gp.get idx ≠ 0) → ∃ ε > 0, ∀ lr, 0 < lr → lr < ε → loss (Q lr) < loss y) := by
  obtain ⟨F, hF, hall⟩ := C130_step hP _ h.base X hX
  refine ⟨F X, by rw [← imageForward_base]; exact hF X, fun loss D g hD hg => ?_⟩
  intro ss
  obtain ⟨gx, gps, e1, hs⟩ := hall loss D g hD hg
  refine ⟨gx, gps, e1, ?_⟩
  obtain ⟨-, Q, q1, q2, q3, q4, -⟩ := hs (List.range ss.length)
  refine ⟨fun lr => Q lr X, fun lr => ?_, congrFun q2 X, q3, ?_⟩
  · rw [← imageForward_base, ← q1 lr X]
    congr 1
    unfold ss
    rw [stageSgd_all, List.map_append, List.map_append, List.mapIdx_append, imageStages_step]
    congr 1
    refine List.ext_getElem? fun k => ?_
    rw [List.getElem?_mapIdx]
    cases hk : (rest.map NStage.base)[k]? with
    | none => rfl
    | some s =>
      obtain ⟨s', hs', rfl⟩ := List.mem_map.1 (List.mem_of_getElem? hk)
      simp only [Option.map_some]
      refine congrArg some ?_
      show NStage.base s' = NStage.base (s'.sgd _ _)
      rw [hrest s' hs']
  · rintro ⟨k, s, j, p, gs, gp, idx, hs, hrest⟩
    exact q4 ⟨k, List.mem_range.2 (List.getElem?_eq_some_iff.1 hs).1, s, j, p, gs, gp, idx, hs, hrest⟩

/-- `HighOrderFullyConvolutionalNetwork`: one step of gradient descent on all its parameters. -/
theorem C130_fully_convolutional {P : Picks ℝ} (hP : P.Valid) {a : ConvNetArgs ℝ} {r : Rank} {cls : ℕ → ConvClass} {m : ℕ} (h : a.Fine a.kernelSize.length r cls m) (hper : ∀ q, a.periodicity = some q → 0 < q)
    (rand : ℕ → ConvRng ℝ) :
    ∃ (N : FCN ℝ) (Ls : ℕ → ConvLayer ℝ), FCN.init a rand = .ok N ∧ N.stages = stagesOf m Ls (a.normalization.map fun f i => f i (a.chan (i + 1))) ∧
      ∀ (Ws : ℕ → Tensor ℝ) (training : Bool) (Ns : Option (ℕ → BatchNorm ℝ)) (B H W : ℕ), (∀ i < m, (Ws i).shape = (Ls i).weight.shape ∧ (Ws i).WF) →
      (∀ i < m, a.kern i ≤ a.widthAt a.kernelSize.length H i + 2 * a.padding) →
      (r = .two → ∀ i < m, a.kern i ≤ a.widthAt a.kernelSize.length W i + 2 * a.padding) →
      let S := fun i => B :: imageShape r (a.chan i) (a.widthAt a.kernelSize.length H i) (a.widthAt a.kernelSize.length W i)
      (∀ f ∈ Ns, ∀ i < m, NormFits training (f i) (S (i + 1))) →
      let norms := fun (Ns : Option (ℕ → BatchNorm ℝ)) => Ns.map fun f i => IStage.norm (r = .two) training (a.chan (i + 1)) (f i)
      let net := fun (Ls : ℕ → ConvLayer ℝ) (Ns : Option (ℕ → BatchNorm ℝ)) => ({ N with stages := stagesOf m Ls ((norms Ns).map fun f i => (f i).forward) } : FCN ℝ)
      let Ls' := fun i => { Ls i with weight := Ws i }
      let ss := (fcnStages (imageStages m Ls' (norms Ns)) N.pool).map NStage.base
      ∀ T, ((r = .two ∧ a.pooling = "2d" ∨ r = .one ∧ a.pooling = "1d") ∧ T = [B, a.chan m] ∨ a.pooling ∉ ["1d", "2d", "3d"] ∧ T = [B, numel ((S m).drop 1)]) →
      ∀ X : Fin (numel (S 0)) → ℝ, StagesSmooth ss (ofVec (S 0) X) →
      ∃ y, (net Ls' Ns).forward (ofVec (S 0) X) = .ok (ofVec T y) ∧
        ∀ (loss : (Fin (numel T) → ℝ) → ℝ) (D : (Fin (numel T) → ℝ) →L[ℝ] ℝ) (g : Tensor ℝ), HasFDerivAt loss D y → GradVec T D g →
          ∃ gx gps, stageBackward P ss (ofVec (S 0) X) g = .ok (gx, gps) ∧
            ∃ Q : ℝ → Fin (numel T) → ℝ,
              (∀ lr, (net (stepConv (if Ns.isSome then 2 else 1) lr gps Ls') (Ns.map fun f => stepNorm lr gps f)).forward (ofVec (S 0) X) = .ok (ofVec T (Q lr))) ∧ Q 0 = y ∧
              HasDerivAt (fun lr => loss (Q lr)) (-stageSquares ss (List.range ss.length) gps) 0 ∧
              ((∃ (k : ℕ) (s : NStage ℝ) (j : ℕ) (p : Tensor ℝ) (gs : List (Tensor ℝ)) (gp : Tensor ℝ) (idx : List ℕ), ss[k]? = some s ∧ s.params[j]? = some p ∧ InShape p.shape idx ∧ gps[k]? = some gs ∧
                  gs[j]? = some gp ∧ gp.get idx ≠ 0) → ∃ ε > 0, ∀ lr, 0 < lr → lr < ε → loss (Q lr) < loss y) := by
  obtain ⟨N, Ls, e1, e2, hall⟩ := C120_fully_convolutional h hper rand
  refine ⟨N, Ls, e1, e2, fun Ws training Ns B H W hWs hH hW => ?_⟩
  intro S hN norms net Ls' ss T hT X hX
  obtain ⟨r1, t1, t2⟩ := hall Ws training Ns B H W hWs hH hW hN
  have htake : TakesAll (fcnStages (imageStages m Ls' (norms Ns)) N.pool) (S 0) T := by
    rcases hT with ⟨hp, rfl⟩ | ⟨hp, rfl⟩
    · exact t1 hp
    · exact t2 hp
  have hsplit : ∀ l : List (IStage ℝ), fcnStages l N.pool = l ++ ((match N.pool with | some d => [.pool d] | none => []) ++ [.flatten]) := fun l => List.append_assoc _ _ _
  have hX' := hX
  unfold ss at hX'
  rw [hsplit] at htake hX'
  obtain ⟨y, hy, hl⟩ := step_images hP (rest := (match N.pool with | some d => [.pool d] | none => []) ++ [.flatten]) (by
    intro s hs lr grad
    rcases List.mem_append.1 hs with hs | hs
    · cases hpool : N.pool with
      | none =>
        rw [hpool] at hs
        cases hs
      | some d =>
        rw [hpool] at hs
        rw [List.mem_singleton.1 hs]
        rfl
    · rw [List.mem_singleton.1 hs]
      rfl) htake hX'
  refine ⟨y, ?_, fun loss D g hD hg => ?_⟩
  · refine (r1 _).symm.trans ?_
    rw [hsplit]
    exact hy
  · obtain ⟨gx, gps, b1, Q, q1, q2, q3, q4⟩ := hl loss D g hD hg
    rw [← hsplit] at b1 q3 q4
    refine ⟨gx, gps, b1, Q, fun lr => ?_, q2, q3, q4⟩
    obtain ⟨r2, -, -⟩ := hall (fun i => sgdParam lr (Ws i) (gps.getD ((if Ns.isSome then 2 else 1) * i) [])[0]?) training (Ns.map fun f => stepNorm lr gps f) B H W (fun i hi => by
        unfold sgdParam
        split
        · exact hWs i hi
        · exact ⟨(hWs i hi).1, Tensor.wf_tabulate _ _⟩) hH hW (by
        intro f hf i hi
        obtain ⟨f', hf', rfl⟩ := Option.map_eq_some_iff.1 hf
        exact hN f' hf' i hi)
    refine (r2 _).symm.trans ?_
    rw [hsplit, ← q1 lr]
    cases Ns <;> rfl

/-- `HighOrderFullyDeconvolutionalNetwork`: one step of gradient descent on all its parameters. -/
theorem C130_fully_deconvolutional {P : Picks ℝ} (hP : P.Valid) {a : ConvNetArgs ℝ} {m : ℕ} (h : a.FineT m) (hper : ∀ q, a.periodicity = some q → 0 < q) (rand : ℕ → ConvRng ℝ) :
    ∃ (N : Deconv ℝ) (Ls : ℕ → ConvLayer ℝ), Deconv.init a rand = .ok N ∧ N.stages = stagesOf m Ls (a.normalization.map fun f i => f i (a.chan (i + 1))) ∧
      ∀ (Ws : ℕ → Tensor ℝ) (training : Bool) (Ns : Option (ℕ → BatchNorm ℝ)) (B H W : ℕ), (∀ i < m, (Ws i).shape = (Ls i).weight.shape ∧ (Ws i).WF) →
      (∀ i < m, 1 ≤ a.growthAt (m + 1) H i ∧ 2 * a.padding < (a.growthAt (m + 1) H i - 1) * a.step (m + 1) i + a.kern i) →
      (∀ i < m, 1 ≤ a.growthAt (m + 1) W i ∧ 2 * a.padding < (a.growthAt (m + 1) W i - 1) * a.step (m + 1) i + a.kern i) →
      let S := fun i => [B, a.chan i, a.growthAt (m + 1) H i, a.growthAt (m + 1) W i]
      (∀ f ∈ Ns, ∀ i < m, NormFits training (f i) (S (i + 1))) →
      let norms := fun (Ns : Option (ℕ → BatchNorm ℝ)) => Ns.map fun f i => IStage.norm true training (a.chan (i + 1)) (f i)
      let net := fun (Ls : ℕ → ConvLayer ℝ) (Ns : Option (ℕ → BatchNorm ℝ)) => ({ N with stages := stagesOf m Ls ((norms Ns).map fun f i => (f i).forward) } : Deconv ℝ)
      let Ls' := fun i => { Ls i with weight := Ws i }
      let ss := (imageStages m Ls' (norms Ns)).map NStage.base
      ∀ X : Fin (numel (S 0)) → ℝ, StagesSmooth ss (ofVec (S 0) X) →
      ∃ y, (net Ls' Ns).forward (ofVec (S 0) X) = .ok (ofVec (S m) y) ∧
        ∀ (loss : (Fin (numel (S m)) → ℝ) → ℝ) (D : (Fin (numel (S m)) → ℝ) →L[ℝ] ℝ) (g : Tensor ℝ), HasFDerivAt loss D y → GradVec (S m) D g →
          ∃ gx gps, stageBackward P ss (ofVec (S 0) X) g = .ok (gx, gps) ∧
            ∃ Q : ℝ → Fin (numel (S m)) → ℝ,
              (∀ lr, (net (stepConv (if Ns.isSome then 2 else 1) lr gps Ls') (Ns.map fun f => stepNorm lr gps f)).forward (ofVec (S 0) X) = .ok (ofVec (S m) (Q lr))) ∧ Q 0 = y ∧
              HasDerivAt (fun lr => loss (Q lr)) (-stageSquares ss (List.range ss.length) gps) 0 ∧
              ((∃ (k : ℕ) (s : NStage ℝ) (j : ℕ) (p : Tensor ℝ) (gs : List (Tensor ℝ)) (gp : Tensor ℝ) (idx : List ℕ), ss[k]? = some s ∧ s.params[j]? = some p ∧ InShape p.shape idx ∧ gps[k]? = some gs ∧
                  gs[j]? = some gp ∧ gp.get idx ≠ 0) → ∃ ε > 0, ∀ lr, 0 < lr → lr < ε → loss (Q lr) < loss y) := by
  obtain ⟨N, Ls, e1, e2, hall⟩ := C120_fully_deconvolutional h hper rand
  refine ⟨N, Ls, e1, e2, fun Ws training Ns B H W hWs hH hW => ?_⟩
  intro S hN norms net Ls' ss X hX
  obtain ⟨r1, t1⟩ := hall Ws training Ns B H W hWs hH hW hN
  have hX' := hX
  unfold ss at hX'
  have hsplit : ∀ l : List (IStage ℝ), l = l ++ [] := fun l => (List.append_nil l).symm
  rw [hsplit (imageStages m Ls' (norms Ns))] at hX'
  have htake : TakesAll (imageStages m Ls' (norms Ns) ++ []) (S 0) (S m) := by
    rw [← hsplit]
    exact t1
  obtain ⟨y, hy, hl⟩ := step_images hP (rest := []) (by intro s hs; cases hs) htake hX'
  refine ⟨y, ?_, fun loss D g hD hg => ?_⟩
  · refine (r1 _).symm.trans ?_
    rw [← hy, ← hsplit]
  · obtain ⟨gx, gps, b1, Q, q1, q2, q3, q4⟩ := hl loss D g hD hg
    rw [← hsplit] at b1 q3 q4
    refine ⟨gx, gps, b1, Q, fun lr => ?_, q2, q3, q4⟩
    obtain ⟨r2, -⟩ := hall (fun i => sgdParam lr (Ws i) (gps.getD ((if Ns.isSome then 2 else 1) * i) [])[0]?) training (Ns.map fun f => stepNorm lr gps f) B H W (fun i hi => by
        unfold sgdParam
        split
        · exact hWs i hi
        · exact ⟨(hWs i hi).1, Tensor.wf_tabulate _ _⟩) hH hW (by
        intro f hf i hi
        obtain ⟨f', hf', rfl⟩ := Option.map_eq_some_iff.1 hf
        exact hN f' hf' i hi)
    refine (r2 _).symm.trans ?_
    rw [← q1 lr, ← hsplit]
    cases Ns <;> rfl

/-! ## examples -/

/-- The first entry. -/
def exFirst : Fin (numel [1, 3]) := ⟨0, by decide⟩

/-- A layer normalization of three features and the first output as the loss: the gradient of the first bias is 1, so small steps lower the loss at every input. -/
example {P : Picks ℝ} (hP : P.Valid) (X : Fin (numel [1, 3]) → ℝ) :
    let ss : List (NStage ℝ) := [.norm (.layerNorm ⟨some (Tensor.tab1 3 fun _ => 2), true, some (Tensor.tab1 3 fun _ => 1)⟩)]
    ∃ (gps : List (List (Tensor ℝ))) (Q : ℝ → (Fin (numel [1, 3]) → ℝ) → Fin (numel [1, 3]) → ℝ),
      (∀ lr Y, stageForward (stageSgd [0] lr gps ss) (ofVec [1, 3] Y) = .ok (ofVec [1, 3] (Q lr Y))) ∧ (∀ Y, stageForward ss (ofVec [1, 3] Y) = .ok (ofVec [1, 3] (Q 0 Y))) ∧
      ∃ ε > 0, ∀ lr, 0 < lr → lr < ε → Q lr X exFirst < Q 0 X exFirst := by
  intro ss
  obtain ⟨F, hF, hall⟩ := C130_step hP ss (S := [1, 3]) (T := [1, 3])
    ⟨_, ⟨rfl, 3, _, rfl, by norm_num, rfl, rfl, Tensor.wf_tabulate _ _, by rintro b ⟨rfl⟩; exact ⟨rfl, Tensor.wf_tabulate _ _⟩⟩, rfl⟩ X ⟨trivial, fun _ _ => trivial⟩
  obtain ⟨gx, gps, e1, hs⟩ := hall (fun z => z exFirst) (ContinuousLinearMap.proj (R := ℝ) (φ := fun _ : Fin (numel [1, 3]) => ℝ) exFirst)
    (ofVec [1, 3] (Pi.single exFirst 1)) (ContinuousLinearMap.hasFDerivAt (ContinuousLinearMap.proj (R := ℝ) (φ := fun _ : Fin (numel [1, 3]) => ℝ) exFirst)) ⟨rfl, ofVec_wf _ _, fun p => by
      rw [ofVec_get_unravel]
      show _ = (Pi.single p 1 : Fin (numel [1, 3]) → ℝ) exFirst
      by_cases h : p = exFirst
      · rw [h]
      · rw [Pi.single_eq_of_ne h, Pi.single_eq_of_ne (Ne.symm h)]⟩
  obtain ⟨-, Q, q1, q2, -, q4, -⟩ := hs [0]
  refine ⟨gps, Q, q1, fun Y => by rw [q2]; exact hF Y, ?_⟩
  rw [q2]
  have hf : (NormModule.layerNorm ⟨some (Tensor.tab1 3 fun _ => (2 : ℝ)), true, some (Tensor.tab1 3 fun _ => 1)⟩).apply (ofVec [1, 3] X) = .ok (ofVec [1, 3] (F X)) := by
    have := hF X
    unfold ss stageForward at this
    cases hc : (NormModule.layerNorm ⟨some (Tensor.tab1 3 fun _ => (2 : ℝ)), true, some (Tensor.tab1 3 fun _ => 1)⟩).apply (ofVec [1, 3] X) with
    | error e =>
      unfold NStage.forward at this
      dsimp only at this
      rw [hc] at this
      cases this
    | ok v =>
      unfold NStage.forward at this
      dsimp only at this
      rw [hc] at this
      exact this
  obtain ⟨-, rfl⟩ : _ ∧ [NormModule.paramGrads (.layerNorm ⟨some (Tensor.tab1 3 fun _ => (2 : ℝ)), true, some (Tensor.tab1 3 fun _ => 1)⟩) (ofVec [1, 3] X) (ofVec [1, 3] (Pi.single exFirst 1))] = gps := by
    have h2 : stageBackward P ss (ofVec [1, 3] X) (ofVec [1, 3] (Pi.single exFirst 1))
        = .ok (NormModule.inputGrad P (.layerNorm ⟨some (Tensor.tab1 3 fun _ => (2 : ℝ)), true, some (Tensor.tab1 3 fun _ => 1)⟩) (ofVec [1, 3] X) (ofVec [1, 3] (Pi.single exFirst 1)),
          [NormModule.paramGrads (.layerNorm ⟨some (Tensor.tab1 3 fun _ => (2 : ℝ)), true, some (Tensor.tab1 3 fun _ => 1)⟩) (ofVec [1, 3] X) (ofVec [1, 3] (Pi.single exFirst 1))]) := by
      show ((NormModule.layerNorm ⟨some (Tensor.tab1 3 fun _ => (2 : ℝ)), true, some (Tensor.tab1 3 fun _ => 1)⟩).apply (ofVec [1, 3] X) >>= _) = _
      rw [hf]
      rfl
    exact Prod.mk.inj (Except.ok.inj (h2.symm.trans e1))
  refine q4 ⟨0, List.mem_singleton.2 rfl, _, 1, Tensor.tab1 3 fun _ => 1, _, layerNormBiasGrad (Tensor.tab1 3 fun _ => 1) (ofVec [1, 3] X) (ofVec [1, 3] (Pi.single exFirst 1)), [0], rfl, rfl,
    inShape1.2 (by norm_num), rfl, rfl, ?_⟩
  unfold layerNormBiasGrad
  show (Tensor.tabulate [3] fun i => columnSum [1, 3] (i.getD 0 0) (ofVec [1, 3] (Pi.single exFirst 1)).get).get [0] ≠ 0
  rw [Tensor.get_tabulate (inShape1.2 (by norm_num))]
  unfold columnSum
  rw [sumL_real, show ((List.range (numel [1, 3])).filter fun p => (unravel [1, 3] p).getD ([1, 3].length - 1) 0 = [0].getD 0 0) = [0] by decide]
  have : (ofVec [1, 3] (Pi.single exFirst (1 : ℝ))).get (unravel [1, 3] exFirst) = 1 := by
    rw [ofVec_get_unravel, Pi.single_eq_same]
  rw [List.map_singleton, List.sum_singleton]
  exact this.trans_ne one_ne_zero

/-- The network of `exFcn` with `BatchNorm2d` in training mode on batches of 7 images: the derivative of every loss along a step is minus the sum of the squares of all gradients. -/
example {P : Picks ℝ} (hP : P.Valid) (rand : ℕ → ConvRng ℝ) : ∃ (N : FCN ℝ) (Ls : ℕ → ConvLayer ℝ), FCN.init exFcn rand = .ok N ∧
    ∀ X : Fin (numel [7, 3, 9, 9]) → ℝ, (∀ i < 2, (Ls i).weight.WF) →
      let ss := (fcnStages (imageStages 2 Ls (some fun i => .norm true true (exFcn.chan (i + 1)) (BatchNorm.new defaultEps))) N.pool).map NStage.base
      StagesSmooth ss (ofVec [7, 3, 9, 9] X) →
      ∃ y : Fin (numel [7, 4]) → ℝ, ∀ (loss : (Fin (numel [7, 4]) → ℝ) → ℝ) (D : (Fin (numel [7, 4]) → ℝ) →L[ℝ] ℝ) (g : Tensor ℝ), HasFDerivAt loss D y → GradVec [7, 4] D g →
        ∃ gx gps, stageBackward P ss (ofVec [7, 3, 9, 9] X) g = .ok (gx, gps) ∧ ∃ Q : ℝ → Fin (numel [7, 4]) → ℝ, Q 0 = y ∧ HasDerivAt (fun lr => loss (Q lr)) (-stageSquares ss (List.range ss.length) gps) 0 := by
  obtain ⟨N, Ls, h1, -, h3⟩ := C130_fully_convolutional hP (a := exFcn) exFcn_fine (by intro q hq; cases hq) rand
  have w : ∀ i < 2, exFcn.kern i ≤ exFcn.widthAt 2 9 i + 2 * exFcn.padding := by decide
  refine ⟨N, Ls, h1, fun X hw => ?_⟩
  intro ss hX
  obtain ⟨y, -, hy⟩ := h3 (fun i => (Ls i).weight) true (some fun _ => BatchNorm.new defaultEps) 7 9 9 (fun i hi => ⟨rfl, hw i hi⟩) w (fun _ => w) (by
    rintro f ⟨rfl⟩ i hi
    unfold NormFits
    rw [if_pos rfl]
    refine ⟨?_, by simp [BatchNorm.new, defaultEps]⟩
    interval_cases i <;> decide) [7, 4] (.inl ⟨.inl ⟨rfl, rfl⟩, rfl⟩) X hX
  refine ⟨y, fun loss D g hD hg => ?_⟩
  obtain ⟨gx, gps, b1, Q, -, q2, q3, -⟩ := hy loss D g hD hg
  exact ⟨gx, gps, b1, Q, q2, q3⟩

end HOL
