import Verif.Props.StageRuns

/-! # C134: the networks of the library, and what does not keep the levels -/

namespace HOL
open TorchScalar Spec

/-! ## constructed networks -/

/-- All convolutions of a network come from the table with `length = 2`. -/
theorem convStages_all {factory : String → ConvArgs ℝ → ConvRng ℝ → Py (ConvLayer ℝ)} {Q : ConvLayer ℝ → Prop} (hf : ∀ t (a : ConvArgs ℝ) r L, a.length = ((2 : ℕ) : ℝ) → factory t a r = .ok L → Q L) {a : ConvNetArgs ℝ} {size : ℕ}
    {rand : ℕ → ConvRng ℝ} {stages : List (ConvStage ℝ)} (h : convStages factory a size rand = .ok stages) (L : ConvLayer ℝ) (hL : ConvStage.conv L ∈ stages) : Q L := by
  unfold convStages at h
  dsimp only at h
  split at h
  · cases h
  split at h
  · cases h
  split at h
  · cases h
  cases hm : (List.range (a.channels.length - 1)).mapM (convRound factory a (a.lists size) rand) with
  | error e =>
    rw [hm] at h
    cases h
  | ok ss =>
    rw [hm] at h
    cases h
    obtain ⟨l, hl, hLl⟩ := List.mem_flatten.1 hL
    obtain ⟨i, -, hi⟩ := mapM_mem hm l hl
    unfold convRound at hi
    simp only [Bind.bind, Except.bind] at hi
    repeat' split at hi
    all_goals first
      | cases hi; done
      | skip
    all_goals
      cases hi
      simp only [List.mem_cons, ConvStage.conv.injEq, List.not_mem_nil, or_false, reduceCtorEq] at hLl
      subst hLl
      refine hf _ _ _ _ ?_ (by assumption)
      rfl

theorem ConvClass.known (cls : ConvClass) {a : ConvArgs ℝ} (ha : a.length = ((2 : ℕ) : ℝ)) : (cls.expander a).Known := by
  have h2 : a.length ≠ 0 := by rw [ha]; norm_num
  cases cls with
  | polynomial r => exact .inl ⟨_, h2, rfl⟩
  | piecewise s r => exact h2
  | fourier r => exact .inr ⟨_, rfl⟩

theorem convLayer_known (t : String) (a : ConvArgs ℝ) (r : ConvRng ℝ) (L : ConvLayer ℝ) (ha : a.length = ((2 : ℕ) : ℝ)) (h : convLayer t a r = .ok L) : L.expander.Known := by
  unfold convLayer at h
  split at h
  · cases h
  · cases h
  · rename_i cls _
    have hk := cls.known ha
    unfold convInit at h
    dsimp only at h
    split at h
    · cases h
    all_goals
      split at h
      · cases h
      · cases h
        exact hk

theorem convTransposeLayer_known (t : String) (a : ConvArgs ℝ) (r : ConvRng ℝ) (L : ConvLayer ℝ) (ha : a.length = ((2 : ℕ) : ℝ)) (h : convTransposeLayer t a r = .ok L) : L.expander.Known := by
  unfold convTransposeLayer at h
  split at h
  · unfold convTransposeInit at h
    dsimp only at h
    split at h
    · cases h
    · cases h
      have := ConvClass.known (.piecewise true .two) ha
      exact this
  · cases h

theorem imageStages_conv {m : ℕ} {Ls : ℕ → ConvLayer ℝ} {Ns : Option (ℕ → IStage ℝ)} (hN : ∀ f ∈ Ns, ∀ i L, f i ≠ .conv L) {L : ConvLayer ℝ} (h : IStage.conv L ∈ imageStages m Ls Ns) : ∃ i < m, L = Ls i := by
  unfold imageStages at h
  obtain ⟨i, hi, h⟩ := List.mem_flatMap.1 h
  refine ⟨i, List.mem_range.1 hi, ?_⟩
  cases Ns with
  | none =>
    have := List.mem_singleton.1 h
    cases this
    rfl
  | some f =>
    rcases List.mem_cons.1 h with h | h
    · cases h
      rfl
    · exact absurd (List.mem_singleton.1 h).symm (hN f rfl i L)

/-- **C134 (`HighOrderFullyConvolutionalNetwork`).** A constructed network with any weights, with or without batch normalization, trained by gradient descent on images of sizes it takes. -/
theorem C134_fully_convolutional (P : Picks ℝ) {a : ConvNetArgs ℝ} {r : Rank} {cls : ℕ → ConvClass} {m : ℕ} (h : a.Fine a.kernelSize.length r cls m) (hper : ∀ q, a.periodicity = some q → 0 < q) (rand : ℕ → ConvRng ℝ)
    (hpool : r = .two ∧ a.pooling = "2d" ∨ r = .one ∧ a.pooling = "1d" ∨ a.pooling ∉ ["1d", "2d", "3d"]) :
    ∃ (N : FCN ℝ) (Ls : ℕ → ConvLayer ℝ), FCN.init a rand = .ok N ∧ N.stages = stagesOf m Ls (a.normalization.map fun f i => f i (a.chan (i + 1))) ∧
      ∀ (Ws : ℕ → Tensor ℝ) (training : Bool) (Ns : Option (ℕ → BatchNorm ℝ)), (∀ i < m, (Ws i).shape = (Ls i).weight.shape ∧ (Ws i).WF) →
      let S := fun B H W i => B :: imageShape r (a.chan i) (a.widthAt a.kernelSize.length H i) (a.widthAt a.kernelSize.length W i)
      let Ls' := fun i => { Ls i with weight := Ws i }
      let norms := Ns.map fun f i => IStage.norm (r = .two) training (a.chan (i + 1)) (f i)
      let ss := (fcnStages (imageStages m Ls' norms) N.pool).map NStage.base
      ∀ (trained : List ℕ) (bs : List (Batch ℝ)),
      (∀ b ∈ bs, b.x.WF ∧ (∀ y, (b.lossGrad y).shape = y.shape) ∧ ∃ B H W, b.x.shape = S B H W 0 ∧ (∀ i < m, a.kern i ≤ a.widthAt a.kernelSize.length H i + 2 * a.padding) ∧
        (r = .two → ∀ i < m, a.kern i ≤ a.widthAt a.kernelSize.length W i + 2 * a.padding) ∧ ∀ f ∈ Ns, ∀ i < m, NormFits training (f i) (S B H W (i + 1))) →
      ∃ ss', stageTrain P trained ss bs = .ok ss' ∧ ∀ (k : ℕ) (L : ConvLayer ℝ), ss[k]? = some (NStage.base (.conv L)) → ∃ L', ss'[k]? = some (NStage.base (.conv L')) ∧ KeepsLevels L L' := by
  obtain ⟨N, Ls, e1, e2, hall⟩ := C120_fully_convolutional h hper rand
  have hkn : ∀ i < m, (Ls i).expander.Known := by
    intro i hi
    unfold FCN.init at e1
    cases hc : convStages convLayer a a.kernelSize.length rand with
    | error e => rw [hc] at e1; cases e1
    | ok st =>
      rw [hc] at e1
      have hst : st = N.stages := congrArg FCN.stages (Except.ok.inj e1)
      refine convStages_all convLayer_known hc (Ls i) ?_
      rw [hst, e2]
      exact mem_stagesOf hi
  refine ⟨N, Ls, e1, e2, fun Ws training Ns hWs => ?_⟩
  intro S Ls' norms ss trained bs hbs
  have hT : ∀ b ∈ bs, b.x.WF ∧ (∃ T, StagesTake ss b.x.shape T) ∧ ∀ y, (b.lossGrad y).shape = y.shape := by
    intro b hb
    obtain ⟨b1, b2, B, H, W, b3, b4, b5, b6⟩ := hbs b hb
    obtain ⟨-, t1, t2⟩ := hall Ws training Ns B H W hWs b4 b5 b6
    refine ⟨b1, ?_, b2⟩
    rw [b3]
    rcases hpool with hp | hp | hp
    · exact ⟨_, (t1 (.inl hp)).base⟩
    · exact ⟨_, (t1 (.inr hp)).base⟩
    · exact ⟨_, (t2 hp).base⟩
  obtain ⟨ss', ht⟩ := C134_runs P trained bs (fun s hs => by
    obtain ⟨b, -, rfl⟩ := List.mem_map.1 hs
    exact ⟨b, rfl⟩) fun b hb => ⟨(hT b hb).1, (hT b hb).2.1⟩
  refine ⟨ss', ht, fun k L hk => ?_⟩
  have hmem : IStage.conv L ∈ fcnStages (imageStages m Ls' norms) N.pool := by
    obtain ⟨s, hs, he⟩ := List.mem_map.1 (List.mem_of_getElem? hk)
    cases he
    exact hs
  have hmem' : IStage.conv L ∈ imageStages m Ls' norms := by
    unfold fcnStages at hmem
    rcases List.mem_append.1 hmem with hmem | hmem
    · rcases List.mem_append.1 hmem with hmem | hmem
      · exact hmem
      · cases hp : N.pool with
        | none => rw [hp] at hmem; cases hmem
        | some d => rw [hp] at hmem; cases List.mem_singleton.1 hmem
    · cases List.mem_singleton.1 hmem
  obtain ⟨i, hi, rfl⟩ := imageStages_conv (fun f hf i L he => by
    obtain ⟨f', -, rfl⟩ := Option.map_eq_some_iff.1 hf
    cases he) hmem'
  exact C134_training (L := Ls' i) P trained hT hk (hkn i hi) (hWs i hi).2 ht

/-- **C134 (`HighOrderFullyDeconvolutionalNetwork`).** The same for transposed convolutions: the levels at one position of the kernel. -/
theorem C134_fully_deconvolutional (P : Picks ℝ) {a : ConvNetArgs ℝ} {m : ℕ} (h : a.FineT m) (hper : ∀ q, a.periodicity = some q → 0 < q) (rand : ℕ → ConvRng ℝ) :
    ∃ (N : Deconv ℝ) (Ls : ℕ → ConvLayer ℝ), Deconv.init a rand = .ok N ∧ N.stages = stagesOf m Ls (a.normalization.map fun f i => f i (a.chan (i + 1))) ∧
      ∀ (Ws : ℕ → Tensor ℝ) (training : Bool) (Ns : Option (ℕ → BatchNorm ℝ)), (∀ i < m, (Ws i).shape = (Ls i).weight.shape ∧ (Ws i).WF) →
      let S := fun B H W i => [B, a.chan i, a.growthAt (m + 1) H i, a.growthAt (m + 1) W i]
      let Ls' := fun i => { Ls i with weight := Ws i }
      let norms := Ns.map fun f i => IStage.norm true training (a.chan (i + 1)) (f i)
      let ss := (imageStages m Ls' norms).map NStage.base
      ∀ (trained : List ℕ) (bs : List (Batch ℝ)),
      (∀ b ∈ bs, b.x.WF ∧ (∀ y, (b.lossGrad y).shape = y.shape) ∧ ∃ B H W, b.x.shape = S B H W 0 ∧
        (∀ i < m, 1 ≤ a.growthAt (m + 1) H i ∧ 2 * a.padding < (a.growthAt (m + 1) H i - 1) * a.step (m + 1) i + a.kern i) ∧
        (∀ i < m, 1 ≤ a.growthAt (m + 1) W i ∧ 2 * a.padding < (a.growthAt (m + 1) W i - 1) * a.step (m + 1) i + a.kern i) ∧ ∀ f ∈ Ns, ∀ i < m, NormFits training (f i) (S B H W (i + 1))) →
      ∃ ss', stageTrain P trained ss bs = .ok ss' ∧ ∀ (k : ℕ) (L : ConvLayer ℝ), ss[k]? = some (NStage.base (.conv L)) → ∃ L', ss'[k]? = some (NStage.base (.conv L')) ∧ KeepsLevels L L' := by
  obtain ⟨N, Ls, e1, e2, hall⟩ := C120_fully_deconvolutional h hper rand
  have hkn : ∀ i < m, (Ls i).expander.Known := by
    intro i hi
    have : ∃ size st, convStages convTransposeLayer a size rand = .ok st ∧ st = N.stages := by
      unfold Deconv.init at e1
      refine ⟨a.channels.length, ?_⟩
      cases hc : convStages convTransposeLayer a a.channels.length rand with
      | error e =>
        rw [hc] at e1
        cases e1
      | ok st =>
        rw [hc] at e1
        exact ⟨st, rfl, congrArg Deconv.stages (Except.ok.inj e1)⟩
    obtain ⟨size, st, hc, hst⟩ := this
    refine convStages_all convTransposeLayer_known hc (Ls i) ?_
    rw [hst, e2]
    exact mem_stagesOf hi
  refine ⟨N, Ls, e1, e2, fun Ws training Ns hWs => ?_⟩
  intro S Ls' norms ss trained bs hbs
  have hT : ∀ b ∈ bs, b.x.WF ∧ (∃ T, StagesTake ss b.x.shape T) ∧ ∀ y, (b.lossGrad y).shape = y.shape := by
    intro b hb
    obtain ⟨b1, b2, B, H, W, b3, b4, b5, b6⟩ := hbs b hb
    obtain ⟨-, t1⟩ := hall Ws training Ns B H W hWs b4 b5 b6
    refine ⟨b1, ?_, b2⟩
    rw [b3]
    exact ⟨_, t1.base⟩
  obtain ⟨ss', ht⟩ := C134_runs P trained bs (fun s hs => by
    obtain ⟨b, -, rfl⟩ := List.mem_map.1 hs
    exact ⟨b, rfl⟩) fun b hb => ⟨(hT b hb).1, (hT b hb).2.1⟩
  refine ⟨ss', ht, fun k L hk => ?_⟩
  have hmem : IStage.conv L ∈ imageStages m Ls' norms := by
    obtain ⟨s, hs, he⟩ := List.mem_map.1 (List.mem_of_getElem? hk)
    cases he
    exact hs
  obtain ⟨i, hi, rfl⟩ := imageStages_conv (fun f hf i L he => by
    obtain ⟨f', -, rfl⟩ := Option.map_eq_some_iff.1 hf
    cases he) hmem
  exact C134_training (L := Ls' i) P trained hT hk (hkn i hi) (hWs i hi).2 ht

end HOL
