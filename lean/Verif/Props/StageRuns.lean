import Verif.Props.TapLevels
import Verif.Props.ConvGradient

/-! # C134: training of the constructed convolutional networks does not fail -/

namespace HOL
open TorchScalar Spec

/-- A module of a convolutional network runs, forward and backward, on any tensor of the shape it takes. -/
theorem base_runs (P : Picks ℝ) {s : IStage ℝ} {S T : List ℕ} (h : (NStage.base s).Takes S T) {x : Tensor ℝ} (hx : x.shape = S) (hwx : x.WF) :
    (∃ y, (NStage.base s).forward x = .ok y) ∧ ∀ g, (∃ gx, (NStage.base s).inputGrad P x g = .ok gx) ∧ ∃ gp, (NStage.base s).paramGrads x g = .ok gp := by
  have vec : ∀ {F : (Fin (numel S) → ℝ) → Fin (numel T) → ℝ}, (∀ Y, (NStage.base s).forward (ofVec S Y) = .ok (ofVec T (F Y))) → ∃ y, (NStage.base s).forward x = .ok y := by
    intro F hF
    rw [eq_ofVec hx hwx]
    exact ⟨_, hF _⟩
  cases s with
  | conv L =>
    have hT : L.Takes S T := h
    obtain ⟨B, C, R, r, rfl, hst⟩ := L.staged hT
    have he : ∃ e, L.expanded x = .ok e := by
      rw [eq_ofVec hx hwx, ConvLayer.expanded_call, map_ofVec, hst.expand]
      exact ⟨_, rfl⟩
    obtain ⟨e, he⟩ := he
    refine ⟨vec (L.forward_vec hst L.weight rfl), fun g => ⟨?_, ?_⟩⟩
    · show ∃ gx, (L.expanded x >>= _) = _
      rw [he]
      exact ⟨_, rfl⟩
    · show ∃ gp, ((L.expanded x >>= _) >>= _) = _
      rw [he]
      exact ⟨_, rfl⟩
  | norm two training channels N =>
    obtain ⟨rfl, B, R, rfl, hR, ht⟩ := h
    exact ⟨vec (norm_vec N two training channels B channels R hR fun e => by rw [if_pos e] at ht; exact ht.1), fun g => ⟨⟨_, rfl⟩, _, rfl⟩⟩
  | pool d =>
    obtain ⟨hr, hN, rfl⟩ := h
    obtain ⟨F, hb⟩ := backprop_pool d hr hN (fun _ => 0)
    exact ⟨vec hb.run, fun g => ⟨⟨_, rfl⟩, _, rfl⟩⟩
  | flatten =>
    obtain ⟨B, C, R, rfl, rfl⟩ := h
    exact ⟨vec (backprop_reshape (f := flatten1) (S := B :: C :: R) (T := [B, numel (C :: R)]) (by simp [numel]) (fun x hx => by unfold flatten1; rw [hx]) (fun _ => 0)).run, fun g => ⟨⟨_, rfl⟩, _, rfl⟩⟩
  | dense l =>
    obtain ⟨B, I, O, rfl, rfl, hl⟩ := h
    obtain ⟨y', h1, h2, h3⟩ := layer_shape hl hx hwx
    exact ⟨⟨y', h1⟩, fun g => ⟨⟨_, rfl⟩, _, rfl⟩⟩

theorem base_passes (P : Picks ℝ) : ∀ {ss : List (NStage ℝ)} {S T : List ℕ}, StagesTake ss S T → (∀ s ∈ ss, ∃ b, s = NStage.base b) → ∀ {x : Tensor ℝ}, x.shape = S → x.WF →
    (∃ y, stageForward ss x = .ok y) ∧ ∀ g, ∃ r, stageBackward P ss x g = .ok r
  | [], S, T, h, hb, x, hx, hwx => ⟨⟨x, rfl⟩, fun g => ⟨_, rfl⟩⟩
  | s :: ss, S, T, ⟨M, h1, h2⟩, hb, x, hx, hwx => by
    obtain ⟨b, rfl⟩ := hb s List.mem_cons_self
    obtain ⟨⟨u, hu⟩, hg⟩ := base_runs P h1 hx hwx
    obtain ⟨u1, u2⟩ := stage_shape h1 hx hwx hu
    obtain ⟨⟨y, hy⟩, hbw⟩ := base_passes P h2 (fun s hs => hb s (List.mem_cons_of_mem _ hs)) u1 u2
    refine ⟨⟨y, ?_⟩, fun g => ?_⟩
    · show ((NStage.base b).forward x >>= stageForward ss) = _
      rw [hu]
      exact hy
    · obtain ⟨t, ht⟩ := hbw g
      obtain ⟨⟨gx, hgx⟩, gp, hgp⟩ := hg t.1
      refine ⟨(gx, gp :: t.2), ?_⟩
      show ((NStage.base b).forward x >>= fun u => stageBackward P ss u g >>= fun t => (NStage.base b).inputGrad P x t.1 >>= fun gx => (NStage.base b).paramGrads x t.1 >>= fun gp => .ok (gx, gp :: t.2)) = _
      rw [hu]
      show (stageBackward P ss u g >>= fun t => (NStage.base b).inputGrad P x t.1 >>= fun gx => (NStage.base b).paramGrads x t.1 >>= fun gp => .ok (gx, gp :: t.2)) = _
      rw [ht]
      show ((NStage.base b).inputGrad P x t.1 >>= fun gx => (NStage.base b).paramGrads x t.1 >>= fun gp => .ok (gx, gp :: t.2)) = _
      rw [hgx]
      show ((NStage.base b).paramGrads x t.1 >>= fun gp => .ok (gx, gp :: t.2)) = _
      rw [hgp]
      rfl

/-- **C134 (training runs).** The training loop of a list of convolutions, batch normalizations, pooling, `nn.Flatten` and fully connected layers never fails on batches of shapes the list takes; no condition on the losses, the learning rates or the pixels. -/
theorem C134_runs (P : Picks ℝ) (trained : List ℕ) : ∀ (bs : List (Batch ℝ)) {ss : List (NStage ℝ)}, (∀ s ∈ ss, ∃ b, s = NStage.base b) → (∀ b ∈ bs, b.x.WF ∧ ∃ T, StagesTake ss b.x.shape T) → ∃ ss', stageTrain P trained ss bs = .ok ss'
  | [], ss, _, _ => ⟨ss, rfl⟩
  | b :: bs, ss, hb, h => by
    obtain ⟨hwx, T, hT⟩ := h b List.mem_cons_self
    obtain ⟨⟨y, hy⟩, hbw⟩ := base_passes P hT hb rfl hwx
    obtain ⟨r, hr⟩ := hbw (b.lossGrad y)
    have hb' : ∀ s ∈ stageSgd trained b.lr r.2 ss, ∃ b, s = NStage.base b := by
      intro s hs
      unfold stageSgd at hs
      obtain ⟨i, hi, rfl⟩ := List.mem_mapIdx.1 hs
      obtain ⟨t, ht⟩ := hb _ (List.getElem_mem hi)
      rw [ht]
      split
      · exact ⟨_, rfl⟩
      · exact ⟨_, rfl⟩
    obtain ⟨ss', hss'⟩ := C134_runs P trained bs hb' fun b' hb' => by
      obtain ⟨a1, T', a2⟩ := h b' (List.mem_cons_of_mem _ hb')
      exact ⟨a1, T', stageSgd_takes a2 trained b.lr r.2⟩
    refine ⟨ss', ?_⟩
    show (stageTrainStep P trained ss b >>= fun ss => stageTrain P trained ss bs) = _
    unfold stageTrainStep
    rw [hy]
    show ((stageBackward P ss b.x (b.lossGrad y) >>= fun r => .ok (stageSgd trained b.lr r.2 ss)) >>= fun ss => stageTrain P trained ss bs) = _
    rw [hr]
    exact hss'

/-- With one convolution. -/
example (P : Picks ℝ) (bs : List (Batch ℝ)) (h : ∀ b ∈ bs, b.x.WF ∧ ∃ B, b.x.shape = [B, 1, 4, 4]) : ∃ ss', stageTrain P [0] [.base (.conv exPixelConv)] bs = .ok ss' :=
  C134_runs P [0] bs (fun s hs => ⟨_, List.mem_singleton.1 hs⟩) fun b hb => by
    obtain ⟨b1, B, b2⟩ := h b hb
    rw [b2]
    exact ⟨b1, _, _, exPixelConv_takes B 4 4 (by norm_num) (by norm_num), rfl⟩

end HOL
