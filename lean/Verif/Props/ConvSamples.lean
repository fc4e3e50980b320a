import Verif.Lemmas.ConvSamples

/-! # C119: convolutional networks and autoencoders treat the images of a batch separately -/

namespace HOL
open TorchScalar Spec

section
set_option linter.unusedSectionVars false
variable {K : Type} [TorchScalar K]

/-- **C119 (convolutional networks).** In every arithmetic, for every accepted configuration of `HighOrderFullyConvolutionalNetwork` of 1d or 2d layers, whatever its weights have become and
whatever normalizations are used that treat samples separately: the output for an image is determined by that image alone, with every pooling for which there is an output at all. -/
theorem C119_convolutional {a : ConvNetArgs K} {r : Rank} {cls : ℕ → ConvClass} {m : ℕ} (h : a.Fine a.kernelSize.length r cls m) (hO : 1 ≤ a.chan m)
    (rand : ℕ → ConvRng K) :
    ∃ (N : FCN K) (Ls : ℕ → ConvLayer K), FCN.init a rand = .ok N ∧
      N.stages = stagesOf m Ls (a.normalization.map fun f i => f i (a.chan (i + 1))) ∧
      ∀ (Ws : ℕ → Tensor K) (g : Option (ℕ → Fwd K)), (∀ i < m, (Ws i).shape = (Ls i).weight.shape) →
      ∀ H W : ℕ, (∀ i < m, a.kern i ≤ a.widthAt a.kernelSize.length H i + 2 * a.padding) →
      (r = .two → ∀ i < m, a.kern i ≤ a.widthAt a.kernelSize.length W i + 2 * a.padding) →
      let S := fun i => imageShape r (a.chan i) (a.widthAt a.kernelSize.length H i) (a.widthAt a.kernelSize.length W i)
      (∀ f ∈ g, ∀ i < m, SampleMap (f i) (S (i + 1)) (S (i + 1))) →
      let N' : FCN K := { N with stages := stagesOf m (fun i => { Ls i with weight := Ws i }) g }
      (r = .two ∧ a.pooling = "2d" ∨ r = .one ∧ a.pooling = "1d" → SampleMap N'.forward (S 0) [a.chan m]) ∧
      (a.pooling ∉ ["1d", "2d", "3d"] → SampleMap N'.forward (S 0) [numel (S m)]) ∧
      (r = .two ∧ a.pooling = "3d" ∨ r = .one ∧ a.pooling = "2d" → SampleMap N'.forward (S 0) [1]) := by
  obtain ⟨Ls, h1, h2⟩ := convStages_ok h rand
  have hm := h.layers
  refine ⟨{ stages := stagesOf m Ls (a.normalization.map fun f i => f i (a.chan (i + 1)))
            pool := if a.pooling = "1d" then some 1 else if a.pooling = "2d" then some 2 else if a.pooling = "3d" then some 3 else none
            channels := a.channels }, Ls, by unfold FCN.init; rw [h1]; rfl, rfl, ?_⟩
  intro Ws g hWs H W hH hW S hg N'
  have base : SampleMap (runStages N'.stages) (S 0) (S m) := runStages_sampleMap (S := S)
    (fun i hi => ((h2 i hi).withWeight (hWs i hi)).sampleMap_any (h.kernel i hi).2 (h.stride i hi).2 (hH i hi) fun hr => hW hr i hi) hg
  have pH : 1 ≤ a.widthAt a.kernelSize.length H m := widthAt_pos a _ hm
  have pW : 1 ≤ a.widthAt a.kernelSize.length W m := widthAt_pos a _ hm
  have pooled : ∀ d, N'.pool = some d → ∀ t, SampleMap (K := K) (fun x => do let y ← adaptiveAvgPool d x; flatten1 y) (S m) t → SampleMap N'.forward (S 0) t := by
    intro d hd t ht
    refine (base.comp ht).congr fun B x _ _ _ => ?_
    unfold FCN.forward
    rw [hd]
  refine ⟨?_, ?_, ?_⟩
  · rintro (⟨rfl, hp⟩ | ⟨rfl, hp⟩)
    · exact pooled 2 (by show (if _ then _ else _) = _; rw [hp]; rfl) _ (sampleMap_pool2 pH pW)
    · exact pooled 1 (by show (if _ then _ else _) = _; rw [hp]; rfl) _ (sampleMap_pool1 pH)
  · intro hp
    have hn : N'.pool = none := by
      simp only [List.mem_cons, List.not_mem_nil, or_false, not_or] at hp
      show (if _ then _ else _) = _
      rw [if_neg hp.1, if_neg hp.2.1, if_neg hp.2.2]
    have hf : SampleMap (K := K) flatten1 (S m) [numel (S m)] := by
      cases r with
      | two => exact sampleMap_flatten1 _ _
      | one => exact sampleMap_flatten1 _ _
    refine (base.comp hf).congr fun B x _ _ _ => ?_
    unfold FCN.forward
    rw [hn]
  · rintro (⟨rfl, hp⟩ | ⟨rfl, hp⟩)
    · exact pooled 3 (by show (if _ then _ else _) = _; rw [hp]; rfl) _ (sampleMap_poolAll (d := 2) rfl (by simp [S, numel, imageShape]; omega))
    · exact pooled 2 (by show (if _ then _ else _) = _; rw [hp]; rfl) _ (sampleMap_poolAll (d := 1) rfl (by simp [S, numel, imageShape]; omega))

/-- **C119 (deconvolutional networks).** The same holds for `HighOrderFullyDeconvolutionalNetwork`. -/
theorem C119_deconvolutional {a : ConvNetArgs K} {m : ℕ} (h : a.FineT m) (rand : ℕ → ConvRng K) :
    ∃ (N : Deconv K) (Ls : ℕ → ConvLayer K), Deconv.init a rand = .ok N ∧
      N.stages = stagesOf m Ls (a.normalization.map fun f i => f i (a.chan (i + 1))) ∧
      ∀ (Ws : ℕ → Tensor K) (g : Option (ℕ → Fwd K)), (∀ i < m, (Ws i).shape = (Ls i).weight.shape) →
      ∀ H W : ℕ, (∀ i < m, 1 ≤ a.growthAt (m + 1) H i ∧ 2 * a.padding < (a.growthAt (m + 1) H i - 1) * a.step (m + 1) i + a.kern i) →
      (∀ i < m, 1 ≤ a.growthAt (m + 1) W i ∧ 2 * a.padding < (a.growthAt (m + 1) W i - 1) * a.step (m + 1) i + a.kern i) →
      let S := fun i => [a.chan i, a.growthAt (m + 1) H i, a.growthAt (m + 1) W i]
      (∀ f ∈ g, ∀ i < m, SampleMap (f i) (S (i + 1)) (S (i + 1))) →
      SampleMap ({ N with stages := stagesOf m (fun i => { Ls i with weight := Ws i }) g } : Deconv K).forward (S 0) (S m) := by
  obtain ⟨Ls, h1, h2⟩ := deconvStages_ok h rand
  refine ⟨⟨stagesOf m Ls (a.normalization.map fun f i => f i (a.chan (i + 1))), a.chan 0⟩, Ls, h1, rfl, ?_⟩
  intro Ws g hWs H W hH hW S hg
  exact runStages_sampleMap (S := S)
    (fun i hi => ConvLayer.BetweenT.sampleMap (L := { Ls i with weight := Ws i })
      ⟨(h2 i hi).kind, (h2 i hi).expander, (h2 i hi).geometry, (hWs i hi).trans (h2 i hi).weight⟩ (h.kernel i hi).2 (h.stride i hi).2 (hH i hi) (hW i hi)) hg

/-- **C119 (tail focus networks).** The same holds for `HighOrderTailFocusNetwork`. -/
theorem C119_tail_focus {a : ConvNetArgs K} {cls : ℕ → ConvClass} {m : ℕ} (h : a.Fine a.kernelSize.length .one cls m) {focus : List ℕ}
    (hf : a.focus.map (·.toList a.kernelSize.length) = some focus) (hF : 1 ≤ focus.length) (rand : ℕ → ConvRng K) :
    ∃ (N : TailFocus K) (Ls : ℕ → ConvLayer K), TailFocus.init a rand = .ok N ∧
      N.stages = stagesOf m Ls (a.normalization.map fun f i => f i (a.chan (i + 1))) ∧
      ∀ (Ws : ℕ → Tensor K) (g : Option (ℕ → Fwd K)), (∀ i < m, (Ws i).shape = (Ls i).weight.shape) →
      ∀ w : ℕ, (∀ i < m, a.kern i ≤ a.widthAt a.kernelSize.length w i + 2 * a.padding) →
      let S := fun i => [a.chan i, a.widthAt a.kernelSize.length w i]
      (∀ f ∈ g, ∀ i < m, SampleMap (f i) (S (i + 1)) (S (i + 1))) →
      ∃ size, SampleMap ({ N with stages := stagesOf m (fun i => { Ls i with weight := Ws i }) g } : TailFocus K).forward [a.chan 0, w] [size] := by
  obtain ⟨N, Ls, e1, e2, e3⟩ := C55_forward h hf hF rand
  obtain ⟨Ls₂, k1, k2⟩ := convStages_ok h rand
  have hst : N.stages = stagesOf m Ls (a.normalization.map fun f i => f i (a.chan (i + 1))) := by rw [e2]
  have hst₂ : N.stages = stagesOf m Ls₂ (a.normalization.map fun f i => f i (a.chan (i + 1))) := by
    unfold TailFocus.init at e1
    dsimp only at e1
    rw [k1] at e1
    cases e1
    rfl
  have hLs : ∀ i < m, (Ls i).Between .one (a.chan i) (a.chan (i + 1)) (a.kern i) (a.step a.kernelSize.length i) a.padding := by
    intro i hi
    rw [stagesOf_inj (hst.symm.trans hst₂) i hi]
    exact k2 i hi
  have hm := h.layers
  refine ⟨N, Ls, e1, hst, ?_⟩
  intro Ws g hWs w hw S hgs
  have hgm : ∀ B, 1 ≤ B → ∀ f ∈ g, ∀ i < m, KeepsBatch (f i) [B, a.chan (i + 1), a.widthAt a.kernelSize.length w (i + 1)] :=
    fun B hB f hf i hi y hy hs => (hgs f hf i hi).accepts B y hB hy hs
  have sig : ∀ j ≤ m, SampleMap (runStages (stagesOf j (fun i => ({ Ls i with weight := Ws i } : ConvLayer K)) g)) [a.chan 0, w] [a.chan j, a.widthAt a.kernelSize.length w j] := by
    intro j hj
    exact runStages_sampleMap (S := fun i => [a.chan i, a.widthAt a.kernelSize.length w i])
      (fun i hi => ((hLs i (by omega)).withWeight (hWs i (by omega))).sampleMap1 (h.kernel i (by omega)).2 (h.stride i (by omega)).2 (hw i (by omega)))
      (fun f hf i hi => hgs f hf i (by omega))
  refine ⟨∑ i ∈ Finset.range ((if g.isSome then min (m + 1) focus.length else 1) + 1),
      if i < (if g.isSome then min (m + 1) focus.length else 1) then a.chan i * tailLen (focus.getD i 0) (a.widthAt a.kernelSize.length w i)
        else a.chan m * a.widthAt a.kernelSize.length w m, ?_, ?_⟩
  · intro B x hB hx hs
    obtain ⟨ys, -, -, out, o1, o2, o3, -, -⟩ := e3 Ws g hWs B w x hx hs hw (hgm B hB)
    exact ⟨out, o1, o2, o3⟩
  · intro B B' x x' y y' b b' hb hb' hx hx' hs hs' hy hy' he i hi
    obtain ⟨ys, -, y1, out, o1, -, -, o4, o5⟩ := e3 Ws g hWs B w x hx hs hw (hgm B (by omega))
    obtain ⟨ys', -, y1', out', o1', -, -, o4', o5'⟩ := e3 Ws g hWs B' w x' hx' hs' hw (hgm B' (by omega))
    rw [o1] at hy
    rw [o1'] at hy'
    cases hy
    cases hy'
    have same : ∀ j ≤ m, ∀ c < a.chan j, ∀ q < a.widthAt a.kernelSize.length w j, (ys j).get [b, c, q] = (ys' j).get [b', c, q] := by
      intro j hj c hc q hq
      exact (sig j hj).own B B' x x' (ys j) (ys' j) b b' hb hb' hx hx' hs hs' (y1 j hj).1 (y1' j hj).1 he [c, q] ⟨hc, hq, trivial⟩
    match i, hi with
    | [q], ⟨hq, _⟩ =>
      obtain ⟨j, hj, p, hp, rfl⟩ := exists_block _ _ _ hq
      have hT : (if g.isSome then min (m + 1) focus.length else 1) ≤ m + 1 := by split <;> omega
      by_cases hjT : j < (if g.isSome then min (m + 1) focus.length else 1)
      · rw [if_pos hjT] at hp
        have ht : 0 < tailLen (focus.getD j 0) (a.widthAt a.kernelSize.length w j) := by
          rcases Nat.eq_zero_or_pos (tailLen (focus.getD j 0) (a.widthAt a.kernelSize.length w j)) with h0 | h0
          · rw [h0] at hp; omega
          · exact h0
        have hle : tailLen (focus.getD j 0) (a.widthAt a.kernelSize.length w j) ≤ a.widthAt a.kernelSize.length w j := by
          unfold tailLen
          split <;> omega
        have hc : p / tailLen (focus.getD j 0) (a.widthAt a.kernelSize.length w j) < a.chan j := Nat.div_lt_of_lt_mul (by rw [Nat.mul_comm]; exact hp)
        have hr := Nat.mod_lt p ht
        have ep : p = p / tailLen (focus.getD j 0) (a.widthAt a.kernelSize.length w j) * tailLen (focus.getD j 0) (a.widthAt a.kernelSize.length w j)
            + p % tailLen (focus.getD j 0) (a.widthAt a.kernelSize.length w j) := by
          rw [Nat.mul_comm]; exact (Nat.div_add_mod _ _).symm
        rw [ep]
        have u := o4 b hb j hjT _ hc _ hr
        have u' := o4' b' hb' j hjT _ hc _ hr
        refine u.trans (Eq.trans ?_ u'.symm)
        have lt : ∀ {W T R : ℕ}, R < T → T ≤ W → W - T + R < W := fun h1 h2 => by omega
        exact same j (by omega) _ hc _ (lt hr hle)
      · rw [if_neg hjT] at hp
        obtain rfl : j = (if g.isSome then min (m + 1) focus.length else 1) := by omega
        have hw0 : 0 < a.widthAt a.kernelSize.length w m := widthAt_pos a _ hm
        have hc : p / a.widthAt a.kernelSize.length w m < a.chan m := Nat.div_lt_of_lt_mul (by rw [Nat.mul_comm]; exact hp)
        have hr := Nat.mod_lt p hw0
        have ep : p = p / a.widthAt a.kernelSize.length w m * a.widthAt a.kernelSize.length w m + p % a.widthAt a.kernelSize.length w m := by
          rw [Nat.mul_comm]; exact (Nat.div_add_mod _ _).symm
        rw [ep]
        have u := o5 b hb _ hc _ hr
        have u' := o5' b' hb' _ hc _ hr
        refine u.trans (Eq.trans ?_ u'.symm)
        exact same m le_rfl _ hc _ hr

/-- **C119 (autoencoders).** In every arithmetic: when the encoder and the decoder treat samples separately, `VanillaVAE` does so: `mu` and `log_var` of an image are determined by that image,
the image generated from a latent vector by that vector, and the reconstruction of an image by that image and its own row of the noise. -/
theorem C119_autoencoder {latent outSize inC : ℕ} (hc : 1 ≤ inC) {enc dec : Fwd K} {S T : List ℕ} {c : ℕ} {rest : List ℕ} (he : SampleMap enc S (c :: rest))
    (hn : numel (c :: rest) = outSize) (hd : SampleMap dec [inC, 1, 1] T) (mu var dw : VAE.LinearDraw K) :
    let V := VAE.init latent enc outSize dec inC mu var dw
    SampleMap (fun x => do let r ← V.encode x; .ok r.1) S [latent] ∧ SampleMap (fun x => do let r ← V.encode x; .ok r.2) S [latent] ∧ SampleMap V.sample [latent] T ∧
    (∀ (B : ℕ) (x eps : Tensor K), 1 ≤ B → x.WF → x.shape = B :: S → eps.WF → eps.shape = [B, latent] →
      ∃ out m l, V.forward x eps = .ok (out, x, m, l) ∧ V.encode x = .ok (m, l) ∧ V.generate x eps = .ok out ∧ out.WF ∧ out.shape = B :: T ∧ m.shape = [B, latent] ∧ l.shape = [B, latent]) ∧
    (∀ (B B' : ℕ) (x x' eps eps' out out' : Tensor K) (b b' : ℕ), b < B → b' < B' → x.WF → x'.WF → x.shape = B :: S → x'.shape = B' :: S → eps.WF → eps'.WF →
      eps.shape = [B, latent] → eps'.shape = [B', latent] → V.generate x eps = .ok out → V.generate x' eps' = .ok out' →
      (∀ i, InShape S i → x.get (b :: i) = x'.get (b' :: i)) → (∀ j < latent, eps.get [b, j] = eps'.get [b', j]) →
      ∀ i, InShape T i → out.get (b :: i) = out'.get (b' :: i)) := by
  intro V
  have hfl : SampleMap (fun x => do let y ← enc x; flatten1 y) S [outSize] := by
    rw [← hn]
    exact he.comp (sampleMap_flatten1 c rest)
  have hmu := hfl.comp (linear_sampleMap (w := V.muWeight) (b := V.muBias) (I := outSize) (O := latent) rfl)
  have hvar := hfl.comp (linear_sampleMap (w := V.varWeight) (b := V.varBias) (I := outSize) (O := latent) rfl)
  have henc : ∀ (B : ℕ) (x : Tensor K), 1 ≤ B → x.WF → x.shape = B :: S → ∃ m l, V.encode x = .ok (m, l) ∧
      (do let y ← (do let y ← enc x; flatten1 y); linearForward V.muWeight V.muBias y) = .ok m ∧
      (do let y ← (do let y ← enc x; flatten1 y); linearForward V.varWeight V.varBias y) = .ok l := by
    intro B x hB hx hs
    obtain ⟨m, m1, -, -⟩ := hmu.accepts B x hB hx hs
    obtain ⟨l, l1, -, -⟩ := hvar.accepts B x hB hx hs
    refine ⟨m, l, ?_, m1, l1⟩
    obtain ⟨f, f1, -, -⟩ := hfl.accepts B x hB hx hs
    obtain ⟨y, y1, -, -⟩ := he.accepts B x hB hx hs
    simp only [y1, bind, Except.bind] at f1 m1 l1
    simp only [f1] at m1 l1
    unfold VAE.encode
    simp only [show V.encoder x = .ok y from y1, f1, m1, l1, bind, Except.bind]
  have h1 : SampleMap (fun x => do let r ← V.encode x; .ok r.1) S [latent] := by
    refine hmu.congr fun B x hB hx hs => ?_
    obtain ⟨m, l, e, m1, -⟩ := henc B x hB hx hs
    rw [m1, e]
    rfl
  have h2 : SampleMap (fun x => do let r ← V.encode x; .ok r.2) S [latent] := by
    refine hvar.congr fun B x hB hx hs => ?_
    obtain ⟨m, l, e, -, l1⟩ := henc B x hB hx hs
    rw [l1, e]
    rfl
  have h3 : SampleMap V.sample [latent] T := by
    refine ((linear_sampleMap (w := V.decWeight) (b := V.decBias) (I := latent) (O := inC) rfl).comp ((viewFirst_sampleMap hc).comp hd)).congr fun B x _ _ _ => ?_
    rfl
  have hrep : ∀ (B : ℕ) (m l eps : Tensor K), m.shape = [B, latent] → l.WF → l.shape = [B, latent] → eps.shape = [B, latent] →
      ∃ z, VAE.reparameterize m l eps = .ok z ∧ z.WF ∧ z.shape = [B, latent] ∧
        ∀ b < B, ∀ j < latent, z.get [b, j] = eps.get [b, j] * TorchScalar.exp ((((1 : ℕ) : K) / ((2 : ℕ) : K)) * l.get [b, j]) + m.get [b, j] := by
    intro B m l eps hm hlw hl he
    unfold VAE.reparameterize
    dsimp only
    rw [zipB_same _ he (show (l.map _).shape = [B, latent] from hl)]
    simp only [bind, Except.bind]
    rw [zipB_same _ (sh := [B, latent]) rfl hm]
    refine ⟨_, rfl, Tensor.wf_tabulate _ _, rfl, ?_⟩
    intro b hb j hj
    have hi : InShape [B, latent] [b, j] := inShape2.2 ⟨hb, hj⟩
    rw [Tensor.get_tabulate hi, Tensor.get_tabulate hi, Tensor.get_map hlw (by rw [hl]; exact hi)]
  have hfw : ∀ (B : ℕ) (x eps : Tensor K), 1 ≤ B → x.WF → x.shape = B :: S → eps.WF → eps.shape = [B, latent] →
      ∃ out m l z, V.forward x eps = .ok (out, x, m, l) ∧ V.encode x = .ok (m, l) ∧ V.generate x eps = .ok out ∧ out.WF ∧ out.shape = B :: T ∧ m.shape = [B, latent] ∧ l.shape = [B, latent] ∧
        V.sample z = .ok out ∧ z.WF ∧ z.shape = [B, latent] ∧
        ∀ b < B, ∀ j < latent, z.get [b, j] = eps.get [b, j] * TorchScalar.exp ((((1 : ℕ) : K) / ((2 : ℕ) : K)) * l.get [b, j]) + m.get [b, j] := by
    intro B x eps hB hx hs hew hes
    obtain ⟨m, l, e, m1, l1⟩ := henc B x hB hx hs
    obtain ⟨m', m1', -, m3⟩ := hmu.accepts B x hB hx hs
    obtain ⟨l', l1', l2, l3⟩ := hvar.accepts B x hB hx hs
    rw [m1] at m1'
    rw [l1] at l1'
    cases m1'
    cases l1'
    obtain ⟨z, z1, z2, z3, z4⟩ := hrep B m l eps m3 l2 l3 hes
    obtain ⟨out, o1, o2, o3⟩ := h3.accepts B z hB z2 z3
    have hf : V.forward x eps = .ok (out, x, m, l) := by
      unfold VAE.forward
      simp only [e, z1, show V.decode z = .ok out from o1, bind, Except.bind]
    refine ⟨out, m, l, z, hf, e, ?_, o2, o3, m3, l3, o1, z2, z3, z4⟩
    unfold VAE.generate
    simp only [hf, bind, Except.bind]
  refine ⟨h1, h2, h3, ?_, ?_⟩
  · intro B x eps hB hx hs hew hes
    obtain ⟨out, m, l, z, f1, f2, f3, f4, f5, f6, f7, -⟩ := hfw B x eps hB hx hs hew hes
    exact ⟨out, m, l, f1, f2, f3, f4, f5, f6, f7⟩
  · intro B B' x x' eps eps' out out' b b' hb hb' hx hx' hs hs' hew hew' hes hes' ho ho' hxx hee
    obtain ⟨out₁, m, l, z, f1, f2, f3, -, -, -, -, f8, f9, f10, f11⟩ := hfw B x eps (by omega) hx hs hew hes
    obtain ⟨out₂, m', l', z', f1', f2', f3', -, -, -, -, f8', f9', f10', f11'⟩ := hfw B' x' eps' (by omega) hx' hs' hew' hes'
    rw [f3] at ho
    rw [f3'] at ho'
    cases ho
    cases ho'
    refine h3.own B B' z z' _ _ b b' hb hb' f9 f9' f10 f10' f8 f8' ?_
    intro i hi
    match i, hi with
    | [j], ⟨hj, _⟩ =>
      have em := h1.own B B' x x' m m' b b' hb hb' hx hx' hs hs' (by rw [f2]; rfl) (by rw [f2']; rfl) hxx [j] ⟨hj, trivial⟩
      have el := h2.own B B' x x' l l' b b' hb hb' hx hx' hs hs' (by rw [f2]; rfl) (by rw [f2']; rfl) hxx [j] ⟨hj, trivial⟩
      rw [f11 b hb j hj, f11' b' hb' j hj, em, el, hee j hj]

end

/-! ## normalizations -/

/-- **C119 (normalizations).** The normalizations of the package, and `BatchNorm2d` in evaluation mode, treat the images of a batch separately: in evaluation mode every pixel becomes
`(pixel - running_mean) / sqrt(running_var + eps) * weight + bias` with the numbers of its channel. In training mode `BatchNorm2d` does not: the result for an image depends on the rest of the batch. Inputs
without four axes are a ValueError in both modes. -/
theorem C119_normalizations (N : BatchNorm ℝ) :
    (∀ (s : List ℕ) (eps : ℝ), 0 < numel s → SampleMap (fun x => maxAbsNormalizationND x eps) s s ∧ SampleMap (fun x => maxCenterNormalizationND x eps) s s) ∧
    (∀ C H W, SampleMap N.eval2 [C, H, W] [C, H, W] ∧
      ∀ (B : ℕ) (x : Tensor ℝ), x.shape = [B, C, H, W] → ∃ y, N.eval2 x = .ok y ∧ ∀ b < B, ∀ c < C, ∀ i < H, ∀ j < W,
        y.get [b, c, i, j] = (x.get [b, c, i, j] - N.runningMean c) / Real.sqrt (N.runningVar c + N.eps) * N.weight c + N.bias c) ∧
    (∀ C H W, 1 ≤ C → 1 ≤ H → 1 ≤ W → 0 < N.eps → N.weight 0 ≠ 0 → ¬ SampleMap N.train2 [C, H, W] [C, H, W]) ∧
    (∀ x : Tensor ℝ, x.shape.length ≠ 4 → N.train2 x = .error .valueError ∧ N.eval2 x = .error .valueError) := by
  refine ⟨fun s eps hs => ⟨sampleMap_maxAbs hs, sampleMap_maxCenter hs⟩, fun C H W => ⟨eval2_sampleMap N C H W, ?_⟩, ?_, ?_⟩
  · intro B x hs
    refine ⟨Tensor.tab4 B C H W fun s r i j => N.entry r (N.runningMean r) (N.runningVar r) (x.get [s, r, i, j]), by unfold BatchNorm.eval2; simp only [hs], ?_⟩
    intro b hb c hc i hi j hj
    rw [Tensor.get_tab4 hb hc hi hj]
    rfl
  · intro C H W hC hH hW he hw h
    by_cases h1 : 1 * H * W = 1
    · obtain ⟨y, y1, -, -⟩ := h.accepts 1 (Tensor.tab4 1 C H W fun _ _ _ _ => 0) le_rfl (Tensor.wf_tab4 _ _ _ _ _) rfl
      rw [train2_error N (x := Tensor.tab4 1 C H W fun _ _ _ _ => 0) rfl h1] at y1
      cases y1
    · have h2 : 2 * H * W ≠ 1 := by
        intro e
        rw [Nat.mul_assoc] at e
        omega
      have e0 := train2_eq N (x := Tensor.tab4 1 C H W fun _ _ _ _ => (0 : ℝ)) (B := 1) rfl h1
      have e1 := train2_eq N (x := Tensor.tab4 2 C H W fun s _ _ _ => (s : ℝ)) (B := 2) rfl h2
      have key := h.own 2 1 _ _ _ _ 0 0 (by norm_num) (by norm_num) (Tensor.wf_tab4 _ _ _ _ _) (Tensor.wf_tab4 _ _ _ _ _) rfl rfl e1 e0 (by
        intro i hi
        match i, hi with
        | [c, p, q], ⟨hc, hp, hq, _⟩ =>
          rw [Tensor.get_tab4 (by norm_num) hc hp hq, Tensor.get_tab4 (by norm_num) hc hp hq]
          simp) [0, 0, 0] ⟨hC, hH, hW, trivial⟩
      rw [Tensor.get_tab4 (by norm_num) hC hH hW, Tensor.get_tab4 (by norm_num) hC hH hW, Tensor.get_tab4 (by norm_num) hC hH hW, Tensor.get_tab4 (by norm_num) hC hH hW] at key
      have m0 : imageMean (Tensor.tab4 1 C H W fun _ _ _ _ => (0 : ℝ)) 1 H W 0 = 0 := by
        unfold imageMean
        rw [Finset.sum_eq_zero, zero_div]
        intro b hb
        refine Finset.sum_eq_zero fun i hi => Finset.sum_eq_zero fun j hj => ?_
        rw [Tensor.get_tab4 (Finset.mem_range.1 hb) hC (Finset.mem_range.1 hi) (Finset.mem_range.1 hj)]
      have hHW : (0 : ℝ) < (H : ℝ) * W := by
        have a1 : (0 : ℝ) < H := by exact_mod_cast hH
        have a2 : (0 : ℝ) < W := by exact_mod_cast hW
        positivity
      have m1 : imageMean (Tensor.tab4 2 C H W fun s _ _ _ => (s : ℝ)) 2 H W 0 = 1 / 2 := by
        unfold imageMean
        have : ∀ b ∈ Finset.range 2, ∑ i ∈ Finset.range H, ∑ j ∈ Finset.range W, (Tensor.tab4 2 C H W fun s _ _ _ => (s : ℝ)).get [b, 0, i, j] = (H * W) * (b : ℝ) := by
          intro b hb
          rw [Finset.sum_congr rfl fun i hi => Finset.sum_congr rfl fun j hj => Tensor.get_tab4 (Finset.mem_range.1 hb) hC (Finset.mem_range.1 hi) (Finset.mem_range.1 hj)]
          simp [mul_assoc]
        rw [Finset.sum_congr rfl this]
        simp only [Finset.sum_range_succ, Finset.sum_range_zero]
        push_cast
        field_simp
        ring
      rw [m0, m1] at key
      have v0 : 0 ≤ imageVar (Tensor.tab4 2 C H W fun s _ _ _ => (s : ℝ)) 2 H W 0 := by
        unfold imageVar
        positivity
      have hs : 0 < Real.sqrt (imageVar (Tensor.tab4 2 C H W fun s _ _ _ => (s : ℝ)) 2 H W 0 + N.eps) := Real.sqrt_pos.2 (by linarith)
      simp only [Nat.cast_zero, sub_zero, zero_div, zero_mul, zero_add, zero_sub] at key
      have : -(1 / 2) / Real.sqrt (imageVar (Tensor.tab4 2 C H W fun s _ _ _ => (s : ℝ)) 2 H W 0 + N.eps) * N.weight 0 = 0 := by linarith
      rcases mul_eq_zero.1 this with h' | h'
      · rw [div_eq_zero_iff] at h'
        rcases h' with h' | h'
        · norm_num at h'
        · exact hs.ne' h'
      · exact hw h'
  · intro x hx
    constructor
    · unfold BatchNorm.train2
      split
      · rename_i hs; rw [hs] at hx; simp at hx
      · rfl
    · unfold BatchNorm.eval2
      split
      · rename_i hs; rw [hs] at hx; simp at hx
      · rfl

/-! ## the loss of a batch -/

theorem mseLoss_images {a b : Tensor ℝ} {B : ℕ} {S : List ℕ} (ha : a.shape = B :: S) (hb : b.shape = B :: S) :
    VAE.mseLoss a b = .ok ((∑ s ∈ Finset.range B, ∑ q ∈ Finset.range (numel S), (a.get (s :: unravel S q) - b.get (s :: unravel S q)) ^ 2) / ((B * numel S : ℕ) : ℝ)) := by
  rw [mseLoss_eq ha hb]
  have hn : numel (B :: S) = B * numel S := rfl
  rw [hn, sum_range_mul_add]
  congr 2
  refine Finset.sum_congr rfl fun s _ => Finset.sum_congr rfl fun q hq => ?_
  rw [Finset.mem_range] at hq
  have e : ∀ t : Tensor ℝ, t.shape = B :: S → t.data.getD (s * numel S + q) 0 = t.get (s :: unravel S q) := by
    intro t ht
    unfold Tensor.get
    rw [ht]
    simp [ravel, ravel_unravel hq]
  rw [e a ha, e b hb]

/-- **C119 (losses).** When the encoder and the decoder treat samples separately, every one of the three losses of a batch is the mean of the losses of its images, each image taken as a batch of its own with
its own row of the noise. -/
theorem C119_losses {latent outSize inC : ℕ} (hc : 1 ≤ inC) {enc dec : Fwd ℝ} {S : List ℕ} {c : ℕ} {rest : List ℕ} (he : SampleMap enc S (c :: rest))
    (hn : numel (c :: rest) = outSize) (hd : SampleMap dec [inC, 1, 1] S) (hS : 1 ≤ numel S) (mu var dw : VAE.LinearDraw ℝ) (w : ℝ) (B : ℕ) (hB : 1 ≤ B) (x eps : Tensor ℝ) (xs es : ℕ → Tensor ℝ)
    (hx : x.WF) (hxs : x.shape = B :: S) (hew : eps.WF) (hes : eps.shape = [B, latent])
    (hxb : ∀ b < B, (xs b).WF ∧ (xs b).shape = 1 :: S ∧ ∀ i, InShape S i → (xs b).get (0 :: i) = x.get (b :: i))
    (heb : ∀ b < B, (es b).WF ∧ (es b).shape = [1, latent] ∧ ∀ j < latent, (es b).get [0, j] = eps.get [b, j]) :
    let V := VAE.init latent enc outSize dec inC mu var dw
    let loss := fun (x eps : Tensor ℝ) => do
      let r ← V.forward x eps
      VAE.lossFunction r.1 r.2.1 r.2.2.1 r.2.2.2 (some w)
    ∃ (L : VAE.Loss ℝ) (Ls : ℕ → VAE.Loss ℝ), loss x eps = .ok L ∧ (∀ b < B, loss (xs b) (es b) = .ok (Ls b)) ∧
      L.loss = (∑ b ∈ Finset.range B, (Ls b).loss) / B ∧ L.reconstruction = (∑ b ∈ Finset.range B, (Ls b).reconstruction) / B ∧ L.kld = (∑ b ∈ Finset.range B, (Ls b).kld) / B := by
  intro V loss
  obtain ⟨h1, h2, -, h4, h5⟩ := C119_autoencoder (latent := latent) hc he hn hd mu var dw
  have val : ∀ (B : ℕ) (x eps : Tensor ℝ), 1 ≤ B → x.WF → x.shape = B :: S → eps.WF → eps.shape = [B, latent] → ∃ out m l,
      V.generate x eps = .ok out ∧ V.encode x = .ok (m, l) ∧ loss x eps = .ok ⟨(∑ s ∈ Finset.range B, ∑ q ∈ Finset.range (numel S), (out.get (s :: unravel S q) - x.get (s :: unravel S q)) ^ 2) / ((B * numel S : ℕ) : ℝ)
          + w * ((∑ b ∈ Finset.range B, ∑ j ∈ Finset.range latent, -(1 / 2) * VAE.kldEntry (m.get [b, j]) (l.get [b, j])) / B),
        (∑ s ∈ Finset.range B, ∑ q ∈ Finset.range (numel S), (out.get (s :: unravel S q) - x.get (s :: unravel S q)) ^ 2) / ((B * numel S : ℕ) : ℝ),
        -((∑ b ∈ Finset.range B, ∑ j ∈ Finset.range latent, -(1 / 2) * VAE.kldEntry (m.get [b, j]) (l.get [b, j])) / B)⟩ := by
    intro B x eps hB hx hxs hew hes
    obtain ⟨out, m, l, f1, f2, f3, f4, f5, f6, f7⟩ := h4 B x eps hB hx hxs hew hes
    refine ⟨out, m, l, f3, f2, ?_⟩
    show (V.forward x eps >>= _) = _
    rw [f1]
    simp only [bind, Except.bind, VAE.lossFunction, mseLoss_images f5 hxs, kldLoss_eq f6 f7]
  obtain ⟨out, m, l, g1, g2, g3⟩ := val B x eps hB hx hxs hew hes
  have single : ∀ b, ∃ L : VAE.Loss ℝ, b < B → loss (xs b) (es b) = .ok L ∧
      L.reconstruction = (∑ q ∈ Finset.range (numel S), (out.get (b :: unravel S q) - x.get (b :: unravel S q)) ^ 2) / (numel S : ℝ) ∧
      L.kld = -(∑ j ∈ Finset.range latent, -(1 / 2) * VAE.kldEntry (m.get [b, j]) (l.get [b, j])) ∧ L.loss = L.reconstruction - w * L.kld := by
    intro b
    by_cases hb : b < B
    · obtain ⟨a1, a2, a3⟩ := hxb b hb
      obtain ⟨c1, c2, c3⟩ := heb b hb
      obtain ⟨out', m', l', k1, k2, k3⟩ := val 1 (xs b) (es b) le_rfl a1 a2 c1 c2
      refine ⟨_, fun _ => ⟨k3, ?_, ?_, ?_⟩⟩
      · show (∑ s ∈ Finset.range 1, _) / _ = _
        rw [Finset.sum_range_one, one_mul]
        congr 1
        refine Finset.sum_congr rfl fun q hq => ?_
        rw [Finset.mem_range] at hq
        rw [a3 _ (inShape_unravel hq), h5 1 B (xs b) x (es b) eps out' out 0 b one_pos hb a1 hx a2 hxs c1 hew c2 hes k1 g1 a3 c3 _ (inShape_unravel hq)]
      · show -((∑ b ∈ Finset.range 1, _) / _) = _
        rw [Finset.sum_range_one, Nat.cast_one, div_one]
        congr 1
        refine Finset.sum_congr rfl fun j hj => ?_
        rw [Finset.mem_range] at hj
        have em := h1.own 1 B (xs b) x m' m 0 b one_pos hb a1 hx a2 hxs (by rw [k2]; rfl) (by rw [g2]; rfl) a3 [j] ⟨hj, trivial⟩
        have el := h2.own 1 B (xs b) x l' l 0 b one_pos hb a1 hx a2 hxs (by rw [k2]; rfl) (by rw [g2]; rfl) a3 [j] ⟨hj, trivial⟩
        rw [em, el]
      · dsimp only
        ring
    · exact ⟨⟨0, 0, 0⟩, fun h => absurd h hb⟩
  choose Ls hLs using single
  have hB0 : (B : ℝ) ≠ 0 := by exact_mod_cast (by omega : B ≠ 0)
  have hS0 : (numel S : ℝ) ≠ 0 := by exact_mod_cast (by omega : numel S ≠ 0)
  have er : (∑ s ∈ Finset.range B, ∑ q ∈ Finset.range (numel S), (out.get (s :: unravel S q) - x.get (s :: unravel S q)) ^ 2) / ((B * numel S : ℕ) : ℝ)
      = (∑ b ∈ Finset.range B, (Ls b).reconstruction) / B := by
    rw [Finset.sum_congr rfl fun b hb => (hLs b (Finset.mem_range.1 hb)).2.1, ← Finset.sum_div]
    push_cast
    field_simp
  have ek : -((∑ b ∈ Finset.range B, ∑ j ∈ Finset.range latent, -(1 / 2) * VAE.kldEntry (m.get [b, j]) (l.get [b, j])) / B) = (∑ b ∈ Finset.range B, (Ls b).kld) / B := by
    rw [Finset.sum_congr rfl fun b hb => (hLs b (Finset.mem_range.1 hb)).2.2.1, Finset.sum_neg_distrib, neg_div]
  refine ⟨_, Ls, g3, fun b hb => (hLs b hb).1, ?_, er, ek⟩
  rw [Finset.sum_congr rfl fun b hb => (hLs b (Finset.mem_range.1 hb)).2.2.2, Finset.sum_sub_distrib, sub_div, ← Finset.mul_sum, mul_div_assoc, ← ek, ← er]
  dsimp only
  ring

/-- **C119 (the example).** The network of the variational autoencoder example in evaluation mode, for every order and number of segments, with whatever weights and running statistics: `mu` and `log_var` of an
image of any size, and its reconstruction for given noise, do not depend on the batch it is in, and the validation and test losses of a batch of `32 × 32` images are the means of the losses of its images. -/
theorem C119_example {n segments : ℕ} (hn : 1 ≤ n) (hs : 1 ≤ segments) (p : Option ℝ) (rE rD : ℕ → ConvRng ℝ) :
    ∃ (E : FCN ℝ) (Le : ℕ → ConvLayer ℝ) (D : Deconv ℝ) (Ld : ℕ → ConvLayer ℝ),
      FCN.init (vaeEncoderArgs false n segments p) rE = .ok E ∧ Deconv.init (vaeDecoderArgs false n segments p) rD = .ok D ∧
      ∀ (We Wd : ℕ → Tensor ℝ) (be bd : ℕ → BatchNorm ℝ) (mu var dw : VAE.LinearDraw ℝ), (∀ i < 3, (We i).shape = (Le i).weight.shape) → (∀ i < 4, (Wd i).shape = (Ld i).weight.shape) →
      ∃ V, vaeNet (encoderWith E Le We be false) (decoderWith D Ld Wd bd false) mu var dw = .ok V ∧
        (∀ H W, 1 ≤ H → 1 ≤ W → SampleMap (fun x => do let r ← V.encode x; .ok r.1) [3, H, W] [128] ∧ SampleMap (fun x => do let r ← V.encode x; .ok r.2) [3, H, W] [128]) ∧
        SampleMap V.sample [128] [3, 32, 32] ∧
        (∀ (H W B B' : ℕ) (x x' eps eps' out out' : Tensor ℝ) (b b' : ℕ), 1 ≤ H → 1 ≤ W → b < B → b' < B' → x.WF → x'.WF → x.shape = [B, 3, H, W] → x'.shape = [B', 3, H, W] → eps.WF → eps'.WF →
          eps.shape = [B, 128] → eps'.shape = [B', 128] → V.generate x eps = .ok out → V.generate x' eps' = .ok out' →
          (∀ i, InShape [3, H, W] i → x.get (b :: i) = x'.get (b' :: i)) → (∀ j < 128, eps.get [b, j] = eps'.get [b', j]) →
          ∀ i, InShape [3, 32, 32] i → out.get (b :: i) = out'.get (b' :: i)) ∧
        (∀ (B : ℕ) (x eps : Tensor ℝ) (xs es : ℕ → Tensor ℝ), 1 ≤ B → x.WF → x.shape = [B, 3, 32, 32] → eps.WF → eps.shape = [B, 128] →
          (∀ b < B, (xs b).WF ∧ (xs b).shape = [1, 3, 32, 32] ∧ ∀ i, InShape [3, 32, 32] i → (xs b).get (0 :: i) = x.get (b :: i)) →
          (∀ b < B, (es b).WF ∧ (es b).shape = [1, 128] ∧ ∀ j < 128, (es b).get [0, j] = eps.get [b, j]) →
          ∃ (L : VAE.Loss ℝ) (Ls : ℕ → VAE.Loss ℝ), vaeEvalStep V x eps = .ok L ∧ (∀ b < B, vaeEvalStep V (xs b) (es b) = .ok (Ls b)) ∧
            L.loss = (∑ b ∈ Finset.range B, (Ls b).loss) / B ∧ L.reconstruction = (∑ b ∈ Finset.range B, (Ls b).reconstruction) / B ∧ L.kld = (∑ b ∈ Finset.range B, (Ls b).kld) / B) := by
  obtain ⟨E, Le, e1, -, e4⟩ := C119_convolutional (vaeEncoder_fine false hn hs p) (show 1 ≤ 128 by norm_num) rE
  obtain ⟨D, Ld, d1, -, d4⟩ := C119_deconvolutional (vaeDecoder_fine false hn hs p) rD
  have dc : D.inChannels = 128 := by
    obtain ⟨⟨N, -, k1, k2, -⟩, -⟩ := C74_deconvolution (vaeDecoder_fine false hn hs p) rD
    rw [d1] at k1
    cases k1
    exact k2
  have ec : E.outputSize = .ok 128 := by
    obtain ⟨N, -, k1, -, k2, -⟩ := C56_fully_convolutional (vaeEncoder_fine false hn hs p) (show 1 ≤ 128 by norm_num) rE
    rw [e1] at k1
    cases k1
    exact k2
  refine ⟨E, Le, D, Ld, e1, d1, ?_⟩
  intro We Wd be bd mu var dw hWe hWd
  have gro : ∀ i, (vaeDecoderArgs false n segments p).growthAt (4 + 1) 1 i = (vaeDecoderArgs true 1 1 (none : Option ℝ)).growthAt 5 1 i := by
    intro i
    induction i with
    | zero => rfl
    | succ i ih => rw [ConvNetArgs.growthAt, ih]; rfl
  have enc : ∀ H W, 1 ≤ H → 1 ≤ W → SampleMap (encoderWith E Le We be false).forward [3, H, W] [128] := by
    intro H W hH hW
    have hk : ∀ H, 1 ≤ H → ∀ i < 3, (vaeEncoderArgs false n segments p).kern i ≤ (vaeEncoderArgs false n segments p).widthAt (vaeEncoderArgs false n segments p).kernelSize.length H i
        + 2 * (vaeEncoderArgs false n segments p).padding := by
      intro H hH i hi
      have h1 : 1 ≤ (vaeEncoderArgs false n segments p).widthAt (vaeEncoderArgs false n segments p).kernelSize.length H i := by
        cases i with
        | zero => exact hH
        | succ i => exact widthAt_pos _ _ (by omega)
      have h3 : (vaeEncoderArgs false n segments p).kern i = 3 := by interval_cases i <;> rfl
      rw [h3]
      show 3 ≤ _ + 2 * 1
      omega
    exact (e4 We (some fun i => (be i).call2 false) hWe H W (hk H hH) (fun _ => hk W hW) (by
      rintro f ⟨rfl⟩ i hi
      exact eval2_sampleMap (be i) _ _ _)).1 (.inl ⟨rfl, rfl⟩)
  have dec : SampleMap (decoderWith D Ld Wd bd false).forward [128, 1, 1] [3, 32, 32] := by
    have hk0 : ∀ i < 4, 1 ≤ (vaeDecoderArgs true 1 1 (none : Option ℝ)).growthAt 5 1 i ∧ 2 * (vaeDecoderArgs true 1 1 (none : Option ℝ)).padding <
        ((vaeDecoderArgs true 1 1 (none : Option ℝ)).growthAt 5 1 i - 1) * (vaeDecoderArgs true 1 1 (none : Option ℝ)).step 5 i + (vaeDecoderArgs true 1 1 (none : Option ℝ)).kern i := by
      decide
    have hk : ∀ i < 4, 1 ≤ (vaeDecoderArgs false n segments p).growthAt (4 + 1) 1 i ∧ 2 * (vaeDecoderArgs false n segments p).padding <
        ((vaeDecoderArgs false n segments p).growthAt (4 + 1) 1 i - 1) * (vaeDecoderArgs false n segments p).step (4 + 1) i + (vaeDecoderArgs false n segments p).kern i := by
      intro i hi
      rw [gro]
      exact hk0 i hi
    have := d4 Wd (some fun i => (bd i).call2 false) hWd 1 1 hk hk (by
      rintro f ⟨rfl⟩ i hi
      exact eval2_sampleMap (bd i) _ _ _)
    beta_reduce at this
    rw [gro 4, show (vaeDecoderArgs true 1 1 (none : Option ℝ)).growthAt 5 1 4 = 32 by decide] at this
    exact this
  have hV : vaeNet (encoderWith E Le We be false) (decoderWith D Ld Wd bd false) mu var dw
      = .ok (VAE.init 128 (encoderWith E Le We be false).forward 128 (decoderWith D Ld Wd bd false).forward 128 mu var dw) := by
    unfold vaeNet
    rw [show (encoderWith E Le We be false).outputSize = .ok 128 from ec, show (decoderWith D Ld Wd bd false).inChannels = 128 from dc]
    rfl
  have hnum : numel [128] = 128 := by simp [numel]
  refine ⟨_, hV, fun H W hH hW => ?_, ?_, ?_, ?_⟩
  · obtain ⟨a1, a2, -⟩ := C119_autoencoder (latent := 128) (by norm_num) (enc H W hH hW) hnum dec mu var dw
    exact ⟨a1, a2⟩
  · exact (C119_autoencoder (latent := 128) (by norm_num) (enc 1 1 le_rfl le_rfl) hnum dec mu var dw).2.2.1
  · intro H W B B' x x' eps eps' out out' b b' hH hW
    exact (C119_autoencoder (latent := 128) (by norm_num) (enc H W hH hW) hnum dec mu var dw).2.2.2.2 B B' x x' eps eps' out out' b b'
  · intro B x eps xs es hB hx hxs hew hes hxb heb
    exact C119_losses (latent := 128) (by norm_num) (enc 32 32 (by norm_num) (by norm_num)) hnum dec (by simp [numel]) mu var dw vaeKldWeight B hB x eps xs es hx hxs hew hes hxb heb

/-! ## concrete checks -/

/-- The shipped configuration on two images: the loss of the batch is half the sum of the losses of the two images. -/
example (rE rD : ℕ → ConvRng ℝ) (mu var dw : VAE.LinearDraw ℝ) : ∃ (E : FCN ℝ) (D : Deconv ℝ) (Le Ld : ℕ → ConvLayer ℝ) (V : VAE ℝ),
    FCN.init (vaeEncoderArgs false 2 2 (some 2)) rE = .ok E ∧ Deconv.init (vaeDecoderArgs false 2 2 (some 2)) rD = .ok D ∧
    vaeNet (encoderWith E Le (fun i => (Le i).weight) (fun _ => BatchNorm.new defaultEps) false) (decoderWith D Ld (fun i => (Ld i).weight) (fun _ => BatchNorm.new defaultEps) false) mu var dw = .ok V ∧
    ∃ L L0 L1 : VAE.Loss ℝ, vaeEvalStep V (Tensor.tab4 2 3 32 32 fun b _ _ _ => (b : ℝ)) (Tensor.tab2 2 128 fun _ _ => 0) = .ok L ∧
      vaeEvalStep V (Tensor.tab4 1 3 32 32 fun _ _ _ _ => ((0 : ℕ) : ℝ)) (Tensor.tab2 1 128 fun _ _ => 0) = .ok L0 ∧
      vaeEvalStep V (Tensor.tab4 1 3 32 32 fun _ _ _ _ => ((1 : ℕ) : ℝ)) (Tensor.tab2 1 128 fun _ _ => 0) = .ok L1 ∧ L.loss = (L0.loss + L1.loss) / 2 := by
  obtain ⟨E, Le, D, Ld, h1, h2, h3⟩ := C119_example (n := 2) (segments := 2) (by norm_num) (by norm_num) (some 2) rE rD
  obtain ⟨V, v1, -, -, -, v5⟩ := h3 (fun i => (Le i).weight) (fun i => (Ld i).weight) (fun _ => BatchNorm.new defaultEps) (fun _ => BatchNorm.new defaultEps) mu var dw (fun _ _ => rfl) (fun _ _ => rfl)
  obtain ⟨L, Ls, l1, l2, l3, -⟩ := v5 2 (Tensor.tab4 2 3 32 32 fun b _ _ _ => (b : ℝ)) (Tensor.tab2 2 128 fun _ _ => 0) (fun b => Tensor.tab4 1 3 32 32 fun _ _ _ _ => (b : ℝ)) (fun _ => Tensor.tab2 1 128 fun _ _ => 0)
    (by norm_num) (Tensor.wf_tab4 _ _ _ _ _) rfl (Tensor.wf_tab2 _ _ _) rfl (by
      intro b hb
      refine ⟨Tensor.wf_tab4 _ _ _ _ _, rfl, ?_⟩
      intro i hi
      match i, hi with
      | [c, u, v], ⟨hc, hu, hv, _⟩ => rw [Tensor.get_tab4 one_pos hc hu hv, Tensor.get_tab4 hb hc hu hv]) (by
      intro b hb
      refine ⟨Tensor.wf_tab2 _ _ _, rfl, ?_⟩
      intro j hj
      rw [Tensor.get_tab2 one_pos hj, Tensor.get_tab2 hb hj])
  refine ⟨E, D, Le, Ld, V, h1, h2, v1, L, Ls 0, Ls 1, l1, l2 0 (by norm_num), l2 1 (by norm_num), ?_⟩
  rw [l3]
  simp [Finset.sum_range_succ]

/-- A convolutional network with the max-abs normalization between its layers. -/
example (rand : ℕ → ConvRng ℝ) : ∃ (N : FCN ℝ) (Ls : ℕ → ConvLayer ℝ), FCN.init exFcn rand = .ok N ∧
    SampleMap ({ N with stages := stagesOf 2 Ls (some fun _ x => maxAbsNormalizationND x (1 / 1000)) } : FCN ℝ).forward [3, 9, 9] [4] := by
  obtain ⟨N, Ls, h1, -, h3⟩ := C119_convolutional (a := exFcn) exFcn_fine (by decide) rand
  have w : ∀ i < 2, exFcn.kern i ≤ exFcn.widthAt 2 9 i + 2 * exFcn.padding := by decide
  refine ⟨N, Ls, h1, ?_⟩
  have := (h3 (fun i => (Ls i).weight) (some fun _ x => maxAbsNormalizationND x (1 / 1000)) (fun _ _ => rfl) 9 9 w (fun _ => w) (by
    rintro f ⟨rfl⟩ i hi
    refine sampleMap_maxAbs ?_
    interval_cases i <;> decide)).1 (.inl ⟨rfl, rfl⟩)
  exact this

/-- A new `BatchNorm2d` in training mode mixes the images. -/
example : ¬ SampleMap (BatchNorm.new (defaultEps : ℝ)).train2 [3, 8, 8] [3, 8, 8] :=
  (C119_normalizations _).2.2.1 3 8 8 (by norm_num) (by norm_num) (by norm_num) (by simp [BatchNorm.new, defaultEps]) (by simp [BatchNorm.new])

end HOL
