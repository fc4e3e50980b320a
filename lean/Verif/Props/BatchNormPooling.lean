import Verif.Model.BatchNorm2d
import Verif.Props.BatchNorm
import Verif.Props.ConvNet
import Verif.Props.Deconv
import Verif.Props.Autoencoder
import Verif.Lemmas.Gradient
import Mathlib.Algebra.Order.Chebyshev

/-! # C108: batch normalization before pooling -/

namespace HOL
open TorchScalar Spec

/-! ## vocabulary -/

/-- Mean of channel `r` of a batch of images, over all samples and pixels. -/
noncomputable def imageMean (x : Tensor ℝ) (B H W r : ℕ) : ℝ := (∑ b ∈ Finset.range B, ∑ i ∈ Finset.range H, ∑ j ∈ Finset.range W, x.get [b, r, i, j]) / ((B : ℝ) * (H * W))

/-- Variance of channel `r`. -/
noncomputable def imageVar (x : Tensor ℝ) (B H W r : ℕ) : ℝ :=
  (∑ b ∈ Finset.range B, ∑ i ∈ Finset.range H, ∑ j ∈ Finset.range W, (x.get [b, r, i, j] - imageMean x B H W r) ^ 2) / ((B : ℝ) * (H * W))

theorem sum_pixels (x : Tensor ℝ) (b r H W : ℕ) (f : ℝ → ℝ) : ∑ p ∈ Finset.range (H * W), f (x.get [b, r, p / W, p % W]) = ∑ i ∈ Finset.range H, ∑ j ∈ Finset.range W, f (x.get [b, r, i, j]) := by
  rw [sum_range_mul_add]
  refine Finset.sum_congr rfl fun i _ => Finset.sum_congr rfl fun j hj => ?_
  rw [Finset.mem_range] at hj
  have h0 : 0 < W := by omega
  rw [show (i * W + j) / W = i by rw [mul_comm, Nat.mul_add_div h0, Nat.div_eq_of_lt hj, add_zero], show (i * W + j) % W = j by rw [mul_comm, Nat.mul_add_mod, Nat.mod_eq_of_lt hj]]

/-- Batch normalization in training mode, entry by entry. -/
theorem train2_eq (N : BatchNorm ℝ) {x : Tensor ℝ} {B C H W : ℕ} (hx : x.shape = [B, C, H, W]) (h1 : B * H * W ≠ 1) :
    N.train2 x = .ok (Tensor.tab4 B C H W fun s r i j => (x.get [s, r, i, j] - imageMean x B H W r) / Real.sqrt (imageVar x B H W r + N.eps) * N.weight r + N.bias r) := by
  unfold BatchNorm.train2
  simp only [hx]
  rw [if_neg h1]
  congr 1
  apply tab4_congr
  intro s _ r _ i _ j _
  have hm : meanL (channelValues (fun s c p => x.get [s, c, p / W, p % W]) B (H * W) r) = imageMean x B H W r := by
    rw [meanL_channelValues]
    unfold imageMean
    push_cast
    congr 1
    refine Finset.sum_congr rfl fun b _ => ?_
    exact sum_pixels x b r H W fun v => v
  have hv : varL (channelValues (fun s c p => x.get [s, c, p / W, p % W]) B (H * W) r) = imageVar x B H W r := by
    rw [varL_channelValues]
    unfold imageVar
    rw [hm]
    push_cast
    congr 1
    refine Finset.sum_congr rfl fun b _ => ?_
    exact sum_pixels x b r H W fun v => (v - imageMean x B H W r) ^ 2
  rw [hm, hv]
  rfl

theorem train2_error (N : BatchNorm ℝ) {x : Tensor ℝ} {B C H W : ℕ} (hx : x.shape = [B, C, H, W]) (h1 : B * H * W = 1) : N.train2 x = .error .valueError := by
  unfold BatchNorm.train2
  simp only [hx]
  rw [if_pos h1]

/-- After the normalization the mean of a channel is the bias. -/
theorem sum_normalized {B H W : ℕ} (g : ℕ → ℕ → ℕ → ℝ) {m w β d : ℝ} (hm : m = (∑ b ∈ Finset.range B, ∑ i ∈ Finset.range H, ∑ j ∈ Finset.range W, g b i j) / ((B : ℝ) * (H * W)))
    (h0 : (B : ℝ) * (H * W) ≠ 0) : ∑ b ∈ Finset.range B, ∑ i ∈ Finset.range H, ∑ j ∈ Finset.range W, ((g b i j - m) / d * w + β) = β * ((B : ℝ) * (H * W)) := by
  have e : ∀ v : ℝ, (v - m) / d * w + β = v * (w / d) + (β - m * (w / d)) := by intro v; ring
  simp only [e, Finset.sum_add_distrib, Finset.sum_const, Finset.card_range, nsmul_eq_mul, ← Finset.sum_mul]
  rw [eq_div_iff h0] at hm
  rw [← hm]
  ring

theorem train2_mean (N : BatchNorm ℝ) {x y : Tensor ℝ} {B C H W : ℕ} (hx : x.shape = [B, C, H, W]) (h0 : 0 < B * H * W) (h : N.train2 x = .ok y) :
    ∀ o < C, imageMean y B H W o = N.bias o := by
  intro o ho
  have h1 : B * H * W ≠ 1 := by
    intro h1
    rw [train2_error N hx h1] at h
    cases h
  rw [train2_eq N hx h1] at h
  cases h
  have hne : (B : ℝ) * (H * W) ≠ 0 := by
    have : ((B * H * W : ℕ) : ℝ) ≠ 0 := Nat.cast_ne_zero.2 h0.ne'
    push_cast at this
    rwa [mul_assoc] at this
  unfold imageMean
  rw [div_eq_iff hne]
  refine Eq.trans ?_ (sum_normalized (fun b i j => x.get [b, o, i, j]) (w := N.weight o) (β := N.bias o) (d := Real.sqrt (imageVar x B H W o + N.eps)) rfl hne)
  refine Finset.sum_congr rfl fun b hb => Finset.sum_congr rfl fun i hi => Finset.sum_congr rfl fun j hj => ?_
  rw [Finset.mem_range] at hb hi hj
  rw [Tensor.get_tab4 hb ho hi hj]

/-! ## chains of layers on one size of batch -/

section
set_option linter.unusedSectionVars false
variable {K : Type} [TorchScalar K]

theorem runStages_batch {m : ℕ} {Ls : ℕ → ConvLayer K} {f : ℕ → Fwd K} {S : ℕ → List ℕ} {B : ℕ} (hL : ∀ i < m, MapsShape (Ls i).forward (S i) (S (i + 1)))
    (hf : ∀ i < m, KeepsBatch (f i) (B :: S (i + 1))) {x : Tensor K} (hx : x.WF) (hs : x.shape = B :: S 0) :
    ∃ y, runStages (stagesOf m Ls (some f)) x = .ok y ∧ y.WF ∧ y.shape = B :: S m := by
  induction m with
  | zero => exact ⟨x, rfl, hx, hs⟩
  | succ m ih =>
    obtain ⟨y, h1, h2, h3⟩ := ih (fun i hi => hL i (by omega)) (fun i hi => hf i (by omega))
    obtain ⟨z, k1, k2, k3⟩ := hL m (by omega) B y h2 h3
    obtain ⟨u, l1, l2, l3⟩ := hf m (by omega) z k2 k3
    refine ⟨u, ?_, l2, l3⟩
    rw [stagesOf_succ, runStages_append, h1]
    simp only [bind, Except.bind, Option.map_some, Option.toList_some, runStages, ConvStage.call, k1, l1]

/-- The last thing such a chain does is the last normalization. -/
theorem runStages_last {m : ℕ} {Ls : ℕ → ConvLayer K} {f : ℕ → Fwd K} {S : ℕ → List ℕ} {B : ℕ} (hL : ∀ i < m + 1, MapsShape (Ls i).forward (S i) (S (i + 1)))
    (hf : ∀ i < m + 1, KeepsBatch (f i) (B :: S (i + 1))) {x : Tensor K} (hx : x.WF) (hs : x.shape = B :: S 0) :
    ∃ z y, z.WF ∧ z.shape = B :: S (m + 1) ∧ f m z = .ok y ∧ runStages (stagesOf (m + 1) Ls (some f)) x = .ok y ∧ y.WF ∧ y.shape = B :: S (m + 1) := by
  obtain ⟨y, h1, h2, h3⟩ := runStages_batch (m := m) (fun i hi => hL i (by omega)) (fun i hi => hf i (by omega)) hx hs
  obtain ⟨z, k1, k2, k3⟩ := hL m (by omega) B y h2 h3
  obtain ⟨u, l1, l2, l3⟩ := hf m (by omega) z k2 k3
  refine ⟨z, u, k2, k3, l1, ?_, l2, l3⟩
  rw [stagesOf_succ, runStages_append, h1]
  simp only [bind, Except.bind, Option.map_some, Option.toList_some, runStages, ConvStage.call, k1, l1]

/-- The first normalization that rejects its batch decides. -/
theorem runStages_reject {m : ℕ} {Ls : ℕ → ConvLayer K} {f : ℕ → Fwd K} {S : ℕ → List ℕ} {B j : ℕ} {e : PyErr} (hL : ∀ i < m, MapsShape (Ls i).forward (S i) (S (i + 1)))
    (hj : j < m) (hf : ∀ i < j, KeepsBatch (f i) (B :: S (i + 1))) (he : ∀ y : Tensor K, y.shape = B :: S (j + 1) → f j y = .error e) {x : Tensor K} (hx : x.WF)
    (hs : x.shape = B :: S 0) : runStages (stagesOf m Ls (some f)) x = .error e := by
  induction m with
  | zero => omega
  | succ m ih =>
    rw [stagesOf_succ, runStages_append]
    by_cases hjm : j < m
    · rw [ih (fun i hi => hL i (by omega)) hjm]
      rfl
    · have : j = m := by omega
      subst this
      obtain ⟨y, h1, h2, h3⟩ := runStages_batch (m := j) (fun i hi => hL i (by omega)) (fun i hi => hf i (by omega)) hx hs
      obtain ⟨z, k1, k2, k3⟩ := hL j (by omega) B y h2 h3
      rw [h1]
      simp only [bind, Except.bind, Option.map_some, Option.toList_some, runStages, ConvStage.call, k1, he z k3]

end

theorem keepsBatch_train2 (N : BatchNorm ℝ) {B C H W : ℕ} (h : B * H * W ≠ 1) : KeepsBatch N.train2 [B, C, H, W] := by
  intro y _ hs
  exact ⟨_, train2_eq N hs h, Tensor.wf_tab4 _ _ _ _ _, rfl⟩

/-- A batch of one sample is its mean. -/
theorem single_of_mean {out : Tensor ℝ} {C : ℕ} {β : ℕ → ℝ} (hw : out.WF) (hs : out.shape = [1, C])
    (hmean : ∀ o < C, (∑ b ∈ Finset.range 1, out.get [b, o]) / ((1 : ℕ) : ℝ) = β o) : out = Tensor.tab2 1 C fun _ o => β o := by
  refine Tensor.ext_get hw (Tensor.wf_tab2 _ _ _) hs fun idx hidx => ?_
  rw [hs] at hidx
  match idx, hidx with
  | [b, o], hidx =>
    obtain ⟨hb, ho⟩ := inShape2.1 hidx
    rw [Tensor.get_tab2 hb ho, ← hmean o ho]
    obtain rfl : b = 0 := by omega
    simp

theorem train_error (N : BatchNorm ℝ) {x : Tensor ℝ} {B C L : ℕ} (hx : x.shape = [B, C, L]) (h1 : B * L = 1) : N.train x = .error .valueError := by
  unfold BatchNorm.train
  simp only [hx]
  rw [if_pos h1]

theorem keepsBatch_train (N : BatchNorm ℝ) {B C L : ℕ} (h : B * L ≠ 1) : KeepsBatch N.train [B, C, L] := by
  intro y _ hs
  unfold BatchNorm.train
  simp only [hs]
  rw [if_neg h]
  exact ⟨_, rfl, Tensor.wf_tab3 _ _ _ _, rfl⟩

theorem train_mean (N : BatchNorm ℝ) {x y : Tensor ℝ} {B C L : ℕ} (hx : x.shape = [B, C, L]) (h0 : 0 < B * L) (h : N.train x = .ok y) :
    ∀ o < C, chanMean y B L o = N.bias o := by
  intro o ho
  have h1 : B * L ≠ 1 := by
    intro h1
    rw [train_error N hx h1] at h
    cases h
  unfold BatchNorm.train at h
  simp only [hx] at h
  rw [if_neg h1] at h
  cases h
  have hne : (B : ℝ) * (L * (1 : ℕ)) ≠ 0 := by
    have : ((B * L : ℕ) : ℝ) ≠ 0 := Nat.cast_ne_zero.2 h0.ne'
    push_cast at this ⊢
    rwa [mul_one]
  have hne' : (B : ℝ) * L ≠ 0 := by simpa using hne
  unfold chanMean
  rw [div_eq_iff hne']
  have key := sum_normalized (H := L) (W := 1) (fun b i _ => x.get [b, o, i]) (w := N.weight o) (β := N.bias o)
    (d := Real.sqrt (varL (channelValues (fun s c i => x.get [s, c, i]) B L o) + N.eps)) (m := meanL (channelValues (fun s c i => x.get [s, c, i]) B L o))
    (by rw [meanL_channelValues]; simp) hne
  simp only [Finset.range_one, Finset.sum_singleton, Nat.cast_one, mul_one] at key
  rw [← key]
  refine Finset.sum_congr rfl fun b hb => Finset.sum_congr rfl fun i hi => ?_
  rw [Finset.mem_range] at hb hi
  rw [Tensor.get_tab3 hb ho hi]
  rfl

/-! ## encoders -/

/-- **C108 (pooled batch normalization).** A fully convolutional network of 2d layers with `normalization=BatchNorm2d` and the default pooling, in training mode, whatever its weights and the
parameters of its normalizations are: if no layer leaves a single value per channel, then the outputs of the network have, over every batch of images, the mean `bias` of the last
normalization; so a batch of one image gives these biases, whatever the image is. If some layer leaves a single value per channel (one sample, one pixel), the network raises a ValueError. -/
theorem C108_pooled {a : ConvNetArgs ℝ} {cls : ℕ → ConvClass} {m : ℕ} (h : a.Fine a.kernelSize.length .two cls m) (hp : a.pooling = "2d") {bn₀ : ℕ → ℕ → BatchNorm ℝ}
    (hn : a.normalization = some fun i c => (bn₀ i c).train2) (rand : ℕ → ConvRng ℝ) :
    ∃ (N : FCN ℝ) (Ls : ℕ → ConvLayer ℝ), FCN.init a rand = .ok N ∧ N.stages = stagesOf m Ls (some fun i => (bn₀ i (a.chan (i + 1))).train2) ∧
      ∀ (Ws : ℕ → Tensor ℝ) (bn : ℕ → BatchNorm ℝ), (∀ i < m, (Ws i).shape = (Ls i).weight.shape) →
      ∀ (B H W : ℕ) (x : Tensor ℝ), x.WF → x.shape = [B, a.chan 0, H, W] →
      (∀ i < m, a.kern i ≤ a.widthAt a.kernelSize.length H i + 2 * a.padding) → (∀ i < m, a.kern i ≤ a.widthAt a.kernelSize.length W i + 2 * a.padding) →
      let N' : FCN ℝ := { N with stages := stagesOf m (fun i => { Ls i with weight := Ws i }) (some fun i => (bn i).train2) }
      ((∀ i < m, B * a.widthAt a.kernelSize.length H (i + 1) * a.widthAt a.kernelSize.length W (i + 1) ≠ 1) →
        (∃ out, N'.forward x = .ok out ∧ out.WF ∧ out.shape = [B, a.chan m] ∧ (1 ≤ B → ∀ o < a.chan m, (∑ b ∈ Finset.range B, out.get [b, o]) / B = (bn (m - 1)).bias o)) ∧
        (B = 1 → N'.forward x = .ok (Tensor.tab2 1 (a.chan m) fun _ o => (bn (m - 1)).bias o))) ∧
      ((∃ i < m, B * a.widthAt a.kernelSize.length H (i + 1) * a.widthAt a.kernelSize.length W (i + 1) = 1) → N'.forward x = .error .valueError) := by
  obtain ⟨Ls, h1, h2⟩ := convStages_ok h rand
  rw [hn] at h1
  have hm := h.layers
  refine ⟨{ stages := stagesOf m Ls (some fun i => (bn₀ i (a.chan (i + 1))).train2)
            pool := if a.pooling = "1d" then some 1 else if a.pooling = "2d" then some 2 else if a.pooling = "3d" then some 3 else none
            channels := a.channels }, Ls, by unfold FCN.init; rw [h1]; rfl, rfl, ?_⟩
  intro Ws bn hWs B H W x hx hxs hH hW N'
  have hL : ∀ i < m, MapsShape ({ Ls i with weight := Ws i } : ConvLayer ℝ).forward ([a.chan i, a.widthAt a.kernelSize.length H i, a.widthAt a.kernelSize.length W i])
      ([a.chan (i + 1), a.widthAt a.kernelSize.length H (i + 1), a.widthAt a.kernelSize.length W (i + 1)]) := fun i hi =>
    ((h2 i hi).withWeight (hWs i hi)).mapsShape (h.kernel i hi).2 (h.stride i hi).2 (hH i hi) (fun _ => hW i hi)
  have hpool : N'.pool = some 2 := by show (if _ then _ else _) = _; rw [hp]; rfl
  constructor
  · intro hne
    obtain ⟨m, rfl⟩ : ∃ m', m = m' + 1 := ⟨m - 1, by omega⟩
    obtain ⟨z, y, -, z2, z3, y1, y2, y3⟩ := runStages_last (f := fun i => (bn i).train2)
      (S := fun i => [a.chan i, a.widthAt a.kernelSize.length H i, a.widthAt a.kernelSize.length W i]) hL (fun i hi => keepsBatch_train2 _ (hne i hi)) hx hxs
    have pH : 1 ≤ a.widthAt a.kernelSize.length H (m + 1) := widthAt_pos a _ hm
    have pW : 1 ≤ a.widthAt a.kernelSize.length W (m + 1) := widthAt_pos a _ hm
    obtain ⟨out, o1, o2, o3, o4⟩ := pool2_flatten y3 pH pW
    have fwd : N'.forward x = .ok out := by
      show (do let y ← runStages N'.stages x; _) = _
      rw [show runStages N'.stages x = .ok y from y1, hpool]
      exact o1
    have mean : 1 ≤ B → ∀ o < a.chan (m + 1), (∑ b ∈ Finset.range B, out.get [b, o]) / B = (bn (m + 1 - 1)).bias o := by
      intro hB o ho
      have hmean := train2_mean (bn m) z2 (by positivity) z3 o ho
      rw [Nat.add_sub_cancel, ← hmean]
      unfold imageMean
      have hB' : (B : ℝ) ≠ 0 := Nat.cast_ne_zero.2 (by omega)
      have hH' : (a.widthAt a.kernelSize.length H (m + 1) : ℝ) ≠ 0 := Nat.cast_ne_zero.2 (by omega)
      have hW' : (a.widthAt a.kernelSize.length W (m + 1) : ℝ) ≠ 0 := Nat.cast_ne_zero.2 (by omega)
      rw [div_eq_div_iff hB' (by positivity)]
      have : ∀ b ∈ Finset.range B, out.get [b, o] = (∑ i ∈ Finset.range (a.widthAt a.kernelSize.length H (m + 1)), ∑ j ∈ Finset.range (a.widthAt a.kernelSize.length W (m + 1)),
          y.get [b, o, i, j]) / ((a.widthAt a.kernelSize.length H (m + 1) : ℝ) * a.widthAt a.kernelSize.length W (m + 1)) := by
        intro b hb
        rw [o4 b (Finset.mem_range.1 hb) o ho, sumL_flatMap_range]
        push_cast
        rfl
      rw [Finset.sum_congr rfl this, ← Finset.sum_div]
      field_simp
    refine ⟨⟨out, fwd, o2, o3, mean⟩, ?_⟩
    rintro rfl
    rw [fwd, ← single_of_mean o2 o3 (mean (le_refl _))]
  · intro hex
    classical
    obtain ⟨j, ⟨hj, hj1⟩, hmin⟩ : ∃ j, (j < m ∧ B * a.widthAt a.kernelSize.length H (j + 1) * a.widthAt a.kernelSize.length W (j + 1) = 1) ∧
        ∀ i < j, ¬ (i < m ∧ B * a.widthAt a.kernelSize.length H (i + 1) * a.widthAt a.kernelSize.length W (i + 1) = 1) :=
      ⟨Nat.find hex, Nat.find_spec hex, fun i hi => Nat.find_min hex hi⟩
    have := runStages_reject (f := fun i => (bn i).train2) (e := .valueError)
      (S := fun i => [a.chan i, a.widthAt a.kernelSize.length H i, a.widthAt a.kernelSize.length W i]) hL hj
      (fun i hi => keepsBatch_train2 _ fun h => hmin i hi ⟨by omega, h⟩) (fun y hy => train2_error _ hy hj1) hx hxs
    show (do let y ← runStages N'.stages x; _) = _
    rw [show runStages N'.stages x = .error .valueError from this]
    rfl

/-- **C108 (signals).** The same with 1d layers, `normalization=BatchNorm1d` and `pooling="1d"`. -/
theorem C108_signals {a : ConvNetArgs ℝ} {cls : ℕ → ConvClass} {m : ℕ} (h : a.Fine a.kernelSize.length .one cls m) (hp : a.pooling = "1d") {bn₀ : ℕ → ℕ → BatchNorm ℝ}
    (hn : a.normalization = some fun i c => (bn₀ i c).train) (rand : ℕ → ConvRng ℝ) :
    ∃ (N : FCN ℝ) (Ls : ℕ → ConvLayer ℝ), FCN.init a rand = .ok N ∧ N.stages = stagesOf m Ls (some fun i => (bn₀ i (a.chan (i + 1))).train) ∧
      ∀ (Ws : ℕ → Tensor ℝ) (bn : ℕ → BatchNorm ℝ), (∀ i < m, (Ws i).shape = (Ls i).weight.shape) →
      ∀ (B H : ℕ) (x : Tensor ℝ), x.WF → x.shape = [B, a.chan 0, H] →
      (∀ i < m, a.kern i ≤ a.widthAt a.kernelSize.length H i + 2 * a.padding) →
      let N' : FCN ℝ := { N with stages := stagesOf m (fun i => { Ls i with weight := Ws i }) (some fun i => (bn i).train) }
      ((∀ i < m, B * a.widthAt a.kernelSize.length H (i + 1) ≠ 1) →
        (∃ out, N'.forward x = .ok out ∧ out.WF ∧ out.shape = [B, a.chan m] ∧ (1 ≤ B → ∀ o < a.chan m, (∑ b ∈ Finset.range B, out.get [b, o]) / B = (bn (m - 1)).bias o)) ∧
        (B = 1 → N'.forward x = .ok (Tensor.tab2 1 (a.chan m) fun _ o => (bn (m - 1)).bias o))) ∧
      ((∃ i < m, B * a.widthAt a.kernelSize.length H (i + 1) = 1) → N'.forward x = .error .valueError) := by
  obtain ⟨Ls, h1, h2⟩ := convStages_ok h rand
  rw [hn] at h1
  have hm := h.layers
  refine ⟨{ stages := stagesOf m Ls (some fun i => (bn₀ i (a.chan (i + 1))).train)
            pool := if a.pooling = "1d" then some 1 else if a.pooling = "2d" then some 2 else if a.pooling = "3d" then some 3 else none
            channels := a.channels }, Ls, by unfold FCN.init; rw [h1]; rfl, rfl, ?_⟩
  intro Ws bn hWs B H x hx hxs hH N'
  have hL : ∀ i < m, MapsShape ({ Ls i with weight := Ws i } : ConvLayer ℝ).forward ([a.chan i, a.widthAt a.kernelSize.length H i])
      ([a.chan (i + 1), a.widthAt a.kernelSize.length H (i + 1)]) := fun i hi =>
    ((h2 i hi).withWeight (hWs i hi)).mapsShape (W := 0) (h.kernel i hi).2 (h.stride i hi).2 (hH i hi) (fun hr => by cases hr)
  have hpool : N'.pool = some 1 := by show (if _ then _ else _) = _; rw [hp]; rfl
  constructor
  · intro hne
    obtain ⟨m, rfl⟩ : ∃ m', m = m' + 1 := ⟨m - 1, by omega⟩
    obtain ⟨z, y, -, z2, z3, y1, y2, y3⟩ := runStages_last (f := fun i => (bn i).train)
      (S := fun i => [a.chan i, a.widthAt a.kernelSize.length H i]) hL (fun i hi => keepsBatch_train _ (hne i hi)) hx hxs
    have pH : 1 ≤ a.widthAt a.kernelSize.length H (m + 1) := widthAt_pos a _ hm
    obtain ⟨out, o1, o2, o3, o4⟩ := pool1_flatten y3 pH
    have fwd : N'.forward x = .ok out := by
      show (do let y ← runStages N'.stages x; _) = _
      rw [show runStages N'.stages x = .ok y from y1, hpool]
      exact o1
    have mean : 1 ≤ B → ∀ o < a.chan (m + 1), (∑ b ∈ Finset.range B, out.get [b, o]) / B = (bn (m + 1 - 1)).bias o := by
      intro hB o ho
      have hmean := train_mean (bn m) z2 (by positivity) z3 o ho
      rw [Nat.add_sub_cancel, ← hmean]
      unfold chanMean
      have hB' : (B : ℝ) ≠ 0 := Nat.cast_ne_zero.2 (by omega)
      have hH' : (a.widthAt a.kernelSize.length H (m + 1) : ℝ) ≠ 0 := Nat.cast_ne_zero.2 (by omega)
      rw [div_eq_div_iff hB' (by positivity)]
      have : ∀ b ∈ Finset.range B, out.get [b, o] = (∑ i ∈ Finset.range (a.widthAt a.kernelSize.length H (m + 1)), y.get [b, o, i]) / (a.widthAt a.kernelSize.length H (m + 1) : ℝ) := by
        intro b hb
        rw [o4 b (Finset.mem_range.1 hb) o ho, sumL_range]
      rw [Finset.sum_congr rfl this, ← Finset.sum_div]
      field_simp
    refine ⟨⟨out, fwd, o2, o3, mean⟩, ?_⟩
    rintro rfl
    rw [fwd, ← single_of_mean o2 o3 (mean (le_refl _))]
  · intro hex
    classical
    obtain ⟨j, ⟨hj, hj1⟩, hmin⟩ : ∃ j, (j < m ∧ B * a.widthAt a.kernelSize.length H (j + 1) = 1) ∧ ∀ i < j, ¬ (i < m ∧ B * a.widthAt a.kernelSize.length H (i + 1) = 1) :=
      ⟨Nat.find hex, Nat.find_spec hex, fun i hi => Nat.find_min hex hi⟩
    have := runStages_reject (f := fun i => (bn i).train) (e := .valueError) (S := fun i => [a.chan i, a.widthAt a.kernelSize.length H i]) hL hj
      (fun i hi => keepsBatch_train _ fun h => hmin i hi ⟨by omega, h⟩) (fun y hy => train_error _ hy hj1) hx hxs
    show (do let y ← runStages N'.stages x; _) = _
    rw [show runStages N'.stages x = .error .valueError from this]
    rfl

/-! ## variational autoencoders -/

/-- Mean over the batch of a linear layer of features whose means are known. -/
theorem linear_batchMean {w b out : Tensor ℝ} {B C D : ℕ} {β : ℕ → ℝ} (hw : w.shape = [D, C]) (hs : out.shape = [B, C]) (hB : 1 ≤ B)
    (hmean : ∀ o < C, (∑ s ∈ Finset.range B, out.get [s, o]) / B = β o) :
    ∃ y, linearForward w b out = .ok y ∧ y.shape = [B, D] ∧ ∀ j < D, (∑ s ∈ Finset.range B, y.get [s, j]) / B = (∑ o ∈ Finset.range C, w.get [j, o] * β o) + b.get [j] := by
  have hB' : (B : ℝ) ≠ 0 := Nat.cast_ne_zero.2 (by omega)
  unfold linearForward
  simp only [hs, hw, if_true]
  refine ⟨_, rfl, rfl, fun j hj => ?_⟩
  rw [div_eq_iff hB', Finset.sum_congr rfl fun s hs' => Tensor.get_tab2 (Finset.mem_range.1 hs') hj]
  simp only [sumL_range]
  rw [Finset.sum_add_distrib, Finset.sum_comm, add_mul, Finset.sum_mul]
  congr 1
  · refine Finset.sum_congr rfl fun o ho => ?_
    rw [← hmean o (Finset.mem_range.1 ho), ← Finset.sum_mul]
    field_simp
  · simp [mul_comm]

/-- **C108 (latent codes).** A `VanillaVAE` whose encoder gives outputs of mean `β` over the batch (as the networks above do in training mode): the means over the batch of `mu` and `log_var`
are the same for all batches of images, namely what the two linear layers make of `β`; and all single images have the same `mu` and `log_var`. -/
theorem C108_latent {V : VAE ℝ} {C : ℕ} (hm : V.muWeight.shape = [V.latentDim, C]) (hv : V.varWeight.shape = [V.latentDim, C]) {β : ℕ → ℝ} :
    (∀ (B : ℕ) (x out : Tensor ℝ), 1 ≤ B → 1 ≤ C → V.encoder x = .ok out → out.WF → out.shape = [B, C] → (∀ o < C, (∑ s ∈ Finset.range B, out.get [s, o]) / B = β o) →
      ∃ mu lv, V.encode x = .ok (mu, lv) ∧ mu.shape = [B, V.latentDim] ∧ lv.shape = [B, V.latentDim] ∧ ∀ j < V.latentDim,
        (∑ s ∈ Finset.range B, mu.get [s, j]) / B = (∑ o ∈ Finset.range C, V.muWeight.get [j, o] * β o) + V.muBias.get [j] ∧
        (∑ s ∈ Finset.range B, lv.get [s, j]) / B = (∑ o ∈ Finset.range C, V.varWeight.get [j, o] * β o) + V.varBias.get [j]) ∧
    (∀ x x' : Tensor ℝ, V.encoder x = .ok (Tensor.tab2 1 C fun _ o => β o) → V.encoder x' = .ok (Tensor.tab2 1 C fun _ o => β o) → V.encode x = V.encode x') := by
  constructor
  · intro B x out hB hC he hw hs hmean
    have hf : flatten1 out = .ok out := by
      unfold flatten1
      rw [hs]
      simp only [numel, mul_one]
      rw [← hs]
      rfl
    obtain ⟨mu, m1, m2, m3⟩ := linear_batchMean (b := V.muBias) hm hs hB hmean
    obtain ⟨lv, l1, l2, l3⟩ := linear_batchMean (b := V.varBias) hv hs hB hmean
    refine ⟨mu, lv, ?_, m2, l2, fun j hj => ⟨m3 j hj, l3 j hj⟩⟩
    unfold VAE.encode
    simp only [he, hf, m1, l1, bind, Except.bind]
  · intro x x' h h'
    unfold VAE.encode
    rw [h, h']

/-- **C108 (decoders).** A deconvolutional network with `normalization=BatchNorm2d` in training mode, whatever its weights are: if no layer leaves a single value per channel, every channel of
the reconstructions has mean `bias` over the batch and the pixels; otherwise a ValueError. -/
theorem C108_decoder {a : ConvNetArgs ℝ} {m : ℕ} (h : a.FineT m) {bn₀ : ℕ → ℕ → BatchNorm ℝ} (hn : a.normalization = some fun i c => (bn₀ i c).train2) (rand : ℕ → ConvRng ℝ) :
    ∃ (N : Deconv ℝ) (Ls : ℕ → ConvLayer ℝ), Deconv.init a rand = .ok N ∧ N.stages = stagesOf m Ls (some fun i => (bn₀ i (a.chan (i + 1))).train2) ∧
      ∀ (Ws : ℕ → Tensor ℝ) (bn : ℕ → BatchNorm ℝ), (∀ i < m, (Ws i).shape = (Ls i).weight.shape) →
      ∀ (B H W : ℕ) (x : Tensor ℝ), x.WF → x.shape = [B, a.chan 0, H, W] →
      (∀ i < m, 1 ≤ a.growthAt (m + 1) H i ∧ 2 * a.padding < (a.growthAt (m + 1) H i - 1) * a.step (m + 1) i + a.kern i) →
      (∀ i < m, 1 ≤ a.growthAt (m + 1) W i ∧ 2 * a.padding < (a.growthAt (m + 1) W i - 1) * a.step (m + 1) i + a.kern i) →
      let N' : Deconv ℝ := { N with stages := stagesOf m (fun i => { Ls i with weight := Ws i }) (some fun i => (bn i).train2) }
      ((∀ i < m, B * a.growthAt (m + 1) H (i + 1) * a.growthAt (m + 1) W (i + 1) ≠ 1) →
        ∃ y, N'.forward x = .ok y ∧ y.WF ∧ y.shape = [B, a.chan m, a.growthAt (m + 1) H m, a.growthAt (m + 1) W m] ∧
          (1 ≤ B → ∀ o < a.chan m, imageMean y B (a.growthAt (m + 1) H m) (a.growthAt (m + 1) W m) o = (bn (m - 1)).bias o)) ∧
      ((∃ i < m, B * a.growthAt (m + 1) H (i + 1) * a.growthAt (m + 1) W (i + 1) = 1) → N'.forward x = .error .valueError) := by
  have hm := h.layers
  obtain ⟨Ls, h1, h2⟩ := deconvStages_ok h rand
  rw [hn] at h1
  refine ⟨_, Ls, h1, rfl, ?_⟩
  intro Ws bn hWs B H W x hx hxs hH hW N'
  have hL : ∀ i < m, MapsShape ({ Ls i with weight := Ws i } : ConvLayer ℝ).forward ([a.chan i, a.growthAt (m + 1) H i, a.growthAt (m + 1) W i])
      ([a.chan (i + 1), a.growthAt (m + 1) H (i + 1), a.growthAt (m + 1) W (i + 1)]) := fun i hi =>
    ConvLayer.BetweenT.mapsShape (L := { Ls i with weight := Ws i })
      ⟨(h2 i hi).kind, (h2 i hi).expander, (h2 i hi).geometry, (hWs i hi).trans (h2 i hi).weight⟩ (h.kernel i hi).2 (h.stride i hi).2 (hH i hi) (hW i hi)
  constructor
  · intro hne
    have pos : ∀ w, (∀ i < m, 1 ≤ a.growthAt (m + 1) w i ∧ 2 * a.padding < (a.growthAt (m + 1) w i - 1) * a.step (m + 1) i + a.kern i) → 1 ≤ a.growthAt (m + 1) w m := by
      intro w hw
      have key : ∀ size, (∀ i < m, 1 ≤ a.growthAt size w i ∧ 2 * a.padding < (a.growthAt size w i - 1) * a.step size i + a.kern i) → 1 ≤ a.growthAt size w m := by
        intro size hw
        cases m with
        | zero => omega
        | succ m =>
          have := (hw m (by omega)).2
          show 1 ≤ deconvOut _ _ _ _
          unfold deconvOut
          omega
      exact key _ hw
    have pH := pos H hH
    have pW := pos W hW
    have last : ∀ n, m = n + 1 → ∃ y, N'.forward x = .ok y ∧ y.WF ∧ y.shape = [B, a.chan m, a.growthAt (m + 1) H m, a.growthAt (m + 1) W m] ∧
          (1 ≤ B → ∀ o < a.chan m, imageMean y B (a.growthAt (m + 1) H m) (a.growthAt (m + 1) W m) o = (bn (m - 1)).bias o) := by
      intro n hn'
      have hL' := hL
      have hne' := hne
      generalize hsz : m + 1 = size at *
      subst hn'
      obtain ⟨z, y, -, z2, z3, y1, y2, y3⟩ := runStages_last (f := fun i => (bn i).train2)
        (S := fun i => [a.chan i, a.growthAt size H i, a.growthAt size W i]) hL' (fun i hi => keepsBatch_train2 _ (hne' i hi)) hx hxs
      exact ⟨y, y1, y2, y3, fun hB => train2_mean (bn n) z2 (by positivity) z3⟩
    exact last (m - 1) (by omega)
  · intro hex
    classical
    obtain ⟨j, ⟨hj, hj1⟩, hmin⟩ : ∃ j, (j < m ∧ B * a.growthAt (m + 1) H (j + 1) * a.growthAt (m + 1) W (j + 1) = 1) ∧
        ∀ i < j, ¬ (i < m ∧ B * a.growthAt (m + 1) H (i + 1) * a.growthAt (m + 1) W (i + 1) = 1) :=
      ⟨Nat.find hex, Nat.find_spec hex, fun i hi => Nat.find_min hex hi⟩
    exact runStages_reject (f := fun i => (bn i).train2) (e := .valueError)
      (S := fun i => [a.chan i, a.growthAt (m + 1) H i, a.growthAt (m + 1) W i]) hL hj
      (fun i hi => keepsBatch_train2 _ fun h => hmin i hi ⟨by omega, h⟩) (fun y hy => train2_error _ hy hj1) hx hxs

theorem sum_image (x : Tensor ℝ) {B C H W : ℕ} (hx : x.shape = [B, C, H, W]) (g : ℕ → ℝ) (f : ℕ → ℕ → ℕ → ℕ → ℝ) (h : ∀ b c i j, g (ravel [B, C, H, W] [b, c, i, j]) = f b c i j) :
    ∑ q ∈ Finset.range (numel [B, C, H, W]), g q = ∑ c ∈ Finset.range C, ∑ b ∈ Finset.range B, ∑ i ∈ Finset.range H, ∑ j ∈ Finset.range W, f b c i j := by
  have e : numel [B, C, H, W] = B * (C * (H * W)) := by simp [numel]
  rw [e, sum_range_mul_add, Finset.sum_comm (s := Finset.range C)]
  refine Finset.sum_congr rfl fun b _ => ?_
  rw [sum_range_mul_add]
  refine Finset.sum_congr rfl fun c _ => ?_
  rw [sum_range_mul_add]
  refine Finset.sum_congr rfl fun i _ => Finset.sum_congr rfl fun j _ => ?_
  rw [← h, ravel4]
  congr 1
  ring

/-- **C108 (reconstruction loss).** Reconstructions whose channels have the means `β o` (as those of a decoder that ends with a batch normalization in training mode) have at least the
reconstruction loss mean of `(β o - mean of channel o of the images)²`, whatever the weights, the noise and the images are: the loss of training can only become small if the biases of the last
normalization are the channel means of the batch. -/
theorem C108_reconstruction {recons input : Tensor ℝ} {B C H W : ℕ} (hr : recons.shape = [B, C, H, W]) (hi : input.shape = [B, C, H, W]) (h0 : 0 < B * H * W) (hC : 1 ≤ C) {β : ℕ → ℝ}
    (hβ : ∀ o < C, imageMean recons B H W o = β o) :
    ∃ v, VAE.mseLoss recons input = .ok v ∧ (∑ o ∈ Finset.range C, (β o - imageMean input B H W o) ^ 2) / C ≤ v := by
  refine ⟨_, mseLoss_eq hr hi, ?_⟩
  rw [sum_image recons hr _ (fun b c i j => (recons.get [b, c, i, j] - input.get [b, c, i, j]) ^ 2) fun b c i j => by
    unfold Tensor.get
    rw [hr, hi]]
  have hne : (0 : ℝ) < (B : ℝ) * (H * W) := by
    have : (0 : ℝ) < ((B * H * W : ℕ) : ℝ) := Nat.cast_pos.2 h0
    push_cast at this
    rwa [mul_assoc] at this
  have hC' : (0 : ℝ) < C := Nat.cast_pos.2 hC
  have hnum : ((numel [B, C, H, W] : ℕ) : ℝ) = ((B : ℝ) * (H * W)) * C := by simp [numel]; ring
  rw [hnum, div_le_div_iff₀ hC' (by positivity), ← mul_assoc, mul_assoc (∑ o ∈ _, _), ← mul_assoc]
  refine mul_le_mul_of_nonneg_right ?_ hC'.le
  rw [Finset.sum_mul]
  refine Finset.sum_le_sum fun o ho => ?_
  rw [← hβ o (Finset.mem_range.1 ho)]
  have e : imageMean recons B H W o - imageMean input B H W o
      = (∑ b ∈ Finset.range B, ∑ i ∈ Finset.range H, ∑ j ∈ Finset.range W, (recons.get [b, o, i, j] - input.get [b, o, i, j])) / ((B : ℝ) * (H * W)) := by
    unfold imageMean
    simp only [Finset.sum_sub_distrib]
    rw [sub_div]
  rw [e]
  set D := fun b i j => recons.get [b, o, i, j] - input.get [b, o, i, j] with hD
  have cs : (∑ b ∈ Finset.range B, ∑ i ∈ Finset.range H, ∑ j ∈ Finset.range W, D b i j) ^ 2
      ≤ ((B : ℝ) * (H * W)) * ∑ b ∈ Finset.range B, ∑ i ∈ Finset.range H, ∑ j ∈ Finset.range W, D b i j ^ 2 := by
    have k := sq_sum_le_card_mul_sum_sq (s := (Finset.range B ×ˢ Finset.range H) ×ˢ Finset.range W) (f := fun p => D p.1.1 p.1.2 p.2)
    simp only [Finset.sum_product, Finset.card_product, Finset.card_range] at k
    push_cast at k
    calc _ ≤ _ := k
      _ = _ := by ring
  rw [div_pow, div_mul_eq_mul_div, div_le_iff₀ (by positivity)]
  calc _ ≤ _ := mul_le_mul_of_nonneg_right cs hne.le
    _ = _ := by ring

/-! ## concrete checks -/

/-- One layer `polynomial2d` with a 2×2 kernel on images of one channel, followed by a batch normalization and the pooling. -/
noncomputable def exPool : ConvNetArgs ℝ where
  layerType := .one "polynomial2d"
  n := .one 2
  channels := [1, 2]
  segments := .one 1
  kernelSize := [2]
  rescaleOutput := false
  periodicity := none
  normalization := some fun _ _ => (BatchNorm.new defaultEps).train2
  pooling := "2d"
  stride := none
  padding := 0
  focus := none

theorem exPool_fine : exPool.Fine exPool.kernelSize.length .two (fun _ => .polynomial .two) 1 where
  layers := le_refl _
  channels := rfl
  positive := by intro i hi; interval_cases i; simp [exPool, ConvNetArgs.chan]
  key := by intro i hi; interval_cases i; exact ⟨"polynomial2d", rfl, rfl⟩
  rank := by intro i hi; exact ⟨rfl, by simp⟩
  n := by intro i hi; interval_cases i; simp [exPool, ConvNetArgs.lists, OneOrMany.toList]
  segments := by intro i hi; interval_cases i; simp [exPool, ConvNetArgs.lists, OneOrMany.toList]
  kernel := by intro i hi; interval_cases i; simp [exPool, ConvNetArgs.kern]
  stride := by intro i hi; interval_cases i; simp [exPool, ConvNetArgs.step, ConvNetArgs.lists]

/-- Every single 3×4 image gives two zeros (the biases of a new normalization), and a single 2×2 image is rejected. -/
example (rand : ℕ → ConvRng ℝ) : ∃ N, FCN.init exPool rand = .ok N ∧
    (∀ x : Tensor ℝ, x.WF → x.shape = [1, 1, 3, 4] → N.forward x = .ok (Tensor.tab2 1 2 fun _ _ => 0)) ∧
    (∀ x : Tensor ℝ, x.WF → x.shape = [1, 1, 2, 2] → N.forward x = .error .valueError) := by
  obtain ⟨N, Ls, h1, h2, h3⟩ := C108_pooled exPool_fine rfl (bn₀ := fun _ _ => BatchNorm.new defaultEps) rfl rand
  have hN : ({ N with stages := stagesOf 1 (fun i => { Ls i with weight := (Ls i).weight }) (some fun _ => (BatchNorm.new defaultEps).train2) } : FCN ℝ) = N := by
    cases N
    simp only at h2
    rw [h2]
  refine ⟨N, h1, fun x hx hs => ?_, fun x hx hs => ?_⟩
  · have := ((h3 (fun i => (Ls i).weight) (fun _ => BatchNorm.new defaultEps) (fun _ _ => rfl) 1 3 4 x hx hs (by intro i hi; interval_cases i; decide)
      (by intro i hi; interval_cases i; decide)).1 (by intro i hi; interval_cases i; decide)).2 rfl
    rw [hN] at this
    exact this
  · have := (h3 (fun i => (Ls i).weight) (fun _ => BatchNorm.new defaultEps) (fun _ _ => rfl) 1 2 2 x hx hs (by intro i hi; interval_cases i; decide)
      (by intro i hi; interval_cases i; decide)).2 ⟨0, by decide, by decide⟩
    rw [hN] at this
    exact this

/-- In evaluation mode the image matters. -/
example : (BatchNorm.mk (K := ℝ) 0 (fun _ => 1) (fun _ => 0) (fun _ => 0) (fun _ => 1)).eval2 (Tensor.tab4 1 1 1 1 fun _ _ _ _ => 3) = .ok (Tensor.tab4 1 1 1 1 fun _ _ _ _ => 3) := by
  unfold BatchNorm.eval2
  simp only [Tensor.tab4, Tensor.tabulate]
  congr 1
  simp [BatchNorm.entry, Tensor.get, TorchScalar.sqrt, numel, ravel, unravel]

/-- One channel, black images (all pixels 0), reconstructions of mean 1/2: the loss is at least 1/4. -/
example (r : Tensor ℝ) (hr : r.shape = [2, 1, 4, 4]) (hm : imageMean r 2 4 4 0 = 1 / 2) :
    ∃ v, VAE.mseLoss r (Tensor.tab4 2 1 4 4 fun _ _ _ _ => 0) = .ok v ∧ 1 / 4 ≤ v := by
  obtain ⟨v, h1, h2⟩ := C108_reconstruction (input := Tensor.tab4 2 1 4 4 fun _ _ _ _ => 0) (β := fun _ => 1 / 2) hr rfl (by norm_num) (le_refl _) (by
    intro o ho
    obtain rfl : o = 0 := by omega
    exact hm)
  refine ⟨v, h1, le_trans (le_of_eq ?_) h2⟩
  have : imageMean (Tensor.tab4 2 1 4 4 fun _ _ _ _ => (0 : ℝ)) 2 4 4 0 = 0 := by
    unfold imageMean
    rw [Finset.sum_eq_zero fun b hb => Finset.sum_eq_zero fun i hi => Finset.sum_eq_zero fun j hj => Tensor.get_tab4 (Finset.mem_range.1 hb) Nat.one_pos (Finset.mem_range.1 hi) (Finset.mem_range.1 hj)]
    simp
  simp only [Finset.range_one, Finset.sum_singleton, this]
  norm_num

end HOL
