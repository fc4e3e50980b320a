import Verif.Model.Modules
import Verif.Lemmas.ConvNet
import Mathlib.Algebra.BigOperators.Field
import Mathlib.Tactic.FieldSimp
import Mathlib.Tactic.Positivity

/-! # C80: what the batch normalizations of the configured convolutional networks do -/

namespace HOL
open TorchScalar

namespace Spec

/-- Mean of channel `r` of a `[b, C, l]` signal. -/
noncomputable def chanMean (x : Tensor ℝ) (b l r : ℕ) : ℝ :=
  (∑ s ∈ Finset.range b, ∑ i ∈ Finset.range l, x.get [s, r, i]) / (b * l)

/-- (Biased) variance of channel `r`. -/
noncomputable def chanVar (x : Tensor ℝ) (b l r : ℕ) : ℝ :=
  (∑ s ∈ Finset.range b, ∑ i ∈ Finset.range l, (x.get [s, r, i] - chanMean x b l r) ^ 2) / (b * l)

theorem chanVar_nonneg (x : Tensor ℝ) (b l r : ℕ) : 0 ≤ chanVar x b l r :=
  div_nonneg (Finset.sum_nonneg fun _ _ => Finset.sum_nonneg fun _ _ => sq_nonneg _) (by positivity)

end Spec
open Spec

theorem length_channelValues (g : ℕ → ℕ → ℕ → ℝ) (b l c : ℕ) : (channelValues g b l c).length = b * l := by
  simp [channelValues, List.length_flatMap]

theorem meanL_channelValues (g : ℕ → ℕ → ℕ → ℝ) (b l c : ℕ) :
    meanL (channelValues g b l c) = (∑ s ∈ Finset.range b, ∑ i ∈ Finset.range l, g s c i) / (b * l) := by
  unfold meanL
  rw [length_channelValues]
  unfold channelValues
  rw [sumL_flatMap_range, Nat.cast_mul]

theorem varL_channelValues (g : ℕ → ℕ → ℕ → ℝ) (b l c : ℕ) :
    varL (channelValues g b l c) = (∑ s ∈ Finset.range b, ∑ i ∈ Finset.range l, (g s c i - meanL (channelValues g b l c)) ^ 2) / (b * l) := by
  unfold varL
  have : ∀ m : ℝ, (channelValues g b l c).map (fun a => (a - m) * (a - m)) = channelValues (fun s c i => (g s c i - m) ^ 2) b l c := by
    intro m
    simp only [channelValues, List.map_flatMap, List.map_map]
    congr 1
    funext s
    congr 1
    funext i
    simp [sq]
  rw [this, meanL_channelValues]

/-- **C80 (shape of a signal).** Training mode needs two or three axes and more than one value per channel, evaluation mode two or three axes. -/
theorem C80_rejects {K : Type} [TorchScalar K] (N : BatchNorm K) (x : Tensor K) :
    (x.shape.length ≠ 2 → x.shape.length ≠ 3 → N.train x = .error .valueError ∧ N.eval x = .error .valueError) ∧
    (∀ c, x.shape = [1, c] ∨ x.shape = [1, c, 1] → N.train x = .error .valueError) := by
  constructor
  · intro h2 h3
    unfold BatchNorm.train BatchNorm.eval
    rcases hs : x.shape with - | ⟨a, - | ⟨b, - | ⟨c, - | ⟨d, t⟩⟩⟩⟩ <;> simp_all
  · rintro c (h | h) <;> simp [BatchNorm.train, h]

/-- **C80 (statistics).** A new `LazyBatchNorm1d(eps)` in training mode: every channel of the output has mean 0, and its variance is `v / (v + eps)` for the
variance `v` of the channel of the input. -/
theorem C80_statistics {eps : ℝ} (he : 0 < eps) {x : Tensor ℝ} {b c l : ℕ} (hx : x.shape = [b, c, l]) (hbl : 2 ≤ b * l) :
    ∃ y, (BatchNorm.new eps).train x = .ok y ∧ y.WF ∧ y.shape = [b, c, l] ∧ ∀ r < c,
      chanMean y b l r = 0 ∧ chanVar y b l r = chanVar x b l r / (chanVar x b l r + eps) := by
  have hN : ((b : ℝ) * l) ≠ 0 := by
    have : b * l ≠ 0 := by omega
    exact_mod_cast this
  have hne : b * l ≠ 1 := by omega
  set y : Tensor ℝ := Tensor.tab3 b c l fun s r i =>
      let v := channelValues (fun s c i => x.get [s, c, i]) b l r
      (BatchNorm.new eps).entry r (meanL v) (varL v) (x.get [s, r, i]) with hy
  refine ⟨y, by unfold BatchNorm.train; rw [hx]; dsimp only; rw [if_neg hne], Tensor.wf_tabulate _ _, rfl, fun r hr => ?_⟩
  have hm : meanL (channelValues (fun s c i => x.get [s, c, i]) b l r) = chanMean x b l r := meanL_channelValues _ _ _ _
  have hv : varL (channelValues (fun s c i => x.get [s, c, i]) b l r) = chanVar x b l r := by
    rw [varL_channelValues, hm]; rfl
  have hpos : 0 < chanVar x b l r + eps := add_pos_of_nonneg_of_pos (chanVar_nonneg x b l r) he
  have hs : Real.sqrt (chanVar x b l r + eps) ≠ 0 := (Real.sqrt_pos.2 hpos).ne'
  have hget : ∀ s ∈ Finset.range b, ∀ i ∈ Finset.range l,
      y.get [s, r, i] = (x.get [s, r, i] - chanMean x b l r) / Real.sqrt (chanVar x b l r + eps) := by
    intro s hs i hi
    rw [hy, Tensor.get_tab3 (Finset.mem_range.1 hs) hr (Finset.mem_range.1 hi)]
    dsimp only
    rw [hm, hv]
    simp [BatchNorm.entry, BatchNorm.new]
  have hmean : chanMean y b l r = 0 := by
    unfold chanMean
    rw [Finset.sum_congr rfl fun s hs => Finset.sum_congr rfl fun i hi => hget s hs i hi]
    simp only [← Finset.sum_div, Finset.sum_sub_distrib, Finset.sum_const, Finset.card_range, nsmul_eq_mul]
    have : (∑ s ∈ Finset.range b, ∑ i ∈ Finset.range l, x.get [s, r, i]) - (b : ℝ) * (l * chanMean x b l r) = 0 := by
      rw [← mul_assoc, chanMean, mul_div_cancel₀ _ hN, sub_self]
    rw [this]; simp
  refine ⟨hmean, ?_⟩
  have hsq : ∀ s ∈ Finset.range b, ∀ i ∈ Finset.range l,
      (y.get [s, r, i] - 0) ^ 2 = (x.get [s, r, i] - chanMean x b l r) ^ 2 / (chanVar x b l r + eps) := by
    intro s hs i hi
    rw [hget s hs i hi, sub_zero, div_pow, Real.sq_sqrt hpos.le]
  rw [chanVar, hmean, Finset.sum_congr rfl fun s hs => Finset.sum_congr rfl fun i hi => hsq s hs i hi]
  simp only [← Finset.sum_div]
  rw [div_right_comm]
  rfl

/-- Two samples `-1, 1` of one channel have variance 1; with `eps = 1` the normalized variance is 1/2. -/
example : ∃ y, (BatchNorm.new (1 : ℝ)).train ⟨[2, 1, 1], [-1, 1]⟩ = .ok y ∧ chanVar y 2 1 0 = 1 / 2 := by
  obtain ⟨y, h1, -, -, h2⟩ := C80_statistics (eps := 1) one_pos (x := ⟨[2, 1, 1], [-1, 1]⟩) (b := 2) (c := 1) (l := 1) rfl (by norm_num)
  refine ⟨y, h1, ?_⟩
  rw [(h2 0 one_pos).2]
  norm_num [chanVar, chanMean, Finset.sum_range_succ, Tensor.get, ravel, numel]

end HOL
