import Verif.Model.Classification
import Verif.Props.Autoencoder
import Verif.Props.Modules
import Verif.Lemmas.Attention
import Mathlib.Analysis.SpecialFunctions.Log.Basic
import Mathlib.Tactic.Linarith

/-! # C82: losses of the classification and regression networks -/

namespace HOL
open TorchScalar

namespace Spec

/-- Probability that the scores of row `b` give to class `k`. -/
noncomputable def classProb (s : Tensor ℝ) (C b k : ℕ) : ℝ := Real.exp (s.get [b, k]) / ∑ j ∈ Finset.range C, Real.exp (s.get [b, j])

/-- Rows that count: those whose target is not the ignored value. -/
def counted (B : ℕ) (y : List ℤ) : Finset ℕ := (Finset.range B).filter fun b => y.getD b 0 ≠ -100

end Spec
open Spec

theorem classProb_pos (s : Tensor ℝ) {C b k : ℕ} (hk : k < C) : 0 < classProb s C b k := by
  unfold classProb
  have : 0 < ∑ j ∈ Finset.range C, Real.exp (s.get [b, j]) := Finset.sum_pos (fun _ _ => Real.exp_pos _) ⟨k, Finset.mem_range.2 hk⟩
  exact div_pos (Real.exp_pos _) this

theorem classProb_le_one (s : Tensor ℝ) {C b k : ℕ} (hk : k < C) : classProb s C b k ≤ 1 := by
  unfold classProb
  have hp : 0 < ∑ j ∈ Finset.range C, Real.exp (s.get [b, j]) := Finset.sum_pos (fun _ _ => Real.exp_pos _) ⟨k, Finset.mem_range.2 hk⟩
  rw [div_le_one hp]
  exact Finset.single_le_sum (f := fun j => Real.exp (s.get [b, j])) (fun _ _ => (Real.exp_pos _).le) (Finset.mem_range.2 hk)

theorem nllRow_eq (s : Tensor ℝ) {C b k : ℕ} (hk : k < C) :
    nllRow ((List.range C).map fun j => s.get [b, j]) k = -Real.log (classProb s C b k) := by
  unfold nllRow classProb
  dsimp only
  generalize maxL ((List.range C).map fun j => s.get [b, j]) = m
  have hp : 0 < ∑ j ∈ Finset.range C, Real.exp (s.get [b, j]) := Finset.sum_pos (fun _ _ => Real.exp_pos _) ⟨k, Finset.mem_range.2 hk⟩
  rw [List.map_map, sumL_range, getD_map_range _ hk, Real.log_div (Real.exp_pos _).ne' hp.ne', Real.log_exp]
  have e : ∑ j ∈ Finset.range C, ((fun v => TorchScalar.exp (v - m)) ∘ fun j => s.get [b, j]) j = (∑ j ∈ Finset.range C, Real.exp (s.get [b, j])) * Real.exp (-m) := by
    rw [Finset.sum_mul]
    apply Finset.sum_congr rfl
    intro j _
    simp only [Function.comp_apply, exp_real, sub_eq_add_neg, Real.exp_add]
  rw [e]
  have : TorchScalar.log ((∑ j ∈ Finset.range C, Real.exp (s.get [b, j])) * Real.exp (-m)) = Real.log (∑ j ∈ Finset.range C, Real.exp (s.get [b, j])) - m := by
    show Real.log _ = _
    rw [Real.log_mul hp.ne' (Real.exp_pos _).ne', Real.log_exp]
    ring
  rw [this]
  ring

theorem filterMap_range (P : ℕ → Prop) [DecidablePred P] (g : ℕ → ℝ) (n : ℕ) :
    (((List.range n).map fun b => if P b then none else some (g b)).filterMap id).sum = ∑ b ∈ (Finset.range n).filter (fun b => ¬ P b), g b ∧
    (((List.range n).map fun b => if P b then none else some (g b)).filterMap id).length = ((Finset.range n).filter fun b => ¬ P b).card := by
  induction n with
  | zero => simp
  | succ n ih =>
    rw [List.range_succ, List.map_append, List.filterMap_append, List.sum_append, List.length_append, ih.1, ih.2, Finset.range_add_one, Finset.filter_insert]
    by_cases hp : P n
    · simp [hp]
    · simp [hp, add_comm]

/-- **C82 (cross entropy).** For scores `[B, C]` and `B` targets, each a class or `-100`: the loss is the mean of `-log p(target)` over the rows whose target is not `-100`, where `p` is the
softmax of the row. It is not negative. -/
theorem C82_cross_entropy {s : Tensor ℝ} {y : List ℤ} {B C : ℕ} (hs : s.shape = [B, C]) (hy : y.length = B)
    (hr : ∀ b ∈ counted B y, 0 ≤ y.getD b 0 ∧ y.getD b 0 < C) :
    ∃ v, crossEntropy s y = .ok v ∧ v = (∑ b ∈ counted B y, -Real.log (classProb s C b (y.getD b 0).toNat)) / (counted B y).card ∧ 0 ≤ v := by
  have hrow : ∀ b < B, crossEntropyRow ((List.range C).map fun j => s.get [b, j]) (y.getD b 0)
      = .ok (if y.getD b 0 = -100 then none else some (-Real.log (classProb s C b (y.getD b 0).toNat))) := by
    intro b hb
    unfold crossEntropyRow
    by_cases h : y.getD b 0 = -100
    · rw [if_pos h, if_pos h]
    · obtain ⟨h0, h1⟩ := hr b (by simp only [counted, Finset.mem_filter, Finset.mem_range]; exact ⟨hb, h⟩)
      rw [if_neg h, if_neg h, if_neg (by simp only [List.length_map, List.length_range]; omega), nllRow_eq s (by omega)]
  have hall : (List.range B).mapM (fun i => crossEntropyRow ((List.range C).map fun j => s.get [i, j]) (y.getD i 0))
      = .ok ((List.range B).map fun b => if y.getD b 0 = -100 then none else some (-Real.log (classProb s C b (y.getD b 0).toNat))) := by
    apply mapM_ok
    intro b hb
    exact hrow b (List.mem_range.1 hb)
  obtain ⟨e1, e2⟩ := filterMap_range (fun b => y.getD b 0 = -100) (fun b => -Real.log (classProb s C b (y.getD b 0).toNat)) B
  refine ⟨_, ?_, rfl, ?_⟩
  · unfold crossEntropy
    simp only [hs, hy, if_true, hall, bind, Except.bind]
    rw [sumL_real, e1, e2]
    rfl
  · apply div_nonneg _ (Nat.cast_nonneg _)
    apply Finset.sum_nonneg
    intro b hb
    obtain ⟨h0, h1⟩ := hr b hb
    have hk : (y.getD b 0).toNat < C := by omega
    have := Real.log_nonpos (classProb_pos s (b := b) hk).le (classProb_le_one s hk)
    linarith

/-- **C82 (errors).** In every arithmetic: a different number of targets and rows is a `ValueError`, a target other than `-100` that is not a class is an `IndexError`. -/
theorem C82_errors {K : Type} [TorchScalar K] {s : Tensor K} {y : List ℤ} {B C : ℕ} (hs : s.shape = [B, C]) :
    (y.length ≠ B → crossEntropy s y = .error .valueError) ∧
    (y.length = B → (∃ b < B, y.getD b 0 ≠ -100 ∧ (y.getD b 0 < 0 ∨ (C : ℤ) ≤ y.getD b 0)) → crossEntropy s y = .error .indexError) := by
  constructor
  · intro h
    unfold crossEntropy
    simp only [hs, h, if_false]
  · intro hy hex
    classical
    let bad : ℕ → Prop := fun b => b < B ∧ y.getD b 0 ≠ -100 ∧ (y.getD b 0 < 0 ∨ (C : ℤ) ≤ y.getD b 0)
    have hb' : ∃ b, bad b := by obtain ⟨b, h1, h2⟩ := hex; exact ⟨b, h1, h2⟩
    obtain ⟨h1, h2, h3⟩ := Nat.find_spec hb'
    have hmin := fun b (h : b < Nat.find hb') => Nat.find_min hb' h
    generalize Nat.find hb' = b0 at h1 h2 h3 hmin
    have herr : (List.range B).mapM (fun i => crossEntropyRow ((List.range C).map fun j => s.get [i, j]) (y.getD i 0)) = .error .indexError := by
      rw [range_split h1]
      apply mapM_prefix_error
      · intro b hb
        rw [List.mem_range] at hb
        unfold crossEntropyRow
        by_cases h : y.getD b 0 = -100
        · exact ⟨_, if_pos h⟩
        · rw [if_neg h]
          have : ¬ (y.getD b 0 < 0 ∨ (((List.range C).map fun j => s.get [b, j]).length : ℤ) ≤ y.getD b 0) := by
            intro hbad
            rw [List.length_map, List.length_range] at hbad
            exact hmin b hb ⟨by omega, h, hbad⟩
          rw [if_neg this]
          exact ⟨_, rfl⟩
      · unfold crossEntropyRow
        rw [if_neg h2, if_pos (by simpa using h3)]
    unfold crossEntropy
    simp only [hs, hy, if_true, herr, bind, Except.bind]

/-- **C82 (only differences of scores matter).** Adding a constant to all scores of a row does not change the loss. -/
theorem C82_shift {s s' : Tensor ℝ} {y : List ℤ} {B C : ℕ} (hs : s.shape = [B, C]) (hs' : s'.shape = [B, C]) (hy : y.length = B)
    (hr : ∀ b ∈ counted B y, 0 ≤ y.getD b 0 ∧ y.getD b 0 < C) (c : ℕ → ℝ) (hc : ∀ b < B, ∀ j < C, s'.get [b, j] = s.get [b, j] + c b) :
    crossEntropy s' y = crossEntropy s y := by
  obtain ⟨v, h1, h2, -⟩ := C82_cross_entropy hs hy hr
  obtain ⟨v', h1', h2', -⟩ := C82_cross_entropy hs' hy hr
  rw [h1, h1', h2, h2']
  congr 2
  apply Finset.sum_congr rfl
  intro b hb
  obtain ⟨h0, h1⟩ := hr b hb
  have hbB : b < B := (Finset.mem_range.1 (Finset.mem_filter.1 hb).1)
  congr 2
  unfold classProb
  rw [hc b hbB _ (by omega), Finset.sum_congr rfl fun j hj => by rw [hc b hbB j (Finset.mem_range.1 hj), Real.exp_add], ← Finset.sum_mul, Real.exp_add,
    mul_div_mul_right _ _ (Real.exp_pos _).ne']

/-- A class that is not the one with the largest score has probability at most one half. -/
theorem classProb_le_half (s : Tensor ℝ) {C b k p : ℕ} (hk : k < C) (hp : p < C) (hne : p ≠ k) (hle : s.get [b, k] ≤ s.get [b, p]) :
    classProb s C b k ≤ 1 / 2 := by
  unfold classProb
  have hpos : 0 < ∑ j ∈ Finset.range C, Real.exp (s.get [b, j]) := Finset.sum_pos (fun _ _ => Real.exp_pos _) ⟨k, Finset.mem_range.2 hk⟩
  have h2 : Real.exp (s.get [b, k]) + Real.exp (s.get [b, p]) ≤ ∑ j ∈ Finset.range C, Real.exp (s.get [b, j]) := by
    rw [← Finset.sum_pair (f := fun j => Real.exp (s.get [b, j])) hne.symm]
    apply Finset.sum_le_sum_of_subset_of_nonneg
    · intro j hj
      simp only [Finset.mem_insert, Finset.mem_singleton] at hj
      rcases hj with rfl | rfl <;> simpa
    · intro j _ _
      exact (Real.exp_pos _).le
  have h3 : Real.exp (s.get [b, k]) ≤ Real.exp (s.get [b, p]) := Real.exp_le_exp.2 hle
  rw [div_le_iff₀ hpos]
  linarith

/-- **C82 (loss and accuracy).** In one evaluation step on targets that are classes: the logged accuracy is at least `1 - loss / log 2`, in particular it is 1 when the loss is
below `log 2 / batch`. -/
theorem C82_accuracy_bound {model : Fwd ℝ} {argmax : List ℝ → ℕ} (ha : PicksMax argmax) {x s : Tensor ℝ} {y : Tensor ℤ} {B C : ℕ}
    (hB : 1 ≤ B) (hm : model x = .ok s) (hs : s.shape = [B, C]) (hy : y.data.length = B) (hr : ∀ b < B, 0 ≤ y.data.getD b 0 ∧ y.data.getD b 0 < C) :
    ∃ loss acc, ClassificationNet.step model argmax x y = .ok (loss, acc) ∧ 1 - loss / Real.log 2 ≤ acc ∧ (loss < Real.log 2 / B → acc = 1) := by
  have hC : 1 ≤ C := by have := hr 0 hB; omega
  have hall : counted B y.data = Finset.range B := by
    unfold counted
    rw [Finset.filter_true_of_mem]
    intro b hb
    have := hr b (Finset.mem_range.1 hb)
    omega
  obtain ⟨v, h1, h2, h3⟩ := C82_cross_entropy hs hy (by intro b hb; rw [hall] at hb; exact hr b (Finset.mem_range.1 hb))
  obtain ⟨acc, pred, a1, a2, a3, a4, a5⟩ := C69_accuracy ha hB hC hm hs hy h1
  have hlog : 0 < Real.log 2 := Real.log_pos (by norm_num)
  have hB0 : (0 : ℝ) < B := by exact_mod_cast hB
  rw [hall, Finset.card_range] at h2
  -- every wrong row contributes at least log 2
  have hw : (((Finset.range B).filter fun b => ¬ (pred b : ℤ) = y.data.getD b 0).card : ℝ) * Real.log 2 ≤ v * B := by
    rw [h2, div_mul_cancel₀ _ hB0.ne', ← nsmul_eq_mul]
    refine le_trans (Finset.card_nsmul_le_sum _ (fun b => -Real.log (classProb s C b (y.data.getD b 0).toNat)) _ ?_)
      (Finset.sum_le_sum_of_subset_of_nonneg (Finset.filter_subset _ _) ?_)
    · intro b hb
      rw [Finset.mem_filter, Finset.mem_range] at hb
      obtain ⟨r0, r1⟩ := hr b hb.1
      have hk : (y.data.getD b 0).toNat < C := by omega
      have := classProb_le_half s hk (a2 b hb.1).1 (by intro h; apply hb.2; omega) ((a2 b hb.1).2 _ hk)
      have h4 := Real.log_le_log (classProb_pos s (b := b) hk) this
      rw [one_div, Real.log_inv] at h4
      linarith
    · intro b hb _
      obtain ⟨r0, r1⟩ := hr b (Finset.mem_range.1 hb)
      have hk : (y.data.getD b 0).toNat < C := by omega
      have := Real.log_nonpos (classProb_pos s (b := b) hk).le (classProb_le_one s hk)
      linarith
  have hcount : (((Finset.range B).filter fun b => (pred b : ℤ) = y.data.getD b 0).card : ℝ)
      + (((Finset.range B).filter fun b => ¬ (pred b : ℤ) = y.data.getD b 0).card : ℝ) = B := by
    have := Finset.card_filter_add_card_filter_not (s := Finset.range B) (fun b => (pred b : ℤ) = y.data.getD b 0)
    rw [Finset.card_range] at this
    exact_mod_cast this
  refine ⟨v, acc, a1, ?_, ?_⟩
  · rw [a3, le_div_iff₀ hB0, sub_mul, div_mul_eq_mul_div, one_mul, sub_le_iff_le_add, ← sub_le_iff_le_add', le_div_iff₀ hlog]
    have : (B : ℝ) - (((Finset.range B).filter fun b => (pred b : ℤ) = y.data.getD b 0).card : ℝ)
        = (((Finset.range B).filter fun b => ¬ (pred b : ℤ) = y.data.getD b 0).card : ℝ) := by linarith
    rw [this]
    exact hw
  · intro hlt
    have h5 : v * B < Real.log 2 := by rwa [lt_div_iff₀ hB0] at hlt
    have h6 : (((Finset.range B).filter fun b => ¬ (pred b : ℤ) = y.data.getD b 0).card : ℝ) < 1 := by
      by_contra hge
      push Not at hge
      nlinarith
    have h7 : ((Finset.range B).filter fun b => ¬ (pred b : ℤ) = y.data.getD b 0).card = 0 := by
      have : ((Finset.range B).filter fun b => ¬ (pred b : ℤ) = y.data.getD b 0).card < 1 := by exact_mod_cast h6
      omega
    rw [a3, div_eq_one_iff_eq hB0.ne']
    rw [h7] at hcount
    simpa using hcount

/-- **C82 (ignored targets, negative).** Rows with the target `-100` do not count in the loss, but the accuracy counts them as wrong: it is at most the fraction of the other rows. -/
theorem C82_ignored {model : Fwd ℝ} {argmax : List ℝ → ℕ} (ha : PicksMax argmax) {x s : Tensor ℝ} {y : Tensor ℤ} {B C : ℕ}
    (hB : 1 ≤ B) (hC : 1 ≤ C) (hm : model x = .ok s) (hs : s.shape = [B, C]) (hy : y.data.length = B)
    (hr : ∀ b ∈ counted B y.data, 0 ≤ y.data.getD b 0 ∧ y.data.getD b 0 < C) :
    ∃ loss acc, ClassificationNet.step model argmax x y = .ok (loss, acc) ∧ acc ≤ (counted B y.data).card / B := by
  obtain ⟨v, h1, -⟩ := C82_cross_entropy hs hy hr
  obtain ⟨acc, pred, a1, a2, a3, -⟩ := C69_accuracy ha hB hC hm hs hy h1
  refine ⟨v, acc, a1, ?_⟩
  rw [a3]
  apply div_le_div_of_nonneg_right _ (Nat.cast_nonneg _)
  norm_cast
  apply Finset.card_le_card
  intro b hb
  rw [Finset.mem_filter] at hb
  simp only [counted, Finset.mem_filter]
  exact ⟨hb.1, by rw [← hb.2]; omega⟩

/-- **C82 (regression).** For an output with as many entries as the targets the regression loss is the mean of the squared differences in row-major order, and it is zero exactly if all
entries agree. -/
theorem C82_regression {model : Fwd ℝ} {x s y : Tensor ℝ} (hm : model x = .ok s) {N : ℕ} (hs : numel s.shape = N) (hy : numel y.shape = N) (hN : 1 ≤ N) :
    ∃ v, RegressionNet.step model x y = .ok v ∧ v = (∑ q ∈ Finset.range N, (s.data.getD q 0 - y.data.getD q 0) ^ 2) / N ∧ 0 ≤ v ∧
      (v = 0 ↔ ∀ q < N, s.data.getD q 0 = y.data.getD q 0) := by
  have hN0 : (0 : ℝ) < N := by exact_mod_cast hN
  refine ⟨_, ?_, rfl, div_nonneg (Finset.sum_nonneg fun _ _ => sq_nonneg _) hN0.le, ?_⟩
  · unfold RegressionNet.step
    rw [C69_regression hm, mseLoss_eq (sh := [N]) (by rw [hs]) (by rw [hy])]
    simp [numel]
  · rw [div_eq_zero_iff, or_iff_left hN0.ne', Finset.sum_eq_zero_iff_of_nonneg fun _ _ => sq_nonneg _]
    constructor
    · intro h q hq
      have := h q (Finset.mem_range.2 hq)
      rw [sq_eq_zero_iff] at this
      linarith
    · intro h q hq
      rw [h q (Finset.mem_range.1 hq)]
      ring

/-- **C82 (construction).** Both classes hold the network of `select_network`, with its errors; a `ClassificationNet` also needs `data.classes`, an integer of at least 2, which is
compared with nothing else. -/
theorem C82_construction {K : Type} [TorchScalar K] (W : World K) (cfg : Cfg K) (h : Heap K) :
    regressionNet W cfg h = selectNetwork W cfg h ∧
    (∀ e, selectNetwork W cfg h = .error e → classificationNet W cfg h = .error e) ∧
    (∀ M, selectNetwork W cfg h = .ok M →
      (cfg.path ["data", "classes"] = .error .attributeError → classificationNet W cfg h = .error .attributeError) ∧
      (∀ z, cfg.path ["data", "classes"] = .ok (.int z) → classificationNet W cfg h = if z < 2 then .error .valueError else .ok M)) := by
  refine ⟨rfl, fun e he => ?_, fun M hM => ⟨fun hc => ?_, fun z hz => ?_⟩⟩
  · simp only [classificationNet, he, bind, Except.bind]
  · simp only [classificationNet, hM, hc, bind, Except.bind]
  · simp only [classificationNet, hM, hz, checkClasses, bind, Except.bind]
    by_cases hz2 : z < 2
    · simp only [hz2, if_true]
    · simp only [hz2, if_false]

/-! ## examples -/

/-- Two rows with equal scores for two classes: the loss is `log 2`. -/
example : crossEntropy (⟨[2, 2], [5, 5, 0, 0]⟩ : Tensor ℝ) [0, 1] = .ok (Real.log 2) := by
  obtain ⟨v, h1, h2, -⟩ := C82_cross_entropy (s := ⟨[2, 2], [5, 5, 0, 0]⟩) (y := [0, 1]) (B := 2) (C := 2) rfl rfl (by decide)
  rw [h1, h2]
  have : counted 2 [0, 1] = {0, 1} := by decide
  rw [this, Finset.sum_pair (by norm_num)]
  have e0 : classProb (⟨[2, 2], [5, 5, 0, 0]⟩ : Tensor ℝ) 2 0 0 = 1 / 2 := by
    simp only [classProb, Finset.sum_range_succ, Finset.sum_range_zero, Tensor.get, ravel, numel]
    have := Real.exp_pos 5
    norm_num
    field_simp
    norm_num
  have e1 : classProb (⟨[2, 2], [5, 5, 0, 0]⟩ : Tensor ℝ) 2 1 1 = 1 / 2 := by
    simp only [classProb, Finset.sum_range_succ, Finset.sum_range_zero, Tensor.get, ravel, numel]
    norm_num
  simp only [List.getD_cons_zero, List.getD_cons_succ, Int.toNat_zero, Int.toNat_one, e0, e1]
  congr 1
  rw [one_div, Real.log_inv]
  norm_num

/-- A target that is no class is rejected, a missing target too. -/
example : crossEntropy (⟨[2, 2], [5, 5, 0, 0]⟩ : Tensor ℝ) [0, 2] = .error .indexError ∧ crossEntropy (⟨[2, 2], [5, 5, 0, 0]⟩ : Tensor ℝ) [0] = .error .valueError :=
  ⟨(C82_errors rfl).2 rfl ⟨1, by norm_num, by decide, by decide⟩, (C82_errors (B := 2) (C := 2) rfl).1 (by decide)⟩

/-- Both rows ignored: the accuracy is 0, however large the score. -/
example {argmax : List ℝ → ℕ} (ha : PicksMax argmax) (x : Tensor ℝ) :
    ∃ loss acc, ClassificationNet.step (fun _ => .ok ⟨[2, 2], [5, 1, 7, 0]⟩) argmax x ⟨[2], [-100, -100]⟩ = .ok (loss, acc) ∧ acc ≤ 0 := by
  obtain ⟨l, a, h1, h2⟩ := C82_ignored ha (model := fun _ => .ok ⟨[2, 2], [5, 1, 7, 0]⟩) (x := x) (s := ⟨[2, 2], [5, 1, 7, 0]⟩) (y := ⟨[2], [-100, -100]⟩) (B := 2) (C := 2)
    (by norm_num) (by norm_num) rfl rfl rfl (by decide)
  refine ⟨l, a, h1, ?_⟩
  have : counted 2 [-100, -100] = ∅ := by decide
  simpa [this] using h2

/-- The error of `select_network` (an unknown `model_type`) is the error of the class. -/
example (W : World ℝ) : ∃ e, classificationNet W (exCfg "adam" "low_order") [] = .error e ∧ e = .attributeError :=
  ⟨_, (C82_construction W _ []).2.1 _ ((C78_unknown_type W (cfg := exCfg "adam" "low_order") (v := .bool false) (t := .str "low_order") rfl rfl (by simp) []).1 rfl), rfl⟩

end HOL
