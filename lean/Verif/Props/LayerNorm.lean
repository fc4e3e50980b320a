import Verif.Model.NormLayers
import Verif.Lemmas.Norm
import Verif.Props.Norm
import Mathlib.Algebra.BigOperators.Field
import Mathlib.Tactic.FieldSimp
import Mathlib.Tactic.Positivity

/-! # C81: the lazy layer normalization and the normalization table -/

namespace HOL
open TorchScalar

namespace Spec

/-- Mean of the row of `x` through `idx` along the last axis, of size `n`. -/
noncomputable def rowMean (x : Tensor ℝ) (n : ℕ) (idx : List ℕ) : ℝ :=
  (∑ q ∈ Finset.range n, x.get (idx.set (x.shape.length - 1) q)) / n

/-- (Biased) variance of that row. -/
noncomputable def rowVar (x : Tensor ℝ) (n : ℕ) (idx : List ℕ) : ℝ :=
  (∑ q ∈ Finset.range n, (x.get (idx.set (x.shape.length - 1) q) - rowMean x n idx) ^ 2) / n

theorem rowVar_nonneg (x : Tensor ℝ) (n : ℕ) (idx : List ℕ) : 0 ≤ rowVar x n idx :=
  div_nonneg (Finset.sum_nonneg fun _ _ => sq_nonneg _) (Nat.cast_nonneg _)

end Spec
open Spec

theorem sum_range_map_real (n : ℕ) (f : ℕ → ℝ) : ((List.range n).map f).sum = ∑ q ∈ Finset.range n, f q := by
  induction n with
  | zero => simp
  | succ n ih => rw [List.range_succ, List.map_append, List.sum_append, ih, Finset.sum_range_succ]; simp

theorem getLast?_getD {s : List ℕ} {n : ℕ} (h : s.getLast? = some n) : s.getD (s.length - 1) 0 = n ∧ 0 < s.length := by
  rw [List.getLast?_eq_getElem?] at h
  refine ⟨by rw [List.getD_eq_getElem?_getD, h]; rfl, ?_⟩
  rcases s with _ | ⟨a, s⟩
  · simp at h
  · simp

theorem meanL_slice {x : Tensor ℝ} {n : ℕ} (hn : x.shape.getLast? = some n) (idx : List ℕ) :
    meanL (slice x (x.shape.length - 1) idx) = rowMean x n idx := by
  unfold meanL slice rowMean
  rw [(getLast?_getD hn).1, sumL_real, sum_range_map_real]
  simp

theorem varL_slice {x : Tensor ℝ} {n : ℕ} (hn : x.shape.getLast? = some n) (idx : List ℕ) :
    varL (slice x (x.shape.length - 1) idx) = rowVar x n idx := by
  unfold varL
  rw [meanL_slice hn]
  unfold meanL slice rowVar
  rw [(getLast?_getD hn).1, sumL_real, List.map_map, sum_range_map_real]
  simp only [Function.comp, List.length_map, List.length_range]
  congr 1
  exact Finset.sum_congr rfl fun q _ => by ring

/-- **C81 (first call).** The first call of a new layer normalization fixes the size `n` of the last axis: the weight becomes `n` ones, the bias `n` zeros (or stays
absent), the output has the shape of the input and every row has mean 0 and variance `v / (v + 1e-5)` with `v` the variance of the row of the input. Only then does the
module have parameters. -/
theorem C81_first_call (bias : Bool) {x : Tensor ℝ} {n : ℕ} (hn : x.shape.getLast? = some n) :
    (LazyLayerNorm.new bias : LazyLayerNorm ℝ).parameters = [] ∧
    ∃ y N, (LazyLayerNorm.new bias).forward x = .ok (y, N) ∧ y.WF ∧ y.shape = x.shape ∧
      N.parameters = Tensor.tab1 n (fun _ => (1 : ℝ)) :: (if bias then [Tensor.tab1 n fun _ => (0 : ℝ)] else []) ∧
      ∀ idx, InShape x.shape idx → rowMean y n idx = 0 ∧ rowVar y n idx = rowVar x n idx / (rowVar x n idx + 1 / 100000) := by
  refine ⟨rfl, ?_⟩
  obtain ⟨hd, hlen⟩ := getLast?_getD hn
  set d := x.shape.length - 1 with hdd
  set y : Tensor ℝ := Tensor.tabulate x.shape fun idx => (x.get idx - rowMean x n idx) / Real.sqrt (rowVar x n idx + 1 / 100000) with hy
  let N : LazyLayerNorm ℝ := ⟨some (Tensor.tab1 n fun _ => 1), bias, if bias then some (Tensor.tab1 n fun _ => 0) else none⟩
  have hfwd : (LazyLayerNorm.new bias).forward x = .ok (y, N) := by
    have hl : layerNorm x (Tensor.tab1 n fun _ => 1) N.bias defaultEps = .ok y := by
      unfold layerNorm
      simp only [hn, Tensor.shape_tab1, if_true]
      congr 1
      apply tabulate_congr
      intro idx hidx
      have hc : idx.getD d 0 < n := by
        have := getD_lt_of_inShape hidx (d := d) (by omega)
        rwa [hd] at this
      rw [Tensor.get_tab1 hc, meanL_slice hn, varL_slice hn]
      cases bias with
      | false => simp [N, defaultEps]
      | true => simp only [N, if_true]; rw [Tensor.get_tab1 hc]; simp [defaultEps]
    dsimp only [N] at hl
    dsimp only [N]
    cases bias with
    | false =>
      simp only [Bool.false_eq_true, if_false] at hl
      simp only [LazyLayerNorm.forward, LazyLayerNorm.new, hn, bind, Except.bind, Bool.false_eq_true, if_false, hl]
    | true =>
      simp only [if_true] at hl
      simp only [LazyLayerNorm.forward, LazyLayerNorm.new, hn, bind, Except.bind, if_true, hl]
  refine ⟨y, N, hfwd, Tensor.wf_tabulate _ _, rfl, by cases bias <;> rfl, fun idx hidx => ?_⟩
  have hpos : 0 < rowVar x n idx + 1 / 100000 := add_pos_of_nonneg_of_pos (rowVar_nonneg x n idx) (by norm_num)
  have hs : Real.sqrt (rowVar x n idx + 1 / 100000) ≠ 0 := (Real.sqrt_pos.2 hpos).ne'
  have hrow : ∀ q, rowMean x n (idx.set d q) = rowMean x n idx ∧ rowVar x n (idx.set d q) = rowVar x n idx := by
    intro q
    rw [← meanL_slice hn, ← meanL_slice hn, ← varL_slice hn, ← varL_slice hn, slice_set]
    exact ⟨rfl, rfl⟩
  have hget : ∀ q ∈ Finset.range n, y.get (idx.set d q) = (x.get (idx.set d q) - rowMean x n idx) / Real.sqrt (rowVar x n idx + 1 / 100000) := by
    intro q hq
    rw [hy, Tensor.get_tabulate (inShape_set hidx (by rw [hd]; exact Finset.mem_range.1 hq)), (hrow q).1, (hrow q).2]
  rcases Nat.eq_zero_or_pos n with h0 | h0
  · subst h0
    simp [rowMean, rowVar]
  have hN : (n : ℝ) ≠ 0 := by positivity
  have hmean : rowMean y n idx = 0 := by
    unfold rowMean
    rw [show y.shape = x.shape from rfl, Finset.sum_congr rfl hget, ← Finset.sum_div, Finset.sum_sub_distrib, Finset.sum_const, Finset.card_range, nsmul_eq_mul]
    have : (∑ q ∈ Finset.range n, x.get (idx.set d q)) - (n : ℝ) * rowMean x n idx = 0 := by
      rw [rowMean, mul_div_cancel₀ _ hN, sub_self]
    rw [this]; simp
  refine ⟨hmean, ?_⟩
  have hsq : ∀ q ∈ Finset.range n, (y.get (idx.set d q) - 0) ^ 2 = (x.get (idx.set d q) - rowMean x n idx) ^ 2 / (rowVar x n idx + 1 / 100000) := by
    intro q hq
    rw [hget q hq, sub_zero, div_pow, Real.sq_sqrt hpos.le]
  rw [rowVar, hmean, show y.shape = x.shape from rfl, Finset.sum_congr rfl hsq, ← Finset.sum_div, div_right_comm]
  rfl

/-- **C81 (later calls).** In every arithmetic: once the weight has `n` entries the module never changes by itself; inputs whose last axis has another size raise
`RuntimeError`, inputs without axes too (`IndexError` in the first call). -/
theorem C81_later_calls {K : Type} [TorchScalar K] (N : LazyLayerNorm K) (x : Tensor K) :
    (N.weight = none → x.shape = [] → N.forward x = .error .indexError) ∧
    (∀ w n, N.weight = some w → w.shape = [n] → (x.shape.getLast? ≠ some n → N.forward x = .error .runtimeError) ∧
      (x.shape.getLast? = some n → ∃ y, N.forward x = .ok (y, N) ∧ y.WF ∧ y.shape = x.shape)) := by
  constructor
  · intro h hx
    simp only [LazyLayerNorm.forward, h, hx, List.getLast?_nil, bind, Except.bind]
  · intro w n hw hs
    constructor
    · intro hne
      have : layerNorm x w N.bias defaultEps = .error .runtimeError := by
        unfold layerNorm
        cases hl : x.shape.getLast? with
        | none => rfl
        | some k =>
          have : w.shape ≠ [k] := by rw [hs]; intro h; exact hne (by rw [hl]; simpa using h.symm)
          simp only [if_neg this]
      simp only [LazyLayerNorm.forward, hw, bind, Except.bind, this]
    · intro hl
      obtain ⟨y, hy, h1, h2⟩ : ∃ y, layerNorm x w N.bias defaultEps = .ok y ∧ y.WF ∧ y.shape = x.shape := by
        unfold layerNorm
        simp only [hl, hs, if_true]
        exact ⟨_, rfl, Tensor.wf_tabulate _ _, rfl⟩
      exact ⟨y, by simp only [LazyLayerNorm.forward, hw, bind, Except.bind, hy], h1, h2⟩

/-- **C81 (values and invariance).** With any trained weight and bias the output is `(x - mean) / sqrt(var + 1e-5) * weight + bias` along the last axis, and adding to
every row its own constant changes nothing. -/
theorem C81_values {x x' w : Tensor ℝ} {b : Option (Tensor ℝ)} {n : ℕ} (hn : x.shape.getLast? = some n) (hn0 : 0 < n) (hw : w.shape = [n]) :
    ∃ y, (⟨some w, b.isSome, b⟩ : LazyLayerNorm ℝ).forward x = .ok (y, ⟨some w, b.isSome, b⟩) ∧
      (∀ idx, InShape x.shape idx → y.get idx
        = (x.get idx - rowMean x n idx) / Real.sqrt (rowVar x n idx + 1 / 100000) * w.get [idx.getD (x.shape.length - 1) 0]
          + (match b with | none => 0 | some b => b.get [idx.getD (x.shape.length - 1) 0])) ∧
      (∀ c : List ℕ → ℝ, x'.shape = x.shape →
        (∀ idx, InShape x.shape idx → x'.get idx = x.get idx + c (idx.set (x.shape.length - 1) 0)) →
        (⟨some w, b.isSome, b⟩ : LazyLayerNorm ℝ).forward x' = .ok (y, ⟨some w, b.isSome, b⟩)) := by
  obtain ⟨hd, hlen⟩ := getLast?_getD hn
  have hN : (n : ℝ) ≠ 0 := by positivity
  have key : ∀ z : Tensor ℝ, z.shape.getLast? = some n → layerNorm z w b defaultEps = .ok (Tensor.tabulate z.shape fun idx =>
      (z.get idx - rowMean z n idx) / Real.sqrt (rowVar z n idx + 1 / 100000) * w.get [idx.getD (z.shape.length - 1) 0]
          + (match b with | none => 0 | some b => b.get [idx.getD (z.shape.length - 1) 0])) := by
    intro z hz
    unfold layerNorm
    simp only [hz, hw, if_true]
    congr 1
    apply tabulate_congr
    intro idx _
    rw [meanL_slice hz, varL_slice hz]
    cases b <;> simp [defaultEps]
  have fwd : ∀ z y : Tensor ℝ, layerNorm z w b defaultEps = .ok y →
      (⟨some w, b.isSome, b⟩ : LazyLayerNorm ℝ).forward z = .ok (y, ⟨some w, b.isSome, b⟩) := by
    intro z y h
    simp only [LazyLayerNorm.forward, bind, Except.bind, h]
  refine ⟨_, fwd x _ (key x hn), fun idx hidx => by rw [Tensor.get_tabulate hidx], fun c hs hc => ?_⟩
  apply fwd
  rw [key x' (by rw [hs]; exact hn), hs]
  congr 1
  apply tabulate_congr
  intro idx hidx
  have hq : ∀ q ∈ Finset.range n, x'.get (idx.set (x.shape.length - 1) q) = x.get (idx.set (x.shape.length - 1) q) + c (idx.set (x.shape.length - 1) 0) := by
    intro q hq
    rw [hc _ (inShape_set hidx (by rw [hd]; exact Finset.mem_range.1 hq)), List.set_set]
  have hm : rowMean x' n idx = rowMean x n idx + c (idx.set (x.shape.length - 1) 0) := by
    unfold rowMean
    rw [hs, Finset.sum_congr rfl hq, Finset.sum_add_distrib, Finset.sum_const, Finset.card_range, nsmul_eq_mul, add_div, mul_div_cancel_left₀ _ hN]
  have hv : rowVar x' n idx = rowVar x n idx := by
    unfold rowVar
    rw [hm, hs]
    congr 1
    apply Finset.sum_congr rfl
    intro q h
    rw [hq q h]
    ring
  rw [hm, hv, hc idx hidx]
  ring_nf

/-- **C81 (table).** `normalization_layers` has exactly the keys `max_abs`, `max_center`, `l2` and `layer_norm`; the modules use `eps=1e-6`, axis 1 for the first three and the
last axis for the last. Any other key is a `KeyError`. -/
theorem C81_table (x : Tensor ℝ) :
    (∀ key, key ∉ ["max_abs", "max_center", "l2", "layer_norm"] → (normalizationLayer key : Py (NormModule ℝ)) = .error .keyError) ∧
    (∃ N : NormModule ℝ, normalizationLayer "max_abs" = .ok N ∧ ∀ y, maxAbsNormalization x (1 / 1000000) 1 = .ok y → N.forward x = .ok (y, N)) ∧
    (∃ N : NormModule ℝ, normalizationLayer "max_center" = .ok N ∧ ∀ y, maxCenterNormalization x (1 / 1000000) 1 = .ok y → N.forward x = .ok (y, N)) ∧
    (∃ N : NormModule ℝ, normalizationLayer "l2" = .ok N ∧ ∀ y, l2Normalization x (1 / 1000000) = .ok y → N.forward x = .ok (y, N)) ∧
    (normalizationLayer "layer_norm" : Py (NormModule ℝ)) = .ok (.layerNorm (LazyLayerNorm.new true)) := by
  have he : (moduleEps : ℝ) = 1 / 1000000 := by unfold moduleEps; norm_num
  refine ⟨fun key hk => ?_, ⟨_, rfl, fun y hy => ?_⟩, ⟨_, rfl, fun y hy => ?_⟩, ⟨_, rfl, fun y hy => ?_⟩, rfl⟩
  · simp only [List.mem_cons, List.not_mem_nil, or_false, not_or] at hk
    unfold normalizationLayer
    split <;> simp_all
  all_goals rw [← he] at hy; simp only [NormModule.forward, hy, bind, Except.bind]

namespace Spec

/-- `y` is `x` divided, at each position, by the largest absolute value over the group of that position, plus `eps`. -/
def ScaledByMaxAbs (x y : Tensor ℝ) (eps : ℝ) (group : List ℕ → List ℕ → Prop) : Prop :=
  y.shape = x.shape ∧ ∀ idx, InShape x.shape idx →
    ∃ M, IsGreatest {v | ∃ j, InShape x.shape j ∧ group idx j ∧ v = |x.get j|} M ∧ y.get idx = x.get idx / (M + eps)

/-- `y` is `x` moved by the middle of its range over each group and divided by half the range plus `eps`. -/
def CenteredByRange (x y : Tensor ℝ) (eps : ℝ) (group : List ℕ → List ℕ → Prop) : Prop :=
  y.shape = x.shape ∧ ∀ idx, InShape x.shape idx →
    ∃ M m, IsGreatest {v | ∃ j, InShape x.shape j ∧ group idx j ∧ v = x.get j} M ∧
      IsLeast {v | ∃ j, InShape x.shape j ∧ group idx j ∧ v = x.get j} m ∧
      y.get idx = (x.get idx - (M + m) / 2) / ((M - m) / 2 + eps)

/-- Positions that differ at most along one axis. -/
def SameLine (axis : ℕ) (i j : List ℕ) : Prop := ∃ q, j = i.set axis q

/-- Positions in the same entry of the batch. -/
def SameBatch (i j : List ℕ) : Prop := i.head? = j.head?

end Spec

open Spec in
/-- Lines in terms of a coordinate. -/
theorem exists_sameLine {x : Tensor ℝ} {d : ℕ} (hd : d < x.shape.length) {idx : List ℕ} (h : InShape x.shape idx) (g : ℝ → ℝ) :
    {v | ∃ j, InShape x.shape j ∧ SameLine d idx j ∧ v = g (x.get j)} = {v | ∃ q < x.shape.getD d 0, v = g (x.get (idx.set d q))} := by
  ext v
  constructor
  · rintro ⟨j, hj, ⟨q, rfl⟩, rfl⟩
    refine ⟨q, ?_, rfl⟩
    have := getD_lt_of_inShape hj hd
    rwa [List.getD_eq_getElem?_getD, List.getElem?_set_self (by rw [inShape_length h]; exact hd), Option.getD_some] at this
  · rintro ⟨q, hq, rfl⟩
    exact ⟨_, inShape_set h hq, ⟨q, rfl⟩, rfl⟩

open Spec in
theorem maxAbsNormalization_scaled (x : Tensor ℝ) (eps : ℝ) {dim : ℕ} (hwf : x.WF) (hd : dim < x.shape.length) (hs : 0 < x.shape.getD dim 0) :
    ∃ y, maxAbsNormalization x eps dim = .ok y ∧ ScaledByMaxAbs x y eps (SameLine dim) := by
  refine ⟨_, maxAbsNormalization_eq x eps hwf hd hs, rfl, fun idx h => ⟨_, ?_, by rw [Tensor.get_tabulate h]⟩⟩
  rw [exists_sameLine hd h fun v => |v|]
  have h1 := isGreatest_map_range hs fun q => |x.get (idx.set dim q)|
  have e : (slice x dim idx).map TorchScalar.abs = (List.range (x.shape.getD dim 0)).map fun q => |x.get (idx.set dim q)| := by
    unfold slice
    rw [List.map_map]
    rfl
  rw [e]
  exact h1

open Spec in
theorem maxCenterNormalization_centered (x : Tensor ℝ) (eps : ℝ) {dim : ℕ} (hd : dim < x.shape.length) (hs : 0 < x.shape.getD dim 0) :
    ∃ y, maxCenterNormalization x eps dim = .ok y ∧ CenteredByRange x y eps (SameLine dim) := by
  refine ⟨_, maxCenterNormalization_eq x eps hd hs, rfl, fun idx h => ⟨maxL (slice x dim idx), minL (slice x dim idx), ?_, ?_, ?_⟩⟩
  · rw [exists_sameLine hd h fun v => v]
    exact isGreatest_map_range hs fun q => x.get (idx.set dim q)
  · rw [exists_sameLine hd h fun v => v]
    exact isLeast_map_range hs fun q => x.get (idx.set dim q)
  · rw [Tensor.get_tabulate h]
    push_cast
    congr 1 <;> ring

open Spec in
/-- Entries of one batch element. -/
theorem exists_sameBatch {x : Tensor ℝ} {s0 : ℕ} {ss : List ℕ} (hx : x.shape = s0 :: ss) {b : ℕ} (hb : b < s0) (rest : List ℕ) (g : ℝ → ℝ) :
    {v | ∃ j, InShape x.shape j ∧ SameBatch (b :: rest) j ∧ v = g (x.get j)} = {v | ∃ r, InShape ss r ∧ v = g (x.get (b :: r))} := by
  ext v
  constructor
  · rintro ⟨j, hj, hs, rfl⟩
    rw [hx] at hj
    cases j with
    | nil => simp [InShape] at hj
    | cons c r =>
      simp only [SameBatch, List.head?_cons, Option.some.injEq] at hs
      subst hs
      exact ⟨r, hj.2, rfl⟩
  · rintro ⟨r, hr, rfl⟩
    exact ⟨b :: r, by rw [hx]; exact ⟨hb, hr⟩, rfl, rfl⟩

open Spec in
/-- **C81 (modules).** On a tensor without empty axes the normalization modules return a tensor of its shape and leave themselves unchanged: `MaxAbsNormalizationLast` and
`MaxCenterNormalizationLast` work along the last axis, `MaxAbsNormalization` along its `dim`, `MaxCenterNormalization` and `L2Normalization` along axis 1, the `ND` modules over
all entries of a batch element. -/
theorem C81_modules (x : Tensor ℝ) (eps : ℝ) (hwf : x.WF) {s0 : ℕ} {ss : List ℕ} (hx : x.shape = s0 :: ss) (hpos : ∀ s ∈ x.shape, 0 < s) :
    (∃ y, (NormModule.maxAbsLast eps).forward x = .ok (y, .maxAbsLast eps) ∧ ScaledByMaxAbs x y eps (SameLine ss.length)) ∧
    (∃ y, (NormModule.maxCenterLast eps).forward x = .ok (y, .maxCenterLast eps) ∧ CenteredByRange x y eps (SameLine ss.length)) ∧
    (∀ dim < x.shape.length, ∃ y, (NormModule.maxAbs eps dim).forward x = .ok (y, .maxAbs eps dim) ∧ ScaledByMaxAbs x y eps (SameLine dim)) ∧
    (∀ dim, x.shape.length ≤ dim → (NormModule.maxAbs eps dim).forward x = .error .indexError) ∧
    (ss ≠ [] → ∃ y, (NormModule.maxCenter eps).forward x = .ok (y, .maxCenter eps) ∧ CenteredByRange x y eps (SameLine 1)) ∧
    (∃ y, (NormModule.maxAbsND eps).forward x = .ok (y, .maxAbsND eps) ∧ ScaledByMaxAbs x y eps SameBatch) ∧
    (∃ y, (NormModule.maxCenterND eps).forward x = .ok (y, .maxCenterND eps) ∧ CenteredByRange x y eps SameBatch) ∧
    (ss ≠ [] → ∃ y, (NormModule.l2 eps).forward x = .ok (y, .l2 eps) ∧ y.shape = x.shape ∧ ∀ idx, InShape x.shape idx →
      y.get idx = x.get idx / (√(∑ q ∈ Finset.range (x.shape.getD 1 0), x.get (idx.set 1 q) ^ 2) + eps)) := by
  have hlen : x.shape.length - 1 = ss.length := by rw [hx]; simp
  have hget : ∀ d < x.shape.length, 0 < x.shape.getD d 0 := by
    intro d hd
    rw [List.getD_eq_getElem?_getD, List.getElem?_eq_getElem hd, Option.getD_some]
    exact hpos _ (List.getElem_mem hd)
  have h0 : 0 < s0 := hpos s0 (by rw [hx]; simp)
  have hss : 0 < numel ss := by
    have : ∀ l : List ℕ, (∀ s ∈ l, 0 < s) → 0 < numel l := by
      intro l
      induction l with
      | nil => intro _; simp [numel]
      | cons a l ih =>
        intro h
        rw [numel]
        exact Nat.mul_pos (h a (by simp)) (ih fun s hs => h s (by simp [hs]))
    exact this ss fun s hs => hpos s (by rw [hx]; simp [hs])
  have hlast : ss.length < x.shape.length := by rw [hx]; simp
  have h1 : ss ≠ [] → 1 < x.shape.length := by
    intro h
    rw [hx, List.length_cons]
    have := List.length_pos_of_ne_nil h
    omega
  refine ⟨?_, ?_, ?_, ?_, ?_, ?_, ?_, ?_⟩
  · obtain ⟨y, e, hy⟩ := maxAbsNormalization_scaled x eps hwf hlast (hget _ hlast)
    exact ⟨y, by simp only [NormModule.forward, maxAbsNormalizationLast, hlen, e, bind, Except.bind], hy⟩
  · obtain ⟨y, e, hy⟩ := maxCenterNormalization_centered x eps hlast (hget _ hlast)
    exact ⟨y, by simp only [NormModule.forward, maxCenterNormalizationLast, hlen, e, bind, Except.bind], hy⟩
  · intro dim hd
    obtain ⟨y, e, hy⟩ := maxAbsNormalization_scaled x eps hwf hd (hget _ hd)
    exact ⟨y, by simp only [NormModule.forward, e, bind, Except.bind], hy⟩
  · intro dim hd
    simp only [NormModule.forward, maxAbsNormalization, maxAbs, reduceDim, bind, Except.bind]
    rw [if_neg (by simp only [Tensor.map]; omega)]
  · intro h
    obtain ⟨y, e, hy⟩ := maxCenterNormalization_centered x eps (h1 h) (hget _ (h1 h))
    exact ⟨y, by simp only [NormModule.forward, e, bind, Except.bind], hy⟩
  · obtain ⟨y, e, hsh, hy⟩ := C39_max_abs_nd x eps s0 ss hx hwf h0 hss
    refine ⟨y, by simp only [NormModule.forward, e, bind, Except.bind], hsh, fun idx hidx => ?_⟩
    rw [hx] at hidx
    cases idx with
    | nil => simp [InShape] at hidx
    | cons b rest =>
      obtain ⟨M, hM, hv⟩ := hy b hidx.1
      exact ⟨M, by rw [exists_sameBatch hx hidx.1 rest fun v => |v|]; exact hM, hv rest hidx.2⟩
  · obtain ⟨y, e, hsh, hy⟩ := C39_max_center_nd x eps s0 ss hx h0 hss
    refine ⟨y, by simp only [NormModule.forward, e, bind, Except.bind], hsh, fun idx hidx => ?_⟩
    rw [hx] at hidx
    cases idx with
    | nil => simp [InShape] at hidx
    | cons b rest =>
      obtain ⟨M, m, hM, hm, hv⟩ := hy b hidx.1
      exact ⟨M, m, by rw [exists_sameBatch hx hidx.1 rest fun v => v]; exact hM, by rw [exists_sameBatch hx hidx.1 rest fun v => v]; exact hm, hv rest hidx.2⟩
  · intro h
    have e := l2Normalization_eq x eps (h1 h) (hget _ (h1 h))
    refine ⟨Tensor.tabulate x.shape fun idx => x.get idx / (sqrt (sumL ((slice x 1 idx).map fun a => a * a)) + eps),
      by simp only [NormModule.forward, e, bind, Except.bind], rfl, fun idx hidx => ?_⟩
    rw [Tensor.get_tabulate hidx]
    congr 3
    unfold slice
    rw [List.map_map, sumL_range]
    exact Finset.sum_congr rfl fun q _ => (sq _).symm

/-! ## example -/

/-- The rows `(1, 3)` and `(2, 2)`: the first gets variance `1 / (1 + 1e-5)`, the second stays constant; a row of three values is rejected afterwards. -/
example : ∃ y N, (LazyLayerNorm.new true).forward (⟨[2, 2], [1, 3, 2, 2]⟩ : Tensor ℝ) = .ok (y, N) ∧ rowVar y 2 [0, 0] = 100000 / 100001 ∧ rowVar y 2 [1, 1] = 0 ∧
    N.parameters.length = 2 ∧ N.forward (⟨[1, 3], [1, 2, 3]⟩ : Tensor ℝ) = .error .runtimeError := by
  obtain ⟨-, y, N, h1, -, -, h4, h5⟩ := C81_first_call true (x := ⟨[2, 2], [1, 3, 2, 2]⟩) (n := 2) rfl
  have hw : ∃ w, N.weight = some w ∧ w.shape = [2] := by
    unfold LazyLayerNorm.parameters at h4
    cases hN : N.weight with
    | none => rw [hN] at h4; cases hb : N.bias <;> rw [hb] at h4 <;> simp at h4
    | some w =>
      rw [hN] at h4
      simp only [Option.toList_some, List.cons_append, List.cons.injEq] at h4
      exact ⟨w, rfl, by rw [h4.1]; rfl⟩
  obtain ⟨w, hw1, hw2⟩ := hw
  refine ⟨y, N, h1, ?_, ?_, by rw [h4]; rfl, ((C81_later_calls N _).2 w 2 hw1 hw2).1 (by simp)⟩
  · rw [(h5 [0, 0] (by simp [InShape])).2]
    norm_num [rowVar, rowMean, Finset.sum_range_succ, Tensor.get, ravel, numel]
  · rw [(h5 [1, 1] (by simp [InShape])).2]
    norm_num [rowVar, rowMean, Finset.sum_range_succ, Tensor.get, ravel, numel]

open Spec in
/-- The rows `(1, -3)` and `(2, 0)`: along the last axis `-3` becomes `-3 / (3 + 1)`, in the second row `2` becomes `2 / (2 + 1)`. -/
example : ∃ y, (NormModule.maxAbsLast 1).forward (⟨[2, 2], [1, -3, 2, 0]⟩ : Tensor ℝ) = .ok (y, .maxAbsLast 1) ∧ y.shape = [2, 2] ∧ y.get [0, 1] = -3 / 4 := by
  obtain ⟨⟨y, h1, hs, h2⟩, -⟩ := C81_modules (⟨[2, 2], [1, -3, 2, 0]⟩ : Tensor ℝ) 1 rfl (s0 := 2) (ss := [2]) rfl (by simp)
  obtain ⟨M, hM, e⟩ := h2 [0, 1] (by simp [InShape])
  refine ⟨y, h1, hs, ?_⟩
  have hset := exists_sameLine (x := (⟨[2, 2], [1, -3, 2, 0]⟩ : Tensor ℝ)) (d := 1) (by simp) (idx := [0, 1]) (by simp [InShape]) fun v => |v|
  change IsGreatest {v | ∃ j, InShape [2, 2] j ∧ SameLine 1 [0, 1] j ∧ v = |_|} M at hM
  have hM' : M = 3 := by
    refine hM.unique ?_
    change IsGreatest {v | ∃ j, InShape [2, 2] j ∧ SameLine 1 [0, 1] j ∧ v = |(⟨[2, 2], [1, -3, 2, 0]⟩ : Tensor ℝ).get j|} 3
    rw [hset]
    refine ⟨⟨1, by simp, by norm_num [Tensor.get, ravel, numel]⟩, ?_⟩
    rintro v ⟨q, hq, rfl⟩
    have : q = 0 ∨ q = 1 := by simp at hq; omega
    rcases this with rfl | rfl <;> norm_num [Tensor.get, ravel, numel]
  rw [e, hM']
  norm_num [Tensor.get, ravel, numel]

end HOL
