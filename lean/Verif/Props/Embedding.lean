import Verif.Model.Embedding
import Verif.Lemmas.Norm
import Mathlib.Analysis.SpecialFunctions.Pow.Real
import Mathlib.Tactic.NormNum
import Mathlib.Tactic.FieldSimp

/-! # C42: positional embeddings -/

namespace HOL
open TorchScalar

theorem inShape_snoc : ∀ {s idx : List ℕ} {a i : ℕ}, InShape s idx → i < a → InShape (s ++ [a]) (idx ++ [i])
  | [], [], a, i, _, h => by simpa [InShape] using h
  | s :: ss, j :: js, a, i, h1, h2 => ⟨h1.1, inShape_snoc h1.2 h2⟩
  | [], _ :: _, _, _, h, _ => absurd h (by simp [InShape])
  | _ :: _, [], _, _, h, _ => absurd h (by simp [InShape])

/-- **C42 (errors).** Odd dimensions are rejected by the constructor with `ValueError`, even ones accepted; a layer
of dimension 2 raises `ZeroDivisionError` in `forward`, in every arithmetic. -/
theorem C42_errors {K : Type} [TorchScalar K] (dim : ℕ) (x : Tensor K) :
    (dim % 2 = 1 → sinusoidalInit dim = .error .valueError) ∧
    (dim % 2 = 0 → sinusoidalInit dim = .ok dim) ∧
    (dim = 2 → sinusoidalForward dim x = .error .zeroDivisionError) := by
  refine ⟨fun h => ?_, fun h => ?_, fun h => ?_⟩
  · unfold sinusoidalInit; rw [if_pos (by omega)]
  · unfold sinusoidalInit; rw [if_neg (by omega)]
  · subst h; rfl

/-- **C42 (values).** For every even dimension `2 * h` with `h ≥ 2` and every input with at least one axis the
embedding appends an axis of length `2 * h`: first the sines, then the cosines of `x` times the frequencies
`10000 ^ (-k / (h - 1))`, which go from 1 to 1/10000. -/
theorem C42_values (h : ℕ) (hh : 2 ≤ h) (x : Tensor ℝ) (hx : x.shape ≠ []) :
    ∃ out, sinusoidalForward (2 * h) x = .ok out ∧ out.shape = x.shape ++ [2 * h] ∧
      ∀ idx, InShape x.shape idx → ∀ k < h,
        out.get (idx ++ [k]) = Real.sin (x.get idx * (10000 : ℝ) ^ (-(k : ℝ) / ((h : ℝ) - 1))) ∧
        out.get (idx ++ [h + k]) = Real.cos (x.get idx * (10000 : ℝ) ^ (-(k : ℝ) / ((h : ℝ) - 1))) := by
  have h2 : 2 * h / 2 = h := by omega
  unfold sinusoidalForward
  simp only [h2]
  rw [if_neg (by omega)]
  refine ⟨_, rfl, ?_, ?_⟩
  · show (if x.shape = [] then [1] else x.shape) ++ [h + h] = _
    rw [if_neg hx, two_mul]
  · intro idx hidx k hk
    have hrows : (if x.shape = [] then [1] else x.shape) = x.shape := if_neg hx
    have hres : x.reshape x.shape = x := rfl
    have hfreq : Real.exp ((k : ℝ) * -(Real.log ((10000 : ℕ) : ℝ) / (((h : ℤ) - 1 : ℤ) : ℝ)))
        = (10000 : ℝ) ^ (-(k : ℝ) / ((h : ℝ) - 1)) := by
      rw [Real.rpow_def_of_pos (by norm_num)]
      congr 1
      push_cast
      ring
    have harg : (Tensor.tabulate (x.shape ++ [h]) fun idx =>
        x.get idx.dropLast * (Tensor.tab1 h fun i => TorchScalar.exp ((i : ℝ)
          * -(TorchScalar.log ((10000 : ℕ) : ℝ) / (((h : ℤ) - 1 : ℤ) : ℝ)))).get [idx.getLastD 0]).get (idx ++ [k])
        = x.get idx * (10000 : ℝ) ^ (-(k : ℝ) / ((h : ℝ) - 1)) := by
      rw [Tensor.get_tabulate (inShape_snoc hidx hk)]
      simp only [List.dropLast_concat, List.getLastD_concat]
      rw [Tensor.get_tab1 hk]
      rw [exp_real, log_real, hfreq]
    rw [hrows, hres]
    constructor
    · rw [Tensor.get_tabulate (inShape_snoc hidx (show k < h + h by omega))]
      simp only [List.dropLast_concat, List.getLastD_concat]
      rw [if_pos hk, sin_real, harg]
    · rw [Tensor.get_tabulate (inShape_snoc hidx (show h + k < h + h by omega))]
      simp only [List.dropLast_concat, List.getLastD_concat]
      rw [if_neg (by omega), cos_real, show h + k - h = k by omega, harg]

/-- **C42 (range and rotation).** The values lie in `[-1, 1]`, the embedding of a number has squared norm `h`, and
the embedding of `x + d` is obtained from that of `x` by rotating each sine/cosine pair by an angle that depends only on
`d` and the pair. -/
theorem C42_rotation (h : ℕ) (hh : 2 ≤ h) (d : ℝ) : ∃ θ : ℕ → ℝ,
    ∀ x : Tensor ℝ, x.WF → x.shape ≠ [] → ∃ out out', sinusoidalForward (2 * h) x = .ok out ∧
      sinusoidalForward (2 * h) (x.map fun v => v + d) = .ok out' ∧
      ∀ idx, InShape x.shape idx →
        (∀ j < 2 * h, |out.get (idx ++ [j])| ≤ 1) ∧
        ∑ j ∈ Finset.range (2 * h), out.get (idx ++ [j]) ^ 2 = h ∧
        ∀ k < h,
          out'.get (idx ++ [k]) = Real.cos (θ k) * out.get (idx ++ [k]) + Real.sin (θ k) * out.get (idx ++ [h + k]) ∧
          out'.get (idx ++ [h + k])
            = -Real.sin (θ k) * out.get (idx ++ [k]) + Real.cos (θ k) * out.get (idx ++ [h + k]) := by
  refine ⟨fun k => d * (10000 : ℝ) ^ (-(k : ℝ) / ((h : ℝ) - 1)), ?_⟩
  intro x hwf hx
  obtain ⟨out, a1, _, a3⟩ := C42_values h hh x hx
  obtain ⟨out', b1, _, b3⟩ := C42_values h hh (x.map fun v => v + d) hx
  refine ⟨out, out', a1, b1, ?_⟩
  intro idx hidx
  refine ⟨?_, ?_, ?_⟩
  · intro j hj
    by_cases hjh : j < h
    · rw [(a3 idx hidx j hjh).1]; exact Real.abs_sin_le_one _
    · have := (a3 idx hidx (j - h) (by omega)).2
      rw [show h + (j - h) = j by omega] at this
      rw [this]; exact Real.abs_cos_le_one _
  · rw [two_mul, Finset.sum_range_add, ← Finset.sum_add_distrib]
    have : ∀ k ∈ Finset.range h, out.get (idx ++ [k]) ^ 2 + out.get (idx ++ [h + k]) ^ 2 = 1 := by
      intro k hk
      obtain ⟨e1, e2⟩ := a3 idx hidx k (Finset.mem_range.1 hk)
      rw [e1, e2, Real.sin_sq_add_cos_sq]
    rw [Finset.sum_congr rfl this]
    simp
  · intro k hk
    obtain ⟨e1, e2⟩ := a3 idx hidx k hk
    obtain ⟨f1, f2⟩ := b3 idx hidx k hk
    rw [Tensor.get_map hwf hidx] at f1 f2
    rw [e1, e2, f1, f2, add_mul, Real.sin_add, Real.cos_add]
    constructor <;> ring

/-- **C42 (relative position).** The inner product of the embeddings of two positions depends only on their
difference. -/
theorem C42_inner_product (h : ℕ) (hh : 2 ≤ h) : ∃ φ : ℝ → ℝ, ∀ x : Tensor ℝ, x.shape ≠ [] → ∃ out, sinusoidalForward (2 * h) x = .ok out ∧
      ∀ idx idx', InShape x.shape idx → InShape x.shape idx' →
        ∑ j ∈ Finset.range (2 * h), out.get (idx ++ [j]) * out.get (idx' ++ [j]) = φ (x.get idx - x.get idx') := by
  refine ⟨fun δ => ∑ k ∈ Finset.range h, Real.cos (δ * (10000 : ℝ) ^ (-(k : ℝ) / ((h : ℝ) - 1))), ?_⟩
  intro x hx
  obtain ⟨out, a1, _, a3⟩ := C42_values h hh x hx
  refine ⟨out, a1, ?_⟩
  intro idx idx' hi hi'
  rw [two_mul, Finset.sum_range_add, ← Finset.sum_add_distrib]
  refine Finset.sum_congr rfl fun k hk => ?_
  obtain ⟨e1, e2⟩ := a3 idx hi k (Finset.mem_range.1 hk)
  obtain ⟨f1, f2⟩ := a3 idx' hi' k (Finset.mem_range.1 hk)
  rw [e1, e2, f1, f2, sub_mul, Real.cos_sub]
  ring

/-- **C42 (layers as embeddings).** The piecewise embeddings are the layers themselves; `FourierSeriesEmbedding`
returns `None` for every argument, because its body has no `return`. -/
theorem C42_layer_embeddings {K : Type} [TorchScalar K] (n I O S : ℕ) (length : K) (rand : ℕ → ℕ → K) (wm : K)
    (p : Option K) :
    piecewisePolynomialEmbedding n I O S length rand wm p = PwLayer.init .continuous n I O S length rand wm p ∧
    piecewiseDiscontinuousPolynomialEmbedding n I O S length rand wm p
      = PwLayer.init .discontinuous n I O S length rand wm p ∧
    fourierSeriesEmbedding n I O length rand = .ok none :=
  ⟨rfl, rfl, rfl⟩

example : ∃ out, sinusoidalForward (2 * 2) (Tensor.tab1 3 fun i => (i : ℝ)) = .ok out ∧ out.shape = [3, 4] := by
  obtain ⟨out, h1, h2, _⟩ := C42_values 2 (le_refl _) (Tensor.tab1 3 fun i => (i : ℝ)) (by simp)
  exact ⟨out, h1, h2⟩

example : ∃ θ : ℕ → ℝ, ∃ out out', sinusoidalForward (2 * 2) (Tensor.tab1 3 fun i => (i : ℝ)) = .ok out ∧
    sinusoidalForward (2 * 2) ((Tensor.tab1 3 fun i => (i : ℝ)).map fun v => v + 5) = .ok out' ∧
    out'.get [1, 0] = Real.cos (θ 0) * out.get [1, 0] + Real.sin (θ 0) * out.get [1, 2] := by
  obtain ⟨θ, h0⟩ := C42_rotation 2 (le_refl _) 5
  obtain ⟨out, out', h1, h2, h3⟩ := h0 (Tensor.tab1 3 fun i => (i : ℝ)) (Tensor.wf_tab1 _ _) (by simp)
  exact ⟨θ, out, out', h1, h2, ((h3 [1] (by simp [InShape])).2.2 0 (by norm_num)).1⟩

example : ∃ φ : ℝ → ℝ, ∃ out, sinusoidalForward (2 * 2) (Tensor.tab1 3 fun i => (i : ℝ)) = .ok out ∧
    ∑ j ∈ Finset.range (2 * 2), out.get [0, j] * out.get [1, j]
      = φ ((Tensor.tab1 3 fun i => (i : ℝ)).get [0] - (Tensor.tab1 3 fun i => (i : ℝ)).get [1]) := by
  obtain ⟨φ, h0⟩ := C42_inner_product 2 (le_refl _)
  obtain ⟨out, h1, h2⟩ := h0 (Tensor.tab1 3 fun i => (i : ℝ)) (by simp)
  exact ⟨φ, out, h1, h2 [0] [1] (by simp [InShape]) (by simp [InShape])⟩

end HOL
