import Verif.Model.Norm

/-! # Reductions along an axis -/

namespace HOL
open TorchScalar

theorem inShape_length : ∀ {s idx : List ℕ}, InShape s idx → idx.length = s.length
  | [], [], _ => rfl
  | _ :: ss, _ :: is, h => by simp [inShape_length h.2]
  | [], _ :: _, h => absurd h (by simp [InShape])
  | _ :: _, [], h => absurd h (by simp [InShape])

/-- Changing one coordinate to an allowed value stays inside the shape. -/
theorem inShape_set : ∀ {s idx : List ℕ} {d q : ℕ}, InShape s idx → q < s.getD d 0 → InShape s (idx.set d q)
  | [], [], _, _, _, h => by simp at h
  | s :: ss, i :: is, 0, q, h, hq => by
    simp only [List.set_cons_zero, InShape]
    exact ⟨by simpa using hq, h.2⟩
  | s :: ss, i :: is, d + 1, q, h, hq => by
    simp only [List.set_cons_succ, InShape]
    exact ⟨h.1, inShape_set h.2 (by simpa using hq)⟩
  | [], _ :: _, _, _, h, _ => absurd h (by simp [InShape])
  | _ :: _, [], _, _, h, _ => absurd h (by simp [InShape])

theorem inShape_set_one : ∀ {s idx : List ℕ} {d : ℕ}, InShape s idx → InShape (s.set d 1) (idx.set d 0)
  | [], [], _, _ => by simp [InShape]
  | s :: ss, i :: is, 0, h => by
    simp only [List.set_cons_zero, InShape]
    exact ⟨by norm_num, h.2⟩
  | s :: ss, i :: is, d + 1, h => by
    simp only [List.set_cons_succ, InShape]
    exact ⟨h.1, inShape_set_one h.2⟩
  | [], _ :: _, _, h => absurd h (by simp [InShape])
  | _ :: _, [], _, h => absurd h (by simp [InShape])

/-- The coordinate of an index inside the shape is in range. -/
theorem getD_lt_of_inShape : ∀ {s idx : List ℕ} {d : ℕ}, InShape s idx → d < s.length →
    idx.getD d 0 < s.getD d 0
  | [], [], _, _, h => by simp at h
  | s :: ss, i :: is, 0, h, _ => by simpa using h.1
  | s :: ss, i :: is, d + 1, h, hd => by
    simpa using getD_lt_of_inShape h.2 (by simpa using hd)
  | [], _ :: _, _, h, _ => absurd h (by simp [InShape])
  | _ :: _, [], _, h, _ => absurd h (by simp [InShape])

theorem set_getD_self : ∀ (idx : List ℕ) (d : ℕ), idx.set d (idx.getD d 0) = idx
  | [], _ => by simp
  | i :: is, 0 => by simp
  | i :: is, d + 1 => by
    have := set_getD_self is d
    simpa using this

section
set_option linter.unusedSectionVars false
variable {K : Type} [TorchScalar K]

theorem reduceDim_ok (f : List K → K) (x : Tensor K) {dim : ℕ} (hd : dim < x.shape.length)
    (hs : 0 < x.shape.getD dim 0) :
    reduceDim f x dim = .ok (Tensor.tabulate (x.shape.set dim 1) fun idx => f (slice x dim idx)) := by
  unfold reduceDim; rw [if_pos ⟨hd, hs⟩]

theorem slice_set (x : Tensor K) (dim : ℕ) (idx : List ℕ) (q : ℕ) :
    slice x dim (idx.set dim q) = slice x dim idx := by
  unfold slice
  apply List.map_congr_left
  intro r _
  rw [List.set_set]

theorem reduced_get (f : List K → K) (x : Tensor K) {dim : ℕ} {idx : List ℕ} (h : InShape x.shape idx) :
    (Tensor.tabulate (x.shape.set dim 1) fun idx => f (slice x dim idx)).get (idx.set dim 0)
      = f (slice x dim idx) := by
  rw [Tensor.get_tabulate (inShape_set_one h), slice_set]

theorem slice_map (x : Tensor K) (g : K → K) (hwf : x.WF) {dim : ℕ} {idx : List ℕ}
    (h : InShape x.shape idx) : slice (x.map g) dim idx = (slice x dim idx).map g := by
  unfold slice
  rw [List.map_map]
  apply List.map_congr_left
  intro q hq
  exact Tensor.get_map hwf (inShape_set h (List.mem_range.1 hq))

/-- `max_abs_normalization` entry by entry. -/
theorem maxAbsNormalization_eq (x : Tensor K) (eps : K) {dim : ℕ} (hwf : x.WF) (hd : dim < x.shape.length)
    (hs : 0 < x.shape.getD dim 0) :
    maxAbsNormalization x eps dim = .ok (Tensor.tabulate x.shape fun idx =>
      x.get idx / (maxL ((slice x dim idx).map TorchScalar.abs) + eps)) := by
  unfold maxAbsNormalization maxAbs
  rw [reduceDim_ok _ _ (by exact hd) (by exact hs)]
  show Except.ok _ = _
  congr 1
  apply tabulate_congr
  intro idx h
  rw [← slice_map x TorchScalar.abs hwf h]
  exact congrArg (fun z => x.get idx / (z + eps)) (reduced_get maxL (x.map TorchScalar.abs) (by exact h))

/-- `max_center_normalization` entry by entry. -/
theorem maxCenterNormalization_eq (x : Tensor K) (eps : K) {dim : ℕ} (hd : dim < x.shape.length)
    (hs : 0 < x.shape.getD dim 0) :
    maxCenterNormalization x eps dim = .ok (Tensor.tabulate x.shape fun idx =>
      (x.get idx - 1 / ((2 : ℕ) : K) * (maxL (slice x dim idx) + minL (slice x dim idx)))
        / (maxL (slice x dim idx)
            - 1 / ((2 : ℕ) : K) * (maxL (slice x dim idx) + minL (slice x dim idx)) + eps)) := by
  unfold maxCenterNormalization
  rw [reduceDim_ok _ _ hd hs, reduceDim_ok _ _ hd hs]
  show Except.ok _ = _
  congr 1
  apply tabulate_congr
  intro idx h
  change InShape x.shape idx at h
  have h0 := inShape_set_one (d := dim) h
  unfold zipDim
  simp only [Tensor.shape_tabulate]
  have hset : (idx.set dim 0).set dim 0 = idx.set dim 0 := by rw [List.set_set]
  rw [Tensor.get_tabulate h]
  simp only [Tensor.get_tabulate h0, hset, slice_set]

/-- `l2_normalization` entry by entry. -/
theorem l2Normalization_eq (x : Tensor K) (eps : K) (hd : 1 < x.shape.length) (hs : 0 < x.shape.getD 1 0) :
    l2Normalization x eps = .ok (Tensor.tabulate x.shape fun idx =>
      x.get idx / (sqrt (sumL ((slice x 1 idx).map fun a => a * a)) + eps)) := by
  unfold l2Normalization
  rw [reduceDim_ok _ _ hd hs]
  show Except.ok _ = _
  congr 1
  apply tabulate_congr
  intro idx h
  exact congrArg (fun z => x.get idx / (z + eps))
    (reduced_get (fun l => sqrt (sumL (l.map fun a => a * a))) x h)

/-- The rows of `x.reshape(shape[0], -1)`. -/
theorem slice_flatten (x : Tensor K) {s0 : ℕ} {ss : List ℕ} (hx : x.shape = s0 :: ss) (b q : ℕ) :
    slice (x.reshape [s0, numel ss]) 1 [b, q]
      = (List.range (numel ss)).map fun r => x.get (b :: unravel ss r) := by
  unfold slice
  apply List.map_congr_left
  intro r hr
  have hr' : r < numel ss := by simpa using List.mem_range.1 hr
  apply Tensor.get_reshape
  rw [hx]
  simp [ravel, numel, ravel_unravel hr']

theorem flattenRows_ok (x : Tensor K) {s0 : ℕ} {ss : List ℕ} (hx : x.shape = s0 :: ss) (h0 : 0 < s0) :
    flattenRows x = .ok (x.reshape [s0, numel ss]) := by
  unfold flattenRows
  rw [hx]
  simp only
  rw [if_neg (by omega)]

theorem get_flatten (x : Tensor K) {s0 : ℕ} {ss : List ℕ} (hx : x.shape = s0 :: ss) {b : ℕ} {rest : List ℕ} :
    (x.reshape [s0, numel ss]).get [b, ravel ss rest] = x.get (b :: rest) := by
  apply Tensor.get_reshape
  rw [hx]
  simp [ravel, numel]

theorem get_unflatten (t : Tensor K) {s0 : ℕ} {ss : List ℕ} (ht : t.shape = [s0, numel ss]) {b : ℕ}
    {rest : List ℕ} : (t.reshape (s0 :: ss)).get (b :: rest) = t.get [b, ravel ss rest] := by
  apply Tensor.get_reshape
  rw [ht]
  simp [ravel, numel]

end

/-- The greatest value of a mapped range as a set. -/
theorem isGreatest_map_range {n : ℕ} (hn : 0 < n) (f : ℕ → ℝ) :
    IsGreatest {v | ∃ q < n, v = f q} (maxL ((List.range n).map f)) := by
  have h := maxL_isGreatest (l := (List.range n).map f) (by simp; omega)
  have e : {v | ∃ q < n, v = f q} = {v | v ∈ (List.range n).map f} := by
    ext v
    simp only [Set.mem_ofPred_eq, List.mem_map, List.mem_range]
    constructor
    · rintro ⟨q, h1, h2⟩; exact ⟨q, h1, h2.symm⟩
    · rintro ⟨q, h1, h2⟩; exact ⟨q, h1, h2.symm⟩
  rw [e]; exact h

theorem isLeast_map_range {n : ℕ} (hn : 0 < n) (f : ℕ → ℝ) :
    IsLeast {v | ∃ q < n, v = f q} (minL ((List.range n).map f)) := by
  have h := minL_isLeast (l := (List.range n).map f) (by simp; omega)
  have e : {v | ∃ q < n, v = f q} = {v | v ∈ (List.range n).map f} := by
    ext v
    simp only [Set.mem_ofPred_eq, List.mem_map, List.mem_range]
    constructor
    · rintro ⟨q, h1, h2⟩; exact ⟨q, h1, h2.symm⟩
    · rintro ⟨q, h1, h2⟩; exact ⟨q, h1, h2.symm⟩
  rw [e]; exact h

end HOL
