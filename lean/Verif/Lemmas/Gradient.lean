import Verif.Model.Gradient
import Verif.Lemmas.Structural
import Verif.Lemmas.SparseLion
import Verif.Lemmas.PiecewiseReal

/-! # Weight gradients entry by entry -/

namespace HOL
open TorchScalar

namespace PwLayer
variable {K : Type} [TorchScalar K]

theorem _root_.HOL.gatherBackward_get {O a b q : ℕ} {wi wr : Tensor ℤ} (hwi : wi.shape = [q]) (u : Tensor K) {l i j : ℕ} (hl : l < O) (hi : i < a) (hj : j < b) :
    (gatherBackward [O, a, b] wi wr u).get [l, i, j] =
      ((List.range q).filter fun p => decide (normIndex a (wi.get [p]) = some i ∧ normIndex b (wr.get [p]) = some j)).foldl (fun s p => s + u.get [l, p]) 0 := by
  unfold gatherBackward
  simp only [hwi]
  rw [Tensor.get_tab3 hl hi hj]

/-- The flat positions used by the forward pass. -/
theorem gather_positions (L : PwLayer K) (h : L.WF) {x : Tensor K} {B : ℕ} (hx : x.shape = [B, L.inFeatures]) (hwf : x.WF) :
    ∃ wr : Tensor ℤ, (∀ u, L.gradW x u = gatherBackward L.w.shape (L.windex (B * (L.inFeatures * L.n))) wr u) ∧
      ∀ b < B, ∀ i < L.inFeatures, ∀ k < L.n,
        wr.get [ravel [B, L.inFeatures, L.n] [b, i, k]] = ((L.seg (x.get [b, i]) * L.stride + k : ℕ) : ℤ) ∧
        (L.windex (B * (L.inFeatures * L.n))).get [ravel [B, L.inFeatures, L.n] [b, i, k]] = (i : ℤ) := by
  have hxp : (x.map (periodize L.periodicity)).WF := by
    simp only [Tensor.WF, Tensor.map] at *; simpa using hwf
  have hget : ∀ b i, b < B → i < L.inFeatures →
      ((x.map (periodize L.periodicity)).map L.segIndex).get [b, i] = (L.seg (x.get [b, i]) : ℤ) := by
    intro b i hb hi
    have hin : InShape x.shape [b, i] := by rw [hx]; exact inShape2.2 ⟨hb, hi⟩
    rw [Tensor.get_map hxp (by simpa using hin), Tensor.get_map hwf hin]
    exact L.whichSegment_eq_seg h.seg_pos _
  have htot : numel (L.wrange3 B L.inFeatures ((x.map (periodize L.periodicity)).map L.segIndex)).shape = B * (L.inFeatures * L.n) := by
    simp [wrange3, numel]
  refine ⟨(L.wrange3 B L.inFeatures ((x.map (periodize L.periodicity)).map L.segIndex)).reshape [B * (L.inFeatures * L.n)], ?_, ?_⟩
  · intro u
    unfold gradW
    simp only [hx, htot]
  · intro b hb i hi k hk
    constructor
    · rw [Tensor.get_reshape (idx' := [b, i, k]) _ (by simp [ravel, numel, wrange3])]
      rw [wrange3, Tensor.get_tab3 hb hi hk, hget b i hb hi]
      push_cast; ring
    · have hlt : ravel [B, L.inFeatures, L.n] [b, i, k] < B * (L.inFeatures * L.n) := by
        have := ravel_lt (s := [B, L.inFeatures, L.n]) (inShape3.2 ⟨hb, hi, hk⟩)
        simpa [numel] using this
      rw [windex, Tensor.get_tab1 hlt, div_mod_flat hk hi]

theorem gradW_shape (L : PwLayer K) (h : L.WF) {x : Tensor K} {B : ℕ} (hx : x.shape = [B, L.inFeatures]) (hwf : x.WF) (u : Tensor K) :
    (L.gradW x u).shape = L.w.shape ∧ (L.gradW x u).WF := by
  obtain ⟨wr, h1, -⟩ := L.gather_positions h hx hwf
  rw [h1, h.w_shape]
  exact ⟨rfl, Tensor.wf_tabulate _ _⟩

/-- An entry no input of the batch uses has gradient 0, in every arithmetic. -/
theorem gradW_unused (L : PwLayer K) (h : L.WF) {x : Tensor K} {B : ℕ} (hx : x.shape = [B, L.inFeatures]) (hwf : x.WF) (u : Tensor K)
    {o i q : ℕ} (ho : o < L.outFeatures) (hi : i < L.inFeatures) (hq : q < wSize L.cls L.n L.segments)
    (hun : ∀ b < B, ∀ k < L.n, L.seg (x.get [b, i]) * L.stride + k ≠ q) : (L.gradW x u).get [o, i, q] = 0 := by
  obtain ⟨wr, h1, h2⟩ := L.gather_positions h hx hwf
  rw [h1, h.w_shape]
  rw [gatherBackward_get (q := B * (L.inFeatures * L.n)) rfl u ho hi hq, List.filter_eq_nil_iff.2]
  · rfl
  · intro p hp hdec
    have hp' : p < numel [B, L.inFeatures, L.n] := by simpa [numel] using hp
    obtain ⟨b, i', k, e, hb, hi', hk⟩ := inShape3_exists (inShape_unravel hp')
    have ep : p = ravel [B, L.inFeatures, L.n] [b, i', k] := by rw [← e, ravel_unravel hp']
    obtain ⟨e1, e2⟩ := h2 b hb i' hi' k hk
    have hdec := of_decide_eq_true hdec
    rw [ep, e1, e2, normIndex_of_lt hi', normIndex_of_lt (L.widx_lt h.n_pos (L.seg_lt h.seg_pos _) hk)] at hdec
    obtain ⟨d1, d2⟩ := hdec
    have d1' : i' = i := by simpa using d1
    have d2' : L.seg (x.get [b, i']) * L.stride + k = q := by simpa using d2
    rw [d1'] at d2'
    exact hun b hb k hk d2'

end PwLayer

theorem sum_range_mul_add (f : ℕ → ℝ) (m : ℕ) : ∀ a, ∑ p ∈ Finset.range (a * m), f p = ∑ i ∈ Finset.range a, ∑ j ∈ Finset.range m, f (i * m + j)
  | 0 => by simp
  | a + 1 => by rw [Nat.succ_mul, Finset.sum_range_add, sum_range_mul_add f m a, Finset.sum_range_succ]

theorem foldl_filter_sum (c : ℕ → Bool) (f : ℕ → ℝ) : ∀ n, ((List.range n).filter c).foldl (fun s p => s + f p) 0 = ∑ p ∈ Finset.range n, if c p then f p else 0
  | 0 => by simp
  | n + 1 => by
    rw [List.range_succ, List.filter_append, List.foldl_append, foldl_filter_sum c f n, Finset.sum_range_succ]
    by_cases hc : c n = true
    · simp [hc]
    · simp [hc]

/-- Over the reals a gradient entry is the sum over its uses. -/
theorem PwLayer.gradW_real (L : PwLayer ℝ) (h : L.WF) {x : Tensor ℝ} {B : ℕ} (hx : x.shape = [B, L.inFeatures]) (hwf : x.WF) (u : ℕ → ℕ → ℕ → ℕ → ℝ)
    {o i q : ℕ} (ho : o < L.outFeatures) (hi : i < L.inFeatures) (hq : q < wSize L.cls L.n L.segments) :
    (L.gradW x ((Tensor.tab4 L.outFeatures B L.inFeatures L.n u).reshape [L.outFeatures, B * (L.inFeatures * L.n)])).get [o, i, q]
      = ∑ b ∈ Finset.range B, ∑ k ∈ Finset.range L.n, if L.seg (x.get [b, i]) * L.stride + k = q then u o b i k else 0 := by
  obtain ⟨wr, h1, h2⟩ := L.gather_positions h hx hwf
  rw [h1, h.w_shape]
  rw [gatherBackward_get (q := B * (L.inFeatures * L.n)) rfl _ ho hi hq, foldl_filter_sum, sum_range_mul_add]
  apply Finset.sum_congr rfl
  intro b hb
  rw [sum_range_mul_add]
  rw [Finset.mem_range] at hb
  have key : ∀ i' ∈ Finset.range L.inFeatures, ∀ k ∈ Finset.range L.n,
      (if decide (normIndex L.inFeatures ((L.windex (B * (L.inFeatures * L.n))).get [b * (L.inFeatures * L.n) + (i' * L.n + k)]) = some i ∧
        normIndex (wSize L.cls L.n L.segments) (wr.get [b * (L.inFeatures * L.n) + (i' * L.n + k)]) = some q) = true
      then ((Tensor.tab4 L.outFeatures B L.inFeatures L.n u).reshape [L.outFeatures, B * (L.inFeatures * L.n)]).get [o, b * (L.inFeatures * L.n) + (i' * L.n + k)] else 0)
      = if i' = i then (if L.seg (x.get [b, i]) * L.stride + k = q then u o b i k else 0) else 0 := by
    intro i' hi' k hk
    rw [Finset.mem_range] at hi' hk
    obtain ⟨e1, e2⟩ := h2 b hb i' hi' k hk
    have er : ravel [B, L.inFeatures, L.n] [b, i', k] = b * (L.inFeatures * L.n) + (i' * L.n + k) := by simp [ravel, numel]
    rw [er] at e1 e2
    rw [e1, e2, normIndex_of_lt hi', normIndex_of_lt (L.widx_lt h.n_pos (L.seg_lt h.seg_pos _) hk)]
    rw [Tensor.get_reshape (idx' := [o, b, i', k]) _ (by simp [ravel, numel]), Tensor.get_tab4 ho hb hi' hk]
    simp only [Option.some.injEq, decide_eq_true_eq]
    by_cases hii : i' = i
    · subst hii; simp
    · simp [hii]
  rw [Finset.sum_congr rfl fun i' hi' => Finset.sum_congr rfl (key i' hi')]
  rw [Finset.sum_eq_single i]
  · simp
  · intro i' _ hne
    simp [hne]
  · intro hne
    exact absurd (Finset.mem_range.2 hi) hne

end HOL
