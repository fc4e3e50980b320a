import Verif.Model.Piecewise

/-!
# Structure of the forward passes, for every scalar type

`forward_eq` removes the flatten/gather/view/permute sequence of the piecewise layers and shows that no
index is out of range. Nothing about the scalars is used.
-/

set_option linter.unusedSectionVars false

namespace HOL
open TorchScalar
variable {K : Type} [TorchScalar K]

namespace PwLayer

theorem segIndex_nonneg (L : PwLayer K) (h : 0 < L.segments) (x : K) : 0 ≤ L.segIndex x := by
  unfold segIndex clampInt; omega

theorem segIndex_le (L : PwLayer K) (x : K) : L.segIndex x ≤ (L.segments : ℤ) - 1 := by
  unfold segIndex clampInt; omega

/-- Segment as a natural number. -/
def seg (L : PwLayer K) (x : K) : ℕ := (L.whichSegment x).toNat

theorem whichSegment_eq_seg (L : PwLayer K) (h : 0 < L.segments) (x : K) :
    L.whichSegment x = (L.seg x : ℤ) := by
  unfold seg
  rw [Int.toNat_of_nonneg]
  exact L.segIndex_nonneg h _

theorem seg_lt (L : PwLayer K) (h : 0 < L.segments) (x : K) : L.seg x < L.segments := by
  have h1 := L.whichSegment_eq_seg h x
  have h2 := L.segIndex_le (periodize L.periodicity x)
  unfold whichSegment at h1
  omega

/-- The weights of segment `s` are inside the weight tensor. -/
theorem widx_lt (L : PwLayer K) (hn : 0 < L.n) {s k : ℕ} (hs : s < L.segments)
    (hk : k < L.n) : s * L.stride + k < wSize L.cls L.n L.segments := by
  unfold stride wSize
  split
  · obtain ⟨m, hm⟩ : ∃ m, L.n = m + 1 := ⟨L.n - 1, by omega⟩
    rw [hm]
    simp only [Nat.add_sub_cancel]
    have : (s + 1) * m ≤ L.segments * m := Nat.mul_le_mul_right _ hs
    have h2 : (s + 1) * m = s * m + m := by ring
    have h3 : m * L.segments = L.segments * m := by ring
    omega
  · have : (s + 1) * L.n ≤ L.segments * L.n := Nat.mul_le_mul_right _ hs
    have h2 : (s + 1) * L.n = s * L.n + L.n := by ring
    have h3 : L.n * L.segments = L.segments * L.n := by ring
    omega

theorem normIndex_of_lt {size : ℕ} {i : ℕ} (h : i < size) : normIndex size (i : ℤ) = some i := by
  unfold normIndex
  have : (0 : ℤ) ≤ (i : ℤ) ∧ (i : ℤ) < (size : ℤ) := ⟨by omega, by omega⟩
  simp [this]

theorem div_mod_flat {B I n b i k : ℕ} (hk : k < n) (hi : i < I) :
    ravel [B, I, n] [b, i, k] / n % I = i := by
  have e : ravel [B, I, n] [b, i, k] = k + n * (i + I * b) := by
    simp only [ravel, numel]; ring
  rw [e, Nat.add_mul_div_left _ _ (by omega), Nat.div_eq_of_lt hk, Nat.zero_add,
    Nat.add_mul_mod_self_left, Nat.mod_eq_of_lt hi]

/-- The value seen by the basis functions for input `v`. -/
def xIn (L : PwLayer K) (v : K) : K :=
  L.xLocal (periodize L.periodicity v) (L.whichSegment v)

/-- The weights active for the batch, after gather, view and permute. -/
def activeW (L : PwLayer K) (B : ℕ) (x : Tensor K) : Tensor K :=
  Tensor.tab4 B L.inFeatures L.outFeatures L.n fun b i o k =>
    L.w.get [o, i, L.seg (x.get [b, i]) * L.stride + k]

/-- `forward` succeeds and evaluates the basis on local coordinates with the weights of the active
segments, for every scalar type. -/
theorem forward_eq (L : PwLayer K) (h : L.WF) {x : Tensor K} {B : ℕ}
    (hx : x.shape = [B, L.inFeatures]) (hwf : x.WF) :
    L.forward x = L.poly.interpolate
      (Tensor.tab2 B L.inFeatures fun b i => L.xIn (x.get [b, i])) (L.activeW B x) := by
  have hxp : (x.map (periodize L.periodicity)).WF := by
    simp only [Tensor.WF, Tensor.map] at *; simpa using hwf
  have hget : ∀ b i, b < B → i < L.inFeatures →
      ((x.map (periodize L.periodicity)).map L.segIndex).get [b, i]
        = (L.seg (x.get [b, i]) : ℤ) := by
    intro b i hb hi
    have hin : InShape x.shape [b, i] := by rw [hx]; exact inShape2.2 ⟨hb, hi⟩
    rw [Tensor.get_map hxp (by simpa using hin), Tensor.get_map hwf hin]
    exact L.whichSegment_eq_seg h.seg_pos _
  have hgetp : ∀ b i, b < B → i < L.inFeatures →
      (x.map (periodize L.periodicity)).get [b, i] = periodize L.periodicity (x.get [b, i]) := by
    intro b i hb hi
    exact Tensor.get_map hwf (by rw [hx]; exact inShape2.2 ⟨hb, hi⟩)
  have hgetmax : ∀ b i, b < B → i < L.inFeatures →
      (((x.map (periodize L.periodicity)).map L.segIndex).map (· + 1)).get [b, i]
        = (L.seg (x.get [b, i]) : ℤ) + 1 := by
    intro b i hb hi
    have hin : InShape x.shape [b, i] := by rw [hx]; exact inShape2.2 ⟨hb, hi⟩
    rw [Tensor.get_map _ (by simpa using hin), hget b i hb hi]
    simp only [Tensor.WF, Tensor.map] at *; simpa using hwf
  -- flat positions
  set idMin : Tensor ℤ := (x.map (periodize L.periodicity)).map L.segIndex with hid
  set wr3 := L.wrange3 B L.inFeatures idMin with hwr3
  set total := numel wr3.shape with htotal
  have htot : total = B * (L.inFeatures * L.n) := by simp [htotal, hwr3, wrange3, numel]
  have hwr : ∀ b i k, b < B → i < L.inFeatures → k < L.n →
      (wr3.reshape [total]).get [ravel [B, L.inFeatures, L.n] [b, i, k]]
        = ((L.seg (x.get [b, i]) * L.stride + k : ℕ) : ℤ) := by
    intro b i k hb hi hk
    rw [Tensor.get_reshape (idx' := [b, i, k]) wr3 (by simp [ravel, numel, hwr3, wrange3])]
    rw [hwr3, wrange3, Tensor.get_tab3 hb hi hk, hget b i hb hi]
    push_cast; ring
  have hwi : ∀ b i k, b < B → i < L.inFeatures → k < L.n →
      (L.windex total).get [ravel [B, L.inFeatures, L.n] [b, i, k]] = (i : ℤ) := by
    intro b i k hb hi hk
    have hlt : ravel [B, L.inFeatures, L.n] [b, i, k] < total := by
      have := ravel_lt (s := [B, L.inFeatures, L.n]) (inShape3.2 ⟨hb, hi, hk⟩)
      simpa [htot, numel] using this
    rw [windex, Tensor.get_tab1 hlt, div_mod_flat hk hi]
  have hdecomp : ∀ p, p < total → ∃ b i k, b < B ∧ i < L.inFeatures ∧ k < L.n ∧
      p = ravel [B, L.inFeatures, L.n] [b, i, k] := by
    intro p hp
    have hp' : p < numel [B, L.inFeatures, L.n] := by simpa [htot, numel] using hp
    obtain ⟨b, i, k, e, hb, hi, hk⟩ := inShape3_exists (inShape_unravel hp')
    exact ⟨b, i, k, hb, hi, hk, by rw [← e, ravel_unravel hp']⟩
  -- the gather succeeds
  have hgather : gather L.w (L.windex total) (wr3.reshape [total]) = .ok
      (Tensor.tab2 L.outFeatures total fun l p =>
        L.w.get [l, (normIndex L.inFeatures ((L.windex total).get [p])).getD 0,
          (normIndex (wSize L.cls L.n L.segments) ((wr3.reshape [total]).get [p])).getD 0]) := by
    unfold gather
    rw [h.w_shape]
    simp only [windex, Tensor.shape_tab1, Tensor.shape_reshape]
    rw [if_pos]
    refine ⟨trivial, ?_⟩
    intro p hp
    obtain ⟨b, i, k, hb, hi, hk, rfl⟩ := hdecomp p hp
    have e1 := hwi b i k hb hi hk
    rw [windex] at e1
    rw [e1, hwr b i k hb hi hk]
    rw [normIndex_of_lt hi, normIndex_of_lt (L.widx_lt h.n_pos (L.seg_lt h.seg_pos _) hk)]
    simp
  -- the view succeeds
  set g : Tensor K := (Tensor.tab2 L.outFeatures total fun l p =>
        L.w.get [l, (normIndex L.inFeatures ((L.windex total).get [p])).getD 0,
          (normIndex (wSize L.cls L.n L.segments) ((wr3.reshape [total]).get [p])).getD 0]) with hg
  have hknown : L.outFeatures * L.inFeatures * L.n ≠ 0 := by
    have := h.n_pos; have := h.in_pos; have := h.out_pos; positivity
  have hnum : numel g.shape = B * (L.outFeatures * L.inFeatures * L.n) := by
    simp only [hg, Tensor.shape_tab2, numel, htot]; ring
  have hview : viewInfer g L.outFeatures L.inFeatures L.n
      = .ok (g.reshape [L.outFeatures, B, L.inFeatures, L.n]) := by
    unfold viewInfer
    simp only [hnum]
    rw [if_neg]
    · rw [Nat.mul_div_cancel _ (Nat.pos_of_ne_zero hknown)]
    · simp [hknown]
  have hperm : permute1203 (g.reshape [L.outFeatures, B, L.inFeatures, L.n])
      = .ok (L.activeW B x) := by
    unfold permute1203 activeW
    simp only [Tensor.shape_reshape]
    congr 1
    apply tab4_congr
    intro b hb i hi o ho k hk
    have hlt : ravel [B, L.inFeatures, L.n] [b, i, k] < total := by
      have := ravel_lt (s := [B, L.inFeatures, L.n]) (inShape3.2 ⟨hb, hi, hk⟩)
      simpa [htot, numel] using this
    rw [Tensor.get_reshape (idx' := [o, ravel [B, L.inFeatures, L.n] [b, i, k]]) g
      (by simp [hg, ravel, numel, htot])]
    rw [hg, Tensor.get_tab2 ho hlt, hwi b i k hb hi hk, hwr b i k hb hi hk, normIndex_of_lt hi,
      normIndex_of_lt (L.widx_lt h.n_pos (L.seg_lt h.seg_pos _) hk)]
    simp
  have hxin : (Tensor.tab2 B L.inFeatures fun b i =>
      L.length * (((x.map (periodize L.periodicity)).get [b, i] - L.eta (idMin.get [b, i]))
        / (L.eta ((idMin.map (· + 1)).get [b, i]) - L.eta (idMin.get [b, i]))) - L.half)
      = Tensor.tab2 B L.inFeatures fun b i => L.xIn (x.get [b, i]) := by
    apply tab2_congr
    intro b hb i hi
    rw [hget b i hb hi, hgetmax b i hb hi, hgetp b i hb hi, xIn, xLocal,
      L.whichSegment_eq_seg h.seg_pos]
  unfold forward
  rw [hx]
  simp only
  rw [hxin, hgather]
  simp only [bind, Except.bind]
  rw [hview]
  simp only
  rw [hperm]

end PwLayer

/-- The stacked basis values. -/
theorem stackBasis_ok {n : ℕ} (hn : 0 < n) (basis : BasisFn K) {B I : ℕ} {x : Tensor K}
    (hx : x.shape = [B, I]) :
    stackBasis n basis x = .ok (Tensor.tab3 n B I fun j b i => basis.call (x.get [b, i]) j) := by
  unfold stackBasis
  rw [if_neg (by omega), hx]
  congr 1

theorem flatMap_range_congr {α : Type} {n m : ℕ} {f g : ℕ → ℕ → α}
    (h : ∀ i < n, ∀ k < m, f i k = g i k) :
    ((List.range n).flatMap fun i => (List.range m).map fun k => f i k)
      = (List.range n).flatMap fun i => (List.range m).map fun k => g i k := by
  apply List.flatMap_congr
  intro i hi
  apply List.map_congr_left
  intro k hk
  exact h i (List.mem_range.1 hi) k (List.mem_range.1 hk)

theorem map_range_congr {α : Type} {n : ℕ} {f g : ℕ → α} (h : ∀ i < n, f i = g i) :
    (List.range n).map f = (List.range n).map g := by
  apply List.map_congr_left
  intro k hk
  exact h k (List.mem_range.1 hk)

/-- `Basis.interpolate` on matching shapes. -/
theorem interpolate_batch {n : ℕ} (hn : 0 < n) (basis : BasisFn K) {B I O : ℕ}
    (f : ℕ → ℕ → K) (wf : ℕ → ℕ → ℕ → ℕ → K) :
    (Poly.mk .batch n basis).interpolate (Tensor.tab2 B I f) (Tensor.tab4 B I O n wf)
      = .ok (Tensor.tab2 B O fun b o =>
          sumL ((List.range n).flatMap fun p => (List.range I).map fun q =>
            basis.call (f b q) p * wf b q o p)) := by
  unfold Poly.interpolate
  rw [stackBasis_ok hn basis (B := B) (I := I) rfl]
  simp only [bind, Except.bind]
  unfold einsumBatch
  simp only [Tensor.shape_tab3, Tensor.shape_tab4, bcast_self, bind, Except.bind]
  congr 1
  apply tab2_congr
  intro b hb o ho
  congr 1
  apply flatMap_range_congr
  intro p hp q hq
  rw [bidx_of_lt hp, bidx_of_lt hb, bidx_of_lt hq, Tensor.get_tab3 hp hb hq, Tensor.get_tab2 hb hq,
    Tensor.get_tab4 hb hq ho hp]

/-- `BasisProd.interpolate` on matching shapes. -/
theorem interpolate_batchProd {n : ℕ} (hn : 0 < n) (basis : BasisFn K) {B I O : ℕ} (alpha : K)
    (f : ℕ → ℕ → K) (wf : ℕ → ℕ → ℕ → ℕ → K) :
    (Poly.mk (.batchProd alpha) n basis).interpolate (Tensor.tab2 B I f) (Tensor.tab4 B I O n wf)
      = .ok (Tensor.tab2 B O fun b o =>
          prodL ((List.range I).map fun q =>
            1 + sumL ((List.range n).map fun p => basis.call (f b q) p * wf b q o p)) - 1
          + (1 - alpha) * sumL ((List.range I).map fun q =>
            sumL ((List.range n).map fun p => basis.call (f b q) p * wf b q o p))) := by
  unfold Poly.interpolate
  rw [stackBasis_ok hn basis (B := B) (I := I) rfl]
  simp only [bind, Except.bind]
  unfold einsumBatchProd
  simp only [Tensor.shape_tab3, Tensor.shape_tab4, bcast_self, bind, Except.bind]
  unfold prodOut
  simp only [Tensor.shape_tab3]
  congr 1
  apply tab2_congr
  intro b hb o ho
  have key : ∀ q < I, (Tensor.tab3 B O I fun b o q =>
        sumL ((List.range n).map fun p =>
          (Tensor.tab3 n B I fun j b i => basis.call ((Tensor.tab2 B I f).get [b, i]) j).get
              [bidx n p, bidx B b, bidx I q]
            * (Tensor.tab4 B I O n wf).get [bidx B b, bidx I q, o, bidx n p])).get [b, o, q]
      = sumL ((List.range n).map fun p => basis.call (f b q) p * wf b q o p) := by
    intro q hq
    rw [Tensor.get_tab3 hb ho hq]
    congr 1
    apply map_range_congr
    intro p hp
    rw [bidx_of_lt hp, bidx_of_lt hb, bidx_of_lt hq, Tensor.get_tab3 hp hb hq,
      Tensor.get_tab2 hb hq, Tensor.get_tab4 hb hq ho hp]
  refine congrArg₂ (fun u v => prodL u - 1 + (1 - alpha) * sumL v) ?_ ?_
  · exact map_range_congr fun q hq => congrArg (fun z => 1 + z) (key q hq)
  · exact map_range_congr key

/-- `BasisFlat.interpolate` on matching shapes. -/
theorem interpolate_flat {n : ℕ} (hn : 0 < n) (basis : BasisFn K) {B I O : ℕ} {x w : Tensor K}
    (hx : x.shape = [B, I]) (hw : w.shape = [O, I, n]) :
    (Poly.mk .flat n basis).interpolate x w
      = .ok (Tensor.tab2 B O fun b o =>
          sumL ((List.range n).flatMap fun p => (List.range I).map fun q =>
            basis.call (x.get [b, q]) p * w.get [o, q, p])) := by
  unfold Poly.interpolate
  rw [stackBasis_ok hn basis hx]
  simp only [bind, Except.bind]
  unfold einsumFlat
  simp only [Tensor.shape_tab3, hw, bcast_self, bind, Except.bind]
  congr 1
  apply tab2_congr
  intro b hb o ho
  congr 1
  apply flatMap_range_congr
  intro p hp q hq
  rw [bidx_of_lt hp, bidx_of_lt hq, Tensor.get_tab3 hp hb hq]

/-- `BasisFlatProd.interpolate` on matching shapes. -/
theorem interpolate_flatProd {n : ℕ} (hn : 0 < n) (basis : BasisFn K) {B I O : ℕ} (alpha : K)
    {x w : Tensor K} (hx : x.shape = [B, I]) (hw : w.shape = [O, I, n]) :
    (Poly.mk (.flatProd alpha) n basis).interpolate x w
      = .ok (Tensor.tab2 B O fun b o =>
          prodL ((List.range I).map fun q =>
            1 + sumL ((List.range n).map fun p => basis.call (x.get [b, q]) p * w.get [o, q, p])) - 1
          + (1 - alpha) * sumL ((List.range I).map fun q =>
            sumL ((List.range n).map fun p => basis.call (x.get [b, q]) p * w.get [o, q, p]))) := by
  unfold Poly.interpolate
  rw [stackBasis_ok hn basis hx]
  simp only [bind, Except.bind]
  unfold einsumFlatProd
  simp only [Tensor.shape_tab3, hw, bcast_self, bind, Except.bind]
  unfold prodOut
  simp only [Tensor.shape_tab3]
  congr 1
  apply tab2_congr
  intro b hb o ho
  have key : ∀ q < I, (Tensor.tab3 B O I fun b o q =>
        sumL ((List.range n).map fun p =>
          (Tensor.tab3 n B I fun j b i => basis.call (x.get [b, i]) j).get
              [bidx n p, b, bidx I q]
            * w.get [o, bidx I q, bidx n p])).get [b, o, q]
      = sumL ((List.range n).map fun p => basis.call (x.get [b, q]) p * w.get [o, q, p]) := by
    intro q hq
    rw [Tensor.get_tab3 hb ho hq]
    congr 1
    apply map_range_congr
    intro p hp
    rw [bidx_of_lt hp, bidx_of_lt hq, Tensor.get_tab3 hp hb hq]
  refine congrArg₂ (fun u v => prodL u - 1 + (1 - alpha) * sumL v) ?_ ?_
  · exact map_range_congr fun q hq => congrArg (fun z => 1 + z) (key q hq)
  · exact map_range_congr key

end HOL
