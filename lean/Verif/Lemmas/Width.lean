import Verif.Lemmas.Layers

/-! # Forward passes on inputs whose width is not the number of input features -/

set_option linter.unusedSectionVars false

namespace HOL
open TorchScalar Spec
variable {K : Type} [TorchScalar K]

theorem bcast_cases (a b : ℕ) : (∃ c, bcast a b = .ok c ∧ (∀ i < c, bidx a i < a ∨ a = 0) ∧ (a = b ∨ a = 1 ∨ b = 1)) ∨
    (bcast a b = .error .runtimeError ∧ a ≠ b ∧ a ≠ 1 ∧ b ≠ 1) := by
  unfold bcast
  split
  · left
    refine ⟨a, rfl, fun i hi => .inl ?_, .inl ‹_›⟩
    rw [bidx_of_lt hi]; exact hi
  split
  · left
    refine ⟨b, rfl, fun i _ => .inl ?_, .inr (.inl ‹_›)⟩
    unfold bidx; simp [‹a = 1›]
  split
  · left
    refine ⟨a, rfl, fun i hi => .inl ?_, .inr (.inr ‹_›)⟩
    rw [bidx_of_lt hi]; exact hi
  · right
    exact ⟨rfl, ‹_›, ‹_›, ‹_›⟩

@[simp] theorem bcast_one_right (a : ℕ) : bcast a 1 = .ok a := by
  unfold bcast
  by_cases h : a = 1 <;> simp [h]

@[simp] theorem bcast_one_left (a : ℕ) : bcast 1 a = .ok a := by
  unfold bcast
  split
  · exact congrArg _ ‹_›
  · rfl

theorem bidx_lt_both {a b c i : ℕ} (h : bcast a b = .ok c) (hi : i < c) : bidx a i < a ∧ bidx b i < b := by
  unfold bcast at h
  split at h
  · next e =>
    cases h
    subst e
    rw [bidx_of_lt hi]
    exact ⟨hi, hi⟩
  split at h
  · next e =>
    cases h
    rw [bidx_of_lt hi, e]
    exact ⟨by simp [bidx], hi⟩
  split at h
  · next e =>
    cases h
    rw [bidx_of_lt hi, e]
    exact ⟨hi, by simp [bidx]⟩
  · cases h

namespace PwLayer

/-- The weights gathered for a batch of any width: the entries of the input are dealt to the features in turn. -/
def dealtW (L : PwLayer K) (J I : ℕ) (x : Tensor K) : Tensor K :=
  Tensor.tab4 J L.inFeatures L.outFeatures L.n fun j i o k =>
    L.w.get [o, i, L.seg (x.get [(j * L.inFeatures + i) / I, (j * L.inFeatures + i) % I]) * L.stride + k]

/-- `forward` on inputs of any width. -/
theorem forward_any (L : PwLayer K) (h : L.WF) {x : Tensor K} {B I : ℕ}
    (hx : x.shape = [B, I]) (hwf : x.WF) :
    L.forward x = if B * I % L.inFeatures = 0 then L.poly.interpolate
      (Tensor.tab2 B I fun b i => L.xIn (x.get [b, i])) (L.dealtW (B * I / L.inFeatures) I x) else .error .runtimeError := by
  have hxp : (x.map (periodize L.periodicity)).WF := by
    simp only [Tensor.WF, Tensor.map] at *; simpa using hwf
  have hget : ∀ b i, b < B → i < I →
      ((x.map (periodize L.periodicity)).map L.segIndex).get [b, i]
        = (L.seg (x.get [b, i]) : ℤ) := by
    intro b i hb hi
    have hin : InShape x.shape [b, i] := by rw [hx]; exact inShape2.2 ⟨hb, hi⟩
    rw [Tensor.get_map hxp (by simpa using hin), Tensor.get_map hwf hin]
    exact L.whichSegment_eq_seg h.seg_pos _
  have hgetp : ∀ b i, b < B → i < I →
      (x.map (periodize L.periodicity)).get [b, i] = periodize L.periodicity (x.get [b, i]) := by
    intro b i hb hi
    exact Tensor.get_map hwf (by rw [hx]; exact inShape2.2 ⟨hb, hi⟩)
  have hgetmax : ∀ b i, b < B → i < I →
      (((x.map (periodize L.periodicity)).map L.segIndex).map (· + 1)).get [b, i]
        = (L.seg (x.get [b, i]) : ℤ) + 1 := by
    intro b i hb hi
    have hin : InShape x.shape [b, i] := by rw [hx]; exact inShape2.2 ⟨hb, hi⟩
    rw [Tensor.get_map _ (by simpa using hin), hget b i hb hi]
    simp only [Tensor.WF, Tensor.map] at *; simpa using hwf
  set idMin : Tensor ℤ := (x.map (periodize L.periodicity)).map L.segIndex with hid
  set wr3 := L.wrange3 B I idMin with hwr3
  set total := numel wr3.shape with htotal
  have htot : total = B * (I * L.n) := by simp [htotal, hwr3, wrange3, numel]
  have hn := h.n_pos
  -- position `q * n + k` belongs to entry `q` of the flattened input
  have hwr : ∀ q k, q < B * I → k < L.n →
      (wr3.reshape [total]).get [q * L.n + k] = ((L.seg (x.get [q / I, q % I]) * L.stride + k : ℕ) : ℤ) := by
    intro q k hq hk
    have hI : 0 < I := by
      rcases Nat.eq_zero_or_pos I with h0 | h0
      · rw [h0, Nat.mul_zero] at hq; omega
      · exact h0
    have hb : q / I < B := Nat.div_lt_of_lt_mul (by rwa [Nat.mul_comm] at hq)
    have hi : q % I < I := Nat.mod_lt _ hI
    rw [Tensor.get_reshape (idx' := [q / I, q % I, k]) wr3]
    · rw [hwr3, wrange3, Tensor.get_tab3 hb hi hk, hget _ _ hb hi]
      push_cast; ring
    · have e := Nat.div_add_mod q I
      simp only [ravel, numel, hwr3, wrange3, Tensor.shape_tab3, Nat.mul_one, Nat.add_zero]
      have e2 : q / I * (I * L.n) + (q % I * L.n + k) = (I * (q / I) + q % I) * L.n + k := by ring
      rw [e2, e]
  have hwi : ∀ q k, q < B * I → k < L.n → (L.windex total).get [q * L.n + k] = ((q % L.inFeatures : ℕ) : ℤ) := by
    intro q k hq hk
    have hlt : q * L.n + k < total := by
      rw [htot]
      calc q * L.n + k < q * L.n + L.n := by omega
        _ = (q + 1) * L.n := by ring
        _ ≤ B * I * L.n := Nat.mul_le_mul_right _ hq
        _ = B * (I * L.n) := by ring
    rw [windex, Tensor.get_tab1 hlt]
    congr 2
    rw [Nat.add_comm, Nat.add_mul_div_right _ _ hn, Nat.div_eq_of_lt hk, Nat.zero_add]
  have hdecomp : ∀ p, p < total → ∃ q k, q < B * I ∧ k < L.n ∧ p = q * L.n + k := by
    intro p hp
    refine ⟨p / L.n, p % L.n, Nat.div_lt_of_lt_mul ?_, Nat.mod_lt _ hn, ?_⟩
    · rw [htot] at hp
      calc p < B * (I * L.n) := hp
        _ = L.n * (B * I) := by ring
    · rw [Nat.mul_comm]; exact (Nat.div_add_mod p L.n).symm
  have hgather : gather L.w (L.windex total) (wr3.reshape [total]) = .ok
      (Tensor.tab2 L.outFeatures total fun l p =>
        L.w.get [l, (normIndex L.inFeatures ((L.windex total).get [p])).getD 0,
          (normIndex (wSize L.cls L.n L.segments) ((wr3.reshape [total]).get [p])).getD 0]) := by
    unfold gather
    rw [h.w_shape]
    simp only [windex, Tensor.shape_tab1, Tensor.shape_reshape]
    rw [if_pos]
    refine ⟨trivial, ?_⟩
    intro p hp
    obtain ⟨q, k, hq, hk, rfl⟩ := hdecomp p hp
    have e1 := hwi q k hq hk
    rw [windex] at e1
    rw [e1, hwr q k hq hk]
    rw [normIndex_of_lt (Nat.mod_lt _ h.in_pos), normIndex_of_lt (L.widx_lt h.n_pos (L.seg_lt h.seg_pos _) hk)]
    simp
  set g : Tensor K := (Tensor.tab2 L.outFeatures total fun l p =>
        L.w.get [l, (normIndex L.inFeatures ((L.windex total).get [p])).getD 0,
          (normIndex (wSize L.cls L.n L.segments) ((wr3.reshape [total]).get [p])).getD 0]) with hg
  have hpos : 0 < L.outFeatures * L.n := Nat.mul_pos h.out_pos hn
  have hknown : L.outFeatures * L.inFeatures * L.n ≠ 0 := by
    have := h.n_pos; have := h.in_pos; have := h.out_pos; positivity
  have hnum : numel g.shape = (L.outFeatures * L.n) * (B * I) := by
    simp only [hg, Tensor.shape_tab2, numel, htot]; ring
  have hk2 : L.outFeatures * L.inFeatures * L.n = (L.outFeatures * L.n) * L.inFeatures := by ring
  have hview : viewInfer g L.outFeatures L.inFeatures L.n
      = if B * I % L.inFeatures = 0 then .ok (g.reshape [L.outFeatures, B * I / L.inFeatures, L.inFeatures, L.n]) else .error .runtimeError := by
    unfold viewInfer
    simp only [hnum, hk2]
    rw [Nat.mul_mod_mul_left, Nat.mul_div_mul_left _ _ hpos]
    by_cases hd : B * I % L.inFeatures = 0
    · rw [if_pos hd, if_neg]
      rw [not_or, not_not]
      exact ⟨by rw [← hk2]; exact hknown, by rw [hd, Nat.mul_zero]⟩
    · rw [if_neg hd, if_pos]
      right
      exact Nat.mul_ne_zero hpos.ne' hd
  have hxin : (Tensor.tab2 B I fun b i =>
      L.length * (((x.map (periodize L.periodicity)).get [b, i] - L.eta (idMin.get [b, i]))
        / (L.eta ((idMin.map (· + 1)).get [b, i]) - L.eta (idMin.get [b, i]))) - L.half)
      = Tensor.tab2 B I fun b i => L.xIn (x.get [b, i]) := by
    apply tab2_congr
    intro b hb i hi
    rw [hget b i hb hi, hgetmax b i hb hi, hgetp b i hb hi, xIn, xLocal,
      L.whichSegment_eq_seg h.seg_pos]
  unfold forward
  rw [hx]
  simp only
  rw [hxin, hgather]
  simp only [bind, Except.bind]
  rw [hview]
  by_cases hd : B * I % L.inFeatures = 0
  swap
  · rw [if_neg hd, if_neg hd]
  rw [if_pos hd, if_pos hd]
  simp only
  have hperm : permute1203 (g.reshape [L.outFeatures, B * I / L.inFeatures, L.inFeatures, L.n])
      = .ok (L.dealtW (B * I / L.inFeatures) I x) := by
    unfold permute1203 dealtW
    simp only [Tensor.shape_reshape]
    congr 1
    apply tab4_congr
    intro j hj i hi o ho k hk
    have hq : j * L.inFeatures + i < B * I := by
      calc j * L.inFeatures + i < j * L.inFeatures + L.inFeatures := by omega
        _ = (j + 1) * L.inFeatures := by ring
        _ ≤ B * I / L.inFeatures * L.inFeatures := Nat.mul_le_mul_right _ hj
        _ ≤ B * I := Nat.div_mul_le_self _ _
    have hlt : (j * L.inFeatures + i) * L.n + k < total := by
      rw [htot]
      calc (j * L.inFeatures + i) * L.n + k < (j * L.inFeatures + i) * L.n + L.n := by omega
        _ = (j * L.inFeatures + i + 1) * L.n := by ring
        _ ≤ B * I * L.n := Nat.mul_le_mul_right _ hq
        _ = B * (I * L.n) := by ring
    have hd2 : B * I / L.inFeatures * L.inFeatures = B * I := Nat.div_mul_cancel (Nat.dvd_of_mod_eq_zero hd)
    rw [Tensor.get_reshape (idx' := [o, (j * L.inFeatures + i) * L.n + k]) g]
    · rw [hg, Tensor.get_tab2 ho hlt, hwi _ k hq hk, hwr _ k hq hk, normIndex_of_lt (Nat.mod_lt _ h.in_pos),
        normIndex_of_lt (L.widx_lt h.n_pos (L.seg_lt h.seg_pos _) hk)]
      have : (j * L.inFeatures + i) % L.inFeatures = i := by
        rw [Nat.add_comm, Nat.add_mul_mod_self_right, Nat.mod_eq_of_lt hi]
      simp only [Option.getD_some, this]
    · simp only [hg, Tensor.shape_tab2, ravel, numel, htot, Nat.mul_one, Nat.add_zero]
      have : o * (B * (I * L.n)) = o * (B * I / L.inFeatures * L.inFeatures * L.n) := by rw [hd2]; ring
      rw [this]
      ring
  rw [hperm]

end PwLayer

/-- `Basis.interpolate` and `BasisProd.interpolate` on tables of the given sizes, with broadcasting. -/
theorem PwLayer.interpolate_bcast (L : PwLayer ℝ) (hn : 0 < L.n) {B I J F O BB II : ℕ} (h1 : bcast B J = .ok BB) (h2 : bcast I F = .ok II) (f : ℕ → ℕ → ℝ) (wf : ℕ → ℕ → ℕ → ℕ → ℝ) :
    L.poly.interpolate (Tensor.tab2 B I f) (Tensor.tab4 J F O L.n wf)
      = .ok (Tensor.tab2 BB O fun b o => L.cls.combine II fun q => (linkPoly L.n (wf (bidx J b) (bidx F q) o)).eval (f (bidx B b) (bidx I q))) := by
  have key : ∀ b < BB, ∀ o < O, ∀ q < II, ∀ p < L.n, (Tensor.tab3 L.n B I fun j b i => (getLagrangeBasis L.n ((2 : ℕ) : ℝ)).call ((Tensor.tab2 B I f).get [b, i]) j).get [bidx L.n p, bidx B b, bidx I q]
      * (Tensor.tab4 J F O L.n wf).get [bidx J b, bidx F q, o, bidx L.n p] = (getLagrangeBasis L.n ((2 : ℕ) : ℝ)).call (f (bidx B b) (bidx I q)) p * wf (bidx J b) (bidx F q) o p := by
    intro b hb o ho q hq p hp
    obtain ⟨a1, a2⟩ := bidx_lt_both h1 hb
    obtain ⟨a3, a4⟩ := bidx_lt_both h2 hq
    rw [bidx_of_lt hp, Tensor.get_tab3 hp a1 a3, Tensor.get_tab2 a1 a3, Tensor.get_tab4 a2 a4 ho hp]
  have sum : L.cls = .continuous ∨ L.cls = .discontinuous → (Poly.mk .batch L.n (getLagrangeBasis L.n ((2 : ℕ) : ℝ))).interpolate (Tensor.tab2 B I f) (Tensor.tab4 J F O L.n wf)
      = .ok (Tensor.tab2 BB O fun b o => L.cls.combine II fun q => (linkPoly L.n (wf (bidx J b) (bidx F q) o)).eval (f (bidx B b) (bidx I q))) := by
    intro hc
    unfold Poly.interpolate
    rw [stackBasis_ok hn _ (B := B) (I := I) rfl]
    simp only [bind, Except.bind]
    unfold einsumBatch
    simp only [Tensor.shape_tab3, Tensor.shape_tab4, h1, h2, bcast_self, bind, Except.bind]
    congr 1
    apply tab2_congr
    intro b hb o ho
    rw [sumL_flatMap_range, Finset.sum_comm]
    have : L.cls.combine II (fun q => (linkPoly L.n (wf (bidx J b) (bidx F q) o)).eval (f (bidx B b) (bidx I q))) = ∑ q ∈ Finset.range II, (linkPoly L.n (wf (bidx J b) (bidx F q) o)).eval (f (bidx B b) (bidx I q)) := by
      rcases hc with hc | hc <;> rw [hc] <;> rfl
    rw [this]
    apply Finset.sum_congr rfl
    intro q hq
    rw [← sum_basis_call_two]
    apply Finset.sum_congr rfl
    intro p hp
    exact key b hb o ho q (Finset.mem_range.1 hq) p (Finset.mem_range.1 hp)
  have prod : L.cls = .continuousProd ∨ L.cls = .discontinuousProd → (Poly.mk (.batchProd 1) L.n (getLagrangeBasis L.n ((2 : ℕ) : ℝ))).interpolate (Tensor.tab2 B I f) (Tensor.tab4 J F O L.n wf)
      = .ok (Tensor.tab2 BB O fun b o => L.cls.combine II fun q => (linkPoly L.n (wf (bidx J b) (bidx F q) o)).eval (f (bidx B b) (bidx I q))) := by
    intro hc
    unfold Poly.interpolate
    rw [stackBasis_ok hn _ (B := B) (I := I) rfl]
    simp only [bind, Except.bind]
    unfold einsumBatchProd
    simp only [Tensor.shape_tab3, Tensor.shape_tab4, h1, h2, bcast_self, bind, Except.bind]
    unfold prodOut
    simp only [Tensor.shape_tab3]
    congr 1
    apply tab2_congr
    intro b hb o ho
    have : L.cls.combine II (fun q => (linkPoly L.n (wf (bidx J b) (bidx F q) o)).eval (f (bidx B b) (bidx I q))) = ∏ q ∈ Finset.range II, (1 + (linkPoly L.n (wf (bidx J b) (bidx F q) o)).eval (f (bidx B b) (bidx I q))) - 1 := by
      rcases hc with hc | hc <;> rw [hc] <;> rfl
    rw [this, prodL_range, sub_self, zero_mul, add_zero]
    congr 1
    apply Finset.prod_congr rfl
    intro q hq
    have hq' := Finset.mem_range.1 hq
    rw [Tensor.get_tab3 hb ho hq', sumL_range, ← sum_basis_call_two]
    congr 1
    apply Finset.sum_congr rfl
    intro p hp
    exact key b hb o ho q hq' p (Finset.mem_range.1 hp)
  unfold PwLayer.poly
  cases hc : L.cls
  · have e := sum (.inl hc)
    rw [hc] at e
    exact e
  · have e := prod (.inl hc)
    rw [hc] at e
    exact e
  · have e := sum (.inr hc)
    rw [hc] at e
    exact e
  · have e := prod (.inr hc)
    rw [hc] at e
    exact e

/-- If an axis cannot be broadcast, `interpolate` raises. -/
theorem PwLayer.interpolate_bcast_error (L : PwLayer K) (hn : 0 < L.n) {B I J F O : ℕ} (h : bcast B J = .error .runtimeError ∨ bcast I F = .error .runtimeError) (f : ℕ → ℕ → K) (wf : ℕ → ℕ → ℕ → ℕ → K) :
    L.poly.interpolate (Tensor.tab2 B I f) (Tensor.tab4 J F O L.n wf) = .error .runtimeError := by
  have e : ∀ {α : Type} (v : ℕ → ℕ → Py α), (do let jj ← bcast B J; let kk ← bcast I F; v jj kk) = .error .runtimeError := by
    intro α v
    rcases bcast_cases B J with ⟨c, hc, -⟩ | ⟨hc, -⟩
    · rcases h with h | h
      · rw [h] at hc; cases hc
      · rw [hc, h]; rfl
    · rw [hc]; rfl
  unfold PwLayer.poly
  cases L.cls <;> simp only [lagrangePoly, lagrangePolyProd, Poly.interpolate, stackBasis_ok hn _ (B := B) (I := I) (x := Tensor.tab2 B I f) rfl, bind, Except.bind, einsumBatch, einsumBatchProd, Tensor.shape_tab3, Tensor.shape_tab4]
  all_goals
    have := e fun jj kk => (.ok () : Py Unit)
    simp only [bind, Except.bind] at this
    revert this
    cases bcast B J <;> cases bcast I F <;> simp

/-- Otherwise it does not. -/
theorem PwLayer.interpolate_bcast_ok (L : PwLayer K) (hn : 0 < L.n) {B I J F O BB II : ℕ} (h1 : bcast B J = .ok BB) (h2 : bcast I F = .ok II) (f : ℕ → ℕ → K) (wf : ℕ → ℕ → ℕ → ℕ → K) :
    ∃ y, L.poly.interpolate (Tensor.tab2 B I f) (Tensor.tab4 J F O L.n wf) = .ok y := by
  unfold PwLayer.poly
  cases L.cls <;> simp only [lagrangePoly, lagrangePolyProd, Poly.interpolate, stackBasis_ok hn _ (B := B) (I := I) (x := Tensor.tab2 B I f) rfl, bind, Except.bind, einsumBatch, einsumBatchProd, Tensor.shape_tab3, Tensor.shape_tab4, h1, h2, bcast_self]
  · exact ⟨_, rfl⟩
  · exact ⟨_, rfl⟩
  · exact ⟨_, rfl⟩
  · exact ⟨_, rfl⟩

end HOL
