import Verif.Lemmas.Width
import Verif.Lemmas.Backward

/-! # Inputs whose width is not the number of input features (C102) -/

set_option linter.unusedSectionVars false

namespace HOL
open TorchScalar Spec

theorem width_cases (B I F : ℕ) (hB : 1 ≤ B) (hI : 1 ≤ I) (hF : 0 < F) :
    ((I = F ∨ (I = 1 ∧ B = F) ∨ (F = 1 ∧ B = 1)) → ∃ c d, B * I % F = 0 ∧ bcast B (B * I / F) = .ok c ∧ bcast I F = .ok d) ∧
    (¬(I = F ∨ (I = 1 ∧ B = F) ∨ (F = 1 ∧ B = 1)) → B * I % F = 0 → bcast B (B * I / F) = .error .runtimeError ∨ bcast I F = .error .runtimeError) := by
  constructor
  · rintro (rfl | ⟨rfl, rfl⟩ | ⟨rfl, rfl⟩)
    · exact ⟨B, I, by simp, by rw [Nat.mul_div_cancel _ hF]; simp, by simp⟩
    · exact ⟨B, B, by simp, by rw [Nat.mul_one, Nat.div_self hB]; simp, by simp⟩
    · exact ⟨I, I, by simp [Nat.mod_one], by rw [Nat.div_one, Nat.one_mul]; simp, by simp⟩
  · intro hc hd
    rcases bcast_cases I F with ⟨d, h2, -, h3⟩ | ⟨h2, -⟩
    · rcases bcast_cases B (B * I / F) with ⟨c, h4, -, h5⟩ | ⟨h4, -⟩
      · exfalso
        obtain ⟨J, hJ⟩ := Nat.dvd_of_mod_eq_zero hd
        rw [hJ, Nat.mul_div_cancel_left _ hF] at h5
        apply hc
        rcases h3 with h3 | h3 | h3
        · exact .inl h3
        · subst h3
          rw [Nat.mul_one] at hJ
          rcases h5 with h5 | h5 | h5
          · left
            rw [h5] at hJ
            have : F * J = 1 * J := by omega
            exact (Nat.eq_of_mul_eq_mul_right (by omega) this).symm
          · left
            rw [h5] at hJ
            exact (Nat.eq_one_of_mul_eq_one_right hJ.symm).symm
          · right; left
            rw [h5, Nat.mul_one] at hJ
            exact ⟨rfl, hJ⟩
        · subst h3
          rw [Nat.one_mul] at hJ
          rcases h5 with h5 | h5 | h5
          · left
            rw [← h5] at hJ
            exact Nat.eq_of_mul_eq_mul_left hB (by omega)
          · exact .inr (.inr ⟨rfl, h5⟩)
          · left
            rw [h5] at hJ
            exact Nat.eq_one_of_mul_eq_one_left hJ
      · exact .inl h4
    · exact .inr h2

/-- **C102 (piecewise).** Which shapes the piecewise layers take: besides batches of the right width, a batch of `in_features` samples of width 1, and a single sample of any width if
`in_features` is 1. Everything else is a RuntimeError. For every scalar type. -/
theorem C102_piecewise_shapes {K : Type} [TorchScalar K] (L : PwLayer K) (h : L.WF) (x : Tensor K) (hx : x.WF) :
    (∀ B I, x.shape = [B, I] → 1 ≤ B → 1 ≤ I → (I = L.inFeatures ∨ (I = 1 ∧ B = L.inFeatures) ∨ (L.inFeatures = 1 ∧ B = 1)) → ∃ y, L.forward x = .ok y) ∧
    (∀ B I, x.shape = [B, I] → 1 ≤ B → 1 ≤ I → ¬(I = L.inFeatures ∨ (I = 1 ∧ B = L.inFeatures) ∨ (L.inFeatures = 1 ∧ B = 1)) → L.forward x = .error .runtimeError) ∧
    (x.shape.length ≠ 2 → L.forward x = .error .runtimeError) := by
  refine ⟨fun B I hs hB hI hc => ?_, fun B I hs hB hI hc => ?_, fun hr => ?_⟩
  · obtain ⟨c, d, h0, h1, h2⟩ := (width_cases B I L.inFeatures hB hI h.in_pos).1 hc
    rw [L.forward_any h hs hx, if_pos h0]
    exact L.interpolate_bcast_ok h.n_pos h1 h2 _ _
  · rw [L.forward_any h hs hx]
    split
    · exact L.interpolate_bcast_error h.n_pos ((width_cases B I L.inFeatures hB hI h.in_pos).2 hc ‹_›) _ _
    · rfl
  · unfold PwLayer.forward
    split
    · next e => rw [e] at hr; exact absurd rfl hr
    · rfl

/-- **C102 (piecewise, samples of width 1).** A batch of `in_features` samples of width 1 is accepted and the samples are mixed: row `b` evaluates, at the local coordinate of sample `b`, for
each feature `k` the piece of the segment that holds sample `k`. -/
theorem C102_piecewise_mixes (L : PwLayer ℝ) (h : L.WF) (hl : L.length = 2) (hp : L.periodicity = none) (x : Tensor ℝ) (hx : x.WF) (hs : x.shape = [L.inFeatures, 1]) :
    ∃ y, L.forward x = .ok y ∧ y.shape = [L.inFeatures, L.outFeatures] ∧ ∀ s : ℕ → ℕ, (∀ k < L.inFeatures, IsActive L.segments (s k) (x.get [k, 0])) →
      ∀ b < L.inFeatures, ∀ o < L.outFeatures, y.get [b, o] =
        L.cls.combine L.inFeatures fun k => (linkPoly L.n fun j => L.w.get [o, k, s k * L.stride + j]).eval (localCoord L.segments (s b) (x.get [b, 0])) := by
  have hin := h.in_pos
  have hdiv : L.inFeatures * 1 / L.inFeatures = 1 := by rw [Nat.mul_one]; exact Nat.div_self hin
  have hf := L.forward_any h hs hx
  rw [if_pos (by simp), hdiv, PwLayer.dealtW, L.interpolate_bcast h.n_pos (bcast_one_right _) (bcast_one_left _)] at hf
  refine ⟨_, hf, rfl, fun s hsg b hb o ho => ?_⟩
  rw [Tensor.get_tab2 hb ho]
  apply PwClass.combine_congr
  intro k hk
  have hseg : ∀ k < L.inFeatures, L.seg (x.get [k, 0]) = s k := by
    intro k hk
    have := L.isActive_seg h.seg_pos hl (x.get [k, 0])
    rw [hp] at this
    exact isActive_unique this (hsg k hk)
  have hbi : bidx L.inFeatures b = b := bidx_of_lt hb
  have hbk : bidx L.inFeatures k = k := bidx_of_lt hk
  have h1 : bidx 1 b = 0 := by simp [bidx]
  have h1k : bidx 1 k = 0 := by simp [bidx]
  have hx1 : L.xIn (x.get [b, 0]) = localCoord L.segments (s b) (x.get [b, 0]) := by
    unfold PwLayer.xIn
    rw [L.whichSegment_eq_seg h.seg_pos, L.xLocal_real h.seg_pos hl, hseg b hb, hp]
    rfl
  simp only [hbi, hbk, h1, h1k, hx1, Nat.zero_mul, Nat.zero_add, Nat.div_one, Nat.mod_one, hseg k hk]

/-- **C102 (piecewise, one feature).** With one input feature a single sample of any width `I` is accepted and gives `I` rows: row `b` evaluates the piece of the segment of entry `b` at the local
coordinates of all entries. -/
theorem C102_piecewise_spreads (L : PwLayer ℝ) (h : L.WF) (hl : L.length = 2) (hp : L.periodicity = none) (hF : L.inFeatures = 1) (I : ℕ) (hI : 1 ≤ I) (x : Tensor ℝ) (hx : x.WF)
    (hs : x.shape = [1, I]) :
    ∃ y, L.forward x = .ok y ∧ y.shape = [I, L.outFeatures] ∧ ∀ s : ℕ → ℕ, (∀ k < I, IsActive L.segments (s k) (x.get [0, k])) →
      ∀ b < I, ∀ o < L.outFeatures, y.get [b, o] =
        L.cls.combine I fun k => (linkPoly L.n fun j => L.w.get [o, 0, s b * L.stride + j]).eval (localCoord L.segments (s k) (x.get [0, k])) := by
  have hf := L.forward_any h hs hx
  rw [hF, if_pos (Nat.mod_one _), Nat.div_one, Nat.one_mul, PwLayer.dealtW, hF, L.interpolate_bcast h.n_pos (bcast_one_left _) (bcast_one_right _)] at hf
  refine ⟨_, hf, rfl, fun s hsg b hb o ho => ?_⟩
  rw [Tensor.get_tab2 hb ho]
  apply PwClass.combine_congr
  intro k hk
  have hseg : ∀ k < I, L.seg (x.get [0, k]) = s k := by
    intro k hk
    have := L.isActive_seg h.seg_pos hl (x.get [0, k])
    rw [hp] at this
    exact isActive_unique this (hsg k hk)
  have hx1 : L.xIn (x.get [0, k]) = localCoord L.segments (s k) (x.get [0, k]) := by
    unfold PwLayer.xIn
    rw [L.whichSegment_eq_seg h.seg_pos, L.xLocal_real h.seg_pos hl, hseg k hk, hp]
    rfl
  have hbi : bidx I b = b := bidx_of_lt hb
  have hbk : bidx I k = k := bidx_of_lt hk
  have h1 : bidx 1 b = 0 := by simp [bidx]
  have h1k : bidx 1 k = 0 := by simp [bidx]
  simp only [hbi, hbk, h1, h1k, hx1, Nat.mul_one, Nat.add_zero, Nat.div_eq_of_lt hb, Nat.mod_eq_of_lt hb, hseg b hb]

/-- A layer with two input features: the first link is 0, the second 0 left of 0 and 1 right of 0. -/
noncomputable def pairLayer : PwLayer ℝ :=
  { cls := .discontinuous, n := 1, segments := 2, inFeatures := 2, outFeatures := 1, length := 2, periodicity := none, w := Tensor.tab3 1 2 2 fun _ i r => ((i * r : ℕ) : ℝ) }

theorem pairLayer_wf : pairLayer.WF :=
  ⟨by norm_num [pairLayer], by norm_num [pairLayer], by norm_num [pairLayer], by norm_num [pairLayer], rfl, Tensor.wf_tabulate _ _⟩

theorem pairLayer_forward (a t : ℝ) (s : ℕ → ℕ) (h0 : IsActive 2 (s 0) a) (h1 : IsActive 2 (s 1) t) :
    ∃ y, pairLayer.forward (Tensor.tab2 2 1 fun b _ => if b = 0 then a else t) = .ok y ∧ y.get [0, 0] = s 1 := by
  obtain ⟨y, y1, -, y3⟩ := C102_piecewise_mixes pairLayer pairLayer_wf rfl rfl (Tensor.tab2 2 1 fun b _ => if b = 0 then a else t) (Tensor.wf_tabulate _ _) rfl
  refine ⟨y, y1, ?_⟩
  have hs0 : s 0 < 2 := h0.1
  have hs1 : s 1 < 2 := h1.1
  rw [y3 s ?_ 0 (by show 0 < 2; norm_num) 0 (by show 0 < 1; norm_num)]
  · show ∑ k ∈ Finset.range 2, (linkPoly 1 fun j => (Tensor.tab3 1 2 2 fun _ i r => ((i * r : ℕ) : ℝ)).get [0, k, s k * 1 + j]).eval _ = _
    rw [Finset.sum_range_succ, Finset.sum_range_one, linkPoly_one_eval, linkPoly_one_eval, Tensor.get_tab3 (by norm_num) (by norm_num) (by omega),
      Tensor.get_tab3 (by norm_num) (by norm_num) (by omega)]
    simp
  · intro k hk
    have hk' : k < 2 := hk
    rw [Tensor.get_tab2 hk' (by norm_num)]
    rcases (by omega : k = 0 ∨ k = 1) with rfl | rfl
    · exact h0
    · exact h1

/-- **C102 (counterexample).** So on samples of width 1 the outputs of a sample depend on the other samples: the first row changes from 0 to 1 when only the second sample changes. -/
theorem C102_samples_interact : ∃ L : PwLayer ℝ, L.WF ∧ ∃ x x' y y' : Tensor ℝ, x.shape = [2, 1] ∧ x'.shape = [2, 1] ∧ x.get [0, 0] = x'.get [0, 0] ∧
    L.forward x = .ok y ∧ L.forward x' = .ok y' ∧ y.get [0, 0] = 0 ∧ y'.get [0, 0] = 1 := by
  obtain ⟨y, y1, y2⟩ := pairLayer_forward (-1 / 2) (-1 / 2) (fun _ => 0) ⟨by norm_num, .inl rfl, .inr (by norm_num [segLeft])⟩ ⟨by norm_num, .inl rfl, .inr (by norm_num [segLeft])⟩
  obtain ⟨y', y1', y2'⟩ := pairLayer_forward (-1 / 2) (1 / 2) (fun k => k) ⟨by norm_num, .inl rfl, .inr (by norm_num [segLeft])⟩ ⟨by norm_num, .inr (by norm_num [segLeft]), .inl rfl⟩
  refine ⟨pairLayer, pairLayer_wf, _, _, y, y', rfl, rfl, ?_, y1, y1', by simpa using y2, by simpa using y2'⟩
  rw [Tensor.get_tab2 (by norm_num) (by norm_num), Tensor.get_tab2 (by norm_num) (by norm_num)]
  simp

theorem bidx_min {a c i : ℕ} (hi : i < c) (h : a = c ∨ a = 1) : bidx a i = min i (a - 1) := by
  unfold bidx
  split <;> omega

/-- **C102 (polynomial, Fourier).** The layers with one piece take width 1, sent to every feature, and with one feature any width, whose entries all use the link functions of this feature;
other widths and ranks are a RuntimeError. -/
theorem C102_flat (L : FnLayer ℝ) (h : L.Fits) (hF : 1 ≤ L.inFeatures) (x : Tensor ℝ) (hx : x.WF) :
    (∀ B I, x.shape = [B, I] → 1 ≤ I → (I = L.inFeatures ∨ I = 1 ∨ L.inFeatures = 1) →
      ∃ y, L.forward x = .ok y ∧ y.shape = [B, L.outFeatures] ∧ ∀ b < B, ∀ o < L.outFeatures, y.get [b, o] =
        ∑ k ∈ Finset.range (max I L.inFeatures), ∑ p ∈ Finset.range L.poly.n,
          L.poly.basis.call (periodize L.periodicity (x.get [b, min k (I - 1)])) p * L.w.get [o, min k (L.inFeatures - 1), p]) ∧
    (∀ B I, x.shape = [B, I] → ¬(I = L.inFeatures ∨ I = 1 ∨ L.inFeatures = 1) → L.forward x = .error .runtimeError) ∧
    (x.shape.length ≠ 2 → L.forward x = .error .runtimeError) := by
  have hin : ∀ {B I}, x.shape = [B, I] → ∀ b < B, ∀ i < I, (x.map (periodize L.periodicity)).get [b, i] = periodize L.periodicity (x.get [b, i]) := by
    intro B I hs b hb i hi
    exact Tensor.get_map hx (by rw [hs]; exact inShape2.2 ⟨hb, hi⟩)
  have hfw : ∀ {B I}, x.shape = [B, I] → L.forward x = einsumFlat (Tensor.tab3 L.poly.n B I fun j b i => L.poly.basis.call ((x.map (periodize L.periodicity)).get [b, i]) j) L.w := by
    intro B I hs
    unfold FnLayer.forward Poly.interpolate
    rw [stackBasis_ok h.n_pos L.poly.basis (x := x.map (periodize L.periodicity)) hs, h.flat]
    rfl
  refine ⟨fun B I hs hI hc => ?_, fun B I hs hc => ?_, fun hr => ?_⟩
  · have hb : bcast I L.inFeatures = .ok (max I L.inFeatures) := by
      rcases hc with hc | hc | hc
      · rw [hc]; simp
      · rw [hc, bcast_one_left]; congr 1; omega
      · rw [hc, bcast_one_right]; congr 1; omega
    have hf := hfw hs
    unfold einsumFlat at hf
    simp only [Tensor.shape_tab3, h.w_shape, hb, bcast_self, bind, Except.bind] at hf
    refine ⟨_, hf, rfl, fun b hb' o ho => ?_⟩
    rw [Tensor.get_tab2 hb' ho, sumL_flatMap_range, Finset.sum_comm]
    apply Finset.sum_congr rfl
    intro k hk
    apply Finset.sum_congr rfl
    intro p hp
    have hk' := Finset.mem_range.1 hk
    have hp' := Finset.mem_range.1 hp
    obtain ⟨a1, a2⟩ := bidx_lt_both hb hk'
    rw [bidx_of_lt hp', Tensor.get_tab3 hp' hb' a1, hin hs b hb' _ a1, bidx_min hk' (by omega), bidx_min hk' (a := L.inFeatures) (by omega)]
  · rw [hfw hs]
    unfold einsumFlat
    simp only [Tensor.shape_tab3, h.w_shape]
    rcases bcast_cases I L.inFeatures with ⟨c, -, -, e⟩ | ⟨e, -⟩
    · exact absurd e hc
    · rw [e]; rfl
  · unfold FnLayer.forward Poly.interpolate stackBasis
    rw [if_neg (by have := h.n_pos; omega), h.flat]
    simp only [bind, Except.bind]
    unfold einsumFlat
    split
    · next e _ =>
      exfalso
      apply hr
      have : (L.poly.n :: x.shape).length = 3 := by
        have e2 := congrArg List.length e
        simpa using e2
      simpa using this
    · rfl

/-- **C102 (Product).** The product layer behaves in the same way. -/
theorem C102_product (L : ProductLayer ℝ) (bias : Tensor ℝ) (hbias : L.bias = some bias) (hw : L.weight.shape = [L.outFeatures, L.inFeatures]) (hF : 1 ≤ L.inFeatures)
    (x : Tensor ℝ) (hx : x.WF) :
    (∀ B I, x.shape = [B, I] → 1 ≤ I → (I = L.inFeatures ∨ I = 1 ∨ L.inFeatures = 1) →
      ∃ y, L.forward x = .ok y ∧ y.shape = [B, L.outFeatures] ∧ ∀ b < B, ∀ o < L.outFeatures, y.get [b, o] =
        ∏ k ∈ Finset.range (max I L.inFeatures), (periodize L.periodicity (x.get [b, min k (I - 1)]) * L.weight.get [o, min k (L.inFeatures - 1)] + 1)
        - (1 - L.alpha) * ∑ k ∈ Finset.range (max I L.inFeatures), periodize L.periodicity (x.get [b, min k (I - 1)]) * L.weight.get [o, min k (L.inFeatures - 1)] - 1 + bias.get [o]) ∧
    (∀ B I, x.shape = [B, I] → ¬(I = L.inFeatures ∨ I = 1 ∨ L.inFeatures = 1) → L.forward x = .error .runtimeError) ∧
    (x.shape.length ≠ 2 → L.forward x = .error .runtimeError) := by
  refine ⟨fun B I hs hI hc => ?_, fun B I hs hc => ?_, fun hr => ?_⟩
  · have hb : bcast I L.inFeatures = .ok (max I L.inFeatures) := by
      rcases hc with hc | hc | hc
      · rw [hc]; simp
      · rw [hc, bcast_one_left]; congr 1; omega
      · rw [hc, bcast_one_right]; congr 1; omega
    have hf : L.forward x = L.forward x := rfl
    conv_rhs at hf => unfold ProductLayer.forward einsumOuter
    simp only [Tensor.shape_map, hs, hw, hb, hbias, bind, Except.bind] at hf
    refine ⟨_, hf, rfl, fun b hb' o ho => ?_⟩
    have key : ∀ k < max I L.inFeatures, (Tensor.tab3 B (max I L.inFeatures) L.outFeatures fun b q o =>
        (x.map (periodize L.periodicity)).get [b, bidx I q] * L.weight.get [o, bidx L.inFeatures q]).get [b, k, o] =
        periodize L.periodicity (x.get [b, min k (I - 1)]) * L.weight.get [o, min k (L.inFeatures - 1)] := by
      intro k hk
      obtain ⟨a1, a2⟩ := bidx_lt_both hb hk
      rw [Tensor.get_tab3 hb' hk ho, Tensor.get_map hx (by rw [hs]; exact inShape2.2 ⟨hb', a1⟩), bidx_min hk (by omega), bidx_min hk (a := L.inFeatures) (by omega)]
    have key' : ∀ k < max I L.inFeatures, ((Tensor.tab3 B (max I L.inFeatures) L.outFeatures fun b q o =>
        (x.map (periodize L.periodicity)).get [b, bidx I q] * L.weight.get [o, bidx L.inFeatures q]).map (· + 1)).get [b, k, o] =
        periodize L.periodicity (x.get [b, min k (I - 1)]) * L.weight.get [o, min k (L.inFeatures - 1)] + 1 := by
      intro k hk
      rw [Tensor.get_map (Tensor.wf_tab3 _ _ _ _) (inShape3.2 ⟨hb', hk, ho⟩), key k hk]
    rw [Tensor.get_tab2 hb' ho, Tensor.get_tab2 hb' ho, Tensor.get_tab2 hb' ho, prodL_range, sumL_range]
    rw [Finset.prod_congr rfl fun k hk => key' k (Finset.mem_range.1 hk), Finset.sum_congr rfl fun k hk => key k (Finset.mem_range.1 hk)]
  · unfold ProductLayer.forward einsumOuter
    simp only [Tensor.shape_map, hs, hw]
    rcases bcast_cases I L.inFeatures with ⟨c, -, -, e⟩ | ⟨e, -⟩
    · exact absurd e hc
    · rw [e]; rfl
  · unfold ProductLayer.forward einsumOuter
    simp only [Tensor.shape_map, hw]
    split
    · next e _ => rw [e] at hr; exact absurd rfl hr
    · rfl

/-- Three features, two samples of width 1: a polynomial layer sends each to all features. -/
example (w : Tensor ℝ) (hw : w.shape = [1, 3, 2]) (hwf : w.WF) (t : ℝ) :
    ∃ y, (⟨lagrangePolyFlat 2 ((2 : ℕ) : ℝ), 3, 1, none, w⟩ : FnLayer ℝ).forward (Tensor.tab2 2 1 fun _ _ => t) = .ok y ∧ y.shape = [2, 1] := by
  obtain ⟨y, y1, y2, -⟩ := (C102_flat ⟨lagrangePolyFlat 2 ((2 : ℕ) : ℝ), 3, 1, none, w⟩ ⟨rfl, by show 0 < 2; norm_num, hw, hwf, by simp⟩ (by show 1 ≤ 3; norm_num)
    (Tensor.tab2 2 1 fun _ _ => t) (Tensor.wf_tabulate _ _)).1 2 1 rfl le_rfl (.inr (.inl rfl))
  exact ⟨y, y1, y2⟩

/-- The same batch is rejected by a piecewise layer with three features, one of three samples is not. -/
example (L : PwLayer ℝ) (h : L.WF) (h3 : L.inFeatures = 3) (t : ℝ) :
    L.forward (Tensor.tab2 2 1 fun _ _ => t) = .error .runtimeError ∧ ∃ y, L.forward (Tensor.tab2 3 1 fun _ _ => t) = .ok y :=
  ⟨(C102_piecewise_shapes L h _ (Tensor.wf_tabulate _ _)).2.1 2 1 rfl (by norm_num) (by norm_num) (by omega),
    (C102_piecewise_shapes L h _ (Tensor.wf_tabulate _ _)).1 3 1 rfl (by norm_num) (by norm_num) (by omega)⟩

end HOL
