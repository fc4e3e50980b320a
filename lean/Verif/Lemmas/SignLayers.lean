import Verif.Lemmas.Signs

/-! # Lemmas for C135: layers and normalizations -/

namespace HOL
open TorchScalar Spec

/-- `f'` computes what `f` computes, when inputs have signs `σ` and outputs signs `ρ`. -/
def Answers (f f' : Fwd ℝ) (σ ρ : ℕ → Bool) (B I O : ℕ) : Prop :=
  ∀ x : Tensor ℝ, x.shape = [B, I] → x.WF → ∃ y, f x = .ok y ∧ y.shape = [B, O] ∧ y.WF ∧ f' (signed σ x) = .ok (signed ρ y)

theorem answer_of {f f' : Fwd ℝ} {σ ρ : ℕ → Bool} {B I O : ℕ} (F F' : Tensor ℝ → ℕ → ℕ → ℝ) {x : Tensor ℝ} (hx : x.shape = [B, I]) (hwx : x.WF)
    (h1 : ∀ x : Tensor ℝ, x.shape = [B, I] → x.WF → f x = .ok (Tensor.tab2 B O (F x))) (h2 : ∀ x : Tensor ℝ, x.shape = [B, I] → x.WF → f' x = .ok (Tensor.tab2 B O (F' x)))
    (h3 : ∀ b < B, ∀ o < O, F' (signed σ x) b o = sg (ρ o) * F x b o) : ∃ y, f x = .ok y ∧ y.shape = [B, O] ∧ y.WF ∧ f' (signed σ x) = .ok (signed ρ y) := by
  refine ⟨_, h1 x hx hwx, rfl, Tensor.wf_tab2 _ _ _, ?_⟩
  rw [h2 (signed σ x) hx (signed_wf _ _), signed_tab2]
  congr 1
  exact tab2_congr h3

theorem wSize_eq {cls : PwClass} {n S : ℕ} (hn : 0 < n) (hS : 0 < S) : PwLayer.wSize cls n S = (S - 1) * (if cls.shared then n - 1 else n) + n := by
  obtain ⟨t, rfl⟩ := Nat.exists_eq_succ_of_ne_zero hS.ne'
  obtain ⟨m, rfl⟩ := Nat.exists_eq_succ_of_ne_zero hn.ne'
  unfold PwLayer.wSize
  split <;> simp only [Nat.succ_eq_add_one, Nat.add_sub_cancel] <;> ring

/-- One link. -/
theorem linkFn_sign {L : PwLayer ℝ} (h : L.WF) (hl : L.length = 2) (hp : ∀ p, L.periodicity = some p → 0 < p) {σ ρ : ℕ → Bool} {o i : ℕ} (ho : o < L.outFeatures) (hi : i < L.inFeatures) (v : ℝ)
    (hv : L.cls.shared = true ∨ (σ i = true → OffEnds L.segments (periodize L.periodicity v))) :
    ({ L with w := signLinks σ ρ L.w } : PwLayer ℝ).linkFn o i (sg (σ i) * v) = sg (ρ o) * L.linkFn o i v := by
  have hsc : ∀ (c : ℝ) (u : ℕ → ℝ) (t : ℝ), (linkPoly L.n fun k => c * u k).eval t = c * (linkPoly L.n u).eval t := by
    intro c u t
    rw [← sum_basis_call_two, ← sum_basis_call_two, Finset.mul_sum]
    exact Finset.sum_congr rfl fun p _ => by ring
  have hsize := wSize_eq (cls := L.cls) h.n_pos h.seg_pos
  cases hσ : σ i with
  | false =>
    rw [sg_false, one_mul]
    show (linkPoly L.n fun k => (signLinks σ ρ L.w).get [o, i, L.seg v * L.stride + k]).eval (L.xIn v) = sg (ρ o) * (linkPoly L.n fun k => L.w.get [o, i, L.seg v * L.stride + k]).eval (L.xIn v)
    rw [← hsc]
    refine congrArg (Polynomial.eval (L.xIn v)) (linkPoly_congr fun k hk => ?_)
    rw [signLinks_get h.w_shape ho hi (L.widx_lt h.n_pos (L.seg_lt h.seg_pos _) hk), hσ]
    rfl
  | true =>
    rw [PwLayer.linkFn_periodic, PwLayer.linkFn_periodic L]
    show PwLayer.linkFn (PwLayer.noPeriod { L with w := signLinks σ ρ L.w }) o i (periodize L.periodicity (sg true * v)) = _
    rw [periodize_sg hp, sg_true, neg_one_mul]
    have f1 := L.noPeriod.linkFn_isPiecewise h.seg_pos hl rfl o i
    have f2 := (PwLayer.noPeriod { L with w := signLinks σ ρ L.w }).linkFn_isPiecewise h.seg_pos hl rfl o i
    have hst : L.noPeriod.stride = if L.cls.shared then L.n - 1 else L.n := rfl
    -- the link without the sign of the output
    have f3 : IsPiecewisePoly L.n L.segments L.stride (fun q => L.w.get [o, i, PwLayer.wSize L.cls L.n L.segments - 1 - q])
        (fun x => sg (ρ o) * (PwLayer.noPeriod { L with w := signLinks σ ρ L.w }).linkFn o i x) := by
      intro s x hs
      have e := f2 s x hs
      beta_reduce
      rw [e]
      show sg (ρ o) * (linkPoly L.n fun k => (signLinks σ ρ L.w).get [o, i, s * L.stride + k]).eval (localCoord L.segments s x) = _
      rw [← hsc]
      refine congrArg (Polynomial.eval _) (linkPoly_congr fun k hk => ?_)
      rw [signLinks_get h.w_shape ho hi (L.widx_lt h.n_pos hs.1 hk), hσ, ← mul_assoc, sg_mul_self, one_mul]
      rfl
    have f4 := piecewise_reflect (x := periodize L.periodicity v) h.n_pos h.seg_pos hsize (v := fun q => L.w.get [o, i, q]) f1 f3 (by
      rcases hv with hv | hv
      · left
        show L.stride = _
        unfold PwLayer.stride
        rw [hv]; rfl
      · exact Or.inr (hv hσ))
    beta_reduce at f4
    rw [← f4, ← mul_assoc, sg_mul_self, one_mul]

theorem pw_sum_answer {L : PwLayer ℝ} (h : L.WF) (hc : L.cls = .continuous ∨ L.cls = .discontinuous) (hl : L.length = 2) (hp : ∀ p, L.periodicity = some p → 0 < p) (σ ρ : ℕ → Bool) {B : ℕ} {x : Tensor ℝ}
    (hx : x.shape = [B, L.inFeatures]) (hwx : x.WF) (hv : L.cls.shared = true ∨ ∀ b < B, ∀ i < L.inFeatures, σ i = true → OffEnds L.segments (periodize L.periodicity (x.get [b, i]))) :
    ∃ y, L.forward x = .ok y ∧ y.shape = [B, L.outFeatures] ∧ y.WF ∧ ({ L with w := signLinks σ ρ L.w } : PwLayer ℝ).forward (signed σ x) = .ok (signed ρ y) := by
  have h' : ({ L with w := signLinks σ ρ L.w } : PwLayer ℝ).WF := h.withW rfl (signLinks_wf _ _ _)
  refine answer_of _ _ hx hwx (fun x hx hwx => L.forward_sum h hc hx hwx) (fun x hx hwx => PwLayer.forward_sum _ h' hc hx hwx) fun b hb o ho => ?_
  rw [Finset.mul_sum]
  refine Finset.sum_congr rfl fun i hi => ?_
  have hi := Finset.mem_range.1 hi
  rw [signed_get hx hb hi]
  exact linkFn_sign h hl hp ho hi _ (hv.imp id fun hv => hv b hb i hi)

theorem pw_prod_answer {L : PwLayer ℝ} (h : L.WF) (hc : L.cls = .continuousProd ∨ L.cls = .discontinuousProd) (hl : L.length = 2) (hp : ∀ p, L.periodicity = some p → 0 < p) (σ : ℕ → Bool) {B : ℕ} {x : Tensor ℝ}
    (hx : x.shape = [B, L.inFeatures]) (hwx : x.WF) (hv : L.cls.shared = true ∨ ∀ b < B, ∀ i < L.inFeatures, σ i = true → OffEnds L.segments (periodize L.periodicity (x.get [b, i]))) :
    ∃ y, L.forward x = .ok y ∧ y.shape = [B, L.outFeatures] ∧ y.WF ∧ ({ L with w := signLinks σ (fun _ => false) L.w } : PwLayer ℝ).forward (signed σ x) = .ok (signed (fun _ => false) y) := by
  have h' : ({ L with w := signLinks σ (fun _ => false) L.w } : PwLayer ℝ).WF := h.withW rfl (signLinks_wf _ _ _)
  refine answer_of _ _ hx hwx (fun x hx hwx => L.forward_prod h hc hx hwx) (fun x hx hwx => PwLayer.forward_prod _ h' hc hx hwx) fun b hb o ho => ?_
  rw [sg_false, one_mul]
  congr 1
  refine Finset.prod_congr rfl fun i hi => ?_
  have hi := Finset.mem_range.1 hi
  rw [signed_get hx hb hi]
  refine congrArg (1 + ·) ?_
  exact (linkFn_sign h hl hp ho hi _ (hv.imp id fun hv => hv b hb i hi)).trans (one_mul _)

theorem lagrange_ne_fourier (n : ℕ) (len c : ℝ) : getLagrangeBasis n len ≠ .fourier c := by
  unfold getLagrangeBasis
  split <;> exact fun h => nomatch h

theorem fn_lagrange_answers {L : FnLayer ℝ} (h : L.Fits) {len : ℝ} (hb : L.poly.basis = getLagrangeBasis L.poly.n len) (σ ρ : ℕ → Bool) (B : ℕ) :
    Answers L.forward ({ L with w := signLinks σ ρ L.w } : FnLayer ℝ).forward σ ρ B L.inFeatures L.outFeatures := by
  intro x hx hwx
  have h' : ({ L with w := signLinks σ ρ L.w } : FnLayer ℝ).Fits := h.withW rfl (signLinks_wf _ _ _)
  refine answer_of _ _ hx hwx (fun x hx hwx => fn_forward L h hx hwx) (fun x hx hwx => fn_forward _ h' hx hwx) fun b hbB o ho => ?_
  rw [Finset.mul_sum]
  refine Finset.sum_congr rfl fun i hi => ?_
  have hi := Finset.mem_range.1 hi
  show ∑ p ∈ Finset.range L.poly.n, L.poly.basis.call (periodize L.periodicity ((signed σ x).get [b, i])) p * (signLinks σ ρ L.w).get [o, i, p] = _
  rw [signed_get hx hbB hi, periodize_sg h.per, hb]
  have e : ∀ p ∈ Finset.range L.poly.n, (getLagrangeBasis L.poly.n len).call (sg (σ i) * periodize L.periodicity (x.get [b, i])) p * (signLinks σ ρ L.w).get [o, i, p] =
      sg (ρ o) * ((getLagrangeBasis L.poly.n len).call (sg (σ i) * periodize L.periodicity (x.get [b, i])) p * L.w.get [o, i, inverted (σ i) L.poly.n p]) := by
    intro p hp
    rw [signLinks_get h.w_shape ho hi (Finset.mem_range.1 hp)]
    ring
  rw [Finset.sum_congr rfl e, ← Finset.mul_sum]
  congr 1
  cases hσ : σ i with
  | false =>
    rw [sg_false, one_mul]
    rfl
  | true =>
    rw [sg_true, neg_one_mul]
    exact lagrange_reflect _ _ _ fun p => L.w.get [o, i, p]

theorem fn_fourier_answers {L : FnLayer ℝ} (h : L.Fits) {len : ℝ} (hb : L.poly.basis = .fourier len) (σ ρ : ℕ → Bool) (B : ℕ) :
    Answers L.forward ({ L with w := signSeries σ ρ L.w } : FnLayer ℝ).forward σ ρ B L.inFeatures L.outFeatures := by
  intro x hx hwx
  have h' : ({ L with w := signSeries σ ρ L.w } : FnLayer ℝ).Fits := h.withW rfl (signSeries_wf _ _ _)
  refine answer_of _ _ hx hwx (fun x hx hwx => fn_forward L h hx hwx) (fun x hx hwx => fn_forward _ h' hx hwx) fun b hbB o ho => ?_
  rw [Finset.mul_sum]
  refine Finset.sum_congr rfl fun i hi => ?_
  have hi := Finset.mem_range.1 hi
  rw [Finset.mul_sum]
  refine Finset.sum_congr rfl fun p hp => ?_
  show L.poly.basis.call (periodize L.periodicity ((signed σ x).get [b, i])) p * (signSeries σ ρ L.w).get [o, i, p] = _
  rw [signed_get hx hbB hi, periodize_sg h.per, hb, signSeries_get h.w_shape ho hi (Finset.mem_range.1 hp)]
  have e : fourierCall len (sg (σ i) * periodize L.periodicity (x.get [b, i])) p = sg (σ i && (p % 2 == 1)) * fourierCall len (periodize L.periodicity (x.get [b, i])) p := by
    cases σ i with
    | false => rw [sg_false, one_mul, Bool.false_and, sg_false, one_mul]
    | true => rw [sg_true, neg_one_mul, fourier_reflect, Bool.true_and]
  show fourierCall len _ p * _ = sg (ρ o) * (fourierCall len _ p * _)
  rw [e]
  calc _ = (sg (σ i && (p % 2 == 1)) * sg (σ i && (p % 2 == 1))) * (sg (ρ o) * (fourierCall len (periodize L.periodicity (x.get [b, i])) p * L.w.get [o, i, p])) := by ring
    _ = _ := by rw [sg_mul_self, one_mul]

theorem product_answers {L : ProductLayer ℝ} (h : L.Fits) (σ : ℕ → Bool) (B : ℕ) :
    Answers L.forward ({ L with weight := signMatrix σ (fun _ => false) L.weight, bias := L.bias.map (signOut fun _ => false) } : ProductLayer ℝ).forward σ (fun _ => false) B L.inFeatures L.outFeatures := by
  intro x hx hwx
  obtain ⟨bias, hb, hbs, hbw⟩ := h.bias
  refine answer_of _ _ hx hwx (fun x hx hwx => L.forward_eq bias hb h.w_shape hx hwx)
    (fun x hx hwx => ProductLayer.forward_eq { L with weight := signMatrix σ (fun _ => false) L.weight, bias := L.bias.map (signOut fun _ => false) } (signOut (fun _ => false) bias) (by rw [hb]; rfl) h.w_shape hx hwx) fun b hbB o ho => ?_
  rw [prodL_range, prodL_range, sumL_range, sumL_range, signOut_get hbs ho, sg_false, one_mul, one_mul]
  have e : ∀ i < L.inFeatures, periodize L.periodicity ((signed σ x).get [b, i]) * (signMatrix σ (fun _ => false) L.weight).get [o, i] = periodize L.periodicity (x.get [b, i]) * L.weight.get [o, i] := fun i hi => by
    rw [signMatrix_get h.w_shape ho hi, signed_get hx hbB hi, periodize_sg h.per, sg_false, one_mul]
    calc _ = (sg (σ i) * sg (σ i)) * (periodize L.periodicity (x.get [b, i]) * L.weight.get [o, i]) := by ring
      _ = _ := by rw [sg_mul_self, one_mul]
  rw [Finset.sum_congr rfl fun i hi => e i (Finset.mem_range.1 hi), Finset.prod_congr rfl fun i hi => congrArg (· + 1) (e i (Finset.mem_range.1 hi))]

theorem linear_answers {w b : Tensor ℝ} {I O : ℕ} (hw : w.shape = [O, I]) (hb : b.shape = [O]) (σ ρ : ℕ → Bool) (B : ℕ) :
    Answers (linearForward w b) (linearForward (signMatrix σ ρ w) (signOut ρ b)) σ ρ B I O := by
  intro x hx hwx
  have fw : ∀ {w b x : Tensor ℝ}, w.shape = [O, I] → x.shape = [B, I] → linearForward w b x = .ok (Tensor.tab2 B O fun s r => sumL ((List.range I).map fun q => x.get [s, q] * w.get [r, q]) + b.get [r]) := by
    intro w b x hw hx
    unfold linearForward
    simp only [hx, hw]
    rw [if_pos trivial]
  refine answer_of _ _ hx hwx (fun x hx hwx => fw hw hx) (fun x hx hwx => fw hw hx) fun s hs o ho => ?_
  rw [sumL_range, sumL_range, signOut_get hb ho, mul_add, Finset.mul_sum]
  congr 1
  refine Finset.sum_congr rfl fun i hi => ?_
  have hi := Finset.mem_range.1 hi
  rw [signMatrix_get hw ho hi, signed_get hx hs hi]
  calc _ = (sg (σ i) * sg (σ i)) * (sg (ρ o) * (x.get [s, i] * w.get [o, i])) := by ring
    _ = _ := by rw [sg_mul_self, one_mul]

/-- Layers. -/
theorem layer_answers {l : GLayer ℝ} {I O : ℕ} (hf : l.Fits I O) {ρ : ℕ → Bool} (ht : l.TakesSigns ρ) (σ : ℕ → Bool) (B : ℕ) : Answers l.forward (l.sign σ ρ).forward σ ρ B I O := by
  cases l with
  | pw L =>
    obtain ⟨h, -, hp, rfl, rfl⟩ := hf
    obtain ⟨hl, hc | ⟨hc, rfl⟩⟩ := ht
    · exact fun x hx hwx => pw_sum_answer h (Or.inl hc) hl hp σ ρ hx hwx (Or.inl (by rw [hc]; rfl))
    · exact fun x hx hwx => pw_prod_answer h (Or.inl hc) hl hp σ hx hwx (Or.inl (by rw [hc]; rfl))
  | fn L =>
    obtain ⟨h, rfl, rfl⟩ := hf
    obtain ⟨len, hb | hb⟩ := ht
    · have e : GLayer.sign σ ρ (.fn L) = .fn { L with w := signLinks σ ρ L.w } := by
        unfold GLayer.sign
        dsimp only
        cases hq : L.poly.basis with
        | fourier c => exact absurd (hb.symm.trans hq) (lagrange_ne_fourier _ _ _)
        | _ => rfl
      rw [e]
      exact fn_lagrange_answers h hb σ ρ B
    · have e : GLayer.sign σ ρ (.fn L) = .fn { L with w := signSeries σ ρ L.w } := by
        unfold GLayer.sign
        dsimp only
        rw [hb]
      rw [e]
      exact fn_fourier_answers h hb σ ρ B
  | product L =>
    obtain ⟨h, rfl, rfl⟩ := hf
    obtain rfl : ρ = fun _ => false := ht
    exact product_answers h σ B
  | linear w b =>
    obtain ⟨h1, -, h2, -⟩ := hf
    exact linear_answers h1 h2 σ ρ B
  | relu => exact ht.elim

/-! ## normalizations -/

theorem rows_answer {f : Fwd ℝ} {σ : ℕ → Bool} {B I : ℕ} (F : ℝ → List ℝ → ℝ) (h1 : ∀ x : Tensor ℝ, x.shape = [B, I] → x.WF → f x = .ok (Tensor.tabulate x.shape fun idx => F (x.get idx) (slice x 1 idx)))
    (h2 : ∀ (c : Bool) (v : ℝ) (g : ℕ → ℝ), F (sg c * v) ((List.range I).map fun i => sg (σ i) * g i) = sg c * F v ((List.range I).map g)) : Answers f f σ σ B I I := by
  intro x hx hwx
  refine ⟨_, h1 x hx hwx, hx, Tensor.wf_tabulate _ _, ?_⟩
  rw [h1 (signed σ x) hx (signed_wf _ _)]
  refine congrArg Except.ok (Tensor.ext_get (Tensor.wf_tabulate _ _) (signed_wf _ _) rfl fun idx hin => ?_)
  change InShape x.shape idx at hin
  rw [Tensor.get_tabulate (s := (signed σ x).shape) hin]
  rw [hx] at hin
  obtain ⟨b, i, rfl, hb, hi⟩ := inShape2_exists hin
  have e : (signed σ (Tensor.tabulate x.shape fun idx => F (x.get idx) (slice x 1 idx))).get [b, i] = sg (σ i) * F (x.get [b, i]) (slice x 1 [b, i]) := by
    rw [signed_get (x := Tensor.tabulate x.shape fun idx => F (x.get idx) (slice x 1 idx)) (B := B) (I := I) (by exact hx) hb hi, Tensor.get_tabulate (by rw [hx]; exact inShape2.2 ⟨hb, hi⟩)]
  have es : slice (signed σ x) 1 [b, i] = (List.range I).map fun q => sg (σ q) * x.get [b, q] := by
    rw [slice_row (signed σ x) hx]
    exact List.map_congr_left fun q hq => signed_get hx hb (List.mem_range.1 hq)
  rw [e, signed_get hx hb hi, es, slice_row x hx]
  exact h2 _ _ fun q => x.get [b, q]

theorem maxAbs_answers {σ : ℕ → Bool} {B I : ℕ} (hI : 0 < I) (eps : ℝ) : Answers (fun x => maxAbsNormalization x eps 1) (fun x => maxAbsNormalization x eps 1) σ σ B I I := by
  refine rows_answer (fun v l => v / (maxL (l.map TorchScalar.abs) + eps)) (fun x hx hwx => maxAbsNormalization_eq x eps hwx (by rw [hx]; simp) (by rw [hx]; exact hI)) fun c v g => ?_
  rw [List.map_map, List.map_map, mul_div_assoc]
  refine congrArg (fun l => sg c * (v / (maxL l + eps))) (List.map_congr_left fun i _ => ?_)
  exact sg_abs _ _

theorem l2_answers {σ : ℕ → Bool} {B I : ℕ} (hI : 0 < I) (eps : ℝ) : Answers (fun x => l2Normalization x eps) (fun x => l2Normalization x eps) σ σ B I I := by
  refine rows_answer (fun v l => v / (sqrt (sumL (l.map fun a => a * a)) + eps)) (fun x hx hwx => l2Normalization_eq x eps (by rw [hx]; simp) (by rw [hx]; exact hI)) fun c v g => ?_
  rw [List.map_map, List.map_map, mul_div_assoc]
  refine congrArg (fun l => sg c * (v / (sqrt (sumL l) + eps))) (List.map_congr_left fun i _ => ?_)
  show sg (σ i) * g i * (sg (σ i) * g i) = g i * g i
  calc _ = (sg (σ i) * sg (σ i)) * (g i * g i) := by ring
    _ = _ := by rw [sg_mul_self, one_mul]

theorem norm_answers {N : NormModule ℝ} (hs : N.Odd) {B I : ℕ} (ht : N.Takes [B, I]) (σ : ℕ → Bool) : Answers N.apply N.apply σ σ B I I := by
  have drop : ∀ {f g : Fwd ℝ}, (∀ x : Tensor ℝ, x.shape = [B, I] → f x = g x) → Answers g g σ σ B I I → Answers f f σ σ B I I := by
    intro f g hfg hg x hx hwx
    obtain ⟨y, h1, h2, h3, h4⟩ := hg x hx hwx
    exact ⟨y, by rw [hfg x hx, h1], h2, h3, by rw [hfg (signed σ x) hx, h4]⟩
  have two : ∀ x : Tensor ℝ, x.shape = [B, I] → x.shape.length - 1 = 1 := fun x hx => by rw [hx]; rfl
  cases N with
  | maxAbsLast eps =>
    refine drop (fun x hx => ?_) (maxAbs_answers (by simpa using ht.1) eps)
    show (((maxAbsNormalizationLast x eps) >>= fun y => Except.ok (y, _)) >>= fun r => Except.ok r.1) = _
    unfold maxAbsNormalizationLast
    rw [two x hx]
    cases maxAbsNormalization x eps 1 <;> rfl
  | maxAbs eps dim =>
    obtain rfl : dim = 1 := hs
    refine drop (fun x hx => ?_) (maxAbs_answers (by simpa using ht.1) eps)
    show (((maxAbsNormalization x eps 1) >>= fun y => Except.ok (y, _)) >>= fun r => Except.ok r.1) = _
    cases maxAbsNormalization x eps 1 <;> rfl
  | maxAbsND eps =>
    obtain ⟨B', R, hR, hB, hI, -⟩ := ht
    obtain ⟨rfl, rfl⟩ := List.cons.inj hR
    have hI' : 0 < I := by simpa [numel] using hI
    refine drop (fun x hx => ?_) (maxAbs_answers hI' eps)
    show (((maxAbsNormalizationND x eps) >>= fun y => Except.ok (y, _)) >>= fun r => Except.ok r.1) = _
    rw [maxAbsND_matrix hx hB]
    cases maxAbsNormalization x eps 1 <;> rfl
  | l2 eps =>
    refine drop (fun x hx => ?_) (l2_answers (by simpa using ht.1) eps)
    show (((l2Normalization x eps) >>= fun y => Except.ok (y, _)) >>= fun r => Except.ok r.1) = _
    cases l2Normalization x eps <;> rfl
  | maxCenterLast _ => exact hs.elim
  | maxCenter _ => exact hs.elim
  | maxCenterND _ => exact hs.elim
  | layerNorm _ => exact hs.elim

end HOL
