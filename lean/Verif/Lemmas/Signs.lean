import Verif.Spec.Signs
import Verif.Lemmas.Renumber
import Verif.Lemmas.Fourier
import Verif.Lemmas.Periodic

/-! # Lemmas for C135: layers and normalizations with other signs -/

namespace HOL
open TorchScalar Spec

theorem sg_mul_self (b : Bool) : sg b * sg b = 1 := by cases b <;> norm_num [sg]
theorem sg_false : sg false = 1 := rfl
theorem sg_true : sg true = -1 := rfl
theorem sg_xor (a b : Bool) : sg (a ^^ b) = sg a * sg b := by cases a <;> cases b <;> norm_num [sg]
theorem sg_abs (b : Bool) (v : ℝ) : |sg b * v| = |v| := by cases b <;> simp [sg]

theorem inverted_lt {b : Bool} {size r : ℕ} (hr : r < size) : inverted b size r < size := by
  unfold inverted
  split <;> omega

/-! ## reading signed tensors -/

theorem signed_shape (σ : ℕ → Bool) (x : Tensor ℝ) : (signed σ x).shape = x.shape := rfl
theorem signed_wf (σ : ℕ → Bool) (x : Tensor ℝ) : (signed σ x).WF := Tensor.wf_tabulate _ _

theorem signed_get {σ : ℕ → Bool} {x : Tensor ℝ} {B I : ℕ} (hx : x.shape = [B, I]) {b i : ℕ} (hb : b < B) (hi : i < I) : (signed σ x).get [b, i] = sg (σ i) * x.get [b, i] := by
  unfold signed
  rw [Tensor.get_tabulate (by rw [hx]; exact inShape2.2 ⟨hb, hi⟩)]
  rfl

theorem signed_tab2 {ρ : ℕ → Bool} {B O : ℕ} (F : ℕ → ℕ → ℝ) : signed ρ (Tensor.tab2 B O F) = Tensor.tab2 B O fun b o => sg (ρ o) * F b o := by
  refine Tensor.ext_get (signed_wf _ _) (Tensor.wf_tab2 _ _ _) rfl fun idx hin => ?_
  obtain ⟨b, o, rfl, hb, ho⟩ := inShape2_exists hin
  rw [signed_get (B := B) (I := O) rfl hb ho, Tensor.get_tab2 hb ho, Tensor.get_tab2 hb ho]

theorem signed_none {x : Tensor ℝ} {B I : ℕ} (hx : x.shape = [B, I]) (hwx : x.WF) : signed (fun _ => false) x = x := by
  refine Tensor.ext_get (signed_wf _ _) hwx rfl fun idx hin => ?_
  have hin' : InShape x.shape idx := hin
  rw [hx] at hin'
  obtain ⟨b, i, rfl, hb, hi⟩ := inShape2_exists hin'
  rw [signed_get hx hb hi, sg_false, one_mul]

theorem signLinks_get {σ ρ : ℕ → Bool} {w : Tensor ℝ} {O I S : ℕ} (hw : w.shape = [O, I, S]) {o i r : ℕ} (ho : o < O) (hi : i < I) (hr : r < S) :
    (signLinks σ ρ w).get [o, i, r] = sg (ρ o) * w.get [o, i, inverted (σ i) S r] := by
  unfold signLinks
  rw [Tensor.get_tabulate (by rw [hw]; exact inShape3.2 ⟨ho, hi, hr⟩), hw]
  rfl

theorem signSeries_get {σ ρ : ℕ → Bool} {w : Tensor ℝ} {O I S : ℕ} (hw : w.shape = [O, I, S]) {o i r : ℕ} (ho : o < O) (hi : i < I) (hr : r < S) :
    (signSeries σ ρ w).get [o, i, r] = sg (ρ o) * (sg (σ i && (r % 2 == 1)) * w.get [o, i, r]) := by
  unfold signSeries
  rw [Tensor.get_tabulate (by rw [hw]; exact inShape3.2 ⟨ho, hi, hr⟩)]
  rfl

theorem signMatrix_get {σ ρ : ℕ → Bool} {w : Tensor ℝ} {O I : ℕ} (hw : w.shape = [O, I]) {o i : ℕ} (ho : o < O) (hi : i < I) : (signMatrix σ ρ w).get [o, i] = sg (ρ o) * (sg (σ i) * w.get [o, i]) := by
  unfold signMatrix
  rw [Tensor.get_tabulate (by rw [hw]; exact inShape2.2 ⟨ho, hi⟩)]
  rfl

theorem signOut_get {ρ : ℕ → Bool} {b : Tensor ℝ} {O : ℕ} (hb : b.shape = [O]) {o : ℕ} (ho : o < O) : (signOut ρ b).get [o] = sg (ρ o) * b.get [o] := by
  unfold signOut
  rw [Tensor.get_tabulate (by rw [hb]; exact inShape1.2 ho)]
  rfl

theorem signLinks_wf (σ ρ : ℕ → Bool) (w : Tensor ℝ) : (signLinks σ ρ w).WF := Tensor.wf_tabulate _ _
theorem signSeries_wf (σ ρ : ℕ → Bool) (w : Tensor ℝ) : (signSeries σ ρ w).WF := Tensor.wf_tabulate _ _

/-! ## basis functions -/

/-- The basis is symmetric: basis function `n - 1 - p` at `-x` is basis function `p` at `x`. -/
theorem basis_reflect {n p : ℕ} (hp : p < n) (len x : ℝ) : (getLagrangeBasis n len).call (-x) (n - 1 - p) = (getLagrangeBasis n len).call x p := by
  rw [basis_call_eq (by omega), basis_call_eq hp, Lagrange.basis, Lagrange.basis, Polynomial.eval_prod, Polynomial.eval_prod]
  refine Finset.prod_nbij' (fun m => n - 1 - m) (fun m => n - 1 - m) ?_ ?_ ?_ ?_ ?_
  · intro m hm
    obtain ⟨h1, h2⟩ := Finset.mem_erase.1 hm
    rw [Finset.mem_range] at h2
    exact Finset.mem_erase.2 ⟨by omega, Finset.mem_range.2 (by omega)⟩
  · intro m hm
    obtain ⟨h1, h2⟩ := Finset.mem_erase.1 hm
    rw [Finset.mem_range] at h2
    exact Finset.mem_erase.2 ⟨by omega, Finset.mem_range.2 (by omega)⟩
  · intro m hm
    have := Finset.mem_range.1 (Finset.mem_erase.1 hm).2
    show n - 1 - (n - 1 - m) = m
    omega
  · intro m hm
    have := Finset.mem_range.1 (Finset.mem_erase.1 hm).2
    show n - 1 - (n - 1 - m) = m
    omega
  · intro m hm
    have hm := Finset.mem_range.1 (Finset.mem_erase.1 hm).2
    simp only [Lagrange.basisDivisor, Polynomial.eval_mul, Polynomial.eval_C, Polynomial.eval_sub, Polynomial.eval_X]
    rw [node_antisymm hp, node_antisymm hm]
    have e : len / 2 * -node n p - len / 2 * node n m = -(len / 2 * node n p - len / 2 * -node n m) := by ring
    rw [e, inv_neg]
    ring

/-- Values in the opposite order at the opposite point. -/
theorem lagrange_reflect (n : ℕ) (len x : ℝ) (v : ℕ → ℝ) :
    ∑ p ∈ Finset.range n, (getLagrangeBasis n len).call (-x) p * v (n - 1 - p) = ∑ p ∈ Finset.range n, (getLagrangeBasis n len).call x p * v p := by
  rw [← Finset.sum_range_reflect fun p => (getLagrangeBasis n len).call (-x) p * v (n - 1 - p)]
  refine Finset.sum_congr rfl fun p hp => ?_
  have hp := Finset.mem_range.1 hp
  rw [basis_reflect hp, show n - 1 - (n - 1 - p) = p by omega]

theorem linkPoly_reflect (n : ℕ) (v : ℕ → ℝ) (t : ℝ) : (linkPoly n fun k => v (n - 1 - k)).eval (-t) = (linkPoly n v).eval t := by
  rw [← sum_basis_call_two, ← sum_basis_call_two, lagrange_reflect n _ t v]

theorem fourier_reflect (len x : ℝ) (r : ℕ) : fourierCall len (-x) r = sg (r % 2 == 1) * fourierCall len x r := by
  rw [fourierCall_eq, fourierCall_eq]
  cases r with
  | zero => simp [fourierTerm, sg]
  | succ j =>
    unfold fourierTerm
    dsimp only
    rw [neg_div, mul_neg]
    rcases Nat.mod_two_eq_zero_or_one j with h | h
    · rw [if_pos h, if_pos h, Real.sin_neg, show (j + 1) % 2 = 1 by omega]
      simp [sg]
    · rw [if_neg (by omega), if_neg (by omega), Real.cos_neg, show (j + 1) % 2 = 0 by omega]
      simp [sg]

/-! ## periodicity -/

theorem makePeriodic_neg {p : ℝ} (hp : 0 < p) (x : ℝ) : makePeriodic (-x) p = -makePeriodic x p := by
  -- some `x0` within half a period has the same image
  have key : ∃ x0, -(p / 2) ≤ x0 ∧ x0 ≤ p / 2 ∧ ∃ k : ℤ, x = x0 + k * (2 * p) ∨ x = p - x0 + k * (2 * p) := by
    set u := (x + p / 2) / (2 * p) with hu
    have hx : x = 2 * p * Int.fract u - p / 2 + ⌊u⌋ * (2 * p) := by
      have : x + p / 2 = 2 * p * u := by rw [hu]; field_simp
      rw [Int.fract]
      linarith
    have h0 := Int.fract_nonneg u
    have h1 := (Int.fract_lt_one u).le
    rcases le_total (Int.fract u) (1 / 2) with h | h
    · exact ⟨2 * p * Int.fract u - p / 2, by nlinarith, by nlinarith, ⌊u⌋, Or.inl hx⟩
    · refine ⟨p - (2 * p * Int.fract u - p / 2), by nlinarith, by nlinarith, ⌊u⌋, Or.inr ?_⟩
      linarith
  obtain ⟨x0, h1, h2, k, hk | hk⟩ := key
  · have e : -x = -x0 + (-k : ℤ) * (2 * p) := by rw [hk]; push_cast; ring
    rw [e, hk, makePeriodic_add_int hp, makePeriodic_add_int hp, makePeriodic_id hp h1 h2, makePeriodic_id hp (by linarith) (by linarith)]
  · have e : -x = (p - -x0) + (-k - 1 : ℤ) * (2 * p) := by rw [hk]; push_cast; ring
    rw [e, hk, makePeriodic_add_int hp, makePeriodic_add_int hp, makePeriodic_mirror hp, makePeriodic_mirror hp, makePeriodic_id hp h1 h2, makePeriodic_id hp (by linarith) (by linarith)]

theorem periodize_neg {per : Option ℝ} (hp : ∀ p, per = some p → 0 < p) (x : ℝ) : periodize per (-x) = -periodize per x := by
  cases per with
  | none => rfl
  | some p => exact makePeriodic_neg (hp p rfl) x

theorem periodize_sg {per : Option ℝ} (hp : ∀ p, per = some p → 0 < p) (b : Bool) (x : ℝ) : periodize per (sg b * x) = sg b * periodize per x := by
  cases b with
  | false => rw [sg_false, one_mul, one_mul]
  | true => rw [sg_true, neg_one_mul, neg_one_mul, periodize_neg hp]

/-! ## piecewise polynomials -/

theorem localCoord_reflect {S s : ℕ} (hs : s < S) (x : ℝ) : localCoord S (S - 1 - s) (-x) = -localCoord S s x := by
  have e : ((S - 1 - s : ℕ) : ℝ) = (S : ℝ) - 1 - s := by rw [Nat.cast_sub (by omega), Nat.cast_sub (by omega)]; simp
  unfold localCoord
  rw [e]
  ring

theorem segLeft_reflect {S s : ℕ} (hS : 0 < S) (hs : s ≤ S) : segLeft S (S - s) = -segLeft S s := by
  have : (S : ℝ) ≠ 0 := by positivity
  unfold segLeft
  rw [Nat.cast_sub hs]
  field_simp
  ring

/-- The point is not the left end of a segment other than the first. -/
def Spec.OffEnds (S : ℕ) (x : ℝ) : Prop := ∀ s, 0 < s → s < S → x ≠ segLeft S s

theorem isActive_reflect {S s : ℕ} {x : ℝ} (h : IsActive S s x) (hx : s = 0 ∨ x ≠ segLeft S s) : IsActive S (S - 1 - s) (-x) := by
  obtain ⟨h1, h2, h3⟩ := h
  refine ⟨by omega, ?_, ?_⟩
  · rcases h3 with h3 | h3
    · left; omega
    · right
      rw [show S - 1 - s = S - (s + 1) by omega, segLeft_reflect (by omega) (by omega)]
      linarith
  · rcases hx with hx | hx
    · left; omega
    · rcases h2 with h2 | h2
      · left; omega
      · right
        rw [show S - 1 - s + 1 = S - s by omega, segLeft_reflect (by omega) (by omega)]
        have := lt_of_le_of_ne h2 (Ne.symm hx)
        linarith

/-- The piecewise polynomial with the values in the opposite order, at the opposite point. Without common values at the ends of segments (`stride = n`) not at these ends. -/
theorem piecewise_reflect {n S stride size : ℕ} (hn : 0 < n) (hS : 0 < S) (hsize : size = (S - 1) * stride + n) {v : ℕ → ℝ} {f f' : ℝ → ℝ} (hf : IsPiecewisePoly n S stride v f)
    (hf' : IsPiecewisePoly n S stride (fun q => v (size - 1 - q)) f') {x : ℝ} (hx : stride = n - 1 ∨ OffEnds S x) : f' (-x) = f x := by
  -- a segment that gives the value at `x` and is active, from the other side, at `-x`
  have key : ∃ s < S, f x = (linkPoly n fun k => v (s * stride + k)).eval (localCoord S s x) ∧ IsActive S (S - 1 - s) (-x) := by
    obtain ⟨s, hs⟩ := isActive_exists hS x
    by_cases hb : s = 0 ∨ x ≠ segLeft S s
    · exact ⟨s, hs.1, hf s x hs, isActive_reflect hs hb⟩
    · push Not at hb
      obtain ⟨h0, rfl⟩ := hb
      obtain ⟨t, rfl⟩ := Nat.exists_eq_succ_of_ne_zero h0
      rcases hx with rfl | hx
      · refine ⟨t, by have := hs.1; omega, ?_, ?_⟩
        · rw [hf _ _ hs, ← pieces_agree hn hS]
        · have hlt := hs.1
          rw [← segLeft_reflect hS hlt.le]
          refine ⟨by omega, Or.inr (le_of_eq (by congr 1; omega)), ?_⟩
          by_cases ht : t = 0
          · left; omega
          · right
            refine segLeft_strictMono hS ?_
            omega
      · exact absurd rfl (hx _ (by omega) hs.1)
  obtain ⟨s, hs, h1, h2⟩ := key
  rw [h1, hf' _ _ h2, localCoord_reflect hs, ← linkPoly_reflect n (fun k => v (s * stride + k))]
  refine congrArg (Polynomial.eval _) (linkPoly_congr fun k hk => congrArg v ?_)
  have e : (S - 1) * stride = (S - 1 - s) * stride + s * stride := by rw [← Nat.add_mul]; congr 1; omega
  rw [hsize, e]
  omega

end HOL
