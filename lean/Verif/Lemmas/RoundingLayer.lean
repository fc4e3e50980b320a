import Verif.Lemmas.Rounding
import Verif.Lemmas.RefineReal
import Mathlib.Analysis.Calculus.MeanValue
import Mathlib.Analysis.Calculus.Deriv.Polynomial
import Mathlib.Analysis.Normed.Module.Convex

/-! # Rounding errors of piecewise layers -/

namespace HOL
open Spec TorchScalar Polynomial

variable {P : Type 1} {A : P → Arith}

/-! ## the basis -/

theorem chebyshev_tracks {n j : ℕ} (hj : j < n) : Tracks (A := A) (fun p => (chebyshevLobatto n : Tensor (A p).K).get [j]) (fun _ => node n j) := by
  by_cases hn : n = 1
  · refine Tracks.zero.congr (fun p => ?_) fun p => ?_
    · unfold chebyshevLobatto
      rw [if_pos hn, Tensor.get_tab1 (by omega)]
    · unfold node
      rw [if_pos hn]
  · have hpos : (0 : ℝ) < ((n - 1 : ℕ) : ℝ) := by
      have : 0 < n - 1 := by omega
      exact_mod_cast this
    refine (((Tracks.pi.mul (Tracks.nat j)).div (Tracks.nat (n - 1)) hpos fun _ => by rw [abs_of_pos hpos]).cos.neg).congr (fun p => ?_) fun p => ?_
    · unfold chebyshevLobatto
      rw [if_neg hn, Tensor.get_tab1 hj]
    · unfold node
      rw [if_neg hn, Nat.cast_sub (by omega)]
      simp

theorem initX_tracks {n j : ℕ} (hj : j < n) :
    Tracks (A := A) (fun p => (LagrangeBasis.init n ((2 : ℕ) : (A p).K)).X.get [j]) (fun _ => node n j) := by
  have h2 : (0 : ℝ) < ((2 : ℕ) : ℝ) := by norm_num
  refine (((Tracks.nat 2).div (Tracks.nat 2) h2 fun _ => by rw [abs_of_pos h2]).mul (chebyshev_tracks hj)).congr (fun p => ?_) fun p => by norm_num
  have hsh : (chebyshevLobatto n : Tensor (A p).K).shape = [n] := by
    unfold chebyshevLobatto
    split
    · subst_vars; rfl
    · rfl
  have hwf : (chebyshevLobatto n : Tensor (A p).K).WF := by
    unfold chebyshevLobatto
    split <;> exact Tensor.wf_tabulate _ _
  unfold LagrangeBasis.init
  dsimp only
  rw [Tensor.get_map hwf (by rw [hsh]; exact inShape1.2 hj)]

theorem initDen_tracks {n j m : ℕ} (hj : j < n) (hm : m < n) (hmj : m ≠ j) :
    Tracks (A := A) (fun p => (LagrangeBasis.init n ((2 : ℕ) : (A p).K)).denominators.get [j, m]) (fun _ => node n j - node n m) := by
  refine ((initX_tracks hj).sub (initX_tracks hm)).congr (fun p => ?_) fun p => rfl
  show _ = (Tensor.tab2 n n _).get [j, m]
  rw [Tensor.get_tab2 hj hm, if_pos hmj]
  rfl

/-- Basis functions at a tracked point. -/
theorem basis_tracks {n j : ℕ} (hj : j < n) {x : ∀ p, (A p).K} {rx : P → ℝ} (hx : Tracks x rx) :
    Tracks (fun p => (getLagrangeBasis n ((2 : ℕ) : (A p).K)).call (x p) j) (fun p => (getLagrangeBasis n ((2 : ℕ) : ℝ)).call (rx p) j) := by
  by_cases hn : n = 1
  · refine Tracks.one.congr (fun p => ?_) fun p => ?_
    · unfold getLagrangeBasis; rw [if_pos hn]; rfl
    · unfold getLagrangeBasis; rw [if_pos hn]; rfl
  · refine (Tracks.prod (List.range n) (f := fun m p => if m ≠ j then
        (x p - (LagrangeBasis.init n ((2 : ℕ) : (A p).K)).X.get [m]) / (LagrangeBasis.init n ((2 : ℕ) : (A p).K)).denominators.get [j, m] else 1)
      (r := fun m p => if m ≠ j then (rx p - node n m) / (node n j - node n m) else 1) ?_).congr (fun p => ?_) fun p => ?_
    · intro m hm
      have hm := List.mem_range.1 hm
      by_cases hmj : m ≠ j
      · have hne : node n j - node n m ≠ 0 := by
          intro h0
          exact hmj ((node_injOn n (by simpa using hj) (by simpa using hm) (sub_eq_zero.1 h0)).symm)
        refine ((hx.sub (initX_tracks hm)).div (initDen_tracks hj hm hmj) (abs_pos.2 hne) fun _ => le_rfl).congr (fun p => ?_) fun p => ?_
        · rw [if_pos hmj]
        · rw [if_pos hmj]
      · refine Tracks.one.congr (fun p => ?_) fun p => ?_
        · rw [if_neg hmj]
        · rw [if_neg hmj]
    · unfold getLagrangeBasis
      rw [if_neg hn]
      rfl
    · unfold getLagrangeBasis
      rw [if_neg hn]
      show _ = (LagrangeBasis.init n ((2 : ℕ) : ℝ)).call (rx p) j
      unfold LagrangeBasis.call
      rw [prodL_real]
      congr 1
      apply List.map_congr_left
      intro m hm
      have hm : m < n := List.mem_range.1 hm
      split
      · rename_i hmj
        rw [init_X_get hm, init_den_get hj hm, if_pos hmj]
        norm_num
      · rfl

/-! ## polynomials on bounded sets -/

theorem poly_lipschitz (q : ℝ[X]) (T : ℝ) : ∃ Λ : ℝ, 0 ≤ Λ ∧ ∀ y z, |y| ≤ T → |z| ≤ T → |q.eval y - q.eval z| ≤ Λ * |y - z| := by
  obtain ⟨C, hC⟩ := (isCompact_Icc (a := -T) (b := T)).exists_bound_of_continuousOn (q.derivative.continuous.continuousOn)
  refine ⟨max C 0, le_max_right _ _, fun y z hy hz => ?_⟩
  have := (convex_Icc (-T) T).norm_image_sub_le_of_norm_deriv_le (f := fun t => q.eval t) (C := max C 0) (fun t _ => q.differentiableAt)
    (fun t ht => by rw [Polynomial.deriv]; exact (hC t ht).trans (le_max_left _ _)) (abs_le.1 hz) (abs_le.1 hy)
  simpa using this

/-- Interpolation polynomials of bounded values are bounded and Lipschitz on bounded sets, uniformly. -/
theorem linkPoly_uniform (n : ℕ) (T W : ℝ) (hW : 0 ≤ W) : ∃ Λ : ℝ, 0 ≤ Λ ∧ ∀ v : ℕ → ℝ, (∀ k < n, |v k| ≤ W) →
    (∀ y, |y| ≤ T → |(linkPoly n v).eval y| ≤ Λ) ∧ ∀ y z, |y| ≤ T → |z| ≤ T → |(linkPoly n v).eval y - (linkPoly n v).eval z| ≤ Λ * |y - z| := by
  have hl := fun k => poly_lipschitz (Lagrange.basis (Finset.range n) (node n) k) T
  choose Λ hΛ hLip using hl
  have hb : ∀ k, ∃ D : ℝ, 0 ≤ D ∧ ∀ y, |y| ≤ T → |(Lagrange.basis (Finset.range n) (node n) k).eval y| ≤ D := by
    intro k
    obtain ⟨C, hC⟩ := (isCompact_Icc (a := -T) (b := T)).exists_bound_of_continuousOn ((Lagrange.basis (Finset.range n) (node n) k).continuous.continuousOn)
    exact ⟨max C 0, le_max_right _ _, fun y hy => (hC y (abs_le.1 hy)).trans (le_max_left _ _)⟩
  choose D hD hBd using hb
  have hsum : ∀ v y, (linkPoly n v).eval y = ∑ k ∈ Finset.range n, v k * (Lagrange.basis (Finset.range n) (node n) k).eval y := by
    intro v y
    unfold linkPoly
    rw [Lagrange.interpolate_apply, Polynomial.eval_finsetSum]
    simp
  refine ⟨∑ k ∈ Finset.range n, W * (Λ k + D k), Finset.sum_nonneg fun k _ => mul_nonneg hW (add_nonneg (hΛ k) (hD k)), fun v hv => ⟨fun y hy => ?_, fun y z hy hz => ?_⟩⟩
  · rw [hsum]
    refine (Finset.abs_sum_le_sum_abs _ _).trans (Finset.sum_le_sum fun k hk => ?_)
    rw [abs_mul]
    exact mul_le_mul (hv k (Finset.mem_range.1 hk)) ((hBd k y hy).trans (by linarith [hΛ k])) (abs_nonneg _) hW
  · rw [hsum, hsum, ← Finset.sum_sub_distrib, Finset.sum_mul]
    refine (Finset.abs_sum_le_sum_abs _ _).trans (Finset.sum_le_sum fun k hk => ?_)
    rw [← mul_sub, abs_mul, mul_assoc]
    refine mul_le_mul (hv k (Finset.mem_range.1 hk)) ((hLip k y z hy hz).trans ?_) (abs_nonneg _) hW
    exact mul_le_mul_of_nonneg_right (by linarith [hD k]) (abs_nonneg _)

/-! ## segments -/

theorem isActive_close {S s t : ℕ} {a b d : ℝ} (hs : IsActive S s a) (ht : IsActive S t b) (hd : |a - b| ≤ d) (hdS : d < 2 / S) :
    s = t ∨ (s = t + 1 ∧ |b - segLeft S s| ≤ d) ∨ (t = s + 1 ∧ |b - segLeft S t| ≤ d) := by
  have hS : 0 < S := by have := hs.1; omega
  have hSr : (0 : ℝ) < S := by exact_mod_cast hS
  have hab := abs_le.1 hd
  have step : ∀ k : ℕ, segLeft S (k + 1) = segLeft S k + 2 / S := by
    intro k
    unfold segLeft
    push_cast
    ring
  rcases lt_trichotomy s t with h | h | h
  · right; right
    have h1 : segLeft S t ≤ b := by
      rcases ht.2.1 with h' | h'
      · omega
      · exact h'
    have h2 : a < segLeft S (s + 1) := by
      rcases hs.2.2 with h' | h'
      · have := ht.1; omega
      · exact h'
    have h3 : t = s + 1 := by
      by_contra hne
      have h4 : segLeft S (s + 2) ≤ segLeft S t := segLeft_mono (by omega)
      have h5 := step (s + 1)
      linarith
    refine ⟨h3, ?_⟩
    rw [abs_le]
    rw [← h3] at h2
    constructor <;> linarith
  · exact Or.inl h
  · right; left
    have h1 : segLeft S s ≤ a := by
      rcases hs.2.1 with h' | h'
      · omega
      · exact h'
    have h2 : b < segLeft S (t + 1) := by
      rcases ht.2.2 with h' | h'
      · have := hs.1; omega
      · exact h'
    have h3 : s = t + 1 := by
      by_contra hne
      have h4 : segLeft S (t + 2) ≤ segLeft S s := segLeft_mono (by omega)
      have h5 := step (t + 1)
      linarith
    refine ⟨h3, ?_⟩
    rw [abs_le]
    rw [← h3] at h2
    constructor <;> linarith

/-! ## a family of layers -/

/-- Layers of one size with bounded weights, in any arithmetic. -/
structure LayerFam (A : P → Arith) (cls : PwClass) (n S I O : ℕ) (W : ℝ) where
  L : ∀ p, PwLayer (A p).K
  wf : ∀ p, (L p).WF
  hcls : ∀ p, (L p).cls = cls
  hn : ∀ p, (L p).n = n
  hS : ∀ p, (L p).segments = S
  hI : ∀ p, (L p).inFeatures = I
  hO : ∀ p, (L p).outFeatures = O
  hlen : ∀ p, (L p).length = ((2 : ℕ) : (A p).K)
  hper : ∀ p, (L p).periodicity = none
  hw : ∀ p idx, InShape (L p).w.shape idx → (A p).R.fin ((L p).w.get idx) ∧ |(A p).R.val ((L p).w.get idx)| ≤ W

namespace LayerFam
variable {cls : PwClass} {n S I O : ℕ} {W : ℝ} (F : LayerFam A cls n S I O W)

/-- The layer in exact arithmetic. -/
noncomputable def ex (p : P) : PwLayer ℝ := (F.L p).exact (A p).R.val

theorem half_tracks : Tracks (fun p => (F.L p).half) (fun _ => 1) := by
  have h2 : (0 : ℝ) < ((2 : ℕ) : ℝ) := by norm_num
  refine ((Tracks.one.div (Tracks.nat 2) h2 fun _ => by rw [abs_of_pos h2]).mul (Tracks.nat 2)).congr (fun p => ?_) fun p => by norm_num
  unfold PwLayer.half
  rw [F.hlen]

theorem length_tracks : Tracks (fun p => (F.L p).length) (fun _ => 2) :=
  (Tracks.nat 2).congr (fun p => (F.hlen p).symm) fun p => by norm_num

/-- The argument of the truncation. -/
theorem position_tracks {x : ∀ p, (A p).K} {rx : P → ℝ} (hx : Tracks x rx) :
    Tracks (fun p => ((x p + (F.L p).half) / (F.L p).length) * (((F.L p).segments : ℕ) : (A p).K)) (fun p => (rx p + 1) / 2 * S) := by
  refine (((hx.add F.half_tracks).div F.length_tracks (c := 2) (by norm_num) fun _ => by norm_num).mul (Tracks.nat S)).congr (fun p => ?_) fun p => rfl
  rw [F.hS]

/-- The computed segment is the right one for a point close to the exact input. -/
theorem seg_close (hS0 : 0 < S) {x : ∀ p, (A p).K} {rx : P → ℝ} (hx : Tracks x rx) : ∃ C M0 e0 : ℝ, 0 ≤ C ∧ 0 < e0 ∧
    ∀ p, (A p).eps ≤ e0 → M0 ≤ (A p).M → ∃ a, |a - rx p| ≤ C * (A p).eps ∧ IsActive S ((F.L p).seg (x p)) a := by
  have hSr : (0 : ℝ) < S := by exact_mod_cast hS0
  obtain ⟨C, B, M0, e0, hC, hB, he, he1, hr, h⟩ := (F.position_tracks hx).val_le
  refine ⟨2 * C / S, M0, e0, by positivity, he, fun p h1 h2 => ?_⟩
  obtain ⟨a1, a2, a3⟩ := h p h1 h2
  set t := ((x p + (F.L p).half) / (F.L p).length) * (((F.L p).segments : ℕ) : (A p).K) with ht
  refine ⟨-1 + 2 * (A p).R.val t / S, ?_, ?_⟩
  · have e : -1 + 2 * (A p).R.val t / S - rx p = 2 / S * ((A p).R.val t - (rx p + 1) / 2 * S) := by
      field_simp
      ring
    rw [e, abs_mul, abs_of_pos (by positivity)]
    calc 2 / (S : ℝ) * |(A p).R.val t - (rx p + 1) / 2 * S| ≤ 2 / S * (C * (A p).eps) := mul_le_mul_of_nonneg_left a2 (by positivity)
      _ = _ := by ring
  · have hidx : (F.ex p).segIndex (-1 + 2 * (A p).R.val t / S) = (F.L p).whichSegment (x p) := by
      rw [PwLayer.segIndex_real]
      unfold PwLayer.whichSegment PwLayer.segIndex
      rw [F.hper]
      show _ = clampInt (toLong t) 0 _
      rw [(A p).R.toLong t a1 a3]
      have e1 : (F.ex p).length = 2 := rfl
      have e2 : (F.ex p).segments = (F.L p).segments := rfl
      rw [e1, e2, F.hS]
      congr 2
      field_simp
      ring
    have := (F.ex p).isActive_segIndex (by show 0 < (F.L p).segments; rw [F.hS]; exact hS0) rfl (-1 + 2 * (A p).R.val t / S)
    rw [hidx] at this
    have e2 : (F.ex p).segments = S := F.hS p
    rw [e2] at this
    exact this

/-- The local coordinate, for the segment that has been computed. -/
theorem xIn_tracks (hS0 : 0 < S) {x : ∀ p, (A p).K} {rx : P → ℝ} (hx : Tracks x rx) :
    Tracks (fun p => (F.L p).xIn (x p)) (fun p => localCoord S ((F.L p).seg (x p)) (rx p)) := by
  have hSr : (0 : ℝ) < S := by exact_mod_cast hS0
  have heta : ∀ z : P → ℤ, (∀ p, |(z p : ℝ)| ≤ S) → Tracks (fun p => (F.L p).eta (z p)) (fun p => (z p : ℝ) / S * 2 - 1) := by
    intro z hz
    refine ((((Tracks.int z hz).div (Tracks.nat S) hSr fun _ => by rw [abs_of_pos hSr]).mul (Tracks.nat 2)).sub Tracks.one).congr (fun p => ?_) fun p => by push_cast; ring
    unfold PwLayer.eta
    rw [F.hS]
  have hlt : ∀ p, (F.L p).seg (x p) < S := fun p => by
    have := (F.L p).seg_lt (by rw [F.hS]; exact hS0) (x p)
    rwa [F.hS] at this
  have e1 := heta (fun p => ((F.L p).seg (x p) : ℤ)) fun p => by
    have : ((F.L p).seg (x p) : ℝ) ≤ S := by exact_mod_cast (hlt p).le
    push_cast
    rw [abs_of_nonneg (Nat.cast_nonneg _)]
    exact this
  have e2 := heta (fun p => ((F.L p).seg (x p) : ℤ) + 1) fun p => by
    have : (((F.L p).seg (x p) + 1 : ℕ) : ℝ) ≤ S := by exact_mod_cast (hlt p)
    push_cast at this ⊢
    rw [abs_of_nonneg (by positivity)]
    exact this
  have hd : ∀ p, 2 / (S : ℝ) ≤ |(((((F.L p).seg (x p) : ℤ) + 1 : ℤ) : ℝ) / S * 2 - 1) - ((((F.L p).seg (x p) : ℤ) : ℝ) / S * 2 - 1)| := by
    intro p
    refine le_trans (le_of_eq ?_) (le_abs_self _)
    push_cast
    field_simp
    ring
  refine ((F.length_tracks.mul ((hx.sub e1).div (e2.sub e1) (by positivity) hd)).sub F.half_tracks).congr (fun p => ?_) fun p => ?_
  · unfold PwLayer.xIn PwLayer.xLocal
    rw [F.hper, (F.L p).whichSegment_eq_seg (by rw [F.hS]; exact hS0)]
    rfl
  · unfold localCoord
    push_cast
    field_simp
    ring

/-- Weight position `k` of segment `s` of link `(o, i)` in exact arithmetic. -/
noncomputable def wv (p : P) (o i q : ℕ) : ℝ := (A p).R.val ((F.L p).w.get [o, i, q])

theorem ex_w {p : P} {o i q : ℕ} (ho : o < O) (hi : i < I) (hq : q < PwLayer.wSize cls n S) : (F.ex p).w.get [o, i, q] = F.wv p o i q := by
  have hin : InShape (F.L p).w.shape [o, i, q] := by
    rw [(F.wf p).w_shape, F.hO, F.hI, F.hcls, F.hn, F.hS]
    exact ⟨ho, hi, hq, trivial⟩
  exact Tensor.get_map (F.wf p).w_wf hin

theorem wv_le {p : P} {o i q : ℕ} (ho : o < O) (hi : i < I) (hq : q < PwLayer.wSize cls n S) :
    (A p).R.fin ((F.L p).w.get [o, i, q]) ∧ |F.wv p o i q| ≤ W := by
  have hin : InShape (F.L p).w.shape [o, i, q] := by
    rw [(F.wf p).w_shape, F.hO, F.hI, F.hcls, F.hn, F.hS]
    exact ⟨ho, hi, hq, trivial⟩
  exact F.hw p _ hin

theorem widx (p : P) {s k : ℕ} (hs : s < S) (hk : k < n) : s * (F.L p).stride + k < PwLayer.wSize cls n S := by
  have := (F.L p).widx_lt (F.wf p).n_pos (s := s) (k := k) (by rw [F.hS]; exact hs) (by rw [F.hn]; exact hk)
  rwa [F.hcls, F.hn, F.hS] at this

theorem seg_lt' (hS0 : 0 < S) (p : P) (v : (A p).K) : (F.L p).seg v < S := by
  have := (F.L p).seg_lt (by rw [F.hS]; exact hS0) v
  rwa [F.hS] at this

/-- The value of link `(o, i)` on segment `s`, at `y`. -/
noncomputable def piece (p : P) (o i s : ℕ) (y : ℝ) : ℝ := (linkPoly n fun k => F.wv p o i (s * (F.L p).stride + k)).eval (localCoord S s y)

/-- One term of a link. -/
theorem term_tracks (hS0 : 0 < S) {o i k : ℕ} (ho : o < O) (hi : i < I) (hk : k < n) {x : ∀ p, (A p).K} {rx : P → ℝ} (hx : Tracks x rx) :
    Tracks (fun p => (getLagrangeBasis n ((2 : ℕ) : (A p).K)).call ((F.L p).xIn (x p)) k * (F.L p).w.get [o, i, (F.L p).seg (x p) * (F.L p).stride + k])
      (fun p => (getLagrangeBasis n ((2 : ℕ) : ℝ)).call (localCoord S ((F.L p).seg (x p)) (rx p)) k * F.wv p o i ((F.L p).seg (x p) * (F.L p).stride + k)) := by
  refine (basis_tracks hk (F.xIn_tracks hS0 hx)).mul (Tracks.const_exact _ _ (B := W) (fun p => ?_) fun p => ?_)
  · exact (F.wv_le ho hi (F.widx p (F.seg_lt' hS0 p _) hk)).2
  · exact ⟨(F.wv_le ho hi (F.widx p (F.seg_lt' hS0 p _) hk)).1, rfl⟩

theorem piece_sum (p : P) (o i s : ℕ) (y : ℝ) : ((List.range n).map fun k => (getLagrangeBasis n ((2 : ℕ) : ℝ)).call (localCoord S s y) k
      * F.wv p o i (s * (F.L p).stride + k)).sum = F.piece p o i s y := by
  have := sumL_range n fun k => (getLagrangeBasis n ((2 : ℕ) : ℝ)).call (localCoord S s y) k * F.wv p o i (s * (F.L p).stride + k)
  rw [sumL_real] at this
  rw [this, sum_basis_call_two]
  rfl

/-- The exact link is the piece of the active segment. -/
theorem linkFn_ex (hS0 : 0 < S) {p : P} {o i : ℕ} (ho : o < O) (hi : i < I) (y : ℝ) :
    ∃ t, IsActive S t y ∧ (F.ex p).linkFn o i y = F.piece p o i t y := by
  have e2 : (F.ex p).segments = S := F.hS p
  have hS' : 0 < (F.ex p).segments := by rw [e2]; exact hS0
  have hact := (F.ex p).isActive_seg hS' rfl y
  have hper : periodize (F.ex p).periodicity y = y := rfl
  rw [e2, hper] at hact
  refine ⟨(F.ex p).seg y, hact, ?_⟩
  unfold PwLayer.linkFn piece
  have e3 : (F.ex p).n = n := F.hn p
  have e4 : (F.ex p).stride = (F.L p).stride := rfl
  have e5 : (F.ex p).xIn y = localCoord S ((F.ex p).seg y) y := by
    unfold PwLayer.xIn
    rw [(F.ex p).whichSegment_eq_seg hS', hper, (F.ex p).xLocal_real hS' rfl, e2]
  rw [e3, e4, e5]
  congr 1
  apply linkPoly_congr
  intro k hk
  exact F.ex_w ho hi (F.widx p hact.1 hk)

/-- Pieces are bounded and Lipschitz on bounded sets, uniformly. -/
theorem piece_uniform (hW : 0 ≤ W) (X : ℝ) : ∃ Λ : ℝ, 0 ≤ Λ ∧ ∀ p, ∀ o < O, ∀ i < I, ∀ s < S,
    (∀ y, |y| ≤ X → |F.piece p o i s y| ≤ Λ) ∧ ∀ y z, |y| ≤ X → |z| ≤ X → |F.piece p o i s y - F.piece p o i s z| ≤ Λ * |y - z| := by
  obtain ⟨Λ, hΛ, h⟩ := linkPoly_uniform n (S * (X + 1) + 2 * S + 1) W hW
  refine ⟨Λ * (S + 1), by positivity, fun p o ho i hi s hs => ?_⟩
  obtain ⟨h1, h2⟩ := h (fun k => F.wv p o i (s * (F.L p).stride + k)) fun k hk => (F.wv_le ho hi (F.widx p hs hk)).2
  have hloc : ∀ y, |y| ≤ X → |localCoord S s y| ≤ S * (X + 1) + 2 * S + 1 := by
    intro y hy
    unfold localCoord
    have h3 : |(S : ℝ) * (y + 1)| ≤ S * (X + 1) := by
      rw [abs_mul, abs_of_nonneg (Nat.cast_nonneg S)]
      apply mul_le_mul_of_nonneg_left _ (Nat.cast_nonneg S)
      exact (abs_add_le _ _).trans (by simpa using hy)
    have h4 : (s : ℝ) ≤ S := by exact_mod_cast hs.le
    have h5 : (0 : ℝ) ≤ s := Nat.cast_nonneg s
    have := abs_le.1 h3
    rw [abs_le]
    constructor <;> linarith
  have hd : ∀ y z, localCoord S s y - localCoord S s z = S * (y - z) := by
    intro y z
    unfold localCoord
    ring
  refine ⟨fun y hy => (h1 _ (hloc y hy)).trans ?_, fun y z hy hz => (h2 _ _ (hloc y hy) (hloc z hz)).trans ?_⟩
  · have : (0 : ℝ) ≤ S := Nat.cast_nonneg S
    nlinarith
  · rw [hd, abs_mul, abs_of_nonneg (Nat.cast_nonneg S)]
    have := abs_nonneg (y - z)
    nlinarith

/-- Neighbouring pieces agree at their common end, if they share weights. -/
theorem piece_agree (hS0 : 0 < S) (hsh : cls.shared = true) (p : P) (o i s : ℕ) : F.piece p o i s (segLeft S (s + 1)) = F.piece p o i (s + 1) (segLeft S (s + 1)) := by
  unfold piece
  have hst : (F.L p).stride = n - 1 := by
    unfold PwLayer.stride
    rw [F.hcls, F.hn, if_pos hsh]
  have hn : 0 < n := by
    have := (F.wf p).n_pos
    rwa [F.hn] at this
  rw [hst]
  exact pieces_agree hn hS0 (fun q => F.wv p o i q) s

/-- The piece that has been selected is close to the exact link: it is the right one, or the input is close to an end it shares with the right one. -/
theorem link_shift (hS0 : 0 < S) (hW : 0 ≤ W) {x : ∀ p, (A p).K} {rx : P → ℝ} (hx : Tracks x rx)
    (hc : cls.shared = true ∨ ∃ M0 e0 : ℝ, 0 < e0 ∧ ∀ p, (A p).eps ≤ e0 → M0 ≤ (A p).M → IsActive S ((F.L p).seg (x p)) (rx p)) :
    ∃ C B M0 e0 : ℝ, 0 ≤ C ∧ 0 < e0 ∧ ∀ o < O, ∀ i < I, (∀ p, |(F.ex p).linkFn o i (rx p)| ≤ B) ∧
      ∀ p, (A p).eps ≤ e0 → M0 ≤ (A p).M → |F.piece p o i ((F.L p).seg (x p)) (rx p) - (F.ex p).linkFn o i (rx p)| ≤ C * (A p).eps := by
  have hSr : (0 : ℝ) < S := by exact_mod_cast hS0
  obtain ⟨-, Bx, -, -, -, hBx, -, -, hbx, -⟩ := id hx
  obtain ⟨C, M0, e0, hC, he, h⟩ := F.seg_close hS0 hx
  obtain ⟨Λ, hΛ, hpiece⟩ := F.piece_uniform hW (max Bx 1)
  have hbd : ∀ o < O, ∀ i < I, ∀ p, |(F.ex p).linkFn o i (rx p)| ≤ Λ := by
    intro o ho i hi p
    obtain ⟨t, ht, e⟩ := F.linkFn_ex hS0 (p := p) ho hi (rx p)
    rw [e]
    exact (hpiece p o ho i hi t ht.1).1 _ ((hbx p).trans (le_max_left _ _))
  rcases hc with hsh | ⟨M1, e1, he1, hact⟩
  · refine ⟨2 * Λ * C, Λ, M0, min e0 (1 / (S * (C + 1))), by positivity, lt_min he (by positivity), fun o ho i hi => ⟨hbd o ho i hi, fun p h1 h2 => ?_⟩⟩
    obtain ⟨a, ha, hact⟩ := h p (h1.trans (min_le_left _ _)) h2
    obtain ⟨t, ht, e⟩ := F.linkFn_ex hS0 (p := p) ho hi (rx p)
    have h0 := (A p).nonneg
    have hsmall : C * (A p).eps < 2 / S := by
      have h3 := h1.trans (min_le_right _ _)
      have h4 : C * (A p).eps ≤ C * (1 / (S * (C + 1))) := mul_le_mul_of_nonneg_left h3 hC
      refine lt_of_le_of_lt h4 ?_
      rw [mul_one_div, div_lt_div_iff₀ (by positivity) hSr]
      nlinarith
    have hseg : ∀ k ≤ S, |segLeft S k| ≤ max Bx 1 := by
      intro k hk
      refine le_trans ?_ (le_max_right _ _)
      have h5 : (k : ℝ) ≤ S := by exact_mod_cast hk
      have h6 : 2 * (k : ℝ) / S ≤ 2 := by rw [div_le_iff₀ hSr]; linarith
      have h7 : 0 ≤ 2 * (k : ℝ) / S := by positivity
      unfold segLeft
      rw [abs_le]
      constructor <;> linarith
    have hr' : |rx p| ≤ max Bx 1 := (hbx p).trans (le_max_left _ _)
    rw [e]
    rcases isActive_close hact ht ha hsmall with h3 | ⟨h3, h4⟩ | ⟨h3, h4⟩
    · rw [h3]
      simp only [sub_self, abs_zero]
      positivity
    · rw [h3] at h4 ⊢
      have h5 := (hpiece p o ho i hi (t + 1) (by rw [← h3]; exact hact.1)).2 (rx p) (segLeft S (t + 1)) hr' (hseg _ (by have := ht.1; omega))
      have h6 := (hpiece p o ho i hi t ht.1).2 (segLeft S (t + 1)) (rx p) (hseg _ (by have := ht.1; omega)) hr'
      rw [F.piece_agree hS0 hsh] at h6
      have e3 : F.piece p o i (t + 1) (rx p) - F.piece p o i t (rx p) = (F.piece p o i (t + 1) (rx p) - F.piece p o i (t + 1) (segLeft S (t + 1)))
        + (F.piece p o i (t + 1) (segLeft S (t + 1)) - F.piece p o i t (rx p)) := by ring
      rw [e3]
      refine (abs_add_le _ _).trans ?_
      rw [abs_sub_comm (segLeft S (t + 1))] at h6
      have h7 : Λ * |rx p - segLeft S (t + 1)| ≤ Λ * (C * (A p).eps) := mul_le_mul_of_nonneg_left h4 hΛ
      linarith
    · rw [h3] at h4 ⊢
      set s := (F.L p).seg (x p)
      have h5 := (hpiece p o ho i hi (s + 1) (by rw [← h3]; exact ht.1)).2 (segLeft S (s + 1)) (rx p) (hseg _ (by have := hact.1; omega)) hr'
      have h6 := (hpiece p o ho i hi s hact.1).2 (rx p) (segLeft S (s + 1)) hr' (hseg _ (by have := hact.1; omega))
      rw [F.piece_agree hS0 hsh] at h6
      have e3 : F.piece p o i s (rx p) - F.piece p o i (s + 1) (rx p) = (F.piece p o i s (rx p) - F.piece p o i (s + 1) (segLeft S (s + 1)))
        + (F.piece p o i (s + 1) (segLeft S (s + 1)) - F.piece p o i (s + 1) (rx p)) := by ring
      rw [e3]
      refine (abs_add_le _ _).trans ?_
      rw [abs_sub_comm (segLeft S (s + 1))] at h5
      have h7 : Λ * |rx p - segLeft S (s + 1)| ≤ Λ * (C * (A p).eps) := mul_le_mul_of_nonneg_left h4 hΛ
      linarith
  · refine ⟨0, Λ, M1, e1, le_rfl, he1, fun o ho i hi => ⟨hbd o ho i hi, fun p h1 h2 => ?_⟩⟩
    obtain ⟨t, ht, e⟩ := F.linkFn_ex hS0 (p := p) ho hi (rx p)
    rw [e, isActive_unique (hact p h1 h2) ht]
    simp

/-- The computed link of a product layer. -/
theorem link_tracks (hS0 : 0 < S) (hW : 0 ≤ W) {o i : ℕ} (ho : o < O) (hi : i < I) {x : ∀ p, (A p).K} {rx : P → ℝ} (hx : Tracks x rx)
    (hc : cls.shared = true ∨ ∃ M0 e0 : ℝ, 0 < e0 ∧ ∀ p, (A p).eps ≤ e0 → M0 ≤ (A p).M → IsActive S ((F.L p).seg (x p)) (rx p)) :
    Tracks (fun p => sumL ((List.range n).map fun k => (getLagrangeBasis n ((2 : ℕ) : (A p).K)).call ((F.L p).xIn (x p)) k
      * (F.L p).w.get [o, i, (F.L p).seg (x p) * (F.L p).stride + k])) (fun p => (F.ex p).linkFn o i (rx p)) := by
  obtain ⟨C, B, M0, e0, hC, he, h⟩ := F.link_shift hS0 hW hx hc
  have h1 := Tracks.sum (List.range n) (f := fun k p => (getLagrangeBasis n ((2 : ℕ) : (A p).K)).call ((F.L p).xIn (x p)) k
      * (F.L p).w.get [o, i, (F.L p).seg (x p) * (F.L p).stride + k]) fun k hk => F.term_tracks hS0 ho hi (List.mem_range.1 hk) hx
  refine (h1.congr (fun _ => rfl) fun p => F.piece_sum p o i _ _).shift hC he (h o ho i hi).1 (h o ho i hi).2

/-- The computed output `o` of a layer whose computed inputs are `x`. -/
def outK (p : P) (o : ℕ) (x : ℕ → (A p).K) : (A p).K :=
  match cls with
  | .continuous | .discontinuous => sumL ((List.range n).flatMap fun k => (List.range I).map fun i =>
      (getLagrangeBasis n ((2 : ℕ) : (A p).K)).call ((F.L p).xIn (x i)) k * (F.L p).w.get [o, i, (F.L p).seg (x i) * (F.L p).stride + k])
  | .continuousProd | .discontinuousProd =>
      prodL ((List.range I).map fun i => 1 + sumL ((List.range n).map fun k =>
        (getLagrangeBasis n ((2 : ℕ) : (A p).K)).call ((F.L p).xIn (x i)) k * (F.L p).w.get [o, i, (F.L p).seg (x i) * (F.L p).stride + k])) - 1
      + (1 - 1) * sumL ((List.range I).map fun i => sumL ((List.range n).map fun k =>
        (getLagrangeBasis n ((2 : ℕ) : (A p).K)).call ((F.L p).xIn (x i)) k * (F.L p).w.get [o, i, (F.L p).seg (x i) * (F.L p).stride + k]))

theorem out_tracks (hS0 : 0 < S) (hW : 0 ≤ W) {o : ℕ} (ho : o < O) {x : ∀ p, ℕ → (A p).K} {rx : P → ℕ → ℝ} (hx : ∀ i < I, Tracks (fun p => x p i) (fun p => rx p i))
    (hc : ∀ i < I, cls.shared = true ∨ ∃ M0 e0 : ℝ, 0 < e0 ∧ ∀ p, (A p).eps ≤ e0 → M0 ≤ (A p).M → IsActive S ((F.L p).seg (x p i)) (rx p i)) :
    Tracks (fun p => F.outK p o (x p)) (fun p => cls.combine I fun i => (F.ex p).linkFn o i (rx p i)) := by
  have hprod : Tracks (fun p => prodL ((List.range I).map fun i => 1 + sumL ((List.range n).map fun k =>
        (getLagrangeBasis n ((2 : ℕ) : (A p).K)).call ((F.L p).xIn (x p i)) k * (F.L p).w.get [o, i, (F.L p).seg (x p i) * (F.L p).stride + k])) - 1
      + (1 - 1) * sumL ((List.range I).map fun i => sumL ((List.range n).map fun k =>
        (getLagrangeBasis n ((2 : ℕ) : (A p).K)).call ((F.L p).xIn (x p i)) k * (F.L p).w.get [o, i, (F.L p).seg (x p i) * (F.L p).stride + k])))
      (fun p => ∏ i ∈ Finset.range I, (1 + (F.ex p).linkFn o i (rx p i)) - 1) := by
    have hl := fun i (hi : i ∈ List.range I) => F.link_tracks hS0 hW ho (List.mem_range.1 hi) (hx i (List.mem_range.1 hi)) (hc i (List.mem_range.1 hi))
    refine (((Tracks.prod (List.range I) fun i hi => Tracks.one.add (hl i hi)).sub Tracks.one).add ((Tracks.one.sub Tracks.one).mul (Tracks.sum (List.range I) hl))).congr
      (fun p => rfl) fun p => ?_
    have := prodL_range I fun i => 1 + (F.ex p).linkFn o i (rx p i)
    rw [prodL_real] at this
    rw [this]
    ring
  have hsum : Tracks (fun p => sumL ((List.range n).flatMap fun k => (List.range I).map fun i =>
      (getLagrangeBasis n ((2 : ℕ) : (A p).K)).call ((F.L p).xIn (x p i)) k * (F.L p).w.get [o, i, (F.L p).seg (x p i) * (F.L p).stride + k]))
      (fun p => ∑ i ∈ Finset.range I, (F.ex p).linkFn o i (rx p i)) := by
    have h1 := Tracks.sum (A := A) ((List.range n).flatMap fun k => (List.range I).map fun i => (k, i)) (f := fun a p =>
        (getLagrangeBasis n ((2 : ℕ) : (A p).K)).call ((F.L p).xIn (x p a.2)) a.1 * (F.L p).w.get [o, a.2, (F.L p).seg (x p a.2) * (F.L p).stride + a.1])
      (r := fun a p => (getLagrangeBasis n ((2 : ℕ) : ℝ)).call (localCoord S ((F.L p).seg (x p a.2)) (rx p a.2)) a.1
        * F.wv p o a.2 ((F.L p).seg (x p a.2) * (F.L p).stride + a.1)) (by
        intro a ha
        obtain ⟨k, hk, h2⟩ := List.mem_flatMap.1 ha
        obtain ⟨i, hi, rfl⟩ := List.mem_map.1 h2
        exact F.term_tracks hS0 ho (List.mem_range.1 hi) (List.mem_range.1 hk) (hx i (List.mem_range.1 hi)))
    have h2 : Tracks (fun p => sumL ((List.range n).flatMap fun k => (List.range I).map fun i =>
        (getLagrangeBasis n ((2 : ℕ) : (A p).K)).call ((F.L p).xIn (x p i)) k * (F.L p).w.get [o, i, (F.L p).seg (x p i) * (F.L p).stride + k]))
        (fun p => ∑ i ∈ Finset.range I, F.piece p o i ((F.L p).seg (x p i)) (rx p i)) := by
      refine h1.congr (fun p => ?_) fun p => ?_
      · rw [List.map_flatMap]
        simp only [List.map_map]
        rfl
      · rw [List.map_flatMap]
        simp only [List.map_map]
        have e := sumL_flatMap_range n I fun k i => (getLagrangeBasis n ((2 : ℕ) : ℝ)).call (localCoord S ((F.L p).seg (x p i)) (rx p i)) k
          * F.wv p o i ((F.L p).seg (x p i) * (F.L p).stride + k)
        rw [sumL_real] at e
        refine Eq.trans e ?_
        rw [Finset.sum_comm]
        refine Finset.sum_congr rfl fun i _ => ?_
        rw [sum_basis_call_two]
        rfl
    have h3 := fun i (hi : i < I) => F.link_shift hS0 hW (hx i hi) (hc i hi)
    choose! C B M0 e0 hC he hsh using h3
    have hCs : 0 ≤ ∑ i ∈ Finset.range I, C i := Finset.sum_nonneg fun i hi => hC i (Finset.mem_range.1 hi)
    obtain ⟨M1, e1, he1, hall⟩ : ∃ M1 e1 : ℝ, 0 < e1 ∧ ∀ i < I, M0 i ≤ M1 ∧ e1 ≤ e0 i := by
      clear hCs hsh h1 h2
      have : ∀ m ≤ I, ∃ M1 e1 : ℝ, 0 < e1 ∧ ∀ i < m, M0 i ≤ M1 ∧ e1 ≤ e0 i := by
        intro m
        induction m with
        | zero => exact fun _ => ⟨0, 1, one_pos, by omega⟩
        | succ m ih =>
          intro hm
          obtain ⟨M1, e1, h1, h2⟩ := ih (by omega)
          refine ⟨max M1 (M0 m), min e1 (e0 m), lt_min h1 (he m (by omega)), fun i hi => ?_⟩
          by_cases him : i = m
          · rw [him]
            exact ⟨le_max_right _ _, min_le_right _ _⟩
          · obtain ⟨q1, q2⟩ := h2 i (by omega)
            exact ⟨q1.trans (le_max_left _ _), (min_le_left _ _).trans q2⟩
      exact this I le_rfl
    refine h2.shift (C' := ∑ i ∈ Finset.range I, C i) (B' := ∑ i ∈ Finset.range I, B i) (M0' := M1) (e0' := e1) hCs he1 (fun p => ?_) fun p q1 q2 => ?_
    · exact (Finset.abs_sum_le_sum_abs _ _).trans (Finset.sum_le_sum fun i hi => (hsh i (Finset.mem_range.1 hi) o ho i (Finset.mem_range.1 hi)).1 p)
    · rw [← Finset.sum_sub_distrib, Finset.sum_mul]
      refine (Finset.abs_sum_le_sum_abs _ _).trans (Finset.sum_le_sum fun i hi => ?_)
      obtain ⟨q3, q4⟩ := hall i (Finset.mem_range.1 hi)
      exact (hsh i (Finset.mem_range.1 hi) o ho i (Finset.mem_range.1 hi)).2 p (q1.trans q4) (q3.trans q2)
  cases cls
  · exact hsum
  · exact hprod
  · exact hsum
  · exact hprod

/-- What `forward` computes. -/
theorem forward_outK (p : P) {B : ℕ} {x : Tensor (A p).K} (hx : x.shape = [B, I]) (hwf : x.WF) :
    (F.L p).forward x = .ok (Tensor.tab2 B O fun b o => F.outK p o fun i => x.get [b, i]) := by
  have hn := F.hn p
  rw [(F.L p).forward_eq (F.wf p) (by rw [F.hI]; exact hx) hwf]
  unfold PwLayer.activeW
  rw [F.hI, F.hO, hn]
  have hpos : 0 < n := by
    have := (F.wf p).n_pos
    rwa [F.hn] at this
  have hcls := F.hcls p
  cases cls
  · have hp : (F.L p).poly = Poly.mk .batch n (getLagrangeBasis n ((2 : ℕ) : (A p).K)) := by
      unfold PwLayer.poly; rw [hcls, hn]; rfl
    rw [hp, interpolate_batch hpos]
    rfl
  · have hp : (F.L p).poly = Poly.mk (.batchProd 1) n (getLagrangeBasis n ((2 : ℕ) : (A p).K)) := by
      unfold PwLayer.poly; rw [hcls, hn]; rfl
    rw [hp, interpolate_batchProd hpos]
    rfl
  · have hp : (F.L p).poly = Poly.mk .batch n (getLagrangeBasis n ((2 : ℕ) : (A p).K)) := by
      unfold PwLayer.poly; rw [hcls, hn]; rfl
    rw [hp, interpolate_batch hpos]
    rfl
  · have hp : (F.L p).poly = Poly.mk (.batchProd 1) n (getLagrangeBasis n ((2 : ℕ) : (A p).K)) := by
      unfold PwLayer.poly; rw [hcls, hn]; rfl
    rw [hp, interpolate_batchProd hpos]
    rfl

theorem ex_wf (p : P) : (F.ex p).WF where
  n_pos := (F.wf p).n_pos
  seg_pos := (F.wf p).seg_pos
  in_pos := (F.wf p).in_pos
  out_pos := (F.wf p).out_pos
  w_shape := (F.wf p).w_shape
  w_wf := Tensor.wf_map (F.wf p).w_wf _

theorem ex_forward (p : P) {B : ℕ} {x : Tensor ℝ} (hx : x.shape = [B, I]) (hwf : x.WF) :
    (F.ex p).forward x = .ok (Tensor.tab2 B O fun b o => cls.combine I fun i => (F.ex p).linkFn o i (x.get [b, i])) := by
  rw [(F.ex p).forward_combine (F.ex_wf p) (by rw [hx]; exact congrArg (fun k => [B, k]) (F.hI p).symm) hwf]
  have e1 : (F.ex p).outFeatures = O := F.hO p
  have e2 : (F.ex p).inFeatures = I := F.hI p
  have e3 : (F.ex p).cls = cls := F.hcls p
  rw [e1, e2, e3]

end LayerFam

end HOL
