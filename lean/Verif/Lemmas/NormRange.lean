import Verif.Lemmas.Net
import Verif.Props.Stability
import Verif.Props.Norm
import Verif.Lemmas.Universal

/-! # Ranges of hidden values of normalized networks -/

namespace HOL
open TorchScalar Polynomial Spec

/-- All entries of a `[B, w]` tensor lie strictly between -1 and 1. -/
def Spec.InsideUnit (y : Tensor ℝ) (B w : ℕ) : Prop := y.shape = [B, w] ∧ y.WF ∧ ∀ b < B, ∀ i < w, |y.get [b, i]| < 1

/-- The function succeeds on every `[batch, w]` tensor and its values lie strictly between -1 and 1. -/
def Spec.IntoUnit (f : Fwd ℝ) (w : ℕ) : Prop :=
  ∀ (B : ℕ) (x : Tensor ℝ), x.shape = [B, w] → x.WF → ∃ y, f x = .ok y ∧ InsideUnit y B w

/-- The function succeeds on values strictly between -1 and 1 and keeps them there. -/
def Spec.KeepsUnit (f : Fwd ℝ) (w : ℕ) : Prop := ∀ (B : ℕ) (x : Tensor ℝ), InsideUnit x B w → ∃ y, f x = .ok y ∧ InsideUnit y B w

theorem Spec.IntoUnit.mapsTo {f : Fwd ℝ} {w : ℕ} (h : IntoUnit f w) : MapsTo f w w := by
  intro B x hx hwf
  obtain ⟨y, y1, y2, y3, -⟩ := h B x hx hwf
  exact ⟨y, y1, y2, y3⟩

theorem Spec.IntoUnit.cons {f : Fwd ℝ} {fs : List (Fwd ℝ)} {w : ℕ} (h : IntoUnit f w) (hs : ∀ g ∈ fs, KeepsUnit g w) : IntoUnit (seqForward (f :: fs)) w := by
  intro B x hx hwf
  obtain ⟨y, y1, y2⟩ := h B x hx hwf
  have : ∀ (fs : List (Fwd ℝ)) (y : Tensor ℝ), (∀ g ∈ fs, KeepsUnit g w) → InsideUnit y B w → ∃ z, seqForward fs y = .ok z ∧ InsideUnit z B w := by
    intro fs
    induction fs with
    | nil => exact fun y _ hy => ⟨y, rfl, hy⟩
    | cons g gs ih =>
      intro y hg hy
      obtain ⟨z, z1, z2⟩ := hg g (by simp) B y hy
      obtain ⟨u, u1, u2⟩ := ih z (fun k hk => hg k (by simp [hk])) z2
      exact ⟨u, by simp only [seqForward, z1]; exact u1, u2⟩
  obtain ⟨z, z1, z2⟩ := this fs y hs y2
  exact ⟨z, by simp only [seqForward, y1]; exact z1, z2⟩

/-- The value of a successful result. -/
noncomputable def okVal : Py (Tensor ℝ) → Tensor ℝ
  | .ok y => y
  | .error _ => ⟨[], []⟩

/-- What enters layer `l` of `compose pre input`. -/
noncomputable def entering (pre : List (Fwd ℝ)) (input : Fwd ℝ) (E : ℕ → Fwd ℝ) (x : Tensor ℝ) : ℕ → Tensor ℝ
  | 0 => okVal (input x >>= seqForward pre)
  | l + 1 => okVal (E l (entering pre input E x l) >>= seqForward pre)

theorem compose_trace {pre : List (Fwd ℝ)} {input : Fwd ℝ} {E : ℕ → Fwd ℝ} {H w0 w : ℕ} (hpre : IntoUnit (seqForward pre) w)
    (hin : MapsTo input w0 w) (hE : ∀ i < H, MapsTo (E i) w w) {B : ℕ} {x : Tensor ℝ} (hx : x.shape = [B, w0]) (hwf : x.WF) :
    ∃ z : ℕ → Tensor ℝ, (∀ l ≤ H, InsideUnit (z l) B w) ∧ (input x >>= seqForward pre) = .ok (z 0) ∧
      (∀ l < H, (E l (z l) >>= seqForward pre) = .ok (z (l + 1))) ∧ compose pre input ((List.range (H + 1)).map E) x = E H (z H) := by
  refine ⟨entering pre input E x, ?_⟩
  have h0 : (input x >>= seqForward pre) = .ok (entering pre input E x 0) ∧ InsideUnit (entering pre input E x 0) B w := by
    obtain ⟨y, y1, y2, y3⟩ := hin B x hx hwf
    obtain ⟨u, u1, u2⟩ := hpre B y y2 y3
    have e : (input x >>= seqForward pre) = .ok u := by rw [y1]; exact u1
    exact ⟨by rw [entering, e]; rfl, by rw [entering, e]; exact u2⟩
  have hstep : ∀ l < H, InsideUnit (entering pre input E x l) B w →
      (E l (entering pre input E x l) >>= seqForward pre) = .ok (entering pre input E x (l + 1)) ∧ InsideUnit (entering pre input E x (l + 1)) B w := by
    intro l hl hz
    obtain ⟨y, y1, y2, y3⟩ := hE l hl B _ hz.1 hz.2.1
    obtain ⟨u, u1, u2⟩ := hpre B y y2 y3
    have e : (E l (entering pre input E x l) >>= seqForward pre) = .ok u := by rw [y1]; exact u1
    exact ⟨by rw [entering, e]; rfl, by rw [entering, e]; exact u2⟩
  have hall : ∀ l, l ≤ H → InsideUnit (entering pre input E x l) B w := by
    intro l
    induction l with
    | zero => exact fun _ => h0.2
    | succ l ih => exact fun hl => (hstep l (by omega) (ih (by omega))).2
  have hsteps := fun l (hl : l < H) => (hstep l hl (hall l hl.le)).1
  refine ⟨hall, h0.1, hsteps, ?_⟩
  have hblocks : ∀ k, k ≤ H → seqForward (input :: (((List.range k).map E).flatMap fun l => pre ++ [l]) ++ pre) x = .ok (entering pre input E x k) := by
    intro k
    induction k with
    | zero =>
      intro _
      rw [← h0.1]
      rfl
    | succ k ih =>
      intro hk
      rw [← hsteps k (by omega), List.range_succ, List.map_append, List.flatMap_append, List.map_singleton, List.flatMap_singleton]
      have e : input :: ((((List.range k).map E).flatMap fun l => pre ++ [l]) ++ (pre ++ [E k])) ++ pre =
          (input :: (((List.range k).map E).flatMap fun l => pre ++ [l]) ++ pre) ++ (E k :: pre) := by simp
      rw [e, seqForward_append, ih (by omega)]
      rfl
  unfold HOL.compose
  rw [List.range_succ, List.map_append, List.flatMap_append, List.map_singleton, List.flatMap_singleton]
  have e : input :: ((((List.range H).map E).flatMap fun l => pre ++ [l]) ++ (pre ++ [E H])) =
      (input :: (((List.range H).map E).flatMap fun l => pre ++ [l]) ++ pre) ++ [E H] := by simp
  rw [e, seqForward_append, hblocks H le_rfl]
  show seqForward [E H] _ = _
  simp only [seqForward]
  cases E H (entering pre input E x H) <;> rfl

/-- Wrapping keeps `[-1, 1]`. -/
theorem periodize_unit {q : Option ℝ} (hq : ∀ p ∈ q, 0 < p) {t : ℝ} (ht : |t| ≤ 1) : |periodize q t| ≤ 1 := by
  cases q with
  | none => exact ht
  | some p =>
    have hp : 0 < p := hq p rfl
    show |makePeriodic t p| ≤ 1
    rcases le_or_gt p 2 with h2 | h2
    · obtain ⟨a, b⟩ := makePeriodic_mem hp t
      rw [abs_le]
      constructor <;> linarith
    · obtain ⟨a, b⟩ := abs_le.1 ht
      rw [makePeriodic_id hp (by linarith) (by linarith)]
      exact ht

/-- On `[-1, 1]` a link is bounded by the Lebesgue constant of its nodes times its weights. -/
theorem linkFn_bound {n : ℕ} {Λ : ℝ}
    (hΛ : ∀ (v w : ℕ → ℝ) (δ : ℝ), (∀ k < n, |v k - w k| ≤ δ) → ∀ t, -1 ≤ t → t ≤ 1 → |(linkPoly n v).eval t - (linkPoly n w).eval t| ≤ Λ * δ)
    {L : PwLayer ℝ} (h : L.WF) (hl : L.length = 2) (hp : ∀ p ∈ L.periodicity, 0 < p) (hn : L.n = n) {o i : ℕ} {W : ℝ}
    (hw : ∀ r < PwLayer.wSize L.cls L.n L.segments, |L.w.get [o, i, r]| ≤ W) {t : ℝ} (ht : |t| ≤ 1) : |L.linkFn o i t| ≤ Λ * W := by
  rw [L.linkFn_periodic]
  have hu := abs_le.1 (periodize_unit hp ht)
  set u := periodize L.periodicity t
  obtain ⟨s, hact⟩ := isActive_exists h.seg_pos u
  obtain ⟨-, -, b3, b4⟩ := isActive_bounds hact hu.1 hu.2
  have e := L.noPeriod.linkFn_isPiecewise h.seg_pos hl rfl o i s u hact
  rw [e]
  have hz : (linkPoly L.n fun _ => (0 : ℝ)).eval (localCoord L.segments s u) = 0 := by
    unfold linkPoly
    simp [Lagrange.interpolate_apply]
  have := hΛ (fun k => L.w.get [o, i, s * L.stride + k]) (fun _ => 0) W (fun k hk => ?_) (localCoord L.segments s u) b3 b4
  · rw [← hn, hz, sub_zero] at this
    exact this
  · simp only [sub_zero]
    exact hw _ (L.widx_lt h.n_pos hact.1 (by rw [hn]; exact hk))

/-- A product of factors near 1. -/
theorem prod_one_add_bound (I : ℕ) {f : ℕ → ℝ} {M : ℝ} (hf : ∀ i < I, |f i| ≤ M) : |∏ i ∈ Finset.range I, (1 + f i) - 1| ≤ (1 + M) ^ I - 1 := by
  induction I with
  | zero => simp
  | succ I ih =>
    have h1 := ih fun i hi => hf i (by omega)
    have h2 := hf I (by omega)
    rw [Finset.prod_range_succ, pow_succ]
    set P := ∏ i ∈ Finset.range I, (1 + f i)
    have e : P * (1 + f I) - 1 = (P - 1) * (1 + f I) + f I := by ring
    have h3 : |1 + f I| ≤ 1 + M := (abs_add_le _ _).trans (by rw [abs_one]; linarith)
    rw [e]
    calc |(P - 1) * (1 + f I) + f I| ≤ |P - 1| * |1 + f I| + |f I| := by rw [← abs_mul]; exact abs_add_le _ _
      _ ≤ ((1 + M) ^ I - 1) * (1 + M) + M := by
        gcongr
        exact (abs_nonneg _).trans h1
      _ = (1 + M) ^ I * (1 + M) - 1 := by ring

end HOL
