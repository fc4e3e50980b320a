import Verif.Lemmas.RefineReal

/-! # `interpolate` and `refine` between layers of different widths -/

namespace HOL
open TorchScalar Polynomial Spec

section generic
variable {K : Type} [TorchScalar K]

/-- The procedure raises `e` after setting the entries in `W` to `V`; all others are as before. -/
def WritesRaise (L0 : PwLayer K) (V : ℕ → ℕ → ℕ → K) (W : ℕ → ℕ → ℕ → Prop) (e : PyErr)
    (f : PwLayer K → Eff (PwLayer K)) : Prop :=
  ∀ L, Frame L0 L → ∃ L', f L = (.error e, L') ∧ Frame L0 L' ∧
    ∀ p q r, InShape L0.w.shape [p, q, r] →
      (W p q r → L'.w.get [p, q, r] = V p q r) ∧ (¬ W p q r → L'.w.get [p, q, r] = L.w.get [p, q, r])

theorem WritesRaise.mono {L0 : PwLayer K} {V : ℕ → ℕ → ℕ → K} {W W' : ℕ → ℕ → ℕ → Prop} {e : PyErr}
    {f : PwLayer K → Eff (PwLayer K)} (h : WritesRaise L0 V W e f) (he : ∀ p q r, W p q r ↔ W' p q r) :
    WritesRaise L0 V W' e f := by
  have : W = W' := by funext p q r; exact propext (he p q r)
  rwa [← this]

/-- Passes `0 … M - 1` of the loop write, pass `M` raises. -/
theorem WritesRaise.loop {L0 : PwLayer K} {V : ℕ → ℕ → ℕ → K} {W : ℕ → ℕ → ℕ → ℕ → Prop} {e : PyErr}
    {body : ℕ → PwLayer K → Eff (PwLayer K)} {M N : ℕ} (hMN : M < N) (h : ∀ t < M, Writes L0 V (W t) (body t))
    (hM : WritesRaise L0 V (W M) e (body M)) :
    WritesRaise L0 V (fun p q r => ∃ t ≤ M, W t p q r) e (forLoop N body) := by
  have step : WritesRaise L0 V (fun p q r => ∃ t ≤ M, W t p q r) e (forLoop (M + 1) body) := by
    intro L hL
    obtain ⟨L1, e1, f1, v1⟩ := Writes.loop h L hL
    obtain ⟨L2, e2, f2, v2⟩ := hM L1 f1
    refine ⟨L2, ?_, f2, ?_⟩
    · rw [forLoop, e1]; exact e2
    · intro p q r hin
      obtain ⟨a1, b1⟩ := v1 p q r hin
      obtain ⟨a2, b2⟩ := v2 p q r hin
      by_cases hw : W M p q r
      · exact ⟨fun _ => a2 hw, fun hn => absurd ⟨M, le_refl _, hw⟩ hn⟩
      · constructor
        · rintro ⟨t, ht, hwt⟩
          have htM : t ≠ M := by rintro rfl; exact hw hwt
          rw [b2 hw]
          exact a1 ⟨t, by omega, hwt⟩
        · intro hn
          rw [b2 hw]
          exact b1 fun ⟨t, ht, hwt⟩ => hn ⟨t, by omega, hwt⟩
  obtain ⟨d, rfl⟩ : ∃ d, N = M + 1 + d := ⟨N - (M + 1), by omega⟩
  clear hMN
  induction d with
  | zero => exact step
  | succ d ih =>
    intro L hL
    obtain ⟨L', e', f', v'⟩ := ih L hL
    refine ⟨L', ?_, f', v'⟩
    rw [← Nat.add_assoc, forLoop, e']

/-- Raising at once. -/
theorem WritesRaise.now {L0 : PwLayer K} {V : ℕ → ℕ → ℕ → K} {e : PyErr} {f : PwLayer K → Eff (PwLayer K)}
    (h : ∀ L, Frame L0 L → f L = (.error e, L)) : WritesRaise L0 V (fun _ _ _ => False) e f :=
  fun L hL => ⟨L, h L hL, hL, fun _ _ _ _ => ⟨False.elim, fun _ => rfl⟩⟩

end generic

/-- One pass of the innermost loop of `interpolate` on a link both layers have. -/
theorem interpolateStep_writes' {Lin Lout : PwLayer ℝ} (hin : Lin.WF) (hout : Lout.WF)
    (hc : Lin.cls = .continuous ∨ Lin.cls = .discontinuous) (hcls : Lout.cls.shared = Lin.cls.shared)
    (hseg : Lin.segments = Lout.segments) {X : Tensor ℝ} (hXs : X.shape = [Lout.n, 1])
    (hXg : ∀ k < Lout.n, X.get [k, 0] = node Lout.n k) (V : ℕ → ℕ → ℕ → ℝ) {a b j : ℕ}
    (ha : a < Lout.outFeatures) (hb : b < Lout.inFeatures) (ha' : a < Lin.outFeatures) (hb' : b < Lin.inFeatures)
    (hj : j < Lout.segments)
    (hV : ∀ k, k < Lout.n → V a b (j * Lout.stride + k)
      = (linkPoly Lin.n fun q => Lin.w.get [a, b, j * Lin.stride + q]).eval (node Lout.n k)) :
    Writes Lout V (fun p q r => p = a ∧ q = b ∧ ∃ k < Lout.n, r = j * Lout.stride + k)
      (interpolateStep Lin X Lin.n Lout.n a b j) := by
  obtain ⟨st, ex, e1, e2, e3⟩ := interpolateOffsets_sum hc hin.n_pos
  obtain ⟨st', ex', e1', e2', e3'⟩ := interpolateOffsets_sum hc hout.n_pos
  have est : st = Lin.stride := e2
  have est' : st' = Lout.stride := by rw [e2', ← hcls]; rfl
  have hpoly : Lin.poly = lagrangePoly Lin.n ((2 : ℕ) : ℝ) := by
    unfold PwLayer.poly; rcases hc with h | h <;> rw [h]
  have hbound : j * Lin.stride + Lin.n ≤ PwLayer.wSize Lin.cls Lin.n Lin.segments := by
    have := Lin.widx_lt hin.n_pos (s := j) (k := Lin.n - 1) (by omega) (by have := hin.n_pos; omega)
    have := hin.n_pos
    omega
  have hbound' : j * Lout.stride + Lout.n ≤ PwLayer.wSize Lout.cls Lout.n Lout.segments := by
    have := Lout.widx_lt hout.n_pos (s := j) (k := Lout.n - 1) (by omega) (by have := hout.n_pos; omega)
    have := hout.n_pos
    omega
  refine writes_slice hout.w_shape ha hb hbound' _ ?_
  intro L hL
  refine ⟨Tensor.tab2 Lout.n 1 fun k _ => (linkPoly Lin.n fun q =>
    Lin.w.get [a, b, j * Lin.stride + q]).eval (X.get [k, 0]), by simp [numel], ?_, ?_⟩
  · intro k hk
    rw [hV k hk, ← hXg k hk]
    rw [Tensor.get_reshape _ (idx' := [k, 0]) (by simp [ravel, numel])]
    exact Tensor.get_tab2 hk (by omega)
  · unfold interpolateStep
    rw [e1, e1']
    simp only [bind, Except.bind]
    rw [e3, e3', est, est', sliceRow_ok hin.w_shape ha' hb' hbound]
    simp only
    rw [hpoly, interpolate_column hin.n_pos hXs]

/-- On a link the target does not have the assignment raises `IndexError`. -/
theorem interpolateStep_raises {Lin Lout : PwLayer ℝ} (hin : Lin.WF) (hout : Lout.WF)
    (hc : Lin.cls = .continuous ∨ Lin.cls = .discontinuous) {X : Tensor ℝ} (hXs : X.shape = [Lout.n, 1])
    {a b j : ℕ} (ha' : a < Lin.outFeatures) (hb' : b < Lin.inFeatures) (hj : j < Lin.segments)
    (hno : ¬ (a < Lout.outFeatures ∧ b < Lout.inFeatures)) (L : PwLayer ℝ) (hL : Frame Lout L) :
    interpolateStep Lin X Lin.n Lout.n a b j L = (.error .indexError, L) := by
  obtain ⟨st, ex, e1, e2, e3⟩ := interpolateOffsets_sum hc hin.n_pos
  obtain ⟨st', ex', e1', e2', e3'⟩ := interpolateOffsets_sum hc hout.n_pos
  have est : st = Lin.stride := e2
  have hpoly : Lin.poly = lagrangePoly Lin.n ((2 : ℕ) : ℝ) := by
    unfold PwLayer.poly; rcases hc with h | h <;> rw [h]
  have hbound : j * Lin.stride + Lin.n ≤ PwLayer.wSize Lin.cls Lin.n Lin.segments := by
    have := Lin.widx_lt hin.n_pos (s := j) (k := Lin.n - 1) (by omega) (by have := hin.n_pos; omega)
    have := hin.n_pos
    omega
  unfold interpolateStep
  rw [e1, e1']
  simp only [bind, Except.bind]
  rw [e3, e3', est, sliceRow_ok hin.w_shape ha' hb' hbound]
  simp only
  rw [hpoly, interpolate_column hin.n_pos hXs]
  simp only
  unfold sliceAssign
  rw [hL.shape.trans hout.w_shape]
  simp only [if_neg hno]
  rfl

/-- The loops of `interpolate` with the attributes filled in. -/
theorem interpolateLayer_loops' {Lin Lout : PwLayer ℝ} (hin : Lin.WF) (hseg : Lin.segments = Lout.segments) :
    ∃ X : Tensor ℝ, X.shape = [Lout.n, 1] ∧ (∀ k < Lout.n, X.get [k, 0] = node Lout.n k) ∧
      interpolateLayer Lin Lout = forLoop Lin.outFeatures (fun a => forLoop Lin.inFeatures fun b =>
        forLoop Lin.segments fun i => interpolateStep Lin X Lin.n Lout.n a b i) Lout := by
  obtain ⟨Xi, hXi, -, -, -, -⟩ := columnX_poly Lin
  obtain ⟨X, hX, hXs, hXw, hXg, -⟩ := columnX_poly Lout
  refine ⟨X, hXs, hXg, ?_⟩
  unfold interpolateLayer
  rw [if_neg (by simpa using hseg), hXi, hX, nAttr_poly, nAttr_poly]
  have d0 : dim Lin.w 0 = Lin.outFeatures := by unfold dim; rw [hin.w_shape]; rfl
  have d1 : dim Lin.w 1 = Lin.inFeatures := by unfold dim; rw [hin.w_shape]; rfl
  simp only
  rw [d0, d1]

/-- The node positions written for one link are all its weights. -/
theorem link_cover {Lout : PwLayer ℝ} (hout : Lout.WF) {r : ℕ} (hr : r < PwLayer.wSize Lout.cls Lout.n Lout.segments) :
    ∃ s < Lout.segments, ∃ k < Lout.n, r = s * Lout.stride + k := by
  obtain ⟨s, hs, k, hk, e⟩ := cover hout.n_pos hout.seg_pos hr
  exact ⟨s, hs, k, hk, e⟩

/-- Loops over the links of a layer that write a link the target has and raise `IndexError` on others, for any widths of the two layers: the
links are visited row by row and the first one the target does not have ends the loops. -/
theorem loops_any {Lin Lout : PwLayer ℝ} (hin : Lin.WF) (hout : Lout.WF) (V : ℕ → ℕ → ℕ → ℝ)
    (body : ℕ → ℕ → PwLayer ℝ → Eff (PwLayer ℝ))
    (link : ∀ a b, a < Lout.outFeatures → b < Lout.inFeatures → a < Lin.outFeatures → b < Lin.inFeatures →
      Writes Lout V (fun p q r => p = a ∧ q = b ∧ r < PwLayer.wSize Lout.cls Lout.n Lout.segments) (body a b))
    (bad : ∀ a b, a < Lin.outFeatures → b < Lin.inFeatures → ¬ (a < Lout.outFeatures ∧ b < Lout.inFeatures) →
      WritesRaise Lout V (fun _ _ _ => False) .indexError (body a b)) :
    ∃ L', forLoop Lin.outFeatures (fun a => forLoop Lin.inFeatures (body a)) Lout
        = (if Lin.outFeatures ≤ Lout.outFeatures ∧ Lin.inFeatures ≤ Lout.inFeatures then .ok () else .error .indexError, L') ∧
      Frame Lout L' ∧ ∀ o < Lout.outFeatures, ∀ i < Lout.inFeatures, ∀ r < PwLayer.wSize Lout.cls Lout.n Lout.segments,
        L'.w.get [o, i, r] = if i < Lin.inFeatures ∧ o < (if Lin.inFeatures ≤ Lout.inFeatures then Lin.outFeatures else 1)
          then V o i r else Lout.w.get [o, i, r] := by
  have hfin : ∀ o i r, o < Lout.outFeatures → i < Lout.inFeatures → r < PwLayer.wSize Lout.cls Lout.n Lout.segments →
      InShape Lout.w.shape [o, i, r] := by
    intro o i r ho hi hr
    rw [hout.w_shape]; exact inShape3.2 ⟨ho, hi, hr⟩
  by_cases hI : Lin.inFeatures ≤ Lout.inFeatures
  · -- every row can be written completely
    have row : ∀ a, a < Lout.outFeatures → a < Lin.outFeatures →
        Writes Lout V (fun p q r => p = a ∧ q < Lin.inFeatures ∧ r < PwLayer.wSize Lout.cls Lout.n Lout.segments)
          (forLoop Lin.inFeatures (body a)) := by
      intro a ha ha'
      refine Writes.mono (Writes.loop fun b hb => link a b ha (by omega) ha' hb) ?_
      intro p q r
      constructor
      · rintro ⟨t, ht, rfl, rfl, hr⟩; exact ⟨rfl, ht, hr⟩
      · rintro ⟨rfl, hq, hr⟩; exact ⟨q, hq, rfl, rfl, hr⟩
    by_cases hO : Lin.outFeatures ≤ Lout.outFeatures
    · rw [if_pos ⟨hO, hI⟩]
      obtain ⟨L', e', hf, hv⟩ := Writes.loop (fun a ha => row a (Nat.lt_of_lt_of_le ha hO) ha) Lout (Frame.refl hout.w_wf)
      refine ⟨L', e', hf, fun o ho i hi r hr => ?_⟩
      obtain ⟨h1, h2⟩ := hv o i r (hfin o i r ho hi hr)
      rw [if_pos hI]
      split
      · next h => exact h1 ⟨o, h.2, rfl, h.1, hr⟩
      · next h => exact h2 fun ⟨t, ht, ht1, ht2, _⟩ => h ⟨ht2, ht1 ▸ ht⟩
    · rw [if_neg fun h => hO h.1]
      have hlast : WritesRaise Lout V (fun _ _ _ => False) .indexError (forLoop Lin.inFeatures (body Lout.outFeatures)) := by
        refine WritesRaise.mono (WritesRaise.loop (W := fun _ _ _ _ => False) (M := 0) hin.in_pos (fun t ht => absurd ht (by omega))
          (bad _ 0 (by omega) hin.in_pos (by omega))) ?_
        intro p q r
        simp
      obtain ⟨L', e', hf, hv⟩ := WritesRaise.loop (N := Lin.outFeatures) (M := Lout.outFeatures)
        (W := fun a p q r => a < Lout.outFeatures ∧ p = a ∧ q < Lin.inFeatures ∧ r < PwLayer.wSize Lout.cls Lout.n Lout.segments)
        (by omega) (fun a ha => Writes.mono (row a ha (by omega)) fun p q r => by simp [ha])
        (WritesRaise.mono hlast fun p q r => by simp) Lout (Frame.refl hout.w_wf)
      refine ⟨L', e', hf, fun o ho i hi r hr => ?_⟩
      obtain ⟨h1, h2⟩ := hv o i r (hfin o i r ho hi hr)
      rw [if_pos hI]
      split
      · next h => exact h1 ⟨o, by omega, ho, rfl, h.1, hr⟩
      · next h => exact h2 fun ⟨t, _, ht1, ht2, ht3, _⟩ => h ⟨ht3, by omega⟩
  · -- the first row cannot be completed
    rw [if_neg fun h => hI h.2]
    have hrow : WritesRaise Lout V (fun p q r => p = 0 ∧ q < Lout.inFeatures ∧ r < PwLayer.wSize Lout.cls Lout.n Lout.segments) .indexError
        (forLoop Lin.inFeatures (body 0)) := by
      refine WritesRaise.mono (WritesRaise.loop (N := Lin.inFeatures) (M := Lout.inFeatures)
        (W := fun b p q r => b < Lout.inFeatures ∧ p = 0 ∧ q = b ∧ r < PwLayer.wSize Lout.cls Lout.n Lout.segments)
        (by omega) (fun b hb => Writes.mono (link 0 b hout.out_pos hb hin.out_pos (by omega)) fun p q r => by simp [hb])
        (WritesRaise.mono (bad 0 Lout.inFeatures hin.out_pos (by omega) (by omega)) fun p q r => by simp)) ?_
      intro p q r
      constructor
      · rintro ⟨t, _, ht, rfl, rfl, hr⟩; exact ⟨rfl, ht, hr⟩
      · rintro ⟨rfl, hq, hr⟩; exact ⟨q, by omega, hq, rfl, rfl, hr⟩
    obtain ⟨L', e', hf, hv⟩ := WritesRaise.loop (N := Lin.outFeatures) (M := 0)
      (W := fun _ p q r => p = 0 ∧ q < Lout.inFeatures ∧ r < PwLayer.wSize Lout.cls Lout.n Lout.segments)
      (body := fun a => forLoop Lin.inFeatures (body a))
      hin.out_pos (fun t ht => absurd ht (by omega)) hrow Lout (Frame.refl hout.w_wf)
    refine ⟨L', e', hf, fun o ho i hi r hr => ?_⟩
    obtain ⟨h1, h2⟩ := hv o i r (hfin o i r ho hi hr)
    rw [if_neg hI]
    split
    · next h => exact h1 ⟨0, le_refl _, by omega, hi, hr⟩
    · next h => exact h2 fun ⟨_, _, ht1, _, _⟩ => h ⟨by omega, by omega⟩

/-- What `interpolate` does to the weights, for any widths of the two layers. -/
theorem interpolateLayer_any {Lin Lout : PwLayer ℝ} (hin : Lin.WF) (hout : Lout.WF)
    (hc : Lin.cls = .continuous ∨ Lin.cls = .discontinuous) (hcls : Lout.cls.shared = Lin.cls.shared)
    (hseg : Lin.segments = Lout.segments) (V : ℕ → ℕ → ℕ → ℝ)
    (hV : ∀ o i s k, k < Lout.n → V o i (s * Lout.stride + k)
      = (linkPoly Lin.n fun q => Lin.w.get [o, i, s * Lin.stride + q]).eval (node Lout.n k)) :
    ∃ L', interpolateLayer Lin Lout
        = (if Lin.outFeatures ≤ Lout.outFeatures ∧ Lin.inFeatures ≤ Lout.inFeatures then .ok () else .error .indexError, L') ∧
      Frame Lout L' ∧ ∀ o < Lout.outFeatures, ∀ i < Lout.inFeatures, ∀ r < PwLayer.wSize Lout.cls Lout.n Lout.segments,
        L'.w.get [o, i, r] = if i < Lin.inFeatures ∧ o < (if Lin.inFeatures ≤ Lout.inFeatures then Lin.outFeatures else 1)
          then V o i r else Lout.w.get [o, i, r] := by
  obtain ⟨X, hXs, hXg, e⟩ := interpolateLayer_loops' hin hseg
  rw [e]
  refine loops_any hin hout V _ ?_ ?_
  · intro a b ha hb ha' hb'
    refine Writes.mono (Writes.loop fun j hj => interpolateStep_writes' hin hout hc hcls hseg hXs hXg V ha hb ha' hb'
      (hseg ▸ hj) fun k hk => hV a b j k hk) ?_
    intro p q r
    constructor
    · rintro ⟨s, hs, rfl, rfl, k, hk, rfl⟩
      exact ⟨rfl, rfl, Lout.widx_lt hout.n_pos (hseg ▸ hs) hk⟩
    · rintro ⟨rfl, rfl, hr⟩
      obtain ⟨s, hs, k, hk, rfl⟩ := link_cover hout hr
      exact ⟨s, hseg ▸ hs, rfl, rfl, k, hk, rfl⟩
  · intro a b ha' hb' hno
    refine WritesRaise.mono (WritesRaise.loop (W := fun _ _ _ _ => False) (M := 0) hin.seg_pos (fun t ht => absurd ht (by omega))
      (WritesRaise.now fun L hL => interpolateStep_raises hin hout hc hXs ha' hb' hin.seg_pos hno L hL)) ?_
    intro p q r
    simp

/-- One pass of the innermost loop of `refine` up to the assignment. -/
theorem refineStep_assign {Lin Lout : PwLayer ℝ} (hin : Lin.WF) (hsh : Lin.cls.shared = true) (hl' : Lout.length = 2)
    {X : Tensor ℝ} {a b j k : ℕ} (hXg : X.get [k, 0] = node Lout.n k) (ha' : a < Lin.outFeatures) (hb' : b < Lin.inFeatures)
    (L : PwLayer ℝ) :
    refineStep Lin Lout X Lin.n Lout.n a b j k L = L.assign (entryAssign L.w a b (j * (Lout.n - 1) + k)
      (Tensor.tab2 1 1 fun _ _ => refineVal Lin a b (nodePos Lout.n Lout.segments j k))) := by
  have hst : Lin.stride = Lin.n - 1 := by unfold PwLayer.stride; rw [hsh]; rfl
  have hxg : Lout.xGlobal (X.get [k, 0]) (j : ℤ) = nodePos Lout.n Lout.segments j k := by
    rw [Lout.xGlobal_real hl', hXg]; rfl
  set xg := nodePos Lout.n Lout.segments j k with hxgdef
  have hsegeq := Lin.whichSegment_eq_seg hin.seg_pos xg
  have hslt : Lin.seg xg < Lin.segments := Lin.seg_lt hin.seg_pos xg
  have hbound : Lin.seg xg * (Lin.n - 1) + Lin.n ≤ PwLayer.wSize Lin.cls Lin.n Lin.segments := by
    have := Lin.widx_lt hin.n_pos (s := Lin.seg xg) (k := Lin.n - 1) hslt
      (by have := hin.n_pos; omega)
    rw [hst] at this
    have := hin.n_pos
    omega
  unfold refineStep
  have e3 : (Lin.seg xg + 1) * (Lin.n - 1) + 1 = Lin.seg xg * (Lin.n - 1) + Lin.n := by
    have := hin.n_pos
    have : (Lin.seg xg + 1) * (Lin.n - 1) = Lin.seg xg * (Lin.n - 1) + (Lin.n - 1) := by ring
    omega
  rw [hxg]
  dsimp only
  rw [hsegeq, Int.toNat_natCast, e3, sliceRow_ok hin.w_shape ha' hb' hbound]
  simp only [bind, Except.bind]
  rw [interpolate_point Lin hin.n_pos]
  rfl

/-- What `refine` does to the weights, for any widths of the two layers. -/
theorem refineLayer_any {Lin Lout : PwLayer ℝ} (hin : Lin.WF) (hout : Lout.WF)
    (hsh : Lin.cls.shared = true) (hsh' : Lout.cls.shared = true) (hl' : Lout.length = 2) (V : ℕ → ℕ → ℕ → ℝ)
    (hV : ∀ o i s k, s < Lout.segments → k < Lout.n → V o i (s * (Lout.n - 1) + k)
      = refineVal Lin o i (nodePos Lout.n Lout.segments s k)) :
    ∃ L', refineLayer Lin Lout
        = (if Lin.outFeatures ≤ Lout.outFeatures ∧ Lin.inFeatures ≤ Lout.inFeatures then .ok () else .error .indexError, L') ∧
      Frame Lout L' ∧ ∀ o < Lout.outFeatures, ∀ i < Lout.inFeatures, ∀ r < PwLayer.wSize Lout.cls Lout.n Lout.segments,
        L'.w.get [o, i, r] = if i < Lin.inFeatures ∧ o < (if Lin.inFeatures ≤ Lout.inFeatures then Lin.outFeatures else 1)
          then V o i r else Lout.w.get [o, i, r] := by
  obtain ⟨Xi, hXi, -, -, -, -⟩ := columnX_poly Lin
  obtain ⟨X, hX, hXs, hXw, hXg, -⟩ := columnX_poly Lout
  unfold refineLayer
  rw [hXi, hX, nAttr_poly, nAttr_poly]
  have d0 : dim Lin.w 0 = Lin.outFeatures := by unfold dim; rw [hin.w_shape]; rfl
  have d1 : dim Lin.w 1 = Lin.inFeatures := by unfold dim; rw [hin.w_shape]; rfl
  have dX : numel X.shape = Lout.n := by rw [hXs]; simp [numel]
  simp only
  rw [d0, d1, dX]
  have hst' : Lout.stride = Lout.n - 1 := by unfold PwLayer.stride; rw [hsh']; rfl
  refine loops_any hin hout V _ ?_ ?_
  · intro a b ha hb ha' hb'
    refine Writes.mono (Writes.loop fun j hj => Writes.loop
      (W := fun k p q r => p = a ∧ q = b ∧ r = j * Lout.stride + k) (N := Lout.n) fun k hk => ?_) ?_
    · refine writes_entry hout.w_shape ha hb (Lout.widx_lt hout.n_pos hj hk) _ ?_
      intro L hL
      refine ⟨Tensor.tab2 1 1 fun _ _ => refineVal Lin a b (nodePos Lout.n Lout.segments j k), by simp [numel], ?_, ?_⟩
      · rw [hst', hV a b j k hj hk]
        rw [Tensor.get_reshape _ (idx' := [0, 0]) (by simp [ravel, numel])]
        exact Tensor.get_tab2 (by omega) (by omega)
      · rw [refineStep_assign hin hsh hl' (hXg k hk) ha' hb', hst']
    · intro p q r
      constructor
      · rintro ⟨s, hs, k, hk, rfl, rfl, rfl⟩
        exact ⟨rfl, rfl, Lout.widx_lt hout.n_pos hs hk⟩
      · rintro ⟨rfl, rfl, hr⟩
        obtain ⟨s, hs, k, hk, rfl⟩ := link_cover hout hr
        exact ⟨s, hs, k, hk, rfl, rfl, rfl⟩
  · intro a b ha' hb' hno
    have first : WritesRaise Lout V (fun _ _ _ => False) .indexError (refineStep Lin Lout X Lin.n Lout.n a b 0 0) := by
      refine WritesRaise.now fun L hL => ?_
      rw [refineStep_assign hin hsh hl' (hXg 0 hout.n_pos) ha' hb']
      unfold entryAssign
      rw [hL.shape.trans hout.w_shape]
      simp only [if_neg (fun h : a < Lout.outFeatures ∧ b < Lout.inFeatures ∧ _ => hno ⟨h.1, h.2.1⟩)]
      rfl
    have inner : WritesRaise Lout V (fun _ _ _ => False) .indexError
        (forLoop Lout.n fun k => refineStep Lin Lout X Lin.n Lout.n a b 0 k) :=
      WritesRaise.mono (WritesRaise.loop (W := fun _ _ _ _ => False) (M := 0)
        (body := fun k => refineStep Lin Lout X Lin.n Lout.n a b 0 k) hout.n_pos
        (fun t ht => absurd ht (by omega)) first) fun p q r => by simp
    exact WritesRaise.mono (WritesRaise.loop (W := fun _ _ _ _ => False) (M := 0)
      (body := fun j => forLoop Lout.n fun k => refineStep Lin Lout X Lin.n Lout.n a b j k) hout.seg_pos
      (fun t ht => absurd ht (by omega)) inner) fun p q r => by simp

/-! ## Layers of different classes -/

/-- The source side of one pass of the innermost loop of `interpolate`; the class of the source also decides the slice of the target. -/
theorem interpolateStep_assign {Lin Lout : PwLayer ℝ} (hin : Lin.WF) (hout : Lout.WF)
    (hc : Lin.cls = .continuous ∨ Lin.cls = .discontinuous) {X : Tensor ℝ} (hXs : X.shape = [Lout.n, 1])
    {a b j : ℕ} (ha : a < Lin.outFeatures) (hb : b < Lin.inFeatures) (hj : j < Lin.segments) (L : PwLayer ℝ) :
    interpolateStep Lin X Lin.n Lout.n a b j L = L.assign (sliceAssign L.w a b (j * (if Lin.cls.shared then Lout.n - 1 else Lout.n))
      (j * (if Lin.cls.shared then Lout.n - 1 else Lout.n) + Lout.n)
      (Tensor.tab2 Lout.n 1 fun k _ => (linkPoly Lin.n fun q => Lin.w.get [a, b, j * Lin.stride + q]).eval (X.get [k, 0]))) := by
  obtain ⟨st, ex, e1, e2, e3⟩ := interpolateOffsets_sum hc hin.n_pos
  obtain ⟨st', ex', e1', e2', e3'⟩ := interpolateOffsets_sum hc hout.n_pos
  have est : st = Lin.stride := e2
  have hpoly : Lin.poly = lagrangePoly Lin.n ((2 : ℕ) : ℝ) := by
    unfold PwLayer.poly; rcases hc with h | h <;> rw [h]
  have hbound : j * Lin.stride + Lin.n ≤ PwLayer.wSize Lin.cls Lin.n Lin.segments := by
    have := Lin.widx_lt hin.n_pos (s := j) (k := Lin.n - 1) (by omega) (by have := hin.n_pos; omega)
    have := hin.n_pos
    omega
  unfold interpolateStep
  rw [e1, e1']
  simp only [bind, Except.bind]
  rw [e3, e3', est, e2', sliceRow_ok hin.w_shape ha hb hbound]
  simp only
  rw [hpoly, interpolate_column hin.n_pos hXs]

/-- Such a pass writes when the slice fits the target. -/
theorem interpolateStep_fits {Lin Lout : PwLayer ℝ} (hin : Lin.WF) (hout : Lout.WF)
    (hc : Lin.cls = .continuous ∨ Lin.cls = .discontinuous) {X : Tensor ℝ} (hXs : X.shape = [Lout.n, 1])
    (hXg : ∀ k < Lout.n, X.get [k, 0] = node Lout.n k) {a b j st : ℕ} (hst : (if Lin.cls.shared then Lout.n - 1 else Lout.n) = st)
    (V : ℕ → ℕ → ℕ → ℝ)
    (hV : ∀ k, k < Lout.n → V a b (j * st + k)
      = (linkPoly Lin.n fun q => Lin.w.get [a, b, j * Lin.stride + q]).eval (node Lout.n k))
    (ha : a < Lin.outFeatures) (hb : b < Lin.inFeatures) (ha' : a < Lout.outFeatures) (hb' : b < Lout.inFeatures) (hj : j < Lin.segments)
    (hfit : j * st + Lout.n ≤ PwLayer.wSize Lout.cls Lout.n Lout.segments) :
    Writes Lout V (fun p q r => p = a ∧ q = b ∧ ∃ k < Lout.n, r = j * st + k) (interpolateStep Lin X Lin.n Lout.n a b j) := by
  refine writes_slice hout.w_shape ha' hb' hfit _ ?_
  intro L hL
  refine ⟨Tensor.tab2 Lout.n 1 fun k _ => (linkPoly Lin.n fun q =>
    Lin.w.get [a, b, j * Lin.stride + q]).eval (X.get [k, 0]), by simp [numel], ?_, by rw [interpolateStep_assign hin hout hc hXs ha hb hj, hst]⟩
  intro k hk
  rw [hV k hk, ← hXg k hk]
  rw [Tensor.get_reshape _ (idx' := [k, 0]) (by simp [ravel, numel])]
  exact Tensor.get_tab2 hk (by omega)

end HOL
