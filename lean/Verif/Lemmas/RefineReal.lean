import Verif.Lemmas.Refine

/-! # Weights computed by refinement and line initialization, over the reals -/

namespace HOL
open TorchScalar Polynomial Spec

/-- Global position of node `k` of segment `s`. -/
noncomputable def nodePos (n S s k : ℕ) : ℝ := segLeft S s + (node n k + 1) / S

theorem nodePos_shared {n S : ℕ} (hn : 2 ≤ n) (s : ℕ) :
    nodePos n S s (n - 1) = nodePos n S (s + 1) 0 := by
  unfold nodePos segLeft
  rw [node_last hn, node_zero hn]
  push_cast
  ring

theorem localCoord_nodePos {n S : ℕ} (hS : 0 < S) (s k : ℕ) :
    localCoord S s (nodePos n S s k) = node n k := by
  have : (S : ℝ) ≠ 0 := by positivity
  unfold localCoord nodePos segLeft; field_simp; ring

theorem nodePos_closed {n S : ℕ} (hS : 0 < S) (s k : ℕ) :
    segLeft S s ≤ nodePos n S s k ∧ nodePos n S s k ≤ segLeft S (s + 1) := by
  have hSr : (0 : ℝ) < S := by exact_mod_cast hS
  obtain ⟨h1, h2⟩ := node_mem n k
  unfold nodePos
  constructor
  · have : 0 ≤ (node n k + 1) / S := div_nonneg (by linarith) hSr.le
    linarith
  · unfold segLeft
    push_cast
    have : (node n k + 1) / S ≤ 2 / S := div_le_div_of_nonneg_right (by linarith) hSr.le
    have e : 2 * ((s : ℝ) + 1) / S = 2 * s / S + 2 / S := by ring
    rw [e]; linarith

theorem segLeft_zero (S : ℕ) : segLeft S 0 = -1 := by simp [segLeft]

theorem segLeft_last {S : ℕ} (hS : 0 < S) : segLeft S S = 1 := by
  have : (S : ℝ) ≠ 0 := by positivity
  unfold segLeft; field_simp; norm_num

theorem nodePos_mem {n S s : ℕ} (hs : s < S) (k : ℕ) :
    -1 ≤ nodePos n S s k ∧ nodePos n S s k ≤ 1 := by
  obtain ⟨h1, h2⟩ := nodePos_closed (n := n) (show 0 < S by omega) s k
  have h3 := segLeft_mono (S := S) (Nat.zero_le s)
  have h4 := segLeft_mono (S := S) (show s + 1 ≤ S by omega)
  rw [segLeft_zero] at h3
  rw [segLeft_last (by omega)] at h4
  constructor <;> linarith

/-- A node position is a node of the segment responsible for it. -/
theorem nodePos_active {n S s k : ℕ} (hn : 0 < n) (hs : s < S) (hk : k < n) :
    ∃ t k', k' < n ∧ IsActive S t (nodePos n S s k) ∧ localCoord S t (nodePos n S s k) = node n k' := by
  have hS : 0 < S := by omega
  obtain ⟨h1, h2⟩ := nodePos_closed (n := n) hS s k
  rcases lt_or_eq_of_le h2 with h | h
  · exact ⟨s, k, hk, ⟨hs, Or.inr h1, Or.inr h⟩, localCoord_nodePos hS s k⟩
  · rcases Nat.lt_or_ge (s + 1) S with h3 | h3
    · have hnode : node n k = 1 := by
        have e := localCoord_nodePos (n := n) hS s k
        rw [h, localCoord_right hS] at e
        exact e.symm
      have hn2 : 2 ≤ n := by
        by_contra hc
        have : n = 1 := by omega
        subst this
        simp [node] at hnode
      refine ⟨s + 1, 0, hn, ⟨h3, Or.inr h.ge, Or.inr ?_⟩, ?_⟩
      · rw [h]; exact segLeft_strictMono hS (by omega)
      · rw [h, localCoord_left hS, node_zero hn2]
    · exact ⟨s, k, hk, ⟨hs, Or.inr h1, Or.inl (by omega)⟩, localCoord_nodePos hS s k⟩

/-- On a closed segment a continuous piecewise polynomial is the polynomial of the segment. -/
theorem isPiecewise_closed {n S : ℕ} (hn : 0 < n) {v : ℕ → ℝ} {f : ℝ → ℝ}
    (hf : IsPiecewisePoly n S (n - 1) v f) {s : ℕ} (hs : s < S) {y : ℝ}
    (h1 : segLeft S s ≤ y) (h2 : y ≤ segLeft S (s + 1)) :
    f y = (linkPoly n fun k => v (s * (n - 1) + k)).eval (localCoord S s y) := by
  have hS : 0 < S := by omega
  rcases lt_or_eq_of_le h2 with h | h
  · exact hf s y ⟨hs, Or.inr h1, Or.inr h⟩
  · rcases Nat.lt_or_ge (s + 1) S with h3 | h3
    · rw [hf (s + 1) y ⟨h3, Or.inr h.ge, Or.inr (by rw [h]; exact segLeft_strictMono hS (by omega))⟩, h]
      exact (pieces_agree hn hS v s).symm
    · exact hf s y ⟨hs, Or.inr h1, Or.inl (by omega)⟩

/-- A function on (segment, node) that agrees on shared nodes is a function of the weight position. -/
theorem lift_nodes {β : Type} {n : ℕ} (hn : 0 < n) (shared : Bool) (g : ℕ → ℕ → β)
    (H : shared = true → ∀ s, g s (n - 1) = g (s + 1) 0) :
    ∃ V : ℕ → β, ∀ s k, k < n → V (s * (if shared then n - 1 else n) + k) = g s k := by
  cases shared with
  | false =>
    refine ⟨fun r => g (r / n) (r % n), ?_⟩
    intro s k hk
    simp only [Bool.false_eq_true, if_false]
    rw [Nat.mul_comm, Nat.mul_add_div hn, Nat.div_eq_of_lt hk, Nat.mul_add_mod, Nat.mod_eq_of_lt hk,
      Nat.add_zero]
  | true =>
    have H := H rfl
    rcases Nat.lt_or_ge n 2 with h | h
    · have : n = 1 := by omega
      subst this
      have hc : ∀ s, g s 0 = g 0 0 := by
        intro s
        induction s with
        | zero => rfl
        | succ s ih => rw [← H s]; exact ih
      refine ⟨fun _ => g 0 0, ?_⟩
      intro s k hk
      have : k = 0 := by omega
      subst this
      exact (hc s).symm
    · have hm : 0 < n - 1 := by omega
      refine ⟨fun r => g (r / (n - 1)) (r % (n - 1)), ?_⟩
      intro s k hk
      simp only [if_true]
      rcases Nat.lt_or_ge k (n - 1) with hk1 | hk1
      · rw [Nat.mul_comm, Nat.mul_add_div hm, Nat.div_eq_of_lt hk1, Nat.mul_add_mod,
          Nat.mod_eq_of_lt hk1, Nat.add_zero]
      · have hk' : k = n - 1 := by omega
        subst hk'
        have e : s * (n - 1) + (n - 1) = (n - 1) * (s + 1) := by ring
        rw [e, Nat.mul_div_cancel_left _ hm, Nat.mul_mod_right, ← H s]

/-! ## interpolate -/

theorem interpolateOffsets_sum {cls : PwClass} (hc : cls = .continuous ∨ cls = .discontinuous) {n : ℕ}
    (hn : 0 < n) :
    ∃ st extra, interpolateOffsets cls n = .ok (st, extra) ∧
      st = (if cls.shared then n - 1 else n) ∧ ∀ i, (i + 1) * st + extra = i * st + n := by
  rcases hc with rfl | rfl
  · refine ⟨n - 1, 1, rfl, rfl, ?_⟩
    intro i
    have : (i + 1) * (n - 1) = i * (n - 1) + (n - 1) := by ring
    omega
  · refine ⟨n, 0, rfl, rfl, ?_⟩
    intro i
    ring

theorem PwLayer.stride_eq {K : Type} (L : PwLayer K) :
    (if L.cls.shared then L.n - 1 else L.n) = L.stride := rfl

/-- One pass of the innermost loop of `interpolate` writes the node values of one segment. -/
theorem interpolateStep_writes {Lin Lout : PwLayer ℝ} (hin : Lin.WF) (hout : Lout.WF)
    (hc : Lin.cls = .continuous ∨ Lin.cls = .discontinuous) (hcls : Lout.cls = Lin.cls)
    (hseg : Lin.segments = Lout.segments) (hI : Lout.inFeatures = Lin.inFeatures)
    (hO : Lout.outFeatures = Lin.outFeatures) {X : Tensor ℝ} (hXs : X.shape = [Lout.n, 1])
    (hXg : ∀ k < Lout.n, X.get [k, 0] = node Lout.n k) (V : ℕ → ℕ → ℕ → ℝ) {a b j : ℕ}
    (ha : a < Lout.outFeatures) (hb : b < Lout.inFeatures) (hj : j < Lout.segments)
    (hV : ∀ k, k < Lout.n → V a b (j * Lout.stride + k)
      = (linkPoly Lin.n fun q => Lin.w.get [a, b, j * Lin.stride + q]).eval (node Lout.n k)) :
    Writes Lout V (fun p q r => p = a ∧ q = b ∧ ∃ k < Lout.n, r = j * Lout.stride + k)
      (interpolateStep Lin X Lin.n Lout.n a b j) := by
  obtain ⟨st, ex, e1, e2, e3⟩ := interpolateOffsets_sum hc hin.n_pos
  obtain ⟨st', ex', e1', e2', e3'⟩ := interpolateOffsets_sum hc hout.n_pos
  have est : st = Lin.stride := e2
  have est' : st' = Lout.stride := by rw [e2', ← hcls]; rfl
  have hpoly : Lin.poly = lagrangePoly Lin.n ((2 : ℕ) : ℝ) := by
    unfold PwLayer.poly; rcases hc with h | h <;> rw [h]
  have hbound : j * Lin.stride + Lin.n ≤ PwLayer.wSize Lin.cls Lin.n Lin.segments := by
    have := Lin.widx_lt hin.n_pos (s := j) (k := Lin.n - 1) (by omega) (by have := hin.n_pos; omega)
    have := hin.n_pos
    omega
  have hbound' : j * Lout.stride + Lout.n ≤ PwLayer.wSize Lout.cls Lout.n Lout.segments := by
    have := Lout.widx_lt hout.n_pos (s := j) (k := Lout.n - 1) (by omega) (by have := hout.n_pos; omega)
    have := hout.n_pos
    omega
  refine writes_slice hout.w_shape ha hb hbound' _ ?_
  intro L hL
  refine ⟨Tensor.tab2 Lout.n 1 fun k _ => (linkPoly Lin.n fun q =>
    Lin.w.get [a, b, j * Lin.stride + q]).eval (X.get [k, 0]), by simp [numel], ?_, ?_⟩
  · intro k hk
    rw [hV k hk, ← hXg k hk]
    rw [Tensor.get_reshape _ (idx' := [k, 0]) (by simp [ravel, numel])]
    exact Tensor.get_tab2 hk (by omega)
  · unfold interpolateStep
    rw [e1, e1']
    simp only [bind, Except.bind]
    rw [e3, e3', est, est', sliceRow_ok hin.w_shape (hO ▸ ha) (hI ▸ hb) hbound]
    simp only
    rw [hpoly, interpolate_column hin.n_pos hXs]

/-- The loops of `interpolate` with the attributes filled in. -/
theorem interpolateLayer_loops {Lin Lout : PwLayer ℝ} (hin : Lin.WF)
    (hseg : Lin.segments = Lout.segments) (hI : Lout.inFeatures = Lin.inFeatures)
    (hO : Lout.outFeatures = Lin.outFeatures) :
    ∃ X : Tensor ℝ, X.shape = [Lout.n, 1] ∧ (∀ k < Lout.n, X.get [k, 0] = node Lout.n k) ∧
      interpolateLayer Lin Lout = forLoop Lout.outFeatures (fun a => forLoop Lout.inFeatures fun b =>
        forLoop Lout.segments fun i => interpolateStep Lin X Lin.n Lout.n a b i) Lout := by
  obtain ⟨Xi, hXi, -, -, -, -⟩ := columnX_poly Lin
  obtain ⟨X, hX, hXs, hXw, hXg, -⟩ := columnX_poly Lout
  refine ⟨X, hXs, hXg, ?_⟩
  unfold interpolateLayer
  rw [if_neg (by simpa using hseg), hXi, hX, nAttr_poly, nAttr_poly]
  have d0 : dim Lin.w 0 = Lout.outFeatures := by unfold dim; rw [hin.w_shape, hO]; rfl
  have d1 : dim Lin.w 1 = Lout.inFeatures := by unfold dim; rw [hin.w_shape, hI]; rfl
  simp only
  rw [d0, d1, hseg]

/-- The weights computed by `interpolate`. -/
theorem interpolateLayer_weights {Lin Lout : PwLayer ℝ} (hin : Lin.WF) (hout : Lout.WF)
    (hc : Lin.cls = .continuous ∨ Lin.cls = .discontinuous) (hcls : Lout.cls = Lin.cls)
    (hseg : Lin.segments = Lout.segments) (hI : Lout.inFeatures = Lin.inFeatures)
    (hO : Lout.outFeatures = Lin.outFeatures) (V : ℕ → ℕ → ℕ → ℝ)
    (hV : ∀ o i s k, k < Lout.n → V o i (s * Lout.stride + k)
      = (linkPoly Lin.n fun q => Lin.w.get [o, i, s * Lin.stride + q]).eval (node Lout.n k)) :
    ∃ L', interpolateLayer Lin Lout = (.ok (), L') ∧ Frame Lout L' ∧
      ∀ o < Lout.outFeatures, ∀ i < Lout.inFeatures,
        ∀ r < PwLayer.wSize Lout.cls Lout.n Lout.segments, L'.w.get [o, i, r] = V o i r := by
  obtain ⟨X, hXs, hXg, e⟩ := interpolateLayer_loops hin hseg hI hO
  rw [e]
  apply fill_loops hout
  intro a ha b hb j hj
  exact interpolateStep_writes hin hout hc hcls hseg hI hO hXs hXg V ha hb hj (fun k hk => hV a b j k hk)

/-- `seg` and `xIn` depend only on segments, length and periodicity. -/
theorem PwLayer.seg_congr {L L' : PwLayer ℝ} (h1 : L'.segments = L.segments)
    (h2 : L'.length = L.length) (h3 : L'.periodicity = L.periodicity) (v : ℝ) :
    L'.seg v = L.seg v ∧ L'.xIn v = L.xIn v := by
  unfold PwLayer.seg PwLayer.xIn PwLayer.whichSegment PwLayer.segIndex PwLayer.xLocal PwLayer.eta
    PwLayer.half
  rw [h1, h2, h3]
  exact ⟨rfl, rfl⟩

/-- Layers of the same class with the same link functions have the same forward function. -/
theorem forward_eq_of_links {L L' : PwLayer ℝ} (h : L.WF) (h' : L'.WF) (hcls : L'.cls = L.cls)
    (hI : L'.inFeatures = L.inFeatures) (hO : L'.outFeatures = L.outFeatures) {B : ℕ} {x : Tensor ℝ}
    (hx : x.shape = [B, L.inFeatures]) (hwf : x.WF)
    (hl : ∀ o < L.outFeatures, ∀ b < B, ∀ i < L.inFeatures,
      L'.linkFn o i (x.get [b, i]) = L.linkFn o i (x.get [b, i])) :
    L'.forward x = L.forward x := by
  rw [L.forward_combine h hx hwf, L'.forward_combine h' (by rw [hI]; exact hx) hwf, hO, hI, hcls]
  congr 1
  apply tab2_congr
  intro b hb o ho
  apply PwClass.combine_congr
  intro i hi
  exact hl o ho b hb i hi

/-- The function (segment, node) ↦ value used by `interpolate` is consistent at shared nodes. -/
theorem interpolate_consistent (Lin : PwLayer ℝ) {nOut : ℕ} (hn : 0 < Lin.n) (hS : 0 < Lin.segments)
    (h : 2 ≤ nOut ∨ Lin.n = 1)
    (hsh : Lin.cls.shared = true) (o i s : ℕ) :
    (linkPoly Lin.n fun q => Lin.w.get [o, i, s * Lin.stride + q]).eval (node nOut (nOut - 1))
      = (linkPoly Lin.n fun q => Lin.w.get [o, i, (s + 1) * Lin.stride + q]).eval (node nOut 0) := by
  have hst : Lin.stride = Lin.n - 1 := by unfold PwLayer.stride; rw [hsh]; rfl
  rcases h with h | h
  · have := pieces_agree hn hS (fun q => Lin.w.get [o, i, q]) s
    rw [localCoord_right hS, localCoord_left hS] at this
    rw [node_last h, node_zero h, hst]
    exact this
  · rw [hst, h, linkPoly_one_eval, linkPoly_one_eval]
    simp

/-- Existence of the weights `V` of `interpolateLayer_weights`. -/
theorem interpolate_target (Lin Lout : PwLayer ℝ) (hn : 0 < Lin.n) (hn' : 0 < Lout.n)
    (hS : 0 < Lin.segments) (hcls : Lout.cls = Lin.cls)
    (h : Lin.cls.shared = true → 2 ≤ Lout.n ∨ Lin.n = 1) :
    ∃ V : ℕ → ℕ → ℕ → ℝ, ∀ o i s k, k < Lout.n → V o i (s * Lout.stride + k)
      = (linkPoly Lin.n fun q => Lin.w.get [o, i, s * Lin.stride + q]).eval (node Lout.n k) := by
  have := fun o i => lift_nodes hn' Lin.cls.shared (fun s k =>
    (linkPoly Lin.n fun q => Lin.w.get [o, i, s * Lin.stride + q]).eval (node Lout.n k))
    (fun hsh s => interpolate_consistent Lin hn hS (h hsh) hsh o i s)
  choose V hV using this
  refine ⟨V, ?_⟩
  intro o i s k hk
  rw [← hV o i s k hk]
  unfold PwLayer.stride
  rw [hcls]

/-! ## refine -/

/-- The value `refine` computes for a position: the polynomial of the segment found by `which_segment`
(which wraps periodically) at the local coordinate (which does not). -/
noncomputable def refineVal (L : PwLayer ℝ) (o i : ℕ) (x : ℝ) : ℝ :=
  (linkPoly L.n fun q => L.w.get [o, i, L.seg x * (L.n - 1) + q]).eval (L.xLocal x (L.seg x : ℤ))

/-- The weights computed by `refine` on a continuous layer, for any periodicity. -/
theorem refineLayer_values {Lin Lout : PwLayer ℝ} (hin : Lin.WF) (hout : Lout.WF)
    (hsh : Lin.cls.shared = true) (hsh' : Lout.cls.shared = true) (hl' : Lout.length = 2)
    (hI : Lout.inFeatures = Lin.inFeatures) (hO : Lout.outFeatures = Lin.outFeatures)
    (V : ℕ → ℕ → ℕ → ℝ)
    (hV : ∀ o i s k, o < Lout.outFeatures → i < Lout.inFeatures → s < Lout.segments → k < Lout.n →
      V o i (s * (Lout.n - 1) + k)
      = refineVal Lin o i (nodePos Lout.n Lout.segments s k)) :
    ∃ L', refineLayer Lin Lout = (.ok (), L') ∧ Frame Lout L' ∧
      ∀ o < Lout.outFeatures, ∀ i < Lout.inFeatures,
        ∀ r < PwLayer.wSize Lout.cls Lout.n Lout.segments, L'.w.get [o, i, r] = V o i r := by
  obtain ⟨Xi, hXi, -, -, -, -⟩ := columnX_poly Lin
  obtain ⟨X, hX, hXs, hXw, hXg, -⟩ := columnX_poly Lout
  unfold refineLayer
  rw [hXi, hX, nAttr_poly, nAttr_poly]
  have d0 : dim Lin.w 0 = Lout.outFeatures := by unfold dim; rw [hin.w_shape, hO]; rfl
  have d1 : dim Lin.w 1 = Lout.inFeatures := by unfold dim; rw [hin.w_shape, hI]; rfl
  have dX : numel X.shape = Lout.n := by rw [hXs]; simp [numel]
  simp only
  rw [d0, d1, dX]
  have hst' : Lout.stride = Lout.n - 1 := by unfold PwLayer.stride; rw [hsh']; rfl
  have hst : Lin.stride = Lin.n - 1 := by unfold PwLayer.stride; rw [hsh]; rfl
  apply fill_loops hout
  intro a ha b hb j hj
  refine Writes.mono (Writes.loop (W := fun k p q r => p = a ∧ q = b ∧ r = j * Lout.stride + k) ?_) ?_
  swap
  · intro p q r
    constructor
    · rintro ⟨k, hk, h1, h2, h3⟩; exact ⟨h1, h2, k, hk, h3⟩
    · rintro ⟨h1, h2, k, hk, h3⟩; exact ⟨k, hk, h1, h2, h3⟩
  intro k hk
  refine writes_entry hout.w_shape ha hb (Lout.widx_lt hout.n_pos hj hk) _ ?_
  intro L hL
  have hxg : Lout.xGlobal (X.get [k, 0]) (j : ℤ) = nodePos Lout.n Lout.segments j k := by
    rw [Lout.xGlobal_real hl', hXg k hk]; rfl
  set xg := nodePos Lout.n Lout.segments j k with hxgdef
  have hsegeq := Lin.whichSegment_eq_seg hin.seg_pos xg
  have hslt : Lin.seg xg < Lin.segments := Lin.seg_lt hin.seg_pos xg
  have hbound : Lin.seg xg * (Lin.n - 1) + Lin.n ≤ PwLayer.wSize Lin.cls Lin.n Lin.segments := by
    have := Lin.widx_lt hin.n_pos (s := Lin.seg xg) (k := Lin.n - 1) hslt
      (by have := hin.n_pos; omega)
    rw [hst] at this
    have := hin.n_pos
    omega
  refine ⟨Tensor.tab2 1 1 fun _ _ => refineVal Lin a b xg, by simp [numel], ?_, ?_⟩
  · rw [hst', hV a b j k ha hb hj hk]
    rw [Tensor.get_reshape _ (idx' := [0, 0]) (by simp [ravel, numel])]
    exact Tensor.get_tab2 (by omega) (by omega)
  · unfold refineStep
    have e3 : (Lin.seg xg + 1) * (Lin.n - 1) + 1 = Lin.seg xg * (Lin.n - 1) + Lin.n := by
      have := hin.n_pos
      have : (Lin.seg xg + 1) * (Lin.n - 1) = Lin.seg xg * (Lin.n - 1) + (Lin.n - 1) := by ring
      omega
    rw [hxg]
    dsimp only
    rw [hsegeq, Int.toNat_natCast, e3,
      sliceRow_ok hin.w_shape (hO ▸ ha) (hI ▸ hb) hbound]
    simp only [bind, Except.bind]
    rw [interpolate_point Lin hin.n_pos, hst']
    rfl

/-- When the layer has no periodicity or one of at least 2, the computed values are those of the link. -/
theorem refineVal_eq {L : PwLayer ℝ} (h : L.WF) (hsh : L.cls.shared = true)
    (hp : ∀ p ∈ L.periodicity, 2 ≤ p) (o i : ℕ) {x : ℝ} (h1 : -1 ≤ x) (h2 : x ≤ 1) :
    refineVal L o i x = L.noPeriod.linkFn o i x := by
  have hst : L.stride = L.n - 1 := by unfold PwLayer.stride; rw [hsh]; rfl
  have hper : periodize L.periodicity x = x := by
    cases hq : L.periodicity with
    | none => rfl
    | some p =>
      have h2p : 2 ≤ p := hp p (by rw [hq]; rfl)
      exact makePeriodic_id (by linarith) (by linarith) (by linarith)
  have hseg : L.seg x = L.noPeriod.seg x := by
    unfold PwLayer.seg PwLayer.whichSegment
    rw [hper]; rfl
  unfold refineVal
  rw [← hst, hseg]
  show _ = (linkPoly L.n fun q => L.w.get [o, i, L.noPeriod.seg x * L.stride + q]).eval
      (L.noPeriod.xIn x)
  congr 1
  unfold PwLayer.xIn
  rw [L.noPeriod.whichSegment_eq_seg h.seg_pos]
  rfl

/-- The weights computed by `refine` on a continuous layer. -/
theorem refineLayer_weights {Lin Lout : PwLayer ℝ} (hin : Lin.WF) (hout : Lout.WF)
    (hsh : Lin.cls.shared = true) (hsh' : Lout.cls.shared = true)
    (hl' : Lout.length = 2) (hp : ∀ p ∈ Lin.periodicity, 2 ≤ p)
    (hI : Lout.inFeatures = Lin.inFeatures) (hO : Lout.outFeatures = Lin.outFeatures)
    (V : ℕ → ℕ → ℕ → ℝ)
    (hV : ∀ o i s k, s < Lout.segments → k < Lout.n → V o i (s * (Lout.n - 1) + k)
      = Lin.noPeriod.linkFn o i (nodePos Lout.n Lout.segments s k)) :
    ∃ L', refineLayer Lin Lout = (.ok (), L') ∧ Frame Lout L' ∧
      ∀ o < Lout.outFeatures, ∀ i < Lout.inFeatures,
        ∀ r < PwLayer.wSize Lout.cls Lout.n Lout.segments, L'.w.get [o, i, r] = V o i r := by
  apply refineLayer_values hin hout hsh hsh' hl' hI hO V
  intro o i s k _ _ hs hk
  obtain ⟨h1, h2⟩ := nodePos_mem (n := Lout.n) hs k
  rw [hV o i s k hs hk, refineVal_eq hin hsh hp o i h1 h2]

/-- Existence of the weights `V` of `refineLayer_weights`. -/
theorem refine_target (Lin Lout : PwLayer ℝ) (hn' : 0 < Lout.n)
    (hsh : Lin.cls.shared = true) (h : 2 ≤ Lout.n ∨ Lin.n = 1) :
    ∃ V : ℕ → ℕ → ℕ → ℝ, ∀ o i s k, k < Lout.n → V o i (s * (Lout.n - 1) + k)
      = Lin.noPeriod.linkFn o i (nodePos Lout.n Lout.segments s k) := by
  have := fun o i => lift_nodes hn' true (fun s k =>
    Lin.noPeriod.linkFn o i (nodePos Lout.n Lout.segments s k)) (by
      intro _ s
      rcases h with h | h
      · simp only [nodePos_shared h]
      · have hst : Lin.noPeriod.stride = 0 := by
          show (if Lin.cls.shared then Lin.n - 1 else Lin.n) = 0
          rw [hsh, h]; rfl
        have : ∀ x, Lin.noPeriod.linkFn o i x = Lin.w.get [o, i, 0] := by
          intro x
          unfold PwLayer.linkFn
          rw [hst]
          show (linkPoly Lin.n fun k => Lin.w.get [o, i, _]).eval _ = _
          rw [h, linkPoly_one_eval]
          simp
        rw [this, this])
  choose V hV using this
  exact ⟨V, hV⟩

/-- Subdividing the segments of a continuous piecewise polynomial and raising the order keeps the function. -/
theorem refined_eq {n n' S m : ℕ} (hn : 0 < n) (hnn : n ≤ n') (hS : 0 < S) (hm : 0 < m)
    {v v' : ℕ → ℝ} {f f' : ℝ → ℝ} (hf : IsPiecewisePoly n S (n - 1) v f)
    (hf' : IsPiecewisePoly n' (m * S) (n' - 1) v' f')
    (hv : ∀ s k, s < m * S → k < n' → v' (s * (n' - 1) + k) = f (nodePos n' (m * S) s k)) :
    f' = f := by
  funext x
  have hmS : 0 < m * S := Nat.mul_pos hm hS
  have hSr : (0 : ℝ) < S := by exact_mod_cast hS
  have hmr : (0 : ℝ) < m := by exact_mod_cast hm
  obtain ⟨j, hj⟩ := isActive_exists hmS x
  set s := j / m with hs
  have hsS : s < S := by
    rw [hs, Nat.div_lt_iff_lt_mul hm, Nat.mul_comm]; exact hj.1
  have hlo : m * s ≤ j := Nat.mul_div_le j m
  have hhi : j + 1 ≤ m * (s + 1) := by
    have := Nat.lt_mul_div_succ j hm
    rw [← hs] at this
    omega
  have seg_scale : ∀ t : ℕ, segLeft S t = segLeft (m * S) (m * t) := by
    intro t; unfold segLeft; push_cast; field_simp
  have hact : IsActive S s x := by
    refine ⟨hsS, ?_, ?_⟩
    · rcases hj.2.1 with h | h
      · left; rw [hs, h]; simp
      · right
        rw [seg_scale]
        exact le_trans (segLeft_mono hlo) h
    · rcases hj.2.2 with h | h
      · left
        have h1 : m * S ≤ m * (s + 1) := by omega
        have := Nat.le_of_mul_le_mul_left h1 hm
        omega
      · right
        rw [seg_scale]
        exact lt_of_lt_of_le h (segLeft_mono hhi)
  set P := linkPoly n fun k => v (s * (n - 1) + k) with hP
  let A : ℝ[X] := C (1 / (m : ℝ)) * X + C ((2 * (j : ℝ) + 1) / m - 2 * s - 1)
  have hA : ∀ y, A.eval (localCoord (m * S) j y) = localCoord S s y := by
    intro y
    simp only [A, localCoord, eval_add, eval_mul, eval_C, eval_X]
    push_cast
    field_simp
    ring
  have hRdeg : (P.comp A).degree < n' := by
    by_cases h0 : P.comp A = 0
    · rw [h0, degree_zero]; exact WithBot.bot_lt_coe _
    · have hP0 : P ≠ 0 := by
        intro h; rw [h] at h0; simp at h0
      have hPd := linkPoly_degree_lt n fun k => v (s * (n - 1) + k)
      rw [← hP, degree_eq_natDegree hP0] at hPd
      have h1 : P.natDegree < n := by exact_mod_cast hPd
      have hAd : A.natDegree ≤ 1 := by
        refine (natDegree_add_le _ _).trans ?_
        rw [natDegree_C]
        simp only [Nat.zero_le, sup_of_le_left]
        exact (natDegree_C_mul_le _ _).trans natDegree_X_le
      have h2 : (P.comp A).natDegree ≤ P.natDegree * 1 :=
        natDegree_comp_le.trans (Nat.mul_le_mul_left _ hAd)
      rw [degree_eq_natDegree h0]
      exact_mod_cast (by omega : (P.comp A).natDegree < n')
  rw [hf' j x hj, hf s x hact]
  have e : (linkPoly n' fun k => v' (j * (n' - 1) + k))
      = linkPoly n' fun k => (P.comp A).eval (node n' k) := by
    apply linkPoly_congr
    intro k hk
    rw [hv j k hj.1 hk]
    obtain ⟨c1, c2⟩ := nodePos_closed (n := n') hmS j k
    rw [isPiecewise_closed hn hf hsS (y := nodePos n' (m * S) j k)
      (le_trans (by rw [seg_scale]; exact segLeft_mono hlo) c1)
      (le_trans c2 (by rw [seg_scale]; exact segLeft_mono hhi)), eval_comp,
      ← localCoord_nodePos (n := n') hmS j k, hA]
  rw [e, linkPoly_eq_of_degree_lt hRdeg, eval_comp, hA]

end HOL
