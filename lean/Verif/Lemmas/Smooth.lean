import Verif.Lemmas.RefineReal

/-! # Smoothing and line initialization: the resulting weights -/

namespace HOL
open TorchScalar Polynomial Spec

theorem stridedCount_left {n S : ℕ} (hn : 2 ≤ n) (hS : 0 < S) :
    stridedCount (n - 1) n (n * S) = S - 1 := by
  obtain ⟨T, rfl⟩ : ∃ T, S = T + 1 := ⟨S - 1, by omega⟩
  unfold stridedCount
  have : n * (T + 1) = n * T + n := by ring
  have e : n * (T + 1) - 1 - (n - 1) + (n - 1) = n * T + (n - 1) := by omega
  rw [e, Nat.mul_add_div (by omega), Nat.div_eq_of_lt (by omega)]
  simp

theorem stridedCount_right {n S : ℕ} (hn : 2 ≤ n) (hS : 0 < S) :
    stridedCount n n (n * S) = S - 1 := by
  obtain ⟨T, rfl⟩ : ∃ T, S = T + 1 := ⟨S - 1, by omega⟩
  unfold stridedCount
  have h0 : n * (T + 1) = n * T + n := by ring
  rcases Nat.eq_zero_or_pos T with rfl | hT
  · have : n * (0 + 1) - 1 - n + (n - 1) = n - 1 := by omega
    rw [this, Nat.div_eq_of_lt (by omega)]
  · have h1 : n ≤ n * T := Nat.le_mul_of_pos_right n hT
    have e : n * (T + 1) - 1 - n + (n - 1) = n * T + (n - 2) := by omega
    rw [e, Nat.mul_add_div (by omega), Nat.div_eq_of_lt (by omega)]
    simp

theorem left_iff {n S s k : ℕ} (hn : 2 ≤ n) (hk : k < n) :
    (n - 1 ≤ s * n + k ∧ (s * n + k - (n - 1)) % n = 0 ∧ (s * n + k - (n - 1)) / n < S - 1)
      ↔ (k = n - 1 ∧ s + 1 < S) := by
  rcases Nat.lt_or_ge k (n - 1) with h | h
  · constructor
    · rintro ⟨h1, h2, -⟩
      exfalso
      rcases Nat.eq_zero_or_pos s with rfl | hs
      · omega
      · obtain ⟨t, rfl⟩ : ∃ t, s = t + 1 := ⟨s - 1, by omega⟩
        have e : (t + 1) * n + k - (n - 1) = n * t + (k + 1) := by
          have : (t + 1) * n = n * t + n := by ring
          omega
        rw [e, Nat.mul_add_mod, Nat.mod_eq_of_lt (by omega)] at h2
        omega
    · rintro ⟨h1, -⟩; omega
  · have hk' : k = n - 1 := by omega
    subst hk'
    have e : s * n + (n - 1) - (n - 1) = s * n := by omega
    rw [e, Nat.mul_mod_left, Nat.mul_div_cancel _ (by omega)]
    constructor
    · rintro ⟨-, -, h3⟩; exact ⟨rfl, by omega⟩
    · rintro ⟨-, h3⟩; exact ⟨by omega, rfl, by omega⟩

theorem right_iff {n S s k : ℕ} (hk : k < n) (hs : s < S) :
    (n ≤ s * n + k ∧ (s * n + k - n) % n = 0 ∧ (s * n + k - n) / n < S - 1) ↔ (k = 0 ∧ 0 < s) := by
  rcases Nat.eq_zero_or_pos s with rfl | h
  · constructor
    · rintro ⟨h1, -⟩; omega
    · rintro ⟨-, h1⟩; omega
  · obtain ⟨t, rfl⟩ : ∃ t, s = t + 1 := ⟨s - 1, by omega⟩
    have e : (t + 1) * n + k - n = n * t + k := by
      have : (t + 1) * n = n * t + n := by ring
      omega
    rw [e, Nat.mul_add_mod, Nat.mod_eq_of_lt hk, Nat.mul_add_div (by omega), Nat.div_eq_of_lt hk]
    constructor
    · rintro ⟨-, h2, -⟩; exact ⟨h2, by omega⟩
    · rintro ⟨h2, -⟩
      refine ⟨?_, h2, by omega⟩
      have : (t + 1) * n = n * t + n := by ring
      omega

/-- The weights after `smooth_discontinuous_layer`. -/
theorem smoothLayer_values {K : Type} [TorchScalar K] {L : PwLayer K} (h : L.WF) (hc : L.cls.shared = false) (hn : 2 ≤ L.n) (f : K) :
    ∃ L', smoothLayer L f = (.ok (), L') ∧ Frame L L' ∧
      ∀ o < L.outFeatures, ∀ i < L.inFeatures, ∀ s < L.segments, ∀ k < L.n,
        L'.w.get [o, i, s * L.n + k] =
          if k = L.n - 1 ∧ s + 1 < L.segments then
            L.w.get [o, i, s * L.n + k] - 1 / ((2 : ℕ) : K) * f *
              (L.w.get [o, i, s * L.n + k] - L.w.get [o, i, (s + 1) * L.n])
          else if k = 0 ∧ 0 < s then
            L.w.get [o, i, s * L.n + k] + 1 / ((2 : ℕ) : K) * f *
              (L.w.get [o, i, (s - 1) * L.n + (L.n - 1)] - L.w.get [o, i, s * L.n + k])
          else L.w.get [o, i, s * L.n + k] := by
  have hws : L.w.shape = [L.outFeatures, L.inFeatures, L.n * L.segments] := by
    rw [h.w_shape]; unfold PwLayer.wSize; rw [hc]; rfl
  have hn0 : L.n ≠ 0 := by omega
  set O := L.outFeatures
  set I := L.inFeatures
  set n := L.n
  set S := L.segments
  have cl : stridedCount (n - 1) n (n * S) = S - 1 := stridedCount_left hn h.seg_pos
  have cr : stridedCount n n (n * S) = S - 1 := stridedCount_right hn h.seg_pos
  -- the intermediate tensors
  let left : Tensor K := Tensor.tab3 O I (S - 1) fun p q r => L.w.get [p, q, n - 1 + r * n]
  let right : Tensor K := Tensor.tab3 O I (S - 1) fun p q r => L.w.get [p, q, n + r * n]
  let diff : Tensor K := Tensor.tab3 O I (S - 1) fun p q r =>
    left.get [p, q, bidx (S - 1) r] - right.get [p, q, bidx (S - 1) r]
  let upd : Tensor K := Tensor.tab3 O I (S - 1) fun p q r =>
    left.get [p, q, bidx (S - 1) r] - 1 / ((2 : ℕ) : K) * f * diff.get [p, q, bidx (S - 1) r]
  let w1 : Tensor K := Tensor.tab3 O I (n * S) fun p q r =>
    if n - 1 ≤ r ∧ (r - (n - 1)) % n = 0 ∧ (r - (n - 1)) / n < S - 1
    then upd.get [p, q, bidx (S - 1) ((r - (n - 1)) / n)] else L.w.get [p, q, r]
  let right1 : Tensor K := Tensor.tab3 O I (S - 1) fun p q r => w1.get [p, q, n + r * n]
  let upd1 : Tensor K := Tensor.tab3 O I (S - 1) fun p q r =>
    right1.get [p, q, bidx (S - 1) r] + 1 / ((2 : ℕ) : K) * f * diff.get [p, q, bidx (S - 1) r]
  let w2 : Tensor K := Tensor.tab3 O I (n * S) fun p q r =>
    if n ≤ r ∧ (r - n) % n = 0 ∧ (r - n) / n < S - 1
    then upd1.get [p, q, bidx (S - 1) ((r - n) / n)] else w1.get [p, q, r]
  have e1 : stridedGet L.w (n - 1) n = .ok left := by
    unfold stridedGet; rw [hws]; simp only [hn0, if_false]; rw [cl]
  have e2 : stridedGet L.w n n = .ok right := by
    unfold stridedGet; rw [hws]; simp only [hn0, if_false]; rw [cr]
  have e3 : zip3 (fun u v => u - v) left right = .ok diff := by
    unfold zip3
    show (do let cc ← bcast (S - 1) (S - 1); _ : Py (Tensor K)) = _
    rw [bcast_self]
    simp only [bind, Except.bind, and_self, if_true]
    rfl
  have e4 : zip3 (fun u d => u - 1 / ((2 : ℕ) : K) * f * d) left diff = .ok upd := by
    unfold zip3
    show (do let cc ← bcast (S - 1) (S - 1); _ : Py (Tensor K)) = _
    rw [bcast_self]
    simp only [bind, Except.bind, and_self, if_true]
    rfl
  have e5 : stridedSet L.w (n - 1) n upd = .ok w1 := by
    unfold stridedSet
    rw [hws]
    show (if n = 0 then _ else _ : Py (Tensor K)) = _
    rw [if_neg hn0, cl, if_pos ⟨rfl, rfl, Or.inl rfl⟩]
  have e6 : stridedGet w1 n n = .ok right1 := by
    unfold stridedGet
    show (if n = 0 then _ else _ : Py (Tensor K)) = _
    rw [if_neg hn0, cr]
  have e7 : zip3 (fun u d => u + 1 / ((2 : ℕ) : K) * f * d) right1 diff = .ok upd1 := by
    unfold zip3
    show (do let cc ← bcast (S - 1) (S - 1); _ : Py (Tensor K)) = _
    rw [bcast_self]
    simp only [bind, Except.bind, and_self, if_true]
    rfl
  have e8 : stridedSet w1 n n upd1 = .ok w2 := by
    unfold stridedSet
    show (if n = 0 then _ else _ : Py (Tensor K)) = _
    rw [if_neg hn0, cr, if_pos ⟨rfl, rfl, Or.inl rfl⟩]
  refine ⟨{ L with w := w2 }, ?_, ⟨rfl, hws.symm, Tensor.wf_tabulate _ _⟩, ?_⟩
  · unfold smoothLayer
    dsimp only
    change stridedGet L.w (L.n - 1) L.n = _ at e1
    change stridedGet L.w L.n L.n = _ at e2
    change stridedSet L.w (L.n - 1) L.n upd = _ at e5
    change stridedGet w1 L.n L.n = _ at e6
    change stridedSet w1 L.n L.n upd1 = _ at e8
    simp only [e1, e2, e3, e4, e5, bind, Except.bind]
    simp only [e6, e7, e8, PwLayer.assign]
  · intro o ho i hi s hs k hk
    have hr : s * n + k < n * S := by
      have : (s + 1) * n ≤ S * n := Nat.mul_le_mul_right n hs
      have e : (s + 1) * n = s * n + n := by ring
      have e' : S * n = n * S := by ring
      omega
    have hdiff : ∀ r < S - 1, diff.get [o, i, r]
        = L.w.get [o, i, n - 1 + r * n] - L.w.get [o, i, n + r * n] := by
      intro r hr
      refine (Tensor.get_tab3 ho hi hr).trans ?_
      rw [bidx_of_lt hr]
      congr 1
      · exact Tensor.get_tab3 ho hi hr
      · exact Tensor.get_tab3 ho hi hr
    have hw1 : ∀ s k, k < n → s * n + k < n * S → w1.get [o, i, s * n + k] =
        if k = n - 1 ∧ s + 1 < S then L.w.get [o, i, s * n + k] - 1 / ((2 : ℕ) : K) * f *
              (L.w.get [o, i, s * n + k] - L.w.get [o, i, (s + 1) * n])
        else L.w.get [o, i, s * n + k] := by
      intro s k hk hr
      refine (Tensor.get_tab3 ho hi hr).trans ?_
      simp only [left_iff (S := S) (s := s) hn hk]
      by_cases hcond : k = n - 1 ∧ s + 1 < S
      · rw [if_pos hcond, if_pos hcond]
        obtain ⟨rfl, hs'⟩ := hcond
        have ed : (s * n + (n - 1) - (n - 1)) / n = s := by
          rw [show s * n + (n - 1) - (n - 1) = s * n by omega, Nat.mul_div_cancel _ (by omega)]
        have hs1 : s < S - 1 := by omega
        rw [ed, bidx_of_lt hs1]
        refine (Tensor.get_tab3 ho hi hs1).trans ?_
        rw [bidx_of_lt hs1, hdiff s hs1]
        have hl : left.get [o, i, s] = L.w.get [o, i, n - 1 + s * n] := Tensor.get_tab3 ho hi hs1
        rw [hl]
        have a1 : n - 1 + s * n = s * n + (n - 1) := by ring
        have a2 : n + s * n = (s + 1) * n := by ring
        rw [a1, a2]
      · rw [if_neg hcond, if_neg hcond]
    refine (Tensor.get_tab3 ho hi hr).trans ?_
    simp only [right_iff hk hs]
    by_cases hcr : k = 0 ∧ 0 < s
    · rw [if_pos hcr, if_neg (by rintro ⟨h1, -⟩; omega), if_pos hcr]
      obtain ⟨rfl, hs0⟩ := hcr
      obtain ⟨t, rfl⟩ : ∃ t, s = t + 1 := ⟨s - 1, by omega⟩
      have ed : ((t + 1) * n + 0 - n) / n = t := by
        rw [show (t + 1) * n + 0 - n = t * n by
          have : (t + 1) * n = t * n + n := by ring
          omega, Nat.mul_div_cancel _ (by omega)]
      have ht : t < S - 1 := by omega
      rw [ed, bidx_of_lt ht]
      refine (Tensor.get_tab3 ho hi ht).trans ?_
      rw [bidx_of_lt ht, hdiff t ht]
      have hr1 : right1.get [o, i, t] = w1.get [o, i, n + t * n] := Tensor.get_tab3 ho hi ht
      have a2 : n + t * n = (t + 1) * n + 0 := by ring
      rw [hr1, a2, hw1 (t + 1) 0 hk hr, if_neg (by rintro ⟨h1, -⟩; omega)]
      have a1 : n - 1 + t * n = (t + 1 - 1) * n + (n - 1) := by
        rw [Nat.add_sub_cancel]; ring
      rw [a1]
    · rw [if_neg hcr, hw1 s k hk hr]
      by_cases hcl : k = n - 1 ∧ s + 1 < S
      · rw [if_pos hcl, if_pos hcl]
      · rw [if_neg hcl, if_neg hcl, if_neg hcr]

/-- The weights after `smooth_discontinuous_layer`, over the reals. -/
theorem smoothLayer_weights {L : PwLayer ℝ} (h : L.WF) (hc : L.cls.shared = false) (hn : 2 ≤ L.n) (f : ℝ) :
    ∃ L', smoothLayer L f = (.ok (), L') ∧ Frame L L' ∧
      ∀ o < L.outFeatures, ∀ i < L.inFeatures, ∀ s < L.segments, ∀ k < L.n,
        L'.w.get [o, i, s * L.n + k] =
          if k = L.n - 1 ∧ s + 1 < L.segments then
            L.w.get [o, i, s * L.n + k] - 1 / 2 * f *
              (L.w.get [o, i, s * L.n + k] - L.w.get [o, i, (s + 1) * L.n])
          else if k = 0 ∧ 0 < s then
            L.w.get [o, i, s * L.n + k] + 1 / 2 * f *
              (L.w.get [o, i, (s - 1) * L.n + (L.n - 1)] - L.w.get [o, i, s * L.n + k])
          else L.w.get [o, i, s * L.n + k] := by
  obtain ⟨L', h1, h2, h3⟩ := smoothLayer_values h hc hn f
  refine ⟨L', h1, h2, ?_⟩
  intro o ho i hi s hs k hk
  have e : (1 : ℝ) / 2 = 1 / ((2 : ℕ) : ℝ) := by norm_num
  rw [e]
  exact h3 o ho i hi s hs k hk

/-- `smooth_discontinuous_layer` on one node per segment and at least two segments raises. -/
theorem smoothLayer_one {K : Type} [TorchScalar K] {L : PwLayer K} (h : L.WF) (hc : L.cls.shared = false)
    (hn : L.n = 1) (hS : 4 ≤ L.segments) (f : K) :
    smoothLayer L f = (.error .runtimeError, L) := by
  have hws : L.w.shape = [L.outFeatures, L.inFeatures, L.segments] := by
    rw [h.w_shape]; unfold PwLayer.wSize; rw [hc, hn]; simp
  have c0 : stridedCount 0 1 L.segments = L.segments - 1 := by unfold stridedCount; simp
  have c1 : stridedCount 1 1 L.segments = L.segments - 2 := by unfold stridedCount; simp; omega
  unfold smoothLayer
  rw [hn]
  simp only [stridedGet, hws]
  simp only [Nat.sub_self, one_ne_zero, if_false, c0, c1, bind, Except.bind, zip3]
  have hb : bcast (L.segments - 1) (L.segments - 2) = .error .runtimeError := by
    unfold bcast
    rw [if_neg (by omega), if_neg (by omega), if_neg (by omega)]
  simp only [Tensor.shape_tab3, hb]

/-- The weights after `initialize_polynomial_layer`. -/
theorem initializeLayer_weights {L : PwLayer ℝ} (h : L.WF) (hc : L.cls ≠ .continuousProd)
    (hl : L.length = 2) (ms mo : ℝ) (r1 r2 : ℕ → ℕ → ℝ) (V : ℕ → ℕ → ℕ → ℝ)
    (hV : ∀ o i s k, k < L.n → V o i (s * L.stride + k)
      = ms * (r1 o i * 2 - 1) * nodePos L.n L.segments s k + mo * (r2 o i * 2 - 1)) :
    ∃ L', initializePolynomialLayer L ms mo r1 r2 = (.ok (), L') ∧ Frame L L' ∧
      ∀ o < L.outFeatures, ∀ i < L.inFeatures, ∀ r < PwLayer.wSize L.cls L.n L.segments,
        L'.w.get [o, i, r] = V o i r := by
  obtain ⟨X, hX, hXs, hXw, hXg, hXd⟩ := columnX_poly L
  have d0 : dim L.w 0 = L.outFeatures := by unfold dim; rw [h.w_shape]; rfl
  have d1 : dim L.w 1 = L.inFeatures := by unfold dim; rw [h.w_shape]; rfl
  obtain ⟨st, extra, hst, hex, hend⟩ : ∃ st extra, st = L.stride ∧
      (initializePolynomialLayer L ms mo r1 r2 = forLoop (dim L.w 0) (fun a => forLoop (dim L.w 1) fun b =>
        forLoop L.segments fun j => initializeStep st extra X (ms * (r1 a b * ((2 : ℕ) : ℝ) - 1))
          (mo * (r2 a b * ((2 : ℕ) : ℝ) - 1)) a b j) L) ∧ ∀ i, (i + 1) * st + extra = i * st + L.n := by
    unfold initializePolynomialLayer PwLayer.stride
    rw [hX, nAttr_poly]
    have h1 : ∀ i, (i + 1) * (L.n - 1) + 1 = i * (L.n - 1) + L.n := by
      intro i
      have := h.n_pos
      have : (i + 1) * (L.n - 1) = i * (L.n - 1) + (L.n - 1) := by ring
      omega
    have h2 : ∀ i, (i + 1) * L.n + 0 = i * L.n + L.n := by intro i; ring
    cases hcls : L.cls
    · exact ⟨L.n - 1, 1, rfl, rfl, h1⟩
    · exact absurd hcls hc
    · exact ⟨L.n, 0, rfl, rfl, h2⟩
    · exact ⟨L.n, 0, rfl, rfl, h2⟩
  rw [hex, d0, d1]
  apply fill_loops h
  intro a ha b hb j hj
  have hbound : j * L.stride + L.n ≤ PwLayer.wSize L.cls L.n L.segments := by
    have := L.widx_lt h.n_pos (s := j) (k := L.n - 1) hj (by have := h.n_pos; omega)
    have := h.n_pos
    omega
  refine writes_slice h.w_shape ha hb hbound _ ?_
  intro L1 hL1
  refine ⟨X.map fun t => ms * (r1 a b * ((2 : ℕ) : ℝ) - 1) * L1.xGlobal t (j : ℤ)
      + mo * (r2 a b * ((2 : ℕ) : ℝ) - 1), ?_, ?_, ?_⟩
  · rw [Tensor.shape_map, hXs]; simp [numel]
  · intro k hk
    rw [hV a b j k hk, Tensor.get_reshape _ (idx' := [k, 0]) (by
      rw [Tensor.shape_map, hXs]; simp [ravel, numel])]
    rw [Tensor.get_map hXw (by rw [hXs]; exact inShape2.2 ⟨hk, by omega⟩), hXg k hk]
    have hx : L1.xGlobal (node L.n k) (j : ℤ) = nodePos L.n L.segments j k := by
      rw [L1.xGlobal_real (by rw [hL1.eq]; exact hl)]
      rw [hL1.eq]
      rfl
    rw [hx]
    push_cast
    rfl
  · unfold initializeStep
    dsimp only
    rw [hend, hst]

end HOL
