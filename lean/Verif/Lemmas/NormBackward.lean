import Verif.Lemmas.NormDeriv
import Verif.Lemmas.ConvBackward
import Verif.Spec.Extrema

/-! # Lemmas on the backward pass of the normalizations -/

namespace HOL
open TorchScalar Filter Topology

/-! ## lists and lines -/

theorem getD_ofFn {n : ℕ} (v : Fin n → ℝ) (i : Fin n) : (List.ofFn v).getD i 0 = v i := by
  rw [List.getD_eq_getElem?_getD, List.getElem?_ofFn]
  simp

theorem UniqueMax.line {n : ℕ} {v : Fin n → ℝ} (h : UniqueMax (List.ofFn v)) : ∃ a, ∀ q, q ≠ a → v q < v a := by
  obtain ⟨a, ha, hq⟩ := h
  rw [List.length_ofFn] at ha hq
  refine ⟨⟨a, ha⟩, fun q hne => ?_⟩
  have := hq q q.2 fun e => hne (Fin.ext e)
  rwa [getD_ofFn, show (List.ofFn v).getD a 0 = v ⟨a, ha⟩ from getD_ofFn v ⟨a, ha⟩] at this

theorem UniqueMin.line {n : ℕ} {v : Fin n → ℝ} (h : UniqueMin (List.ofFn v)) : ∃ a, ∀ q, q ≠ a → v a < v q := by
  obtain ⟨a, ha, hq⟩ := h
  rw [List.length_ofFn] at ha hq
  refine ⟨⟨a, ha⟩, fun q hne => ?_⟩
  have := hq q q.2 fun e => hne (Fin.ext e)
  rwa [getD_ofFn, show (List.ofFn v).getD a 0 = v ⟨a, ha⟩ from getD_ofFn v ⟨a, ha⟩] at this

theorem MaxAbsSmooth.line {n : ℕ} {v : Fin n → ℝ} (h : MaxAbsSmooth (List.ofFn v)) : (∀ q, v q = 0) ∨ ∃ a, v a ≠ 0 ∧ ∀ q, q ≠ a → |v q| < |v a| := by
  rcases h with h | h
  · exact Or.inl fun q => h _ (List.mem_ofFn.2 ⟨q, rfl⟩)
  · rw [List.map_ofFn] at h
    obtain ⟨a, ha⟩ := h.line
    by_cases h0 : v a = 0
    · left
      intro q
      by_cases hq : q = a
      · rw [hq, h0]
      · have := ha q hq
        simp only [Function.comp, h0, abs_zero] at this
        exact absurd this (not_lt.2 (abs_nonneg _))
    · exact Or.inr ⟨a, h0, ha⟩

theorem ofFn_ne_nil {n : ℕ} (hn : 0 < n) (v : Fin n → ℝ) : List.ofFn v ≠ [] := by
  intro h
  have := congrArg List.length h
  rw [List.length_ofFn] at this
  simp at this
  omega

theorem Picks.Valid.max_line {P : Picks ℝ} (hP : P.Valid) {n : ℕ} (hn : 0 < n) (v : Fin n → ℝ) : ∃ k : Fin n, P.max (List.ofFn v) = k ∧ ∀ q, v q ≤ v k := by
  obtain ⟨⟨h1, h2⟩, -⟩ := hP _ (ofFn_ne_nil hn v)
  rw [List.length_ofFn] at h1
  refine ⟨⟨_, h1⟩, rfl, fun q => ?_⟩
  have := h2 _ (List.mem_ofFn.2 ⟨q, rfl⟩)
  rwa [show (List.ofFn v).getD (P.max (List.ofFn v)) 0 = v ⟨_, h1⟩ from getD_ofFn v ⟨_, h1⟩] at this

theorem Picks.Valid.min_line {P : Picks ℝ} (hP : P.Valid) {n : ℕ} (hn : 0 < n) (v : Fin n → ℝ) : ∃ k : Fin n, P.min (List.ofFn v) = k ∧ ∀ q, v k ≤ v q := by
  obtain ⟨-, h1, h2⟩ := hP _ (ofFn_ne_nil hn v)
  rw [List.length_ofFn] at h1
  refine ⟨⟨_, h1⟩, rfl, fun q => ?_⟩
  have := h2 _ (List.mem_ofFn.2 ⟨q, rfl⟩)
  rwa [show (List.ofFn v).getD (P.min (List.ofFn v)) 0 = v ⟨_, h1⟩ from getD_ofFn v ⟨_, h1⟩] at this

section
variable {S : List ℕ} {d n : ℕ} (hn : S.getD d 0 = n) (hd : d < S.length)

theorem sumAlong_line (idx : List ℕ) (f : List ℕ → ℝ) : sumAlong n d idx f = ∑ q : Fin n, f (idx.set d q) := by
  unfold sumAlong
  rw [sumL_range, Finset.sum_range]

theorem get_line (X : Fin (numel S) → ℝ) (p : Fin (numel S)) (q : Fin n) : (ofVec S X).get ((unravel S p).set d q) = lineOf hn X p q :=
  ofVec_get X (inShape_set (inShape_unravel p.2) (by rw [hn]; exact q.2))

theorem line_place (X : Fin (numel S) → ℝ) (p : Fin (numel S)) : lineOf hn X p (placeOf hn hd p) = X p := by
  show X _ = X _
  rw [lineAt_place]

theorem set_place (p : Fin (numel S)) : (unravel S p).set d (placeOf hn hd p) = unravel S p := set_getD_self _ _

end

theorem lt_of_getD {S : List ℕ} {d : ℕ} (h : 0 < S.getD d 0) : d < S.length := by
  by_contra hd
  rw [List.getD_eq_default _ _ (not_lt.1 hd)] at h
  exact absurd h (lt_irrefl 0)

/-! ## the modules along an axis -/

theorem maxAbsJ_sum {n : ℕ} (eps : ℝ) (k : ℕ) (v G : Fin n → ℝ) (j : Fin n) : ∑ i, G i * maxAbsJ eps k v i j
    = G j / (maxL (List.ofFn fun q => |v q|) + eps)
      + if (j : ℕ) = k then (∑ i, -(G i * v i) / ((maxL (List.ofFn fun q => |v q|) + eps) * (maxL (List.ofFn fun q => |v q|) + eps))) * Real.sign (v j) else 0 := by
  unfold maxAbsJ
  generalize maxL (List.ofFn fun q => |v q|) + eps = D
  simp only [mul_add, Finset.sum_add_distrib]
  congr 1
  · rw [Finset.sum_eq_single j]
    · rw [if_pos rfl]; ring
    · intro i _ h
      rw [if_neg h, mul_zero]
    · simp
  · split
    · rw [Finset.sum_mul]
      exact Finset.sum_congr rfl fun i _ => by ring
    · simp

theorem backprop_maxAbs {P : Picks ℝ} (hP : P.Valid) {eps : ℝ} (heps : 0 < eps) {S : List ℕ} {dim : ℕ} (hs : 0 < S.getD dim 0) (X : Fin (numel S) → ℝ)
    (hX : ∀ idx, InShape S idx → MaxAbsSmooth (slice (ofVec S X) dim idx)) :
    ∃ F, Backprop (fun x => maxAbsNormalization x eps dim) S S F X (fun g => .ok (maxAbsGrad P eps dim (ofVec S X) g)) := by
  have hd := lt_of_getD hs
  have habs : ∀ (Y : Fin (numel S) → ℝ) (p : Fin (numel S)), (slice (ofVec S Y) dim (unravel S p)).map TorchScalar.abs = List.ofFn fun q => |lineOf (d := dim) (n := S.getD dim 0) rfl Y p q| := by
    intro Y p
    rw [slice_ofVec rfl, List.map_ofFn]
    rfl
  refine ⟨_, backprop_lines (n := S.getD dim 0) rfl hd (Φ := maxAbsLine eps) (fun Y => ?_)
    (fun v => maxAbsJ eps (P.max (List.ofFn fun q => |v q|)) v) X (fun p i => ?_) fun g hg hw => ⟨_, rfl, rfl, Tensor.wf_tabulate _ _, fun p => ?_⟩⟩
  · rw [maxAbsNormalization_eq _ _ (ofVec_wf S Y) hd hs, ofVec_shape, tabulate_ofVec]
    congr 2
    funext p
    rw [habs, ofVec_get_unravel]
    unfold maxAbsLine
    rw [line_place]
  · obtain ⟨k, e, hk⟩ := hP.max_line (n := S.getD dim 0) hs fun q => |lineOf rfl X p q|
    beta_reduce
    rw [e]
    refine maxAbs_deriv heps _ hk ?_ i
    have := hX _ (inShape_unravel p.2)
    rw [slice_ofVec rfl] at this
    exact this.line
  · unfold maxAbsGrad
    rw [ofVec_shape, Tensor.get_tabulate (inShape_unravel p.2), maxAbsJ_sum, set_place]
    dsimp only
    rw [habs, line_place]
    congr 1
    unfold denominatorGrad
    rw [sumAlong_line, ofVec_get_unravel]
    simp only [get_line rfl]
    rfl

theorem maxCenterJ_sum {n : ℕ} (eps : ℝ) (k l : ℕ) (v G : Fin n → ℝ) (j : Fin n) : ∑ i, G i * maxCenterJ eps k l v i j =
    let D := maxL (List.ofFn v) - midOf v + eps
    let gMag := ∑ i, -(G i * (v i - midOf v)) / (D * D)
    let gMid := -(∑ i, G i / D) - gMag
    G j / D + (if (j : ℕ) = k then gMag + 1 / 2 * gMid else 0) + if (j : ℕ) = l then 1 / 2 * gMid else 0 := by
  unfold maxCenterJ
  dsimp only
  generalize maxL (List.ofFn v) - midOf v + eps = D
  have hmag : ∑ i, G i * (-(v i - midOf v) / (D * D)) = ∑ i, -(G i * (v i - midOf v)) / (D * D) := Finset.sum_congr rfl fun i _ => by ring
  have hmid : ∑ i, G i * (1 / 2 * (-(1 / D) - -(v i - midOf v) / (D * D))) = 1 / 2 * (-(∑ i, G i / D) - ∑ i, -(G i * (v i - midOf v)) / (D * D)) := by
    rw [← hmag, ← Finset.sum_neg_distrib, ← Finset.sum_sub_distrib, Finset.mul_sum]
    exact Finset.sum_congr rfl fun i _ => by ring
  simp only [mul_add, Finset.sum_add_distrib]
  congr 1
  · congr 1
    · rw [Finset.sum_eq_single j]
      · rw [if_pos rfl]; ring
      · intro i _ h
        rw [if_neg h, mul_zero]
      · simp
    · split
      · simp only [mul_add, Finset.sum_add_distrib]
        rw [hmag, hmid]
      · simp
  · split
    · rw [hmid]
    · simp

theorem backprop_maxCenter {P : Picks ℝ} (hP : P.Valid) {eps : ℝ} (heps : 0 < eps) {S : List ℕ} {dim : ℕ} (hs : 0 < S.getD dim 0) (X : Fin (numel S) → ℝ)
    (hX : ∀ idx, InShape S idx → MaxCenterSmooth (slice (ofVec S X) dim idx)) :
    ∃ F, Backprop (fun x => maxCenterNormalization x eps dim) S S F X (fun g => .ok (maxCenterGrad P eps dim (ofVec S X) g)) := by
  have hd := lt_of_getD hs
  refine ⟨_, backprop_lines (n := S.getD dim 0) rfl hd (Φ := maxCenterLine eps) (fun Y => ?_)
    (fun v => maxCenterJ eps (P.max (List.ofFn v)) (P.min (List.ofFn v)) v) X (fun p i => ?_) fun g hg hw => ⟨_, rfl, rfl, Tensor.wf_tabulate _ _, fun p => ?_⟩⟩
  · rw [maxCenterNormalization_eq _ _ hd hs, ofVec_shape, tabulate_ofVec]
    congr 2
    funext p
    rw [slice_ofVec rfl, ofVec_get_unravel]
    unfold maxCenterLine midOf
    rw [line_place]
  · have hp := hX _ (inShape_unravel p.2)
    rw [slice_ofVec rfl] at hp
    obtain ⟨a, ha⟩ := hp.1.line
    obtain ⟨b, hb⟩ := hp.2.line
    obtain ⟨k, e, hk⟩ := hP.max_line (n := S.getD dim 0) hs (lineOf rfl X p)
    obtain ⟨l, e', hl⟩ := hP.min_line (n := S.getD dim 0) hs (lineOf rfl X p)
    have hka : k = a := by
      by_contra h
      exact absurd (hk a) (not_le.2 (ha k h))
    have hlb : l = b := by
      by_contra h
      exact absurd (hl b) (not_le.2 (hb l h))
    subst hka hlb
    rw [e, e']
    exact maxCenter_deriv heps _ ha hb i
  · unfold maxCenterGrad
    rw [ofVec_shape, Tensor.get_tabulate (inShape_unravel p.2), maxCenterJ_sum, set_place]
    dsimp only
    rw [slice_ofVec rfl]
    unfold denominatorGrad
    simp only [sumAlong_line, get_line rfl]
    unfold midOf
    norm_num
    rfl

theorem l2J_sum {n : ℕ} (eps : ℝ) (v G : Fin n → ℝ) (j : Fin n) : ∑ i, G i * l2J eps v i j
    = G j / (normOf v + eps) + if normOf v = 0 then 0 else v j * ((∑ i, -(G i * v i) / ((normOf v + eps) * (normOf v + eps))) / normOf v) := by
  unfold l2J
  generalize normOf v + eps = D
  simp only [mul_add, Finset.sum_add_distrib]
  congr 1
  · rw [Finset.sum_eq_single j]
    · rw [if_pos rfl]; ring
    · intro i _ h
      rw [if_neg h, mul_zero]
    · simp
  · split
    · simp
    · rw [Finset.sum_div, Finset.mul_sum]
      exact Finset.sum_congr rfl fun i _ => by ring

theorem backprop_l2 {eps : ℝ} (heps : 0 < eps) {S : List ℕ} (hs : 0 < S.getD 1 0) (X : Fin (numel S) → ℝ) :
    ∃ F, Backprop (fun x => l2Normalization x eps) S S F X (fun g => .ok (l2Grad eps (ofVec S X) g)) := by
  have hd := lt_of_getD hs
  have hnorm : ∀ (Y : Fin (numel S) → ℝ) (p : Fin (numel S)), sqrt (sumL ((slice (ofVec S Y) 1 (unravel S p)).map fun a => a * a)) = normOf (lineOf (n := S.getD 1 0) rfl Y p) := by
    intro Y p
    rw [slice_ofVec rfl, List.map_ofFn, sumL_ofFn]
    rfl
  refine ⟨_, backprop_lines (n := S.getD 1 0) rfl hd (Φ := l2Line eps) (fun Y => ?_) (fun v => l2J eps v) X (fun p i => l2_deriv heps _ i)
    fun g hg hw => ⟨_, rfl, rfl, Tensor.wf_tabulate _ _, fun p => ?_⟩⟩
  · rw [l2Normalization_eq _ _ hd hs, ofVec_shape, tabulate_ofVec]
    congr 2
    funext p
    rw [hnorm, ofVec_get_unravel]
    unfold l2Line
    rw [line_place]
  · unfold l2Grad
    rw [ofVec_shape, Tensor.get_tabulate (inShape_unravel p.2), l2J_sum, set_place]
    dsimp only
    rw [hnorm, line_place, ofVec_get_unravel]
    congr 1
    unfold denominatorGrad
    rw [sumAlong_line]
    simp only [get_line rfl, eqB_real]

/-! ## whole samples -/

theorem rows_slice {B : ℕ} {R : List ℕ} (x : Tensor ℝ) (hx : x.shape = B :: R) {idx : List ℕ} (h : InShape [B, numel R] idx) :
    slice (x.reshape [B, numel R]) 1 idx = sampleEntries x (idx.getD 0 0) := by
  obtain ⟨b, q, rfl, hb, hq⟩ := inShape2_exists h
  unfold slice sampleEntries
  rw [hx]
  apply List.map_congr_left
  intro r hr
  have hr' : r < numel R := by simpa using hr
  show (x.reshape [B, numel R]).get [b, r] = x.get (b :: unravel R r)
  rw [← get_flatten x hx, ravel_unravel hr']

theorem reshape_ofVec {S T : List ℕ} (h : numel T = numel S) (X : Fin (numel S) → ℝ) : (ofVec S X).reshape T = ofVec T fun p => X (Fin.cast h p) := by
  refine eq_ofVec_data rfl (Tensor.wf_reshape (ofVec_wf S X) h) _ fun p => ?_
  rw [Tensor.data_reshape, ofVec_data X (h ▸ p.2)]
  rfl

/-- A normalization of the rows applied to whole samples. -/
theorem backprop_rows {f : Fwd ℝ} {back : Tensor ℝ → Tensor ℝ → Tensor ℝ} {B : ℕ} {R : List ℕ} (hB : 0 < B) (X : Fin (numel (B :: R)) → ℝ)
    (h : ∃ F, Backprop f [B, numel R] [B, numel R] F (fun p => X (Fin.cast (by simp [numel]) p)) (fun g => .ok (back ((ofVec (B :: R) X).reshape [B, numel R]) g))) :
    ∃ F, Backprop (fun x => do
        let xn ← flattenRows x
        let norm ← f xn
        .ok (norm.reshape x.shape)) (B :: R) (B :: R) F X (fun g => .ok (rowsGrad back (ofVec (B :: R) X) g)) := by
  have hN : numel [B, numel R] = numel (B :: R) := by simp [numel]
  obtain ⟨F, hF⟩ := h
  have h1 := backprop_reshape (f := fun x => flattenRows x) (S := B :: R) (T := [B, numel R]) hN (fun x hx => flattenRows_ok x hx hB) X
  have h3 := backprop_reshape (f := fun x : Tensor ℝ => .ok (x.reshape (B :: R))) (S := [B, numel R]) (T := B :: R) hN.symm (fun x _ => rfl) (F fun p => X (Fin.cast hN p))
  have h := (h1.comp hF).comp h3
  refine ⟨_, h.congr (fun Y => ?_) fun g hg hw => ?_⟩
  · show (flattenRows (ofVec (B :: R) Y) >>= fun xn => f xn >>= fun norm => Except.ok (norm.reshape (ofVec (B :: R) Y).shape)) = ((flattenRows (ofVec (B :: R) Y) >>= f) >>= fun x => Except.ok (x.reshape (B :: R)))
    rw [ofVec_shape]
    cases flattenRows (ofVec (B :: R) Y) <;> rfl
  · rfl

/-! ## layer normalization -/

theorem hatJ_sum {n : ℕ} (eps : ℝ) (v G : Fin n → ℝ) (j : Fin n) : ∑ i, G i * hatJ eps v i j
    = (G j - (∑ i, G i) / n - hatLine eps v j * ((∑ i, G i * hatLine eps v i) / n)) / Real.sqrt (varOf v + eps) := by
  unfold hatJ
  have : ∀ i, G i * (((if i = j then 1 else 0) - 1 / (n : ℝ) - hatLine eps v i * hatLine eps v j / n) / Real.sqrt (varOf v + eps))
      = ((if i = j then G i else 0) - G i / n - hatLine eps v j * (G i * hatLine eps v i / n)) / Real.sqrt (varOf v + eps) := by
    intro i
    split <;> ring
  simp only [this]
  rw [← Finset.sum_div, Finset.sum_sub_distrib, Finset.sum_sub_distrib, ← Finset.mul_sum, ← Finset.sum_div, ← Finset.sum_div, Finset.sum_ite_eq' Finset.univ j G, if_pos (Finset.mem_univ j)]

theorem layerHat_line {S : List ℕ} {d n : ℕ} (hn : S.getD d 0 = n) (hd : d < S.length) (hS : d = S.length - 1) (eps : ℝ) (X : Fin (numel S) → ℝ) (p : Fin (numel S)) :
    layerHat eps (ofVec S X) (unravel S p) = hatLine eps (lineOf hn X p) (placeOf hn hd p) := by
  unfold layerHat hatLine
  dsimp only
  rw [ofVec_shape, ← hS, slice_ofVec hn, meanL_ofFn, varL_ofFn, line_place, ofVec_get_unravel]
  rfl

/-- The output of layer normalization. -/
theorem layerNorm_vec {S : List ℕ} {d n : ℕ} (hn : S.getD d 0 = n) (hd : d < S.length) (hS : d = S.length - 1) {w : Tensor ℝ} (hw : w.shape = [n]) (b : Option (Tensor ℝ)) (eps : ℝ)
    (X : Fin (numel S) → ℝ) : layerNorm (ofVec S X) w b eps = .ok (ofVec S fun p => hatLine eps (lineOf hn X p) (placeOf hn hd p) * w.get [(placeOf hn hd p : ℕ)]
      + b.elim 0 fun b => b.get [(placeOf hn hd p : ℕ)]) := by
  have hl : S.getLast? = some n := by
    rw [List.getLast?_eq_getElem?, ← hS, List.getElem?_eq_getElem hd]
    rw [List.getD_eq_getElem _ _ hd] at hn
    rw [hn]
  unfold layerNorm
  rw [ofVec_shape, hl]
  dsimp only
  rw [if_pos hw, tabulate_ofVec]
  congr 2
  funext p
  have := layerHat_line hn hd hS eps X p
  unfold layerHat at this
  dsimp only at this
  rw [ofVec_shape] at this
  rw [this, ← hS]
  cases b with
  | none => rw [Option.elim, add_zero]; rfl
  | some b => rfl

theorem filter_sum (l : List ℕ) (q : ℕ → Bool) (f : ℕ → ℝ) : ((l.filter q).map f).sum = (l.map fun p => if q p then f p else 0).sum := by
  induction l with
  | nil => rfl
  | cons a l ih =>
    rw [List.filter_cons, List.map_cons, List.sum_cons, ← ih]
    split <;> simp

theorem columnSum_eq {S : List ℕ} {d n : ℕ} (hn : S.getD d 0 = n) (hd : d < S.length) (hS : d = S.length - 1) (c : ℕ) (f : List ℕ → ℝ) :
    columnSum S c f = ∑ p : Fin (numel S), if (placeOf hn hd p : ℕ) = c then f (unravel S p) else 0 := by
  unfold columnSum
  rw [sumL_real, filter_sum, ← sumL_real, sumL_range, Finset.sum_range]
  refine Finset.sum_congr rfl fun p _ => ?_
  rw [← hS]
  simp only [decide_eq_true_eq]
  rfl

theorem backprop_layerNorm {S : List ℕ} {d n : ℕ} (hn : S.getD d 0 = n) (hd : d < S.length) (hS : d = S.length - 1) (h0 : 0 < n) {w : Tensor ℝ} (hw : w.shape = [n]) (b : Option (Tensor ℝ)) {eps : ℝ} (heps : 0 < eps)
    (X : Fin (numel S) → ℝ) : Backprop (fun x => layerNorm x w b eps) S S
      (fun Y p => hatLine eps (lineOf hn Y p) (placeOf hn hd p) * w.get [(placeOf hn hd p : ℕ)] + b.elim 0 fun b => b.get [(placeOf hn hd p : ℕ)]) X
      (fun g => .ok (layerNormGrad eps w (ofVec S X) g)) := by
  refine backprop_lines hn hd (Φ := fun v i => hatLine eps v i * w.get [(i : ℕ)] + b.elim 0 fun b => b.get [(i : ℕ)]) (fun Y => layerNorm_vec hn hd hS hw b eps Y)
    (fun v i j => w.get [(i : ℕ)] * hatJ eps v i j) X (fun p i => ?_) fun g hg hgw => ⟨_, rfl, rfl, Tensor.wf_tabulate _ _, fun p => ?_⟩
  · refine (((hat_deriv h0 heps (lineOf hn X p) i).mul_const (w.get [(i : ℕ)])).add_const _).congr_fderiv (clm_ext fun c => ?_)
    show w.get [(i : ℕ)] * (∑ j, hatJ eps (lineOf hn X p) i j • prj j) c = _
    rw [sum_prj, sum_prj, Finset.mul_sum]
    exact Finset.sum_congr rfl fun j _ => (mul_assoc _ _ _).symm
  · unfold layerNormGrad
    rw [ofVec_shape, Tensor.get_tabulate (inShape_unravel p.2)]
    dsimp only
    rw [← hS, hn, sumAlong_line, sumAlong_line, slice_ofVec hn, varL_ofFn, layerHat_line hn hd hS]
    have e1 : ∀ i : Fin n, ((unravel S p).set d i).getD d 0 = i := by
      intro i
      have h2 : (unravel S (lineAt hn p i)).getD d 0 = i := congrArg Fin.val (place_lineAt hn hd p i)
      rwa [unravel_lineAt] at h2
    have e2 : ∀ i : Fin n, layerHat eps (ofVec S X) ((unravel S p).set d i) = hatLine eps (lineOf hn X p) i := by
      intro i
      rw [← unravel_lineAt hn, layerHat_line hn hd hS, lineOf_lineAt, place_lineAt]
    simp only [e1, e2]
    have := hatJ_sum eps (lineOf hn X p) (fun i => g.get ((unravel S p).set d i) * w.get [(i : ℕ)]) (placeOf hn hd p)
    simp only [set_place, mul_assoc] at this ⊢
    rw [this]
    rfl

end HOL
