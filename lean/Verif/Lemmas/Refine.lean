import Verif.Model.Refine
import Verif.Lemmas.Layers

/-! # Loops that fill the weights of a layer -/

namespace HOL
open TorchScalar Polynomial Spec

set_option linter.unusedSectionVars false

section generic
variable {K : Type} [TorchScalar K]

/-- `L` differs from `L0` at most in the values of the weights. -/
structure Frame (L0 L : PwLayer K) : Prop where
  eq : L = { L0 with w := L.w }
  shape : L.w.shape = L0.w.shape
  wf : L.w.WF

theorem Frame.refl {L : PwLayer K} (h : L.w.WF) : Frame L L := ⟨rfl, rfl, h⟩

theorem Frame.wf' {L0 L : PwLayer K} (h : Frame L0 L) (h0 : L0.WF) : L.WF := by
  rw [h.eq]; exact h0.withW h.shape h.wf

/-- The procedure succeeds, sets the entries in `W` to `V` and leaves all others alone. -/
def Writes (L0 : PwLayer K) (V : ℕ → ℕ → ℕ → K) (W : ℕ → ℕ → ℕ → Prop)
    (f : PwLayer K → Eff (PwLayer K)) : Prop :=
  ∀ L, Frame L0 L → ∃ L', f L = (.ok (), L') ∧ Frame L0 L' ∧
    ∀ p q r, InShape L0.w.shape [p, q, r] →
      (W p q r → L'.w.get [p, q, r] = V p q r) ∧ (¬ W p q r → L'.w.get [p, q, r] = L.w.get [p, q, r])

theorem Writes.loop {L0 : PwLayer K} {V : ℕ → ℕ → ℕ → K} {W : ℕ → ℕ → ℕ → ℕ → Prop}
    {body : ℕ → PwLayer K → Eff (PwLayer K)} {N : ℕ} (h : ∀ t < N, Writes L0 V (W t) (body t)) :
    Writes L0 V (fun p q r => ∃ t < N, W t p q r) (forLoop N body) := by
  induction N with
  | zero =>
    intro L hL
    exact ⟨L, rfl, hL, fun p q r _ => ⟨by simp, fun _ => rfl⟩⟩
  | succ N ih =>
    intro L hL
    obtain ⟨L1, e1, f1, v1⟩ := ih (fun t ht => h t (by omega)) L hL
    obtain ⟨L2, e2, f2, v2⟩ := h N (by omega) L1 f1
    refine ⟨L2, ?_, f2, ?_⟩
    · rw [forLoop, e1]; exact e2
    · intro p q r hin
      obtain ⟨a1, b1⟩ := v1 p q r hin
      obtain ⟨a2, b2⟩ := v2 p q r hin
      by_cases hw : W N p q r
      · exact ⟨fun _ => a2 hw, fun hn => absurd ⟨N, by omega, hw⟩ hn⟩
      · constructor
        · rintro ⟨t, ht, hwt⟩
          have htN : t ≠ N := by rintro rfl; exact hw hwt
          rw [b2 hw]
          exact a1 ⟨t, by omega, hwt⟩
        · intro hn
          rw [b2 hw]
          exact b1 fun ⟨t, ht, hwt⟩ => hn ⟨t, by omega, hwt⟩

theorem Writes.mono {L0 : PwLayer K} {V : ℕ → ℕ → ℕ → K} {W W' : ℕ → ℕ → ℕ → Prop}
    {f : PwLayer K → Eff (PwLayer K)} (h : Writes L0 V W f) (e : ∀ p q r, W p q r ↔ W' p q r) :
    Writes L0 V W' f := by
  have : W = W' := by funext p q r; exact propext (e p q r)
  rwa [← this]

theorem sliceRow_ok {w : Tensor K} {d0 d1 d2 a b start m : ℕ} (hs : w.shape = [d0, d1, d2])
    (ha : a < d0) (hb : b < d1) (hm : start + m ≤ d2) :
    sliceRow w a b start (start + m) = .ok (Tensor.tab4 1 1 1 m fun _ _ _ k => w.get [a, b, start + k]) := by
  unfold sliceRow
  rw [hs]
  simp only [ha, hb, and_self, if_true]
  have : min (start + m) d2 - start = m := by omega
  rw [this]

/-- Assigning a slice through a layer. -/
theorem writes_slice {L0 : PwLayer K} {V : ℕ → ℕ → ℕ → K} {d0 d1 d2 a b start m : ℕ}
    (hs : L0.w.shape = [d0, d1, d2]) (ha : a < d0) (hb : b < d1) (hm : start + m ≤ d2)
    (f : PwLayer K → Eff (PwLayer K))
    (hf : ∀ L, Frame L0 L → ∃ v : Tensor K, numel v.shape = m ∧
      (∀ k < m, (v.reshape [m]).get [k] = V a b (start + k)) ∧
      f L = L.assign (sliceAssign L.w a b start (start + m) v)) :
    Writes L0 V (fun p q r => p = a ∧ q = b ∧ ∃ k < m, r = start + k) f := by
  intro L hL
  obtain ⟨v, hv1, hv2, hv3⟩ := hf L hL
  have hLs : L.w.shape = [d0, d1, d2] := hL.shape.trans hs
  have e : sliceAssign L.w a b start (start + m) v = .ok (Tensor.tab3 d0 d1 d2 fun p q r =>
      if p = a ∧ q = b ∧ start ≤ r ∧ r < start + m then (v.reshape [m]).get [bidx m (r - start)]
          else L.w.get [p, q, r]) := by
    unfold sliceAssign
    rw [hLs]
    simp only [ha, hb, and_self, if_true, hv1]
    have : min (start + m) d2 - start = m := by omega
    rw [this, if_pos (Or.inl rfl)]
  rw [hv3, e]
  refine ⟨_, rfl, ⟨?_, hs.symm, Tensor.wf_tabulate _ _⟩, ?_⟩
  · rw [hL.eq]
  · intro p q r hin
    rw [hs] at hin
    obtain ⟨hp, hq, hr⟩ := inShape3.1 hin
    have hg := Tensor.get_tab3 (f := fun p q r =>
      if p = a ∧ q = b ∧ start ≤ r ∧ r < start + m then (v.reshape [m]).get [bidx m (r - start)]
          else L.w.get [p, q, r]) hp hq hr
    constructor
    · rintro ⟨rfl, rfl, k, hk, rfl⟩
      refine hg.trans ?_
      rw [if_pos ⟨rfl, rfl, by omega, by omega⟩]
      have : start + k - start = k := by omega
      rw [this, bidx_of_lt hk]
      exact hv2 k hk
    · intro hn
      refine hg.trans ?_
      rw [if_neg]
      rintro ⟨h1, h2, h3, h4⟩
      exact hn ⟨h1, h2, r - start, by omega, by omega⟩

/-- Assigning one entry through a layer. -/
theorem writes_entry {L0 : PwLayer K} {V : ℕ → ℕ → ℕ → K} {d0 d1 d2 a b c : ℕ}
    (hs : L0.w.shape = [d0, d1, d2]) (ha : a < d0) (hb : b < d1) (hc : c < d2)
    (f : PwLayer K → Eff (PwLayer K))
    (hf : ∀ L, Frame L0 L → ∃ v : Tensor K, numel v.shape = 1 ∧ (v.reshape [1]).get [0] = V a b c ∧
      f L = L.assign (entryAssign L.w a b c v)) :
    Writes L0 V (fun p q r => p = a ∧ q = b ∧ r = c) f := by
  intro L hL
  obtain ⟨v, hv1, hv2, hv3⟩ := hf L hL
  have hLs : L.w.shape = [d0, d1, d2] := hL.shape.trans hs
  have e : entryAssign L.w a b c v = .ok (L.w.set [a, b, c] (V a b c)) := by
    unfold entryAssign
    rw [hLs]
    simp only [ha, hb, hc, and_self, if_true, hv1, hv2]
  have hin0 : InShape L.w.shape [a, b, c] := by rw [hLs]; exact inShape3.2 ⟨ha, hb, hc⟩
  rw [hv3, e]
  refine ⟨_, rfl, ⟨?_, hL.shape, Tensor.wf_set hL.wf _ _⟩, ?_⟩
  · rw [hL.eq]
  · intro p q r hin
    rw [← hL.shape] at hin
    constructor
    · rintro ⟨rfl, rfl, rfl⟩
      exact Tensor.get_set_self hL.wf hin0
    · intro hn
      apply Tensor.get_set_ne hin0 hin
      intro he
      simp only [List.cons.injEq, and_true] at he
      exact hn ⟨he.1.symm, he.2.1.symm, he.2.2.symm⟩

/-- Every weight position of a layer belongs to a node of a segment. -/
theorem cover {cls : PwClass} {n S r : ℕ} (hn : 0 < n) (hS : 0 < S)
    (hr : r < PwLayer.wSize cls n S) :
    ∃ s < S, ∃ k < n, r = s * (if cls.shared then n - 1 else n) + k := by
  unfold PwLayer.wSize at hr
  by_cases hc : cls.shared
  · rw [if_pos hc] at hr ⊢
    by_cases h1 : n = 1
    · subst h1
      exact ⟨0, hS, 0, by omega, by simp at hr ⊢; omega⟩
    · have hm : 0 < n - 1 := by omega
      by_cases hlast : r = (n - 1) * S
      · refine ⟨S - 1, by omega, n - 1, by omega, ?_⟩
        obtain ⟨T, rfl⟩ : ∃ T, S = T + 1 := ⟨S - 1, by omega⟩
        rw [hlast, Nat.add_sub_cancel]; ring
      · refine ⟨r / (n - 1), ?_, r % (n - 1), ?_, ?_⟩
        · rw [Nat.div_lt_iff_lt_mul hm, Nat.mul_comm]; omega
        · exact (Nat.mod_lt _ hm).trans (by omega)
        · rw [Nat.mul_comm]; exact (Nat.div_add_mod r (n - 1)).symm
  · rw [if_neg hc] at hr ⊢
    refine ⟨r / n, ?_, r % n, Nat.mod_lt _ hn, ?_⟩
    · rw [Nat.div_lt_iff_lt_mul hn, Nat.mul_comm]; exact hr
    · rw [Nat.mul_comm]; exact (Nat.div_add_mod r n).symm

/-- Loops over all links and segments that write every node produce a layer with weights `V`. -/
theorem fill_loops {L0 : PwLayer K} (h0 : L0.WF) {V : ℕ → ℕ → ℕ → K}
    {body : ℕ → ℕ → ℕ → PwLayer K → Eff (PwLayer K)}
    (hb : ∀ a < L0.outFeatures, ∀ b < L0.inFeatures, ∀ j < L0.segments,
      Writes L0 V (fun p q r => p = a ∧ q = b ∧ ∃ k < L0.n, r = j * L0.stride + k) (body a b j)) :
    ∃ L', forLoop L0.outFeatures (fun a => forLoop L0.inFeatures fun b =>
        forLoop L0.segments (body a b)) L0 = (.ok (), L') ∧ Frame L0 L' ∧
      ∀ o < L0.outFeatures, ∀ i < L0.inFeatures, ∀ r < PwLayer.wSize L0.cls L0.n L0.segments,
        L'.w.get [o, i, r] = V o i r := by
  obtain ⟨L', e, hf, hv⟩ := Writes.loop (fun a ha => Writes.loop fun b hb' =>
    Writes.loop fun j hj => hb a ha b hb' j hj) L0 (Frame.refl h0.w_wf)
  refine ⟨L', e, hf, ?_⟩
  intro o ho i hi r hr
  refine (hv o i r (by rw [h0.w_shape]; exact inShape3.2 ⟨ho, hi, hr⟩)).1 ?_
  obtain ⟨s, hs, k, hk, e⟩ := cover h0.n_pos h0.seg_pos hr
  exact ⟨o, ho, i, hi, s, hs, rfl, rfl, k, hk, e⟩

theorem nAttr_poly {L : PwLayer K} : L.poly.basis.nAttr = .ok L.n := by
  have h : (getLagrangeBasis L.n ((2 : ℕ) : K)).nAttr = .ok L.n := by
    unfold getLagrangeBasis
    split
    · rename_i h; rw [h]; rfl
    · rfl
  unfold PwLayer.poly
  cases L.cls <;> exact h

end generic

theorem columnX_poly (L : PwLayer ℝ) :
    ∃ X : Tensor ℝ, columnX L.poly.basis = .ok X ∧ X.shape = [L.n, 1] ∧ X.WF ∧
      (∀ k < L.n, X.get [k, 0] = node L.n k) ∧ ∀ k < L.n, X.data.getD k 0 = node L.n k := by
  have key : ∃ X : Tensor ℝ, columnX (getLagrangeBasis L.n (((2 : ℕ) : ℝ))) = .ok X ∧
      X.shape = [L.n, 1] ∧ X.WF ∧ ∀ k < L.n, X.data.getD k 0 = node L.n k := by
    unfold getLagrangeBasis
    split
    · rename_i h
      rw [h]
      refine ⟨_, rfl, rfl, rfl, ?_⟩
      intro k hk
      have : k = 0 := by omega
      subst this
      simp [node, Tensor.tab1, Tensor.tabulate, numel]
    · refine ⟨_, rfl, ?_, ?_, ?_⟩
      · show [numel ((chebyshevLobatto L.n).map _).shape, 1] = _
        rw [Tensor.shape_map, chebyshev_shape]; simp [numel]
      · have := chebyshev_wf L.n
        simp only [Tensor.WF, Tensor.reshape, LagrangeBasis.init, Tensor.map, List.length_map] at *
        rw [this]; simp [numel]
      · intro k hk
        have h1 := init_X_get hk (2 : ℝ)
        have h2 : (LagrangeBasis.init L.n (2 : ℝ)).X.shape = [L.n] := by
          show ((chebyshevLobatto L.n).map _).shape = _
          rw [Tensor.shape_map, chebyshev_shape]
        unfold Tensor.get at h1
        rw [h2] at h1
        have h3 : ravel [L.n] [k] = k := by simp [ravel, numel]
        rw [h3] at h1
        have h4 : ((2 : ℕ) : ℝ) = 2 := by norm_num
        rw [h4]
        refine h1.trans ?_
        ring
  obtain ⟨X, h1, h2, h3, h4⟩ := key
  refine ⟨X, ?_, h2, h3, ?_, h4⟩
  · rw [← h1]
    congr 1
    unfold PwLayer.poly
    cases L.cls <;> rfl
  · intro k hk
    unfold Tensor.get
    rw [h2]
    have : ravel [L.n, 1] [k, 0] = k := by simp [ravel, numel]
    rw [this]
    exact h4 k hk

/-- `poly_in.interpolate(x, w)` for a column of positions and the weights of one segment. -/
theorem interpolate_column {n m : ℕ} (hn : 0 < n) {x : Tensor ℝ} (hx : x.shape = [m, 1]) (v : ℕ → ℝ) :
    (lagrangePoly n ((2 : ℕ) : ℝ)).interpolate x (Tensor.tab4 1 1 1 n fun _ _ _ k => v k)
      = .ok (Tensor.tab2 m 1 fun b _ => (linkPoly n v).eval (x.get [b, 0])) := by
  unfold lagrangePoly Poly.interpolate
  rw [stackBasis_ok hn _ hx]
  simp only [bind, Except.bind]
  unfold einsumBatch
  have hb : bcast m 1 = .ok m := by
    unfold bcast; split <;> simp_all
  simp only [Tensor.shape_tab3, Tensor.shape_tab4, bcast_self, bind, Except.bind, hb]
  congr 1
  apply tab2_congr
  intro b hb' o ho
  have : o = 0 := by omega
  subst this
  rw [sumL_flatMap_range]
  rw [← sum_basis_call_two]
  apply Finset.sum_congr rfl
  intro p hp
  have hp' := Finset.mem_range.1 hp
  rw [Finset.sum_range_one]
  rw [bidx_of_lt hp', bidx_of_lt hb', bidx_of_lt (show 0 < 1 by omega),
    Tensor.get_tab3 hp' hb' (by omega)]
  have h0 : bidx 1 b = 0 := by simp [bidx]
  rw [h0, Tensor.get_tab4 (by omega) (by omega) (by omega) hp']

/-- The same at one position for all four classes. -/
theorem interpolate_point (L : PwLayer ℝ) (hn : 0 < L.n) (x : ℝ) (v : ℕ → ℝ) :
    L.poly.interpolate (Tensor.tab2 1 1 fun _ _ => x) (Tensor.tab4 1 1 1 L.n fun _ _ _ k => v k)
      = .ok (Tensor.tab2 1 1 fun _ _ => (linkPoly L.n v).eval x) := by
  have hs : ∀ c : ℝ, (lagrangePolyProd L.n ((2 : ℕ) : ℝ)).interpolate (Tensor.tab2 1 1 fun _ _ => x)
      (Tensor.tab4 1 1 1 L.n fun _ _ _ k => v k)
      = .ok (Tensor.tab2 1 1 fun _ _ => (linkPoly L.n v).eval x) := by
    intro c
    unfold lagrangePolyProd
    rw [interpolate_batchProd hn]
    congr 1
    apply tab2_congr
    intro b _ o _
    rw [← sum_basis_call_two]
    simp [prodL_real]
  have hc := interpolate_column hn (x := Tensor.tab2 1 1 fun _ _ => x) (m := 1) rfl v
  have hc' : (lagrangePoly L.n ((2 : ℕ) : ℝ)).interpolate (Tensor.tab2 1 1 fun _ _ => x)
      (Tensor.tab4 1 1 1 L.n fun _ _ _ k => v k)
      = .ok (Tensor.tab2 1 1 fun _ _ => (linkPoly L.n v).eval x) := by
    rw [hc]
    congr 1
  unfold PwLayer.poly
  cases L.cls
  · exact hc'
  · exact hs 0
  · exact hc'
  · exact hs 0

end HOL
