import Verif.Lemmas.RoundTrip
import Verif.Props.Approx

/-! # C89: which weights compute the same function -/

namespace HOL
open TorchScalar Polynomial Spec

/-- Link polynomials that agree between two points have the same node values. -/
theorem linkPoly_determined {n : ℕ} {v w : ℕ → ℝ} {c : ℝ} {f : ℝ → ℝ} {a b : ℝ} (hab : a < b) (hf : ∀ t, a < t → t < b → ∃ u, u = f t ∧ (linkPoly n w).eval u = (linkPoly n v).eval u + c)
    (hinj : Set.InjOn f (Set.Ioo a b)) {k : ℕ} (hk : k < n) : w k = v k + c := by
  have hz : linkPoly n w - (linkPoly n v + C c) = 0 := by
    apply Polynomial.eq_zero_of_infinite_isRoot
    refine ((Set.Ioo_infinite hab).image hinj).mono ?_
    rintro _ ⟨t, ht, rfl⟩
    obtain ⟨u, rfl, h⟩ := hf t ht.1 ht.2
    show (linkPoly n w - (linkPoly n v + C c)).IsRoot (f t)
    rw [IsRoot.def, eval_sub, eval_add, eval_C, h, sub_self]
  have e := sub_eq_zero.1 hz
  rw [← linkPoly_eval_node hk w, ← linkPoly_eval_node hk v, e, eval_add, eval_C]

/-- Affine changes of the node values. -/
theorem linkPoly_affine {n : ℕ} (hn : 0 < n) (v : ℕ → ℝ) (a c : ℝ) (t : ℝ) : (linkPoly n fun k => a * v k + c).eval t = a * (linkPoly n v).eval t + c := by
  have hd : (C a * linkPoly n v + C c).degree < n := by
    refine (degree_add_le _ _).trans_lt (max_lt ?_ ((degree_C_le).trans_lt (by exact_mod_cast hn)))
    rw [← smul_eq_C_mul]
    exact (degree_smul_le _ _).trans_lt (linkPoly_degree_lt n v)
  have e : (linkPoly n fun k => a * v k + c) = C a * linkPoly n v + C c := by
    rw [← linkPoly_eq_of_degree_lt hd]
    apply linkPoly_congr
    intro j hj
    simp only [eval_add, eval_mul, eval_C, linkPoly_eval_node hj]
  rw [e]
  simp

/-- Layers with weights related by an affine change per link have links related in the same way. -/
theorem linkFn_affine {L L' : PwLayer ℝ} (h : L.WF) (hcls : L'.cls = L.cls) (hn : L'.n = L.n) (hS : L'.segments = L.segments) (hl : L'.length = L.length) (hp : L'.periodicity = L.periodicity)
    {o i : ℕ} {a c : ℝ} (hw : ∀ r < PwLayer.wSize L.cls L.n L.segments, L'.w.get [o, i, r] = a * L.w.get [o, i, r] + c) (t : ℝ) :
    L'.linkFn o i t = a * L.linkFn o i t + c := by
  obtain ⟨s1, s2⟩ := PwLayer.seg_congr (L := L) (L' := L') hS hl hp t
  have fst : L'.stride = L.stride := by unfold PwLayer.stride; rw [hcls, hn]
  unfold PwLayer.linkFn
  rw [s1, s2, fst, hn, ← linkPoly_affine h.n_pos]
  congr 1
  apply linkPoly_congr
  intro k hk
  exact hw _ (L.widx_lt h.n_pos (L.seg_lt h.seg_pos t) hk)

/-- **C89.** Two sum layers of the same sizes on `[-1, 1]` compute the same function on the cube if and only if the weights of each link differ by a constant and, for every output, these
constants sum to zero over the inputs. -/
theorem C89_same_function_iff (L L' : PwLayer ℝ) (h : L.WF) (h' : L'.WF) (hc : L.cls = .continuous ∨ L.cls = .discontinuous) (hcls : L'.cls = L.cls) (hn : L'.n = L.n)
    (hS : L'.segments = L.segments) (hI : L'.inFeatures = L.inFeatures) (hO : L'.outFeatures = L.outFeatures) (hl : L.length = 2) (hl' : L'.length = 2)
    (hp : L.periodicity = none) (hp' : L'.periodicity = none) :
    (∀ (B : ℕ) (x : Tensor ℝ), x.shape = [B, L.inFeatures] → x.WF → InRange x B L.inFeatures → L'.forward x = L.forward x) ↔
      ∃ c : ℕ → ℕ → ℝ, (∀ o < L.outFeatures, ∑ i ∈ Finset.range L.inFeatures, c o i = 0) ∧
        ∀ o < L.outFeatures, ∀ i < L.inFeatures, ∀ r < PwLayer.wSize L.cls L.n L.segments, L'.w.get [o, i, r] = L.w.get [o, i, r] + c o i := by
  have hc' : L'.cls = .continuous ∨ L'.cls = .discontinuous := by rw [hcls]; exact hc
  have hst : L'.stride = L.stride := by unfold PwLayer.stride; rw [hcls, hn]
  constructor
  · intro heq
    -- the sums of the links agree at every row
    have hsum : ∀ r : ℕ → ℝ, (∀ i, -1 ≤ r i ∧ r i ≤ 1) → ∀ o < L.outFeatures,
        ∑ i ∈ Finset.range L.inFeatures, L'.linkFn o i (r i) = ∑ i ∈ Finset.range L.inFeatures, L.linkFn o i (r i) := by
      intro r hr o ho
      have hin : InRange (Tensor.tab2 1 L.inFeatures fun _ i => r i) 1 L.inFeatures := fun b hb i hi => by
        rw [Tensor.get_tab2 hb hi]; exact hr i
      have e := heq 1 (Tensor.tab2 1 L.inFeatures fun _ i => r i) rfl (Tensor.wf_tabulate _ _) hin
      have hxw : (Tensor.tab2 1 L.inFeatures fun _ i => r i).WF := Tensor.wf_tabulate _ _
      rw [L.forward_sum (B := 1) h hc rfl hxw, L'.forward_sum (B := 1) h' hc' (by rw [hI]; rfl) hxw, hI, hO] at e
      have e2 := congrArg (fun t : Tensor ℝ => t.get [0, o]) (Except.ok.inj e)
      rw [Tensor.get_tab2 (by norm_num) ho, Tensor.get_tab2 (by norm_num) ho] at e2
      have e3 : ∀ M : PwLayer ℝ, ∑ i ∈ Finset.range L.inFeatures, M.linkFn o i ((Tensor.tab2 1 L.inFeatures fun _ i => r i).get [0, i])
          = ∑ i ∈ Finset.range L.inFeatures, M.linkFn o i (r i) := fun M =>
        Finset.sum_congr rfl fun i hi => by rw [Tensor.get_tab2 (by norm_num) (Finset.mem_range.1 hi)]
      rw [e3, e3] at e2
      exact e2
    let d : ℕ → ℕ → ℝ → ℝ := fun o i t => L'.linkFn o i t - L.linkFn o i t
    have hd0 : ∀ o < L.outFeatures, ∀ r : ℕ → ℝ, (∀ i, -1 ≤ r i ∧ r i ≤ 1) → ∑ i ∈ Finset.range L.inFeatures, d o i (r i) = 0 := fun o ho r hr => by
      show ∑ i ∈ Finset.range L.inFeatures, (L'.linkFn o i (r i) - L.linkFn o i (r i)) = 0
      rw [Finset.sum_sub_distrib, hsum r hr o ho, sub_self]
    have hdc : ∀ o < L.outFeatures, ∀ i < L.inFeatures, ∀ t, -1 ≤ t → t ≤ 1 → d o i t = d o i 0 := by
      intro o ho i hi t h1 h2
      have a1 := hd0 o ho (fun _ => 0) fun _ => by norm_num
      have a2 := hd0 o ho (fun j => if j = i then t else 0) fun j => by
        split
        · exact ⟨h1, h2⟩
        · norm_num
      have hm := Finset.mem_range.2 hi
      rw [← Finset.add_sum_erase _ _ hm] at a1 a2
      have e : ∑ j ∈ (Finset.range L.inFeatures).erase i, d o j (if j = i then t else 0) = ∑ j ∈ (Finset.range L.inFeatures).erase i, d o j 0 :=
        Finset.sum_congr rfl fun j hj => by rw [if_neg (Finset.ne_of_mem_erase hj)]
      rw [e, if_pos rfl] at a2
      linarith
    refine ⟨fun o i => d o i 0, fun o ho => hd0 o ho (fun _ => 0) fun _ => by norm_num, ?_⟩
    intro o ho i hi r hr
    obtain ⟨s, hs, k, hk, hrk⟩ := cover h.n_pos h.seg_pos hr
    have hSr : (0 : ℝ) < L.segments := by exact_mod_cast h.seg_pos
    have p1 := L.linkFn_isPiecewise h.seg_pos hl hp o i
    have p2 := L'.linkFn_isPiecewise h'.seg_pos hl' hp' o i
    rw [hn, hS, hst] at p2
    have hlt : segLeft L.segments s < segLeft L.segments (s + 1) := segLeft_strictMono h.seg_pos (by omega)
    have key := linkPoly_determined (n := L.n) (v := fun k => L.w.get [o, i, s * L.stride + k]) (w := fun k => L'.w.get [o, i, s * L.stride + k]) (c := d o i 0)
      (f := localCoord L.segments s) hlt (fun t h1 h2 => ⟨_, rfl, by
        have hact : IsActive L.segments s t := ⟨hs, Or.inr h1.le, Or.inr h2⟩
        have lo : -1 ≤ t := by
          have := segLeft_mono (S := L.segments) (Nat.zero_le s)
          rw [segLeft_zero] at this
          linarith
        have hi1 : t ≤ 1 := by
          have := segLeft_mono (S := L.segments) (show s + 1 ≤ L.segments by omega)
          rw [segLeft_last h.seg_pos] at this
          linarith
        have e := hdc o ho i hi t lo hi1
        have e2 : L'.linkFn o i t = L.linkFn o i t + d o i 0 := by
          have : d o i t = L'.linkFn o i t - L.linkFn o i t := rfl
          linarith
        rw [p1 s t hact, p2 s t hact] at e2
        exact e2⟩) (fun a _ b _ hab => by
          unfold localCoord at hab
          have : (L.segments : ℝ) * a = L.segments * b := by linarith
          exact mul_left_cancel₀ hSr.ne' this) hk
    rw [hrk]
    exact key
  · rintro ⟨c, hc0, hw⟩ B x hx hwf -
    rw [L.forward_sum h hc hx hwf, L'.forward_sum h' hc' (by rw [hI]; exact hx) hwf, hI, hO]
    congr 1
    apply tab2_congr
    intro b hb o ho
    have e : ∀ i ∈ Finset.range L.inFeatures, L'.linkFn o i (x.get [b, i]) = L.linkFn o i (x.get [b, i]) + c o i := fun i hi => by
      rw [linkFn_affine (a := 1) (c := c o i) h hcls hn hS (hl'.trans hl.symm) (hp'.trans hp.symm) fun r hr => by
        rw [one_mul]; exact hw o ho i (Finset.mem_range.1 hi) r hr]
      ring
    rw [Finset.sum_congr rfl e, Finset.sum_add_distrib, hc0 o ho, add_zero]

/-- **C89 (one input).** With one input feature the function determines the weights. -/
theorem C89_one_input (L L' : PwLayer ℝ) (h : L.WF) (h' : L'.WF) (hc : L.cls = .continuous ∨ L.cls = .discontinuous) (hcls : L'.cls = L.cls) (hn : L'.n = L.n)
    (hS : L'.segments = L.segments) (hI1 : L.inFeatures = 1) (hI : L'.inFeatures = L.inFeatures) (hO : L'.outFeatures = L.outFeatures) (hl : L.length = 2) (hl' : L'.length = 2)
    (hp : L.periodicity = none) (hp' : L'.periodicity = none)
    (heq : ∀ (B : ℕ) (x : Tensor ℝ), x.shape = [B, L.inFeatures] → x.WF → InRange x B L.inFeatures → L'.forward x = L.forward x) : L' = L := by
  obtain ⟨c, hc0, hw⟩ := (C89_same_function_iff L L' h h' hc hcls hn hS hI hO hl hl' hp hp').1 heq
  have hz : ∀ o < L.outFeatures, c o 0 = 0 := fun o ho => by
    have := hc0 o ho
    rw [hI1] at this
    simpa using this
  have e : L'.w = L.w := by
    apply Tensor.ext_get h'.w_wf h.w_wf (by rw [h.w_shape, h'.w_shape, hcls, hn, hS, hI, hO])
    intro idx hidx
    rw [h'.w_shape, hcls, hn, hS, hI, hO] at hidx
    match idx, hidx with
    | [o, i, r], hidx =>
      obtain ⟨ho, hi, hr⟩ := inShape3.1 hidx
      obtain rfl : i = 0 := by omega
      rw [hw o ho 0 hi r hr, hz o ho, add_zero]
  cases L
  cases L'
  simp only at hcls hn hS hI hO hl hl' hp hp' e
  subst hcls hn hS hI hO hl hp e
  rw [hl', hp']

/-- **C89 (product layers).** Multiplying `1 + w` of every link by a factor leaves the function of a product layer as it is if, for every output, the factors multiply to one over the inputs. -/
theorem C89_product_rescaling (L L' : PwLayer ℝ) (h : L.WF) (h' : L'.WF) (hc : L.cls = .continuousProd ∨ L.cls = .discontinuousProd) (hcls : L'.cls = L.cls) (hn : L'.n = L.n)
    (hS : L'.segments = L.segments) (hI : L'.inFeatures = L.inFeatures) (hO : L'.outFeatures = L.outFeatures) (hl : L'.length = L.length) (hp : L'.periodicity = L.periodicity)
    (a : ℕ → ℕ → ℝ) (ha : ∀ o < L.outFeatures, ∏ i ∈ Finset.range L.inFeatures, a o i = 1)
    (hw : ∀ o < L.outFeatures, ∀ i < L.inFeatures, ∀ r < PwLayer.wSize L.cls L.n L.segments, 1 + L'.w.get [o, i, r] = a o i * (1 + L.w.get [o, i, r])) :
    ∀ (B : ℕ) (x : Tensor ℝ), x.shape = [B, L.inFeatures] → x.WF → L'.forward x = L.forward x := by
  intro B x hx hwf
  rw [L.forward_prod h hc hx hwf, L'.forward_prod h' (by rw [hcls]; exact hc) (by rw [hI]; exact hx) hwf, hI, hO]
  congr 1
  apply tab2_congr
  intro b hb o ho
  have e : ∀ i ∈ Finset.range L.inFeatures, 1 + L'.linkFn o i (x.get [b, i]) = a o i * (1 + L.linkFn o i (x.get [b, i])) := fun i hi => by
    rw [linkFn_affine (a := a o i) (c := a o i - 1) h hcls hn hS hl hp fun r hr => by
      have := hw o ho i (Finset.mem_range.1 hi) r hr
      linarith]
    ring
  rw [Finset.prod_congr rfl e, Finset.prod_mul_distrib, ha o ho, one_mul]

/-- Two inputs and one output: values `v` on one segment for input 0 and `w` for input 1. -/
def twoLinks (cls : PwClass) (v0 v1 w0 w1 : ℝ) : PwLayer ℝ :=
  { cls := cls, n := 2, segments := 1, inFeatures := 2, outFeatures := 1, length := 2, periodicity := none, w := ⟨[1, 2, 2], [v0, v1, w0, w1]⟩ }

theorem twoLinks_wf (cls : PwClass) (v0 v1 w0 w1 : ℝ) : (twoLinks cls v0 v1 w0 w1).WF :=
  ⟨by simp [twoLinks], by simp [twoLinks], by simp [twoLinks], by simp [twoLinks], by cases cls <;> rfl, rfl⟩

/-- Different weights, the same function. -/
example : ∀ (B : ℕ) (x : Tensor ℝ), x.shape = [B, 2] → x.WF → InRange x B 2 → (twoLinks .continuous 5 6 (-3) (-1)).forward x = (twoLinks .continuous 0 1 2 4).forward x :=
  (C89_same_function_iff (twoLinks .continuous 0 1 2 4) (twoLinks .continuous 5 6 (-3) (-1)) (twoLinks_wf _ _ _ _ _) (twoLinks_wf _ _ _ _ _) (Or.inl rfl) rfl rfl rfl rfl rfl rfl rfl rfl rfl).2
    ⟨fun _ i => if i = 0 then 5 else -5, fun o _ => by show ∑ i ∈ Finset.range 2, _ = _; simp [Finset.sum_range_succ], by
      intro o ho i hi r hr
      have ho' : o < 1 := ho
      have hi' : i < 2 := hi
      have hr' : r < 2 := hr
      obtain rfl : o = 0 := by omega
      rcases (by omega : i = 0 ∨ i = 1) with rfl | rfl <;> rcases (by omega : r = 0 ∨ r = 1) with rfl | rfl <;>
        simp [twoLinks, Tensor.get, ravel, numel] <;> norm_num⟩

/-- A change of one weight changes the function. -/
example : ¬ ∀ (B : ℕ) (x : Tensor ℝ), x.shape = [B, 2] → x.WF → InRange x B 2 → (twoLinks .continuous 0 1 2 5).forward x = (twoLinks .continuous 0 1 2 4).forward x := by
  intro h
  obtain ⟨c, -, hw⟩ := (C89_same_function_iff (twoLinks .continuous 0 1 2 4) (twoLinks .continuous 0 1 2 5) (twoLinks_wf _ _ _ _ _) (twoLinks_wf _ _ _ _ _) (Or.inl rfl) rfl rfl rfl rfl rfl
    rfl rfl rfl rfl).1 h
  have h0 := hw 0 (by show 0 < 1; omega) 1 (by show 1 < 2; omega) 0 (by show 0 < 2; omega)
  have h1 := hw 0 (by show 0 < 1; omega) 1 (by show 1 < 2; omega) 1 (by show 1 < 2; omega)
  simp [twoLinks, Tensor.get, ravel, numel] at h0 h1
  linarith

/-- Product layer: factors 2 and 1/2. -/
example : ∀ (B : ℕ) (x : Tensor ℝ), x.shape = [B, 2] → x.WF → (twoLinks .continuousProd 1 3 0 1).forward x = (twoLinks .continuousProd 0 1 1 3).forward x :=
  C89_product_rescaling (twoLinks .continuousProd 0 1 1 3) (twoLinks .continuousProd 1 3 0 1) (twoLinks_wf _ _ _ _ _) (twoLinks_wf _ _ _ _ _) (Or.inl rfl) rfl rfl rfl rfl rfl rfl rfl
    (fun _ i => if i = 0 then 2 else 1 / 2) (fun o _ => by show ∏ i ∈ Finset.range 2, _ = _; simp [Finset.prod_range_succ]) (by
      intro o ho i hi r hr
      have ho' : o < 1 := ho
      have hi' : i < 2 := hi
      have hr' : r < 2 := hr
      obtain rfl : o = 0 := by omega
      rcases (by omega : i = 0 ∨ i = 1) with rfl | rfl <;> rcases (by omega : r = 0 ∨ r = 1) with rfl | rfl <;>
        simp [twoLinks, Tensor.get, ravel, numel] <;> norm_num)

end HOL
