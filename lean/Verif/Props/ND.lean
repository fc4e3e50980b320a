import Verif.Lemmas.ND

/-! # C62, C63: N dimensional elements -/

namespace HOL
open TorchScalar Polynomial Spec

/-! ## C62 -/



/-- **C62 (basis).** `LagrangeBasisND(n)._compute_basis(x)` holds, for every multi index (row `r` in row-major order), the
product over the axes of the one dimensional cardinal polynomials, times `(-1)^(sum (n_d - 1))`. -/
theorem C62_basis_values (ns : List ℕ) (hns : ns ≠ []) (length : ℝ) (hl : length ≠ 0) :
    ∃ b : BasisND ℝ, BasisND.init (.list ns) length = .ok b ∧
      ∀ (B I D : ℕ) (x : Tensor ℝ), x.shape = [B, I, D] → ns.length ≤ D →
        ∃ t, b.computeBasis x = .ok t ∧ t.shape = [numel ns, B, I] ∧ t.WF ∧
          ∀ idx, InShape ns idx → ∀ p < B, ∀ k < I,
            t.get [ravel ns idx, p, k] = ndSign ns * tensorCardinal length ns idx fun d => x.get [p, k, d] := by
  obtain ⟨b, hb⟩ : ∃ b : BasisND ℝ, BasisND.init (.list ns) length = .ok b := by
    unfold BasisND.init; simp only [hns, if_false]; exact ⟨_, rfl⟩
  refine ⟨b, hb, ?_⟩
  intro B I D x hx hD
  have hn : b.n = ns := by
    unfold BasisND.init at hb
    simp only [hns, if_false] at hb
    cases hb; rfl
  unfold BasisND.computeBasis
  rw [hx, hn]
  simp only [if_neg (not_lt.2 hD)]
  refine ⟨_, rfl, rfl, Tensor.wf_tab3 _ _ _ _, ?_⟩
  intro idx hidx p hp k hk
  rw [Tensor.get_tab3 (ravel_lt hidx) hp hk, prodL_range, ← ndSign_prod, tensorCardinal, ← Finset.prod_mul_distrib]
  apply Finset.prod_congr rfl
  intro d hd
  rw [factor_real hns hl hb (ravel_lt hidx) (Finset.mem_range.1 hd), unravel_ravel hidx]

/-- **C62 (node values).** The basis function of multi index `idx` vanishes at the other tensor nodes, and is
`(-1)^(sum (n_d - 1))` at its own: it is cardinal exactly when `sum (n_d - 1)` is even. -/
theorem C62_node_values (ns : List ℕ) (hns : ns ≠ []) (length : ℝ) (hl : length ≠ 0) :
    ∃ b : BasisND ℝ, BasisND.init (.list ns) length = .ok b ∧
      ∀ p, InShape ns p →
        ∃ t, b.computeBasis (Tensor.tab3 1 1 ns.length fun _ _ d => length / 2 * node (ns.getD d 0) (p.getD d 0)) = .ok t ∧
          ∀ idx, InShape ns idx → t.get [ravel ns idx, 0, 0] = if p = idx then ndSign ns else 0 := by
  obtain ⟨b, hb, h⟩ := C62_basis_values ns hns length hl
  refine ⟨b, hb, ?_⟩
  intro p hp
  obtain ⟨t, e, -, -, hv⟩ := h 1 1 ns.length (Tensor.tab3 1 1 ns.length fun _ _ d =>
    length / 2 * node (ns.getD d 0) (p.getD d 0)) rfl le_rfl
  refine ⟨t, e, ?_⟩
  intro idx hidx
  rw [hv idx hidx 0 (by norm_num) 0 (by norm_num)]
  have : tensorCardinal length ns idx (fun d => (Tensor.tab3 1 1 ns.length fun _ _ d =>
      length / 2 * node (ns.getD d 0) (p.getD d 0)).get [0, 0, d]) = if p = idx then 1 else 0 := by
    rw [← tensorCardinal_node hl hidx hp]
    unfold tensorCardinal
    apply Finset.prod_congr rfl
    intro d hd
    beta_reduce
    rw [Tensor.get_tab3 (by norm_num) (by norm_num) (Finset.mem_range.1 hd)]
  rw [this]
  split <;> simp

/-- **C62 (layer).** A `PolynomialND` layer computes the sum over the inputs of the tensor product interpolant of its weights at the coordinates (mirrored into the
period by `make_periodic`, C17, if there is a periodicity), up to the same sign. -/
theorem C62_layer (ns : List ℕ) (hns : ns ≠ []) (length : ℝ) (hl : length ≠ 0) (I O : ℕ) (rand : ℕ → ℕ → ℝ) (wm : ℝ)
    (per : Option ℝ) :
    ∃ L : PolyNDLayer ℝ, PolyNDLayer.init (.list ns) I O length rand wm per = .ok L ∧
      L.w.shape = [O, I, numel ns] ∧
      ∀ w : Tensor ℝ, w.shape = [O, I, numel ns] → ∀ (B D : ℕ) (x : Tensor ℝ), x.shape = [B, I, D] → x.WF → ns.length ≤ D →
        ∃ out, ({ L with w := w } : PolyNDLayer ℝ).forward x = .ok out ∧ out.shape = [B, O] ∧ out.WF ∧
          ∀ b < B, ∀ o < O, out.get [b, o] = ndSign ns * ∑ k ∈ Finset.range I, ∑ q ∈ Finset.range (numel ns),
            w.get [o, k, q] * tensorCardinal length ns (unravel ns q) fun d =>
              per.elim (x.get [b, k, d]) fun p => makePeriodic (x.get [b, k, d]) p := by
  obtain ⟨bs, hb, h⟩ := C62_basis_values ns hns length hl
  have hn : bs.n = ns := by
    have hb' := hb
    unfold BasisND.init at hb'
    simp only [hns, if_false] at hb'
    cases hb'; rfl
  refine ⟨⟨bs, per, constantRandomInit rand O I (numel ns) wm⟩, ?_, rfl, ?_⟩
  · unfold PolyNDLayer.init
    rw [hb]
    simp only [← hn]
    rfl
  intro w hw B D x hx hwf hD
  obtain ⟨t, e, ts, tw, hv⟩ := h B I D (x.map (periodize per)) hx hD
  unfold PolyNDLayer.forward BasisND.interpolate
  dsimp only
  rw [e]
  change ∃ out, einsumND t w = .ok out ∧ _
  unfold einsumND
  rw [ts, hw]
  simp only [bcast_self]
  refine ⟨_, rfl, rfl, Tensor.wf_tab2 _ _ _, ?_⟩
  intro b hbB o ho
  rw [Tensor.get_tab2 hbB ho, sumL_flatMap_range, Finset.sum_comm, Finset.mul_sum]
  apply Finset.sum_congr rfl
  intro k hk
  rw [Finset.mul_sum]
  apply Finset.sum_congr rfl
  intro q hq
  have hk' := Finset.mem_range.1 hk
  have hq' := Finset.mem_range.1 hq
  rw [bidx_of_lt hk', bidx_of_lt hq']
  have := hv (unravel ns q) (inShape_unravel hq') b hbB k hk'
  rw [ravel_unravel hq'] at this
  rw [this]
  have hc : tensorCardinal length ns (unravel ns q) (fun d => (x.map (periodize per)).get [b, k, d])
      = tensorCardinal length ns (unravel ns q) fun d =>
          per.elim (x.get [b, k, d]) fun p => makePeriodic (x.get [b, k, d]) p := by
    unfold tensorCardinal
    apply Finset.prod_congr rfl
    intro d hd
    congr 1
    have hd' := Finset.mem_range.1 hd
    dsimp only
    rw [Tensor.get_map hwf (by rw [hx]; exact inShape3.2 ⟨hbB, hk', by omega⟩)]
    cases per <;> rfl
  rw [hc]
  ring

/-- **C62 (reproduction).** Interpolating the values of a product of polynomials of degrees `< n_d` gives the product back, up to
the sign. -/
theorem C62_reproduces_products (ns : List ℕ) (length : ℝ) (hl : length ≠ 0) (P : ℕ → ℝ[X])
    (hP : ∀ d < ns.length, (P d).degree < ns.getD d 0) (y : ℕ → ℝ) :
    ∑ q ∈ Finset.range (numel ns), (∏ d ∈ Finset.range ns.length,
        (P d).eval (length / 2 * node (ns.getD d 0) ((unravel ns q).getD d 0)))
          * tensorCardinal length ns (unravel ns q) y
      = ∏ d ∈ Finset.range ns.length, (P d).eval (y d) := by
  have h1 : ∀ q, (∏ d ∈ Finset.range ns.length, (P d).eval (length / 2 * node (ns.getD d 0) ((unravel ns q).getD d 0)))
        * tensorCardinal length ns (unravel ns q) y
      = ∏ d ∈ Finset.range ns.length, (fun d j => (P d).eval (length / 2 * node (ns.getD d 0) j)
          * (cardinal length (ns.getD d 0) j).eval (y d)) d ((unravel ns q).getD d 0) := by
    intro q
    rw [tensorCardinal, ← Finset.prod_mul_distrib]
  rw [Finset.sum_congr rfl fun q _ => h1 q, sum_unravel_prod ns fun d j => (P d).eval (length / 2 * node (ns.getD d 0) j)
          * (cardinal length (ns.getD d 0) j).eval (y d)]
  apply Finset.prod_congr rfl
  intro d hd
  have hdeg : (P d).degree < (Finset.range (ns.getD d 0)).card := by
    rw [Finset.card_range]; exact hP d (Finset.mem_range.1 hd)
  have e := Lagrange.eq_interpolate (scaled_injOn (ns.getD d 0) hl) hdeg
  conv_rhs => rw [e]
  rw [Lagrange.interpolate_apply, Polynomial.eval_finsetSum]
  apply Finset.sum_congr rfl
  intro j _
  rw [eval_mul, eval_C]
  rfl

/-- **C62 (errors).** An integer `n` (the annotated alternative) raises `TypeError`, no axis raises `RuntimeError`, points with
too few coordinates raise `IndexError`. -/
theorem C62_errors {K : Type} [TorchScalar K] (length : K) :
    (∀ n, BasisND.init (.int n) length = .error .typeError) ∧
    BasisND.init (.list []) length = .error .runtimeError ∧
    (∀ (b : BasisND K) (x : Tensor K) (B I D : ℕ), x.shape = [B, I, D] → D < b.n.length →
      b.computeBasis x = .error .indexError) ∧
    (∀ n I O rand wm per, PolyNDLayer.init (.int n) I O length rand wm per = .error .typeError) := by
  refine ⟨fun _ => rfl, rfl, ?_, fun _ _ _ _ _ _ => rfl⟩
  intro b x B I D hx hD
  unfold BasisND.computeBasis
  rw [hx]
  simp [hD]

/-- **C62 (sign counterexample).** With two nodes on one axis, or `n = [2, 3]`, every basis function is minus the cardinal
function: a layer whose weights are all one outputs minus the number of inputs. -/
theorem C62_sign_counterexample :
    ndSign [2] = -1 ∧ ndSign [2, 3] = -1 ∧ ndSign [3, 3] = 1 ∧
    ∃ b : BasisND ℝ, BasisND.init (.list [2, 3]) 2 = .ok b ∧
      ∃ t, b.computeBasis (Tensor.tab3 1 1 2 fun _ _ d => (2 : ℝ) / 2 * node ([2, 3].getD d 0) ([0, 0].getD d 0)) = .ok t ∧
        t.get [0, 0, 0] = -1 := by
  have h2 : ndSign [2] = -1 := by norm_num [ndSign]
  have h23 : ndSign [2, 3] = -1 := by norm_num [ndSign]
  have h33 : ndSign [3, 3] = 1 := by norm_num [ndSign]
  refine ⟨h2, h23, h33, ?_⟩
  obtain ⟨b, hb, h⟩ := C62_node_values [2, 3] (by simp) 2 (by norm_num)
  obtain ⟨t, e, hv⟩ := h [0, 0] (by simp [InShape])
  refine ⟨b, hb, t, e, ?_⟩
  have := hv [0, 0] (by simp [InShape])
  rw [if_pos rfl, h23] at this
  exact this

/-- Two axes with three nodes each (`sum (n_d - 1) = 4`): cardinal. -/
example : ∃ b : BasisND ℝ, BasisND.init (.list [3, 3]) 2 = .ok b ∧
    ∃ t, b.computeBasis (Tensor.tab3 1 1 2 fun _ _ d => (2 : ℝ) / 2 * node ([3, 3].getD d 0) ([1, 2].getD d 0)) = .ok t ∧
      t.get [5, 0, 0] = 1 ∧ t.get [4, 0, 0] = 0 := by
  obtain ⟨b, hb, h⟩ := C62_node_values [3, 3] (by simp) 2 (by norm_num)
  obtain ⟨t, e, hv⟩ := h [1, 2] (by simp [InShape])
  refine ⟨b, hb, t, e, ?_, ?_⟩
  · have := hv [1, 2] (by simp [InShape])
    rw [if_pos rfl, show ndSign [3, 3] = 1 by norm_num [ndSign]] at this
    simpa [ravel, numel] using this
  · have := hv [1, 1] (by simp [InShape])
    rw [if_neg (by decide)] at this
    simpa [ravel, numel] using this

/-- `x * y^2` on a 2 by 3 element. -/
example (y : ℕ → ℝ) : ∑ q ∈ Finset.range (numel [2, 3]), (∏ d ∈ Finset.range 2,
      ((fun d => if d = 0 then X else X ^ 2 : ℕ → ℝ[X]) d).eval
        ((2 : ℝ) / 2 * node ([2, 3].getD d 0) ((unravel [2, 3] q).getD d 0)))
        * tensorCardinal 2 [2, 3] (unravel [2, 3] q) y
    = y 0 * y 1 ^ 2 := by
  have := C62_reproduces_products [2, 3] 2 (by norm_num) (fun d => if d = 0 then X else X ^ 2) (by
    intro d hd
    have hd' : d = 0 ∨ d = 1 := by simp at hd; omega
    rcases hd' with rfl | rfl
    · simp only [if_pos]
      rw [degree_X]
      exact_mod_cast (by norm_num : (1 : ℕ) < 2)
    · rw [if_neg (by norm_num), degree_X_pow]
      exact_mod_cast (by norm_num : (2 : ℕ) < 3)) y
  refine Eq.trans this ?_
  simp [Finset.prod_range_succ]

example : ∃ L : PolyNDLayer ℝ, PolyNDLayer.init (.list [2, 3]) 4 5 2 (fun _ _ => 0) 1 (some 3) = .ok L ∧ L.w.shape = [5, 4, 6] := by
  obtain ⟨L, h, hs, -⟩ := C62_layer [2, 3] (by simp) 2 (by norm_num) 4 5 (fun _ _ => 0) 1 (some 3)
  exact ⟨L, h, by simpa [numel] using hs⟩

/-! ## C63 -/

/-- **C63 (value).** A `PiecewiseND` layer (default initialization and `length`, any weights reached by training) evaluates one single
tensor product piecewise polynomial `g`, built from the first `prod segments * prod n` entries of its weight, on each input, and
every output is the sum over the inputs of that same `g` (up to the sign of C62). -/
theorem C63_value (ns segs : List ℕ) (h2 : 2 ≤ ns.length) (hlen : segs.length = ns.length)
    (hS : ∀ d < segs.length, 0 < segs.getD d 0) (I O : ℕ) (hI : 0 < I) (hO : 0 < O) (rand : ℕ → ℕ → ℝ) (wm : ℝ) :
    ∃ L : PwNDLayer ℝ, PwNDLayer.init (.list ns) I O (.list segs) none 2 rand wm = .ok L ∧
      L.w.shape = [I * O * (numel segs * numel ns)] ∧
      ∀ w : Tensor ℝ, w.shape = [I * O * (numel segs * numel ns)] →
        ∃ g : (ℕ → ℝ) → ℝ, IsPiecewiseND ns segs (fun q => w.get [q]) g ∧
          ∀ (B : ℕ) (x : Tensor ℝ), 0 < B → x.shape = [B, I, segs.length] →
            ∃ out, ({ L with w := w } : PwNDLayer ℝ).forward x = .ok out ∧ out.shape = [B, O] ∧ out.WF ∧
              ∀ b < B, ∀ o < O,
                out.get [b, o] = ndSign ns * ∑ k ∈ Finset.range I, g fun d => x.get [b, k, d] := by
  have hns : ns ≠ [] := by intro h; rw [h] at h2; simp at h2
  obtain ⟨L, hL, g0⟩ := PwNDLayer.init_good ns segs hns hlen I O (2 : ℝ) rand wm
  refine ⟨L, hL, g0.hw, ?_⟩
  intro w hw
  have g : ({ L with w := w } : PwNDLayer ℝ).Good ns segs I O 2 :=
    ⟨g0.hn, g0.hsegs, g0.hdim, g0.hI, g0.hO, g0.hlen, g0.hb, hw⟩
  generalize hL' : ({ L with w := w } : PwNDLayer ℝ) = M at g
  have hMw : M.w = w := by rw [← hL']
  refine ⟨fun y => ∑ q ∈ Finset.range (numel ns), w.get [ravel segs (M.box y) * numel ns + q]
      * tensorCardinal 2 ns (unravel ns q) fun d => localCoord (segs.getD d 0) ((M.box y).getD d 0) (y d), ?_, ?_⟩
  · intro s hs y hact
    have hbox : M.box y = s := g.box_eq hS hs hact
    simp only [hbox]
  · intro B x hB hx
    refine ⟨_, PwNDLayer.forward_generic g hS hlen (by omega) hB hI hO hx, rfl, Tensor.wf_tab2 _ _ _, ?_⟩
    intro b hb o ho
    rw [Tensor.get_tab2 hb ho, sumL_flatMap_range, Finset.sum_comm, Finset.mul_sum]
    apply Finset.sum_congr rfl
    intro k _
    rw [Finset.mul_sum]
    apply Finset.sum_congr rfl
    intro q hq
    rw [prodL_range, hMw, ← ndSign_prod, tensorCardinal]
    have e : ∏ d ∈ Finset.range ns.length, M.basis.factor q d
          (M.length * ((x.get [b, k, d] - M.eta d (M.segIndex d (x.get [b, k, d])))
            / (M.eta d (M.segIndex d (x.get [b, k, d]) + 1) - M.eta d (M.segIndex d (x.get [b, k, d])))) - M.half)
        = ∏ d ∈ Finset.range ns.length, ((-1) ^ (ns.getD d 0 - 1) * (cardinal 2 (ns.getD d 0) ((unravel ns q).getD d 0)).eval
            (localCoord (segs.getD d 0) ((M.box fun d => x.get [b, k, d]).getD d 0) (x.get [b, k, d]))) := by
      apply Finset.prod_congr rfl
      intro d hd
      have hd' := Finset.mem_range.1 hd
      have e2 := g.local_eq hS (by omega : d < segs.length) (y := fun d => x.get [b, k, d])
      beta_reduce at e2
      rw [factor_real hns two_ne_zero g.hb (Finset.mem_range.1 hq) hd', e2]
    rw [e, Finset.prod_mul_distrib]
    ring

/-- **C63 (outputs coincide).** In every arithmetic, all outputs of a `PiecewiseND` layer are equal. -/
theorem C63_outputs_equal {K : Type} [TorchScalar K] (ns segs : List ℕ) (h2 : 2 ≤ ns.length) (hlen : segs.length = ns.length)
    (hS : ∀ d < segs.length, 0 < segs.getD d 0) (I O : ℕ) (hI : 0 < I) (hO : 0 < O) (length : K) (rand : ℕ → ℕ → K) (wm : K) :
    ∃ L : PwNDLayer K, PwNDLayer.init (.list ns) I O (.list segs) none length rand wm = .ok L ∧
      ∀ w : Tensor K, w.shape = L.w.shape → ∀ (B : ℕ) (x : Tensor K), 0 < B → x.shape = [B, I, segs.length] →
        ∃ out, ({ L with w := w } : PwNDLayer K).forward x = .ok out ∧ out.shape = [B, O] ∧
          ∀ b < B, ∀ o < O, ∀ o' < O, out.get [b, o] = out.get [b, o'] := by
  have hns : ns ≠ [] := by intro h; rw [h] at h2; simp at h2
  obtain ⟨L, hL, g0⟩ := PwNDLayer.init_good ns segs hns hlen I O length rand wm
  refine ⟨L, hL, ?_⟩
  intro w hw B x hB hx
  have g : ({ L with w := w } : PwNDLayer K).Good ns segs I O length :=
    ⟨g0.hn, g0.hsegs, g0.hdim, g0.hI, g0.hO, g0.hlen, g0.hb, hw.trans g0.hw⟩
  refine ⟨_, PwNDLayer.forward_generic g hS hlen (by omega) hB hI hO hx, rfl, ?_⟩
  intro b hb o ho o' ho'
  rw [Tensor.get_tab2 hb ho, Tensor.get_tab2 hb ho']

/-- **C63 (unused weights).** In every arithmetic, the output only depends on the first `prod segments * prod n` of the
`in_features * out_features * prod segments * prod n` weights. -/
theorem C63_unused_weights {K : Type} [TorchScalar K] (ns segs : List ℕ) (h2 : 2 ≤ ns.length) (hlen : segs.length = ns.length)
    (hS : ∀ d < segs.length, 0 < segs.getD d 0) (I O : ℕ) (hI : 0 < I) (hO : 0 < O) (length : K) (rand : ℕ → ℕ → K) (wm : K) :
    ∃ L : PwNDLayer K, PwNDLayer.init (.list ns) I O (.list segs) none length rand wm = .ok L ∧
      ∀ w w' : Tensor K, w.shape = L.w.shape → w'.shape = L.w.shape →
        (∀ q < numel segs * numel ns, w.get [q] = w'.get [q]) →
        ∀ (B : ℕ) (x : Tensor K), 0 < B → x.shape = [B, I, segs.length] →
          ({ L with w := w } : PwNDLayer K).forward x = ({ L with w := w' } : PwNDLayer K).forward x := by
  have hns : ns ≠ [] := by intro h; rw [h] at h2; simp at h2
  obtain ⟨L, hL, g0⟩ := PwNDLayer.init_good ns segs hns hlen I O length rand wm
  refine ⟨L, hL, ?_⟩
  intro w w' hw hw' hq B x hB hx
  have g : ∀ u : Tensor K, u.shape = L.w.shape → ({ L with w := u } : PwNDLayer K).Good ns segs I O length :=
    fun u hu => ⟨g0.hn, g0.hsegs, g0.hdim, g0.hI, g0.hO, g0.hlen, g0.hb, hu.trans g0.hw⟩
  rw [PwNDLayer.forward_generic (g w hw) hS hlen (by omega) hB hI hO hx,
    PwNDLayer.forward_generic (g w' hw') hS hlen (by omega) hB hI hO hx]
  congr 1
  apply tab2_congr
  intro b _ _ _
  congr 1
  apply List.flatMap_congr
  intro p hp
  apply List.map_congr_left
  intro k _
  have hb : ∀ u : Tensor K, ({ L with w := u } : PwNDLayer K).box = L.box := fun u => rfl
  have h1 := ravel_lt (g0.hsegs ▸ L.inShape_box (by rw [g0.hsegs]; exact hS) fun d => x.get [b, k, d] : InShape segs _)
  have h3 : ravel segs (L.box fun d => x.get [b, k, d]) * numel ns + p < numel segs * numel ns := by
    have hp' := List.mem_range.1 hp
    calc _ < ravel segs (L.box fun d => x.get [b, k, d]) * numel ns + numel ns := by omega
      _ = (ravel segs (L.box fun d => x.get [b, k, d]) + 1) * numel ns := by ring
      _ ≤ numel segs * numel ns := Nat.mul_le_mul_right _ h1
  exact congrArg _ (hq _ h3)

/-- **C63 (errors).** One dimension: `forward` raises `IndexError` (the debugging `print` reads a second coordinate). Integer `n`
without `dimensions`, or lists of different lengths: `ValueError`. -/
theorem C63_errors {K : Type} [TorchScalar K] :
    (∀ (L : PwNDLayer K) (x : Tensor K) (B I : ℕ), 0 < B → 0 < I → x.shape = [B, I, 1] → L.forward x = .error .indexError) ∧
    (∀ n I O segs (length : K) rand wm, PwNDLayer.init (.int n) I O segs none length rand wm = .error .valueError) ∧
    (∀ ns segs I O (length : K) rand wm, ns.length ≠ segs.length →
      PwNDLayer.init (.list ns) I O (.list segs) none length rand wm = .error .valueError) := by
  refine ⟨?_, fun _ _ _ _ _ _ _ => rfl, ?_⟩
  · intro L x B I hB hI hx
    unfold PwNDLayer.forward PwNDLayer.whichSegment
    rw [hx]
    simp only [if_neg (show ¬ (1 : ℕ) = 0 by decide), if_neg (show ¬ B * I = 0 by positivity), if_pos]
    rfl
  · intro ns segs I O length rand wm h
    unfold PwNDLayer.init
    simp only [pwNDDims, IntOrList.toList]
    change (if ns.length ≠ segs.length then _ else _) = _
    rw [if_pos h]

/-- **C63 (natural claim refuted).** "Each link has its own function" fails: with two outputs, no weights make the outputs differ. -/
theorem C63_no_own_function :
    ¬ ∃ (L : PwNDLayer ℝ) (w x out : Tensor ℝ), PwNDLayer.init (.list [2, 2]) 1 2 (.list [1, 1]) none 2 (fun _ _ => 0) 1 = .ok L ∧
      w.shape = L.w.shape ∧ x.shape = [1, 1, 2] ∧ ({ L with w := w } : PwNDLayer ℝ).forward x = .ok out ∧
      out.get [0, 0] ≠ out.get [0, 1] := by
  rintro ⟨L, w, x, out, hL, hw, hx, hf, hne⟩
  obtain ⟨L', hL', h⟩ := C63_outputs_equal (K := ℝ) [2, 2] [1, 1] (by simp) rfl (by
    intro d hd
    have hd' : d = 0 ∨ d = 1 := by simp at hd; omega
    rcases hd' with rfl | rfl <;> simp) 1 2 (by norm_num) (by norm_num) 2 (fun _ _ => 0) 1
  rw [hL] at hL'
  cases hL'
  obtain ⟨out', e, -, heq⟩ := h w hw 1 x (by norm_num) hx
  rw [hf] at e
  cases e
  exact hne (heq 0 (by norm_num) 0 (by norm_num) 1 (by norm_num))

/-- A 2 by 1 box mesh with 2 by 3 nodes, three inputs, four outputs. -/
example : ∃ L : PwNDLayer ℝ, PwNDLayer.init (.list [2, 3]) 3 4 (.list [2, 1]) none 2 (fun _ _ => 0) 1 = .ok L ∧
    L.w.shape = [144] ∧
    ∃ out, L.forward (Tensor.tab3 5 3 2 fun _ _ _ => 0) = .ok out ∧ out.shape = [5, 4] := by
  obtain ⟨L, hL, hs, h⟩ := C63_value [2, 3] [2, 1] (by simp) rfl (by
    intro d hd
    have hd' : d = 0 ∨ d = 1 := by simp at hd; omega
    rcases hd' with rfl | rfl <;> simp) 3 4 (by norm_num) (by norm_num) (fun _ _ => 0) 1
  obtain ⟨g, -, hg⟩ := h L.w hs
  obtain ⟨out, e, hs', -⟩ := hg 5 (Tensor.tab3 5 3 2 fun _ _ _ => 0) (by norm_num) rfl
  exact ⟨L, hL, by simpa [numel] using hs, out, e, hs'⟩

end HOL
