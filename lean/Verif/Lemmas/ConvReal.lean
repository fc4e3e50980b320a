import Verif.Lemmas.Expand
import Verif.Lemmas.PiecewiseReal
import Verif.Lemmas.Fourier
import Verif.Spec.Conv

/-! # Convolutions: structure for every arithmetic, sums of link functions over the reals -/

set_option linter.unusedSectionVars false

namespace HOL
open TorchScalar Spec Polynomial

section structure_
variable {K : Type} [TorchScalar K]

theorem convSize_ok {g : Geometry} (h1 : 0 < g.stride) (h2 : 0 < g.kernel) (h3 : 0 < g.dilation) {n : ℕ}
    (h4 : (g.kernel - 1) * g.dilation + 1 ≤ n + 2 * g.padding) :
    convSize g n = .ok ((n + 2 * g.padding - ((g.kernel - 1) * g.dilation + 1)) / g.stride + 1) := by
  unfold convSize
  rw [if_neg]
  omega

theorem div_mod_channel {n c v : ℕ} (hv : v < n) : (c * n + v) / n = c ∧ (c * n + v) % n = v := by
  have hn : 0 < n := by omega
  constructor
  · rw [Nat.add_comm, Nat.add_mul_div_right _ _ hn, Nat.div_eq_of_lt hv]; simp
  · rw [Nat.add_comm, Nat.add_mul_mod_self_right, Nat.mod_eq_of_lt hv]

theorem tap_lt {g : Geometry} {n i u y : ℕ} (h : tap g n i u = some y) : y < n := by
  unfold tap at h
  dsimp only at h
  split at h
  · rename_i hc
    have := Option.some.inj h
    omega
  · exact absurd h (by simp)

theorem tapTranspose_lt {g : Geometry} {n i u y : ℕ} (h : tapTranspose g n i u = some y) : y < n := by
  unfold tapTranspose at h
  dsimp only at h
  split at h
  · rename_i hc
    have := Option.some.inj h
    rw [← this]; exact hc.2.2
  · exact absurd h (by simp)

/-- Equal values wherever the tap hits give equal results. -/
theorem elim_congr {o : Option ℕ} {f g : ℕ → K} (h : ∀ y, o = some y → f y = g y) : o.elim 0 f = o.elim 0 g := by
  cases o with
  | none => rfl
  | some y => exact h y rfl

namespace ConvLayer

/-- Value the expansion gives channel `q` for the entry `t`. -/
def chan (L : ConvLayer K) (q : ℕ) (t : K) : K :=
  L.expander.val (q % L.expander.variables) (periodize L.periodicity t)

theorem wf_periodize (L : ConvLayer K) {x : Tensor K} (hx : x.WF) : (x.map (periodize L.periodicity)).WF :=
  Tensor.wf_map hx _

/-- Expanded image, 2d. -/
theorem expanded2 (L : ConvLayer K) (he : L.expander.Fits .two) {B C H W : ℕ} {x : Tensor K} (hx : x.WF)
    (hs : x.shape = [B, C, H, W]) :
    ∃ T, expansion2d L.expander (x.map (periodize L.periodicity)) = .ok T ∧ T.shape = [B, C * L.expander.variables, H, W] ∧
      ∀ b < B, ∀ q < C * L.expander.variables, ∀ i < H, ∀ j < W,
        T.get [b, q, i, j] = L.chan q (x.get [b, q / L.expander.variables, i, j]) := by
  obtain ⟨_, T, _, _, _, h1, h2, _, h3⟩ := expansion2d_ok he (L.wf_periodize hx) (show (x.map (periodize L.periodicity)).shape = _ from hs)
  refine ⟨T, h1, h2, ?_⟩
  intro b hb q hq i hi j hj
  have hv : 0 < L.expander.variables := he.variables_pos
  have hc : q / L.expander.variables < C := (Nat.div_lt_iff_lt_mul hv).2 hq
  obtain ⟨e1, e2⟩ := h3 b hb _ hc _ (Nat.mod_lt q hv) i hi j hj
  rw [Nat.div_add_mod'] at e1
  rw [e1, e2, Tensor.get_map hx (by rw [hs]; exact inShape4.2 ⟨hb, hc, hi, hj⟩)]
  rfl

/-- Expanded image, 1d. -/
theorem expanded1 (L : ConvLayer K) (he : L.expander.Fits .one) {B C H : ℕ} {x : Tensor K} (hx : x.WF)
    (hs : x.shape = [B, C, H]) :
    ∃ T, expansion1d L.expander (x.map (periodize L.periodicity)) = .ok T ∧ T.shape = [B, C * L.expander.variables, H] ∧
      ∀ b < B, ∀ q < C * L.expander.variables, ∀ i < H,
        T.get [b, q, i] = L.chan q (x.get [b, q / L.expander.variables, i]) := by
  obtain ⟨_, T, _, _, _, h1, h2, _, h3⟩ := expansion1d_ok he (L.wf_periodize hx) (show (x.map (periodize L.periodicity)).shape = _ from hs)
  refine ⟨T, h1, h2, ?_⟩
  intro b hb q hq i hi
  have hv : 0 < L.expander.variables := he.variables_pos
  have hc : q / L.expander.variables < C := (Nat.div_lt_iff_lt_mul hv).2 hq
  obtain ⟨e1, e2⟩ := h3 b hb _ hc _ (Nat.mod_lt q hv) i hi
  rw [Nat.div_add_mod'] at e1
  rw [e1, e2, Tensor.get_map hx (by rw [hs]; exact inShape3.2 ⟨hb, hc, hi⟩)]
  rfl

theorem map_tab4 {a b c d : ℕ} (f : ℕ → ℕ → ℕ → ℕ → K) (g : K → K) :
    (Tensor.tab4 a b c d f).map g = Tensor.tab4 a b c d fun i j k l => g (f i j k l) := by
  simp [Tensor.tab4, Tensor.map, Tensor.tabulate]

theorem map_tab3 {a b c : ℕ} (f : ℕ → ℕ → ℕ → K) (g : K → K) :
    (Tensor.tab3 a b c f).map g = Tensor.tab3 a b c fun i j k => g (f i j k) := by
  simp [Tensor.tab3, Tensor.map, Tensor.tabulate]

theorem forward2_ok (L : ConvLayer K) (hk : L.kind = .conv2d) (he : L.expander.Fits .two) {B C O H W oh ow : ℕ} {x : Tensor K}
    (hx : x.WF) (hs : x.shape = [B, C, H, W])
    (hw : L.weight.shape = [O, C * L.expander.variables, L.geometry.kernel, L.geometry.kernel])
    (h1 : convSize L.geometry H = .ok oh) (h2 : convSize L.geometry W = .ok ow) :
    L.forward x = .ok (Tensor.tab4 B O oh ow fun s r i j =>
      sumL ((List.range (C * L.expander.variables)).flatMap fun q => (List.range L.geometry.kernel).flatMap fun d =>
        (List.range L.geometry.kernel).map fun e =>
          ((tap L.geometry H i d).elim 0 fun y => (tap L.geometry W j e).elim 0 fun z =>
            L.chan q (x.get [s, q / L.expander.variables, y, z])) * L.weight.get [r, q, d, e]) * L.rescale) := by
  obtain ⟨T, t1, t2, t3⟩ := L.expanded2 he hx hs
  unfold forward conv2d
  rw [hk]
  simp only [bind, Except.bind, t1, t2, hw, and_self, if_true, h1, h2, map_tab4]
  congr 1
  apply tab4_congr
  intro s hs' r _ i _ j _
  congr 2
  apply List.flatMap_congr
  intro q hq
  apply List.flatMap_congr
  intro d _
  apply List.map_congr_left
  intro e _
  congr 1
  apply elim_congr
  intro y hy
  apply elim_congr
  intro z hz
  exact t3 s hs' q (List.mem_range.1 hq) y (tap_lt hy) z (tap_lt hz)

theorem forward1_ok (L : ConvLayer K) (hk : L.kind = .conv1d) (he : L.expander.Fits .one) {B C O H oh : ℕ} {x : Tensor K}
    (hx : x.WF) (hs : x.shape = [B, C, H])
    (hw : L.weight.shape = [O, C * L.expander.variables, L.geometry.kernel]) (h1 : convSize L.geometry H = .ok oh) :
    L.forward x = .ok (Tensor.tab3 B O oh fun s r i =>
      sumL ((List.range (C * L.expander.variables)).flatMap fun q => (List.range L.geometry.kernel).map fun d =>
          ((tap L.geometry H i d).elim 0 fun y => L.chan q (x.get [s, q / L.expander.variables, y])) * L.weight.get [r, q, d])
        * L.rescale) := by
  obtain ⟨T, t1, t2, t3⟩ := L.expanded1 he hx hs
  unfold forward conv1d
  rw [hk]
  simp only [bind, Except.bind, t1, t2, hw, and_self, if_true, h1, map_tab3]
  congr 1
  apply tab3_congr
  intro s hs' r _ i _
  congr 2
  apply List.flatMap_congr
  intro q hq
  apply List.map_congr_left
  intro d _
  congr 1
  apply elim_congr
  intro y hy
  exact t3 s hs' q (List.mem_range.1 hq) y (tap_lt hy)

theorem forwardT_ok (L : ConvLayer K) (hk : L.kind = .convTranspose2d) (he : L.expander.Fits .two) {B C O H W oh ow : ℕ} {x : Tensor K}
    (hx : x.WF) (hs : x.shape = [B, C, H, W])
    (hw : L.weight.shape = [C * L.expander.variables, O, L.geometry.kernel, L.geometry.kernel])
    (h1 : convTransposeSize L.geometry H = .ok oh) (h2 : convTransposeSize L.geometry W = .ok ow) :
    L.forward x = .ok (Tensor.tab4 B O oh ow fun s r i j =>
      sumL ((List.range (C * L.expander.variables)).flatMap fun q => (List.range L.geometry.kernel).flatMap fun d =>
        (List.range L.geometry.kernel).map fun e =>
          ((tapTranspose L.geometry H i d).elim 0 fun y => (tapTranspose L.geometry W j e).elim 0 fun z =>
            L.chan q (x.get [s, q / L.expander.variables, y, z])) * L.weight.get [q, r, d, e]) * L.rescale) := by
  obtain ⟨T, t1, t2, t3⟩ := L.expanded2 he hx hs
  unfold forward convTranspose2d
  rw [hk]
  simp only [bind, Except.bind, t1, t2, hw, and_self, if_true, h1, h2, map_tab4]
  congr 1
  apply tab4_congr
  intro s hs' r _ i _ j _
  congr 2
  apply List.flatMap_congr
  intro q hq
  apply List.flatMap_congr
  intro d _
  apply List.map_congr_left
  intro e _
  congr 1
  apply elim_congr
  intro y hy
  apply elim_congr
  intro z hz
  exact t3 s hs' q (List.mem_range.1 hq) y (tapTranspose_lt hy) z (tapTranspose_lt hz)

end ConvLayer
end structure_

/-! ## link functions of the expansions -/

/-- Contraction of the expansion of one entry with the weights of a link. -/
noncomputable def Expander.link (e : Expander ℝ) (v : ℕ → ℝ) (t : ℝ) : ℝ := ∑ m ∈ Finset.range e.variables, e.val m t * v m

/-- A fully connected layer with the same segments. -/
noncomputable def expandTwin (shared : Bool) (n S : ℕ) (length : ℝ) : PwLayer ℝ :=
  { cls := if shared then .continuous else .discontinuous, n := n, segments := S, inFeatures := 1, outFeatures := 1
    length := length, periodicity := none, w := Tensor.tab3 1 1 0 fun _ _ _ => 0 }

theorem expandSegment_twin (shared : Bool) (rank : Rank) {n S : ℕ} (hS : 0 < S) (length t : ℝ) :
    expandSegment shared rank S length t = (expandTwin shared n S length).segIndex t := by
  unfold expandSegment
  rw [limitSegment_eq shared rank hS]
  rfl

theorem expandLocal_twin (shared : Bool) (n S : ℕ) (length t : ℝ) (i : ℤ) :
    expandLocal S length t i = (expandTwin shared n S length).xLocal t i := rfl

theorem sum_window {N n base : ℕ} (h : base + n ≤ N) (f : ℕ → ℝ) :
    (∑ m ∈ Finset.range N, if base ≤ m ∧ m < base + n then f (m - base) else 0) = ∑ k ∈ Finset.range n, f k := by
  obtain ⟨r, rfl⟩ : ∃ r, N = base + n + r := ⟨N - (base + n), by omega⟩
  rw [Finset.sum_range_add, Finset.sum_range_add]
  have e1 : (∑ m ∈ Finset.range base, if base ≤ m ∧ m < base + n then f (m - base) else 0) = 0 := by
    apply Finset.sum_eq_zero
    intro m hm
    rw [if_neg]
    have := Finset.mem_range.1 hm
    omega
  have e2 : (∑ m ∈ Finset.range n, if base ≤ base + m ∧ base + m < base + n then f (base + m - base) else 0)
      = ∑ k ∈ Finset.range n, f k := by
    apply Finset.sum_congr rfl
    intro m hm
    have := Finset.mem_range.1 hm
    rw [if_pos (by omega), Nat.add_sub_cancel_left]
  have e3 : (∑ m ∈ Finset.range r, if base ≤ base + n + m ∧ base + n + m < base + n then f (base + n + m - base) else 0) = 0 := by
    apply Finset.sum_eq_zero
    intro m _
    rw [if_neg]
    omega
  rw [e1, e2, e3]; ring

theorem link_window (shared : Bool) (rank : Rank) {n S : ℕ} (hn : 0 < n) (hS : 0 < S) (length : ℝ) (v : ℕ → ℝ) (t : ℝ) :
    (Expander.piecewise shared rank n S length).link v t
      = ∑ k ∈ Finset.range n, (getLagrangeBasis n length).call
          (expandLocal S length t (expandSegment shared rank S length t)) k * v (expandBase shared rank n S length t + k) := by
  have h := expandBase_le shared rank hn hS length t
  rw [← sum_window h fun k => (getLagrangeBasis n length).call
    (expandLocal S length t (expandSegment shared rank S length t)) k * v (expandBase shared rank n S length t + k)]
  apply Finset.sum_congr rfl
  intro m _
  simp only [Expander.val]
  split
  · rename_i hc
    rw [show expandBase shared rank n S length t + (m - expandBase shared rank n S length t) = m by omega]
  · ring

/-- With `length = 2` the links of the expansion are the piecewise polynomials of the fully connected layers. -/
theorem link_piecewise (shared : Bool) (rank : Rank) {n S : ℕ} (hn : 0 < n) (hS : 0 < S) (v : ℕ → ℝ) :
    IsPiecewisePoly n S (if shared then n - 1 else n) v ((Expander.piecewise shared rank n S (2 : ℝ)).link v) := by
  intro s t hact
  rw [link_window shared rank hn hS]
  have hseg := expandSegment_twin shared rank (n := n) hS 2 t
  have hact' := (expandTwin shared n S 2).isActive_segIndex hS rfl t
  rw [← hseg] at hact'
  have hs : (expandSegment shared rank S (2 : ℝ) t).toNat = s := isActive_unique hact' hact
  have hsz : expandSegment shared rank S (2 : ℝ) t = (s : ℤ) := by
    have := expandSegment_nonneg shared rank hS (2 : ℝ) t
    omega
  have hloc : expandLocal S (2 : ℝ) t (expandSegment shared rank S (2 : ℝ) t) = localCoord S s t := by
    rw [hsz, expandLocal_twin shared n]
    exact (expandTwin shared n S 2).xLocal_real hS rfl t s
  have hbase : expandBase shared rank n S (2 : ℝ) t = s * (if shared then n - 1 else n) := by
    unfold expandBase; rw [hs]
  rw [hloc, hbase]
  have := sum_basis_call_two n (localCoord S s t) fun k => v (s * (if shared then n - 1 else n) + k)
  push_cast at this
  exact this

/-- The values of an expansion sum to one. -/
theorem sum_basis_one {n : ℕ} (hn : 0 < n) {length : ℝ} (hl : length ≠ 0) (t : ℝ) :
    ∑ k ∈ Finset.range n, (getLagrangeBasis n length).call t k = 1 := by
  have h := sum_basis_call n length t fun _ => 1
  simp only [mul_one] at h
  rw [h]
  have := Lagrange.interpolate_one (s := Finset.range n) (scaled_injOn n hl) ⟨0, Finset.mem_range.2 hn⟩
  have e : (fun _ : ℕ => (1 : ℝ)) = 1 := rfl
  rw [e, this, Polynomial.eval_one]

theorem val_sum_one (shared : Bool) (rank : Rank) {n S : ℕ} (hn : 0 < n) (hS : 0 < S) {length : ℝ} (hl : length ≠ 0) (t : ℝ) :
    ∑ m ∈ Finset.range (Expander.piecewise shared rank n S length).variables, (Expander.piecewise shared rank n S length).val m t = 1 := by
  have h := link_window shared rank hn hS length (fun _ => 1) t
  unfold Expander.link at h
  simp only [mul_one] at h
  rw [h, sum_basis_one hn hl]

theorem link_lagrange (n : ℕ) (length : ℝ) (v : ℕ → ℝ) (t : ℝ) :
    (lagrangeExpand n length).link v t
      = (Lagrange.interpolate (Finset.range n) (fun j => length / 2 * node n j) v).eval t :=
  sum_basis_call n length t v

theorem link_fourier (n : ℕ) (length : ℝ) (v : ℕ → ℝ) (t : ℝ) :
    (fourierExpand n length).link v t = fourierSum n length v t := by
  unfold Expander.link fourierSum
  apply Finset.sum_congr rfl
  intro m _
  show fourierCall length t m * v m = _
  rw [fourierCall_eq, mul_comm]

/-! ## convolutions as sums of link functions -/

theorem sum_range_mul (C n : ℕ) (f : ℕ → ℝ) :
    ∑ q ∈ Finset.range (C * n), f q = ∑ c ∈ Finset.range C, ∑ v ∈ Finset.range n, f (c * n + v) := by
  induction C with
  | zero => simp
  | succ C ih => rw [Nat.add_mul, Nat.one_mul, Finset.sum_range_add, ih, Finset.sum_range_succ]

theorem sumL_flatMap_range3 (n m l : ℕ) (f : ℕ → ℕ → ℕ → ℝ) :
    sumL ((List.range n).flatMap fun i => (List.range m).flatMap fun j => (List.range l).map fun k => f i j k)
      = ∑ i ∈ Finset.range n, ∑ j ∈ Finset.range m, ∑ k ∈ Finset.range l, f i j k := by
  induction n with
  | zero => simp [sumL_real]
  | succ n ih =>
    rw [List.range_succ, List.flatMap_append, Finset.sum_range_succ, ← ih, ← sumL_flatMap_range]
    simp [sumL_real]

theorem elim_mul (o : Option ℕ) (f : ℕ → ℝ) (a : ℝ) : o.elim 0 f * a = o.elim 0 fun y => f y * a := by
  cases o <;> simp

theorem elim_sum (o : Option ℕ) (n : ℕ) (f : ℕ → ℕ → ℝ) :
    ∑ v ∈ Finset.range n, o.elim 0 (f v) = o.elim 0 fun y => ∑ v ∈ Finset.range n, f v y := by
  cases o <;> simp

theorem tap_inside (g : Geometry) (n i u : ℕ) (f : ℕ → ℝ) :
    (tap g n i u).elim 0 f = inside n ((i : ℤ) * g.stride + u * g.dilation - g.padding) f := by
  unfold tap inside
  dsimp only
  have e : (i : ℤ) * g.stride + u * g.dilation = ((i * g.stride + u * g.dilation : ℕ) : ℤ) := by push_cast; ring
  rw [e]
  generalize i * g.stride + u * g.dilation = q
  by_cases h : g.padding ≤ q ∧ q - g.padding < n
  · rw [if_pos h, if_pos (by omega)]
    simp only [Option.elim_some]
    congr 1
    omega
  · rw [if_neg h, if_neg (by omega)]
    rfl

theorem tapTranspose_sum (g : Geometry) (hs : 0 < g.stride) (n y u : ℕ) (f : ℕ → ℝ) :
    (tapTranspose g n y u).elim 0 f
      = ∑ i ∈ Finset.range n, if (i : ℤ) * g.stride + u * g.dilation - g.padding = y then f i else 0 := by
  have hiff : ∀ i : ℕ, ((i : ℤ) * g.stride + u * g.dilation - g.padding = y) ↔ i * g.stride + u * g.dilation = y + g.padding := by
    intro i
    constructor
    · intro h
      have : ((i * g.stride + u * g.dilation : ℕ) : ℤ) = ((y + g.padding : ℕ) : ℤ) := by push_cast; linarith
      exact_mod_cast this
    · intro h
      have : ((i * g.stride + u * g.dilation : ℕ) : ℤ) = ((y + g.padding : ℕ) : ℤ) := by rw [h]
      push_cast at this
      linarith
  simp only [hiff]
  unfold tapTranspose
  dsimp only
  by_cases h : u * g.dilation ≤ y + g.padding ∧ (y + g.padding - u * g.dilation) % g.stride = 0 ∧
      (y + g.padding - u * g.dilation) / g.stride < n
  · rw [if_pos h]
    simp only [Option.elim_some]
    set m := (y + g.padding - u * g.dilation) / g.stride with hm
    have hmul : m * g.stride = y + g.padding - u * g.dilation := Nat.div_mul_cancel (Nat.dvd_of_mod_eq_zero h.2.1)
    rw [Finset.sum_eq_single m]
    · rw [if_pos (by omega)]
    · intro i _ hi
      rw [if_neg]
      intro h'
      apply hi
      have : i * g.stride = m * g.stride := by omega
      exact Nat.eq_of_mul_eq_mul_right hs this
    · intro hm'
      exact absurd (Finset.mem_range.2 h.2.2) hm'
  · rw [if_neg h]
    symm
    apply Finset.sum_eq_zero
    intro i hi
    rw [if_neg]
    intro h'
    apply h
    have e : y + g.padding - u * g.dilation = i * g.stride := by omega
    refine ⟨by omega, by rw [e]; exact Nat.mul_mod_left _ _, ?_⟩
    rw [e, Nat.mul_div_cancel _ hs]
    exact Finset.mem_range.1 hi

namespace ConvLayer

theorem forward2_real (L : ConvLayer ℝ) (hk : L.kind = .conv2d) (he : L.expander.Fits .two) {B C O H W oh ow : ℕ} {x : Tensor ℝ}
    (hx : x.WF) (hs : x.shape = [B, C, H, W])
    (hw : L.weight.shape = [O, C * L.expander.variables, L.geometry.kernel, L.geometry.kernel])
    (h1 : convSize L.geometry H = .ok oh) (h2 : convSize L.geometry W = .ok ow) :
    L.forward x = .ok (Tensor.tab4 B O oh ow fun s r i j =>
      convSum2 C L.geometry.kernel L.geometry.stride L.geometry.padding L.geometry.dilation H W
        (fun c d e => L.expander.link fun v => L.weight.get [r, c * L.expander.variables + v, d, e])
        (fun c y z => periodize L.periodicity (x.get [s, c, y, z])) i j * L.rescale) := by
  rw [L.forward2_ok hk he hx hs hw h1 h2]
  congr 1
  apply tab4_congr
  intro s _ r _ i _ j _
  congr 1
  rw [sumL_flatMap_range3, sum_range_mul]
  unfold convSum2
  apply Finset.sum_congr rfl
  intro c _
  rw [Finset.sum_comm]
  apply Finset.sum_congr rfl
  intro d _
  rw [Finset.sum_comm]
  apply Finset.sum_congr rfl
  intro e _
  simp only [← tap_inside L.geometry]
  simp only [elim_mul]
  rw [elim_sum]
  congr 1
  funext y
  rw [elim_sum]
  congr 1
  funext z
  unfold Expander.link
  apply Finset.sum_congr rfl
  intro v hv
  obtain ⟨e1, e2⟩ := div_mod_channel (c := c) (Finset.mem_range.1 hv)
  unfold chan
  rw [e1, e2]

theorem forward1_real (L : ConvLayer ℝ) (hk : L.kind = .conv1d) (he : L.expander.Fits .one) {B C O H oh : ℕ} {x : Tensor ℝ}
    (hx : x.WF) (hs : x.shape = [B, C, H])
    (hw : L.weight.shape = [O, C * L.expander.variables, L.geometry.kernel]) (h1 : convSize L.geometry H = .ok oh) :
    L.forward x = .ok (Tensor.tab3 B O oh fun s r i =>
      convSum1 C L.geometry.kernel L.geometry.stride L.geometry.padding L.geometry.dilation H
        (fun c d => L.expander.link fun v => L.weight.get [r, c * L.expander.variables + v, d])
        (fun c y => periodize L.periodicity (x.get [s, c, y])) i * L.rescale) := by
  rw [L.forward1_ok hk he hx hs hw h1]
  congr 1
  apply tab3_congr
  intro s _ r _ i _
  congr 1
  rw [sumL_flatMap_range, sum_range_mul]
  unfold convSum1
  apply Finset.sum_congr rfl
  intro c _
  rw [Finset.sum_comm]
  apply Finset.sum_congr rfl
  intro d _
  rw [← tap_inside L.geometry]
  simp only [elim_mul]
  rw [elim_sum]
  congr 1
  funext y
  unfold Expander.link
  apply Finset.sum_congr rfl
  intro v hv
  obtain ⟨e1, e2⟩ := div_mod_channel (c := c) (Finset.mem_range.1 hv)
  unfold chan
  rw [e1, e2]

theorem forwardT_real (L : ConvLayer ℝ) (hk : L.kind = .convTranspose2d) (he : L.expander.Fits .two) {B C O H W oh ow : ℕ} {x : Tensor ℝ}
    (hx : x.WF) (hs : x.shape = [B, C, H, W]) (hst : 0 < L.geometry.stride)
    (hw : L.weight.shape = [C * L.expander.variables, O, L.geometry.kernel, L.geometry.kernel])
    (h1 : convTransposeSize L.geometry H = .ok oh) (h2 : convTransposeSize L.geometry W = .ok ow) :
    L.forward x = .ok (Tensor.tab4 B O oh ow fun s r i j =>
      convTransposeSum2 C L.geometry.kernel L.geometry.stride L.geometry.padding L.geometry.dilation H W
        (fun c d e => L.expander.link fun v => L.weight.get [c * L.expander.variables + v, r, d, e])
        (fun c y z => periodize L.periodicity (x.get [s, c, y, z])) i j * L.rescale) := by
  rw [L.forwardT_ok hk he hx hs hw h1 h2]
  congr 1
  apply tab4_congr
  intro s _ r _ i _ j _
  congr 1
  rw [sumL_flatMap_range3, sum_range_mul]
  unfold convTransposeSum2
  apply Finset.sum_congr rfl
  intro c _
  rw [Finset.sum_comm]
  apply Finset.sum_congr rfl
  intro d _
  rw [Finset.sum_comm]
  apply Finset.sum_congr rfl
  intro e _
  simp only [elim_mul]
  rw [elim_sum, tapTranspose_sum _ hst]
  apply Finset.sum_congr rfl
  intro y _
  rw [elim_sum, tapTranspose_sum _ hst]
  by_cases hy : (y : ℤ) * L.geometry.stride + d * L.geometry.dilation - L.geometry.padding = i
  · simp only [hy, true_and]
    apply Finset.sum_congr rfl
    intro z _
    split
    · unfold Expander.link
      apply Finset.sum_congr rfl
      intro v hv
      obtain ⟨e1, e2⟩ := div_mod_channel (c := c) (Finset.mem_range.1 hv)
      unfold chan
      rw [e1, e2]
    · rfl
  · simp [hy]

end ConvLayer
/-- Spatial axes of the images a class accepts. -/
def ConvClass.rank : ConvClass → Rank
  | .polynomial r | .piecewise _ r | .fourier r => r

/-- The documented family of link functions of a class. -/
def ConvClass.linkKind : ConvClass → LinkKind
  | .polynomial _ => .polynomial
  | .piecewise true _ => .continuous
  | .piecewise false _ => .discontinuous
  | .fourier _ => .fourier

theorem constantRandomConv_shape {K : Type} [TorchScalar K] (rand : ConvRng K) (nodes o i k : ℕ) (wm : K) :
    (constantRandomConv rand nodes o i k wm).shape = [o, i, k, k] := rfl

end HOL
