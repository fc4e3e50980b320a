import Verif.Model.ND
import Verif.Spec.ND
import Verif.Lemmas.LagrangeReal
import Verif.Lemmas.Structural
import Verif.Lemmas.PiecewiseReal
import Mathlib.Tactic.NormNum

/-! # Lemmas about N dimensional elements -/

namespace HOL
open TorchScalar Polynomial Spec


theorem denomND_get (ns : List ℕ) (length : ℝ) {d j c : ℕ} (hd : d < ns.length) (hj : j < ns.getD d 0)
    (hc : c < ns.getD d 0) :
    let Xs := (ns.map fun ni => (chebyshevLobatto ni : Tensor ℝ).map fun v => (length / ((2 : ℕ) : ℝ)) * v)
    (Xs.getD d ⟨[], []⟩).get [c] = length / 2 * node (ns.getD d 0) c ∧
    ((List.zipWith denomND ns Xs).getD d ⟨[], []⟩).get [j, c]
      = if length / 2 * node (ns.getD d 0) c - length / 2 * node (ns.getD d 0) j = 0 then 1
        else length / 2 * node (ns.getD d 0) c - length / 2 * node (ns.getD d 0) j := by
  intro Xs
  have hns : ns.getD d 0 = ns[d] := by rw [List.getD_eq_getElem?_getD, List.getElem?_eq_getElem hd]; rfl
  have hX : Xs.getD d ⟨[], []⟩ = (chebyshevLobatto ns[d] : Tensor ℝ).map fun v => (length / ((2 : ℕ) : ℝ)) * v := by
    simp only [Xs]
    rw [List.getD_eq_getElem?_getD, List.getElem?_map, List.getElem?_eq_getElem hd]
    rfl
  have hget : ∀ q < ns[d], ((chebyshevLobatto ns[d] : Tensor ℝ).map fun v => (length / ((2 : ℕ) : ℝ)) * v).get [q]
      = length / 2 * node ns[d] q := by
    intro q hq
    rw [Tensor.get_map (chebyshev_wf _) (by rw [chebyshev_shape]; exact inShape1.2 hq), chebyshev_get hq]
    norm_num
  rw [hns] at hj hc ⊢
  constructor
  · rw [hX, hget c hc]
  · have hz : (List.zipWith denomND ns Xs).getD d ⟨[], []⟩ = denomND ns[d] (Xs.getD d ⟨[], []⟩) := by
      have hdX : d < Xs.length := by simp [Xs, hd]
      have hlt : d < (List.zipWith denomND ns Xs).length := by
        rw [List.length_zipWith]; omega
      rw [List.getD_eq_getElem?_getD, List.getElem?_eq_getElem hlt, List.getElem_zipWith,
        List.getD_eq_getElem?_getD, List.getElem?_eq_getElem hdX]
      rfl
    rw [hz, hX]
    unfold denomND
    rw [Tensor.get_tab2 hj hc, hget c hc, hget j hj]
    by_cases h0 : length / 2 * node ns[d] c - length / 2 * node ns[d] j = 0
    · rw [if_pos h0, if_pos (by rw [eqB_real]; exact h0)]
    · rw [if_neg h0, if_neg (by rw [eqB_real]; exact h0)]

/-- The product the code forms on one axis: the cardinal polynomial with `n - 1` reversed differences. -/
theorem reversed_cardinal {n j : ℕ} (hj : j < n) {length : ℝ} (hl : length ≠ 0) (x : ℝ) :
    ∏ c ∈ Finset.range n, (if j ≠ c then (x - length / 2 * node n c) /
        (if length / 2 * node n c - length / 2 * node n j = 0 then 1
          else length / 2 * node n c - length / 2 * node n j) else 1)
      = (-1) ^ (n - 1) * (cardinal length n j).eval x := by
  have hmem : j ∈ Finset.range n := Finset.mem_range.2 hj
  have hcard : ((Finset.range n).erase j).card = n - 1 := by
    rw [Finset.card_erase_of_mem hmem, Finset.card_range]
  rw [cardinal, Lagrange.basis, Polynomial.eval_prod, ← Finset.mul_prod_erase _ _ hmem, if_neg (by simp), one_mul,
    ← hcard, ← Finset.prod_const, ← Finset.prod_mul_distrib]
  apply Finset.prod_congr rfl
  intro c hc
  have hne := (Finset.mem_erase.1 hc).1
  have hcn := (Finset.mem_erase.1 hc).2
  have hd : length / 2 * node n c - length / 2 * node n j ≠ 0 := by
    intro h0
    exact hne ((scaled_injOn n hl) (by exact_mod_cast hcn) (by exact_mod_cast hmem) (sub_eq_zero.1 h0))
  rw [if_pos (Ne.symm hne), if_neg hd, Lagrange.basisDivisor]
  simp only [eval_mul, eval_C, eval_sub, eval_X]
  rw [show length / 2 * node n j - length / 2 * node n c = -(length / 2 * node n c - length / 2 * node n j) by ring,
    inv_neg, div_eq_mul_inv]
  ring

theorem inShape_getD : ∀ {s idx : List ℕ}, InShape s idx → idx.length = s.length ∧ ∀ d < s.length, idx.getD d 0 < s.getD d 0
  | [], [], _ => ⟨rfl, by simp⟩
  | s :: ss, i :: is, h => by
    obtain ⟨h1, h2⟩ := h
    obtain ⟨h3, h4⟩ := inShape_getD h2
    refine ⟨by simp [h3], ?_⟩
    intro d hd
    cases d with
    | zero => simpa using h1
    | succ d => simpa using h4 d (by simpa using hd)
  | [], _ :: _, h => absurd h (by simp [InShape])
  | _ :: _, [], h => absurd h (by simp [InShape])

theorem ndSign_prod (ns : List ℕ) : ∏ d ∈ Finset.range ns.length, (-1 : ℝ) ^ (ns.getD d 0 - 1) = ndSign ns := by
  unfold ndSign
  induction ns with
  | nil => simp
  | cons n ns ih =>
    rw [List.length_cons, Finset.prod_range_succ', List.map_cons, List.sum_cons, pow_add, ← ih]
    simp [mul_comm]

/-- A sum over multi indices of products over the axes. -/
theorem sum_unravel_prod : ∀ (ns : List ℕ) (f : ℕ → ℕ → ℝ),
    ∑ q ∈ Finset.range (numel ns), ∏ d ∈ Finset.range ns.length, f d ((unravel ns q).getD d 0)
      = ∏ d ∈ Finset.range ns.length, ∑ j ∈ Finset.range (ns.getD d 0), f d j
  | [], f => by simp [numel]
  | n :: ns, f => by
    have ih := sum_unravel_prod ns fun d => f (d + 1)
    rw [List.length_cons, Finset.prod_range_succ']
    simp only [List.getD_cons_succ, List.getD_cons_zero]
    rw [← ih, numel]
    have hsplit : ∀ (m : ℕ) (g : ℕ → ℝ), ∑ q ∈ Finset.range (n * m), g q
        = ∑ j ∈ Finset.range n, ∑ r ∈ Finset.range m, g (j * m + r) := by
      intro m g
      induction n with
      | zero => simp
      | succ n ihn =>
        rw [Finset.sum_range_succ, ← ihn, Nat.succ_mul, Finset.sum_range_add]
    rw [hsplit, Finset.sum_mul_sum, Finset.sum_comm]
    rw [Finset.sum_comm]
    rw [Finset.sum_comm]
    apply Finset.sum_congr rfl
    intro r hr
    apply Finset.sum_congr rfl
    intro j hj
    have hr' := Finset.mem_range.1 hr
    rw [Finset.prod_range_succ']
    have hpos : 0 < numel ns := by omega
    have e1 : (j * numel ns + r) / numel ns = j := by
      rw [Nat.add_comm, Nat.add_mul_div_right _ _ hpos, Nat.div_eq_of_lt hr']; simp
    have e2 : (j * numel ns + r) % numel ns = r := by
      rw [Nat.add_comm, Nat.add_mul_mod_self_right, Nat.mod_eq_of_lt hr']
    simp only [unravel, e1, e2, List.getD_cons_succ, List.getD_cons_zero]

/-- The factor of the code on one axis. -/
theorem factor_real {ns : List ℕ} (hns : ns ≠ []) {length : ℝ} (hl : length ≠ 0) {b : BasisND ℝ}
    (hb : BasisND.init (.list ns) length = .ok b) {r d : ℕ} (hr : r < numel ns) (hd : d < ns.length) (x : ℝ) :
    b.factor r d x = (-1) ^ (ns.getD d 0 - 1) * (cardinal length (ns.getD d 0) ((unravel ns r).getD d 0)).eval x := by
  unfold BasisND.init at hb
  simp only [hns, if_false] at hb
  cases hb
  unfold BasisND.factor
  dsimp only
  obtain ⟨-, hlt⟩ := inShape_getD (inShape_unravel hr)
  have hj := hlt d hd
  rw [Tensor.get_tab2 hr hd, prodL_range, ← reversed_cardinal hj hl x]
  apply Finset.prod_congr rfl
  intro c hc
  obtain ⟨e1, e2⟩ := denomND_get ns length hd hj (Finset.mem_range.1 hc)
  rw [e1, e2]

theorem cardinal_node {length : ℝ} (hl : length ≠ 0) {n j p : ℕ} (_hj : j < n) (hp : p < n) :
    (cardinal length n j).eval (length / 2 * node n p) = if p = j then 1 else 0 := by
  unfold cardinal
  by_cases h : p = j
  · subst h
    rw [if_pos rfl]
    exact Lagrange.eval_basis_self (scaled_injOn n hl) (Finset.mem_range.2 hp)
  · rw [if_neg h]
    exact Lagrange.eval_basis_of_ne (v := fun j => length / 2 * node n j) (fun e => h e.symm)
      (Finset.mem_range.2 hp)

theorem tensorCardinal_node {length : ℝ} (hl : length ≠ 0) {ns idx p : List ℕ} (hi : InShape ns idx)
    (hp : InShape ns p) :
    tensorCardinal length ns idx (fun d => length / 2 * node (ns.getD d 0) (p.getD d 0))
      = if p = idx then 1 else 0 := by
  obtain ⟨hil, hi'⟩ := inShape_getD hi
  obtain ⟨hpl, hp'⟩ := inShape_getD hp
  unfold tensorCardinal
  by_cases h : p = idx
  · subst h
    rw [if_pos rfl]
    apply Finset.prod_eq_one
    intro d hd
    rw [cardinal_node hl (hi' d (Finset.mem_range.1 hd)) (hp' d (Finset.mem_range.1 hd)), if_pos rfl]
  · rw [if_neg h]
    have : ∃ d < ns.length, p.getD d 0 ≠ idx.getD d 0 := by
      by_contra hcon
      push Not at hcon
      apply h
      apply List.ext_getElem (by omega)
      intro d h1 h2
      have := hcon d (by omega)
      rw [List.getD_eq_getElem?_getD, List.getElem?_eq_getElem h1, List.getD_eq_getElem?_getD,
        List.getElem?_eq_getElem h2] at this
      exact this
    obtain ⟨d, hd, hne⟩ := this
    apply Finset.prod_eq_zero (Finset.mem_range.2 hd)
    rw [cardinal_node hl (hi' d hd) (hp' d hd), if_neg hne]

/-- The box the code selects for the point `y`. -/
def PwNDLayer.box {K : Type} [TorchScalar K] (L : PwNDLayer K) (y : ℕ → K) : List ℕ :=
  (List.range L.segments.length).map fun d => (L.segIndex d (y d)).toNat

theorem inShape_of_getD : ∀ {s idx : List ℕ}, idx.length = s.length → (∀ d < s.length, idx.getD d 0 < s.getD d 0) → InShape s idx
  | [], [], _, _ => trivial
  | s :: ss, i :: is, hl, h => by
    refine ⟨by simpa using h 0 (by simp), inShape_of_getD (by simpa using hl) ?_⟩
    intro d hd
    simpa using h (d + 1) (by simpa using hd)
  | [], _ :: _, h, _ => by simp at h
  | _ :: _, [], h, _ => by simp at h

theorem ravel_eq_sum : ∀ (segs : List ℕ) (f : ℕ → ℕ),
    ((List.range segs.length).map fun d => (f d : ℤ) * (numel (segs.drop (d + 1)) : ℤ)).sum
      = (ravel segs ((List.range segs.length).map f) : ℤ)
  | [], f => by simp [ravel]
  | s :: ss, f => by
    have ih := ravel_eq_sum ss fun d => f (d + 1)
    rw [List.length_cons, List.range_succ_eq_map, List.map_cons, List.sum_cons, List.map_map, List.map_cons, List.map_map]
    simp only [ravel, List.drop_succ_cons, List.drop_zero]
    push_cast
    rw [show (f ∘ Nat.succ) = fun d => f (d + 1) from rfl, ← ih]
    rfl

namespace PwNDLayer
variable {K : Type} [TorchScalar K]

theorem segIndex_nonneg (L : PwNDLayer K) {d : ℕ} (_h : 0 < L.segments.getD d 0) (x : K) : 0 ≤ L.segIndex d x := by
  unfold segIndex clampInt; omega

theorem segIndex_lt (L : PwNDLayer K) {d : ℕ} (_h : 0 < L.segments.getD d 0) (x : K) :
    L.segIndex d x < L.segments.getD d 0 := by
  unfold segIndex clampInt; omega

theorem box_getD (L : PwNDLayer K) (y : ℕ → K) {d : ℕ} (hd : d < L.segments.length) :
    (L.box y).getD d 0 = (L.segIndex d (y d)).toNat := by
  unfold box
  rw [List.getD_eq_getElem?_getD, List.getElem?_map, List.getElem?_range hd]
  rfl

theorem inShape_box (L : PwNDLayer K) (h : ∀ d < L.segments.length, 0 < L.segments.getD d 0) (y : ℕ → K) :
    InShape L.segments (L.box y) := by
  apply inShape_of_getD
  · simp [box]
  · intro d hd
    rw [L.box_getD y hd]
    have h1 := L.segIndex_nonneg (h d hd) (y d)
    have h2 := L.segIndex_lt (h d hd) (y d)
    omega

/-- Consistency of a constructed layer. -/
structure Good (L : PwNDLayer K) (ns segs : List ℕ) (I O : ℕ) (length : K) : Prop where
  hn : L.n = ns
  hsegs : L.segments = segs
  hdim : L.dimensions = segs.length
  hI : L.inFeatures = I
  hO : L.outFeatures = O
  hlen : L.length = length
  hb : BasisND.init (.list ns) length = .ok L.basis
  hw : L.w.shape = [I * O * (numel segs * numel ns)]

theorem forward_generic {L : PwNDLayer K} {ns segs : List ℕ} {I O : ℕ} {length : K} (g : L.Good ns segs I O length)
    (hS : ∀ d < segs.length, 0 < segs.getD d 0) (hlen : segs.length = ns.length) (h2 : 2 ≤ segs.length)
    {B : ℕ} (hB : 0 < B) (hI : 0 < I) (hO : 0 < O) {x : Tensor K} (hx : x.shape = [B, I, segs.length]) :
    L.forward x = .ok (Tensor.tab2 B O fun b _ =>
      sumL ((List.range (numel ns)).flatMap fun p => (List.range I).map fun q =>
        prodL ((List.range ns.length).map fun d => L.basis.factor p d
          (L.length * ((x.get [b, q, d] - L.eta d (L.segIndex d (x.get [b, q, d])))
            / (L.eta d (L.segIndex d (x.get [b, q, d]) + 1) - L.eta d (L.segIndex d (x.get [b, q, d])))) - L.half))
        * L.w.get [ravel segs (L.box fun d => x.get [b, q, d]) * numel ns + p])) := by
  have hbn : L.basis.n = ns := by
    have hb := g.hb
    unfold BasisND.init at hb
    by_cases hns : ns = []
    · rw [hns, List.length_nil] at hlen; omega
    · simp only [hns, if_false] at hb
      injection hb with hb
      rw [← hb]
  have hnum : 0 < numel segs := by
    have := ravel_lt (g.hsegs ▸ L.inShape_box (by rw [g.hsegs]; exact hS) fun _ => 0 : InShape segs _)
    omega
  unfold forward whichSegment
  rw [hx, g.hsegs]
  simp only [if_neg (show ¬ segs.length = 0 by omega), if_neg (show ¬ B * I = 0 by positivity),
    if_neg (show ¬ segs.length = 1 by omega), if_neg (show ¬ segs.length ≠ segs.length by simp)]
  change ((L.weightIndices (Tensor.tab3 B I segs.length fun b k d => L.segIndex d (x.get [b, k, d]))) >>= _) = _
  have hwi : L.weightIndices (Tensor.tab3 B I segs.length fun b k d => L.segIndex d (x.get [b, k, d]))
      = .ok (Tensor.tab3 B I (numel ns) fun b k j =>
        ((ravel segs (L.box fun d => x.get [b, k, d]) * numel ns + j : ℕ) : ℤ)) := by
    unfold weightIndices
    rw [Tensor.shape_tab3]
    simp only [g.hdim, lt_irrefl, if_false, wps, g.hn]
    congr 1
    apply tab3_congr
    intro b hb k hk j hj
    rw [Tensor.get_tab2 hb hk]
    have e : ((List.range segs.length).map fun d =>
        (Tensor.tab3 B I segs.length fun b k d => L.segIndex d (x.get [b, k, d])).get [b, k, d]
          * (numel (L.segments.drop (d + 1)) : ℤ)).sum
        = (ravel segs (L.box fun d => x.get [b, k, d]) : ℤ) := by
      unfold box
      rw [g.hsegs, ← ravel_eq_sum]
      congr 1
      apply List.map_congr_left
      intro d hd
      have hd' := List.mem_range.1 hd
      rw [Tensor.get_tab3 hb hk hd', Int.toNat_of_nonneg]
      exact L.segIndex_nonneg (by rw [g.hsegs]; exact hS d hd') _
    rw [e]
    push_cast
    rfl
  rw [hwi]
  change ((L.reshapeWeights (Tensor.tab3 B I (numel ns) _)) >>= _) = _
  have hbound : ∀ b k j, j < numel ns →
      ravel segs (L.box fun d => x.get [b, k, d]) * numel ns + j < I * O * (numel segs * numel ns) := by
    intro b k j hj
    have h1 := ravel_lt (g.hsegs ▸ L.inShape_box (by rw [g.hsegs]; exact hS) fun d => x.get [b, k, d] : InShape segs _)
    have h2 : ravel segs (L.box fun d => x.get [b, k, d]) * numel ns + j < numel segs * numel ns := by
      calc _ < ravel segs (L.box fun d => x.get [b, k, d]) * numel ns + numel ns := by omega
        _ = (ravel segs (L.box fun d => x.get [b, k, d]) + 1) * numel ns := by ring
        _ ≤ numel segs * numel ns := Nat.mul_le_mul_right _ h1
    have h3 : 1 ≤ I * O := Nat.mul_pos hI hO
    calc _ < numel segs * numel ns := h2
      _ = 1 * (numel segs * numel ns) := by ring
      _ ≤ _ := Nat.mul_le_mul_right _ h3
  have hnorm : ∀ m q : ℕ, q < m → PwLayer.normIndex m (q : ℤ) = some q := by
    intro m q hq
    unfold PwLayer.normIndex
    rw [if_pos ⟨by omega, by omega⟩]
    simp
  have hrw : L.reshapeWeights (Tensor.tab3 B I (numel ns) fun b k j =>
        ((ravel segs (L.box fun d => x.get [b, k, d]) * numel ns + j : ℕ) : ℤ))
      = .ok (Tensor.tab4 B I O (numel ns) fun b k _ j =>
        L.w.get [ravel segs (L.box fun d => x.get [b, k, d]) * numel ns + j]) := by
    unfold reshapeWeights
    rw [Tensor.shape_tab3, g.hw, g.hO]
    dsimp only
    rw [if_pos]
    · congr 1
      apply tab4_congr
      intro b hb k hk o _ j hj
      rw [Tensor.get_tab3 hb hk hj, hnorm _ _ (hbound b k j hj)]
      rfl
    · intro b hb k hk j hj
      rw [Tensor.get_tab3 hb hk hj, hnorm _ _ (hbound b k j hj)]
      rfl
  rw [hrw]
  change L.basis.interpolatePw _ _ = _
  unfold BasisND.interpolatePw BasisND.computeBasis
  have hxs : (L.xLocal x (Tensor.tab3 B I segs.length fun b k d => L.segIndex d (x.get [b, k, d]))).shape
      = [B, I, segs.length] := by unfold xLocal; rw [Tensor.shape_tabulate, hx]
  rw [hxs, hbn]
  simp only [if_neg (show ¬ segs.length < ns.length by omega)]
  simp only [bind, Except.bind]
  unfold einsumPwND
  rw [Tensor.shape_tab3, Tensor.shape_tab4]
  simp only [bcast_self]
  change Except.ok _ = _
  congr 1
  apply tab2_congr
  intro b hb o ho
  congr 1
  apply List.flatMap_congr
  intro p hp
  apply List.map_congr_left
  intro q hq
  have hp' := List.mem_range.1 hp
  have hq' := List.mem_range.1 hq
  rw [bidx_of_lt hp', bidx_of_lt hb, bidx_of_lt hq', Tensor.get_tab3 hp' hb hq', Tensor.get_tab4 hb hq' ho hp']
  congr 2
  apply List.map_congr_left
  intro d hd
  have hd' : d < segs.length := by have := List.mem_range.1 hd; omega
  congr 1
  unfold xLocal
  rw [Tensor.get_tabulate (by rw [hx]; exact ⟨hb, hq', hd', trivial⟩), Tensor.get_tab3 hb hq' hd']
  rfl

/-- The default constructor on lists. -/
theorem init_good (ns segs : List ℕ) (hns : ns ≠ []) (hlen : segs.length = ns.length) (I O : ℕ) (length : K)
    (rand : ℕ → ℕ → K) (wm : K) :
    ∃ L, init (.list ns) I O (.list segs) none length rand wm = .ok L ∧ L.Good ns segs I O length := by
  obtain ⟨b, hb⟩ : ∃ b : BasisND K, BasisND.init (.list ns) length = .ok b := by
    unfold BasisND.init; simp only [hns, if_false]; exact ⟨_, rfl⟩
  unfold init
  simp only [pwNDDims]
  change ∃ L, (do
    if ns.length ≠ segs.length then .error .valueError else
      let basis ← BasisND.init (.list ns) length
      _) = Except.ok L ∧ _
  rw [if_neg (by omega), hb]
  exact ⟨_, rfl, rfl, rfl, hlen.symm, rfl, rfl, rfl, hb, rfl⟩

theorem Good.box_eq {L : PwNDLayer ℝ} {ns segs : List ℕ} {I O : ℕ} (g : L.Good ns segs I O 2)
    (hS : ∀ d < segs.length, 0 < segs.getD d 0) {s : List ℕ} (hs : InShape segs s) {y : ℕ → ℝ}
    (hact : ∀ d < segs.length, IsActive (segs.getD d 0) (s.getD d 0) (y d)) : L.box y = s := by
  obtain ⟨hl, -⟩ := inShape_getD hs
  apply List.ext_getElem
  · simp [box, g.hsegs, hl]
  · intro d h1 h2
    have hd : d < segs.length := by omega
    have e := L.box_getD y (d := d) (by rw [g.hsegs]; exact hd)
    rw [List.getD_eq_getElem?_getD, List.getElem?_eq_getElem h1] at e
    have hs' : s.getD d 0 = s[d] := by rw [List.getD_eq_getElem?_getD, List.getElem?_eq_getElem h2]; rfl
    have h3 := PwLayer.isActive_segIndex (⟨.continuous, 2, segs.getD d 0, 1, 1, 2, none, ⟨[], []⟩⟩ : PwLayer ℝ) (hS d hd) rfl (y d)
    have h4 : L.segIndex d (y d)
        = (⟨.continuous, 2, segs.getD d 0, 1, 1, 2, none, ⟨[], []⟩⟩ : PwLayer ℝ).segIndex (y d) := by
      unfold segIndex PwLayer.segIndex half PwLayer.half
      rw [g.hsegs, g.hlen]
    rw [← h4] at h3
    have h5 := isActive_unique h3 (hact d hd)
    rw [hs'] at h5
    exact e.trans h5

theorem Good.local_eq {L : PwNDLayer ℝ} {ns segs : List ℕ} {I O : ℕ} (g : L.Good ns segs I O 2)
    (hS : ∀ d < segs.length, 0 < segs.getD d 0) {d : ℕ} (hd : d < segs.length) {y : ℕ → ℝ} :
    L.length * ((y d - L.eta d (L.segIndex d (y d)))
        / (L.eta d (L.segIndex d (y d) + 1) - L.eta d (L.segIndex d (y d)))) - L.half
      = localCoord (segs.getD d 0) ((L.box y).getD d 0) (y d) := by
  have h := PwLayer.xLocal_real (⟨.continuous, 2, segs.getD d 0, 1, 1, 2, none, ⟨[], []⟩⟩ : PwLayer ℝ) (hS d hd) rfl (y d)
    ((L.box y).getD d 0)
  rw [← h, L.box_getD y (by rw [g.hsegs]; exact hd), Int.toNat_of_nonneg (L.segIndex_nonneg (by rw [g.hsegs]; exact hS d hd) _)]
  unfold PwLayer.xLocal PwLayer.eta eta half PwLayer.half
  rw [g.hsegs, g.hlen]

end PwNDLayer

end HOL
