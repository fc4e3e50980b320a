import Verif.Model.ConvGradient
import Verif.Lemmas.Flat
import Verif.Lemmas.ConvReal

/-! # Lemmas on the gradients of convolutional layers -/

namespace HOL
open TorchScalar Spec Filter Topology

theorem sumL_cons (a : ℝ) (l : List ℝ) : sumL (a :: l) = a + sumL l := List.sum_cons
theorem sumL_nil : sumL ([] : List ℝ) = 0 := List.sum_nil

/-! ## convolutions -/

/-- The entries read are inside the image. -/
def TermsIn (S : List ℕ) (l : List ConvTerm) : Prop := ∀ t ∈ l, ∀ idx, t.1 = some idx → InShape S idx

theorem terms_deriv (S : List ℕ) (w : List ℕ → ℝ) (X : Fin (numel S) → ℝ) : ∀ l : List ConvTerm, TermsIn S l →
    ∃ A : (Fin (numel S) → ℝ) →L[ℝ] ℝ, HasFDerivAt (fun Y => sumL (l.map fun t => t.1.elim 0 (ofVec S Y).get * w t.2)) A X ∧
      ∀ p : Fin (numel S), A (Pi.single p 1) = sumL ((l.filter fun t => t.1 == some (unravel S p)).map fun t => w t.2)
  | [], _ => ⟨0, hasFDerivAt_const _ _, fun p => rfl⟩
  | (o, i) :: l, h => by
    obtain ⟨A, h1, h2⟩ := terms_deriv S w X l fun t ht => h t (List.mem_cons_of_mem _ ht)
    cases o with
    | none =>
      refine ⟨A, ?_, fun p => ?_⟩
      · refine h1.congr_of_eventuallyEq (Eventually.of_forall fun Y => ?_)
        beta_reduce
        rw [List.map_cons, sumL_cons]
        show (0 : ℝ) * _ + _ = _
        rw [zero_mul, zero_add]
      · rw [h2 p, List.filter_cons_of_neg (by simp)]
    | some idx =>
      have hin : InShape S idx := h _ List.mem_cons_self idx rfl
      refine ⟨w i • ContinuousLinearMap.proj (R := ℝ) (φ := fun _ : Fin (numel S) => ℝ) (flatPos S idx hin) + A, ?_, fun p => ?_⟩
      · refine HasFDerivAt.congr_of_eventuallyEq (f := fun Y => w i * Y (flatPos S idx hin) + sumL (l.map fun t => t.1.elim 0 (ofVec S Y).get * w t.2)) ?_
          (Eventually.of_forall fun Y => ?_)
        · exact (HasFDerivAt.const_mul (ContinuousLinearMap.proj (R := ℝ) (φ := fun _ : Fin (numel S) => ℝ) (flatPos S idx hin)).hasFDerivAt (w i)).add h1
        · beta_reduce
          rw [List.map_cons, sumL_cons]
          show (ofVec S Y).get idx * w i + _ = _
          rw [ofVec_get Y hin, mul_comm]
      · rw [_root_.add_apply, pick_apply, h2 p]
        by_cases e : idx = unravel S p
        · rw [if_pos ((flatPos_eq_iff hin p).2 e), List.filter_cons_of_pos (by simp [e]), List.map_cons, sumL_cons]
        · rw [if_neg fun e' => e ((flatPos_eq_iff hin p).1 e'), zero_add, List.filter_cons_of_neg (by simpa using e)]

/-- A convolution given by its products. -/
noncomputable def termsFn (S T : List ℕ) (terms : List ℕ → List ConvTerm) (w : Tensor ℝ) (Y : Fin (numel S) → ℝ) : Fin (numel T) → ℝ :=
  fun m => sumL ((terms (unravel T m)).map fun t => t.1.elim 0 (ofVec S Y).get * w.get t.2)

theorem backprop_terms {f : Fwd ℝ} {S T : List ℕ} {terms : List ℕ → List ConvTerm} {w : Tensor ℝ} (run : ∀ Y, f (ofVec S Y) = .ok (ofVec T (termsFn S T terms w Y)))
    (hin : ∀ m, InShape T m → TermsIn S (terms m)) (X : Fin (numel S) → ℝ) :
    Backprop f S T (termsFn S T terms w) X (fun g => .ok (convInputGrad terms w S g)) := by
  choose A h1 h2 using fun m : Fin (numel T) => terms_deriv S w.get X (terms (unravel T m)) (hin _ (inShape_unravel m.2))
  refine Backprop.of_deriv run A h1 fun g hg _ => ⟨_, rfl, rfl, Tensor.wf_tabulate _ _, fun p => ?_⟩
  unfold convInputGrad
  rw [Tensor.get_tabulate (inShape_unravel p.2), sumL_range, hg,
    ← Fin.sum_univ_eq_sum_range (fun q => g.get (unravel T q) * sumL (((terms (unravel T q)).filter fun t => t.1 == some (unravel S p)).map fun t => w.get t.2))]
  exact Finset.sum_congr rfl fun m _ => by rw [h2]

/-- A change of one weight. -/
theorem terms_set (x w : Tensor ℝ) (hw : w.WF) {idx : List ℕ} (hi : InShape w.shape idx) (t : ℝ) : ∀ l : List ConvTerm, (∀ s ∈ l, InShape w.shape s.2) →
    sumL (l.map fun s => s.1.elim 0 x.get * (w.set idx t).get s.2)
      = sumL (l.map fun s => s.1.elim 0 x.get * w.get s.2) + (t - w.get idx) * sumL ((l.filter fun s => s.2 == idx).map fun s => s.1.elim 0 x.get)
  | [], _ => by simp [sumL_nil]
  | s :: l, h => by
    have ih := terms_set x w hw hi t l fun s hs => h s (List.mem_cons_of_mem _ hs)
    rw [List.map_cons, List.map_cons, sumL_cons, sumL_cons, ih]
    by_cases e : s.2 = idx
    · rw [List.filter_cons_of_pos (by simp [e]), List.map_cons, sumL_cons, e, Tensor.get_set_self hw hi]
      ring
    · rw [List.filter_cons_of_neg (by simpa using e), Tensor.get_set_ne hi (h s List.mem_cons_self) (Ne.symm e)]
      ring

theorem termsFn_set (S T : List ℕ) (terms : List ℕ → List ConvTerm) (w : Tensor ℝ) (hw : w.WF) (hin : ∀ m, InShape T m → ∀ s ∈ terms m, InShape w.shape s.2)
    {idx : List ℕ} (hi : InShape w.shape idx) (t : ℝ) (Y : Fin (numel S) → ℝ) (m : Fin (numel T)) :
    termsFn S T terms (w.set idx t) Y m = termsFn S T terms w Y m
      + (t - w.get idx) * sumL (((terms (unravel T m)).filter fun s => s.2 == idx).map fun s => s.1.elim 0 (ofVec S Y).get) :=
  terms_set (ofVec S Y) w hw hi t _ (hin _ (inShape_unravel m.2))

theorem convWeightGrad_get (terms : List ℕ → List ConvTerm) (x : Tensor ℝ) {S T : List ℕ} {g : Tensor ℝ} (hg : g.shape = T) {idx : List ℕ} (hi : InShape S idx) :
    (convWeightGrad terms x S g).get idx
      = ∑ m : Fin (numel T), g.get (unravel T m) * sumL (((terms (unravel T m)).filter fun s => s.2 == idx).map fun s => s.1.elim 0 x.get) := by
  unfold convWeightGrad
  rw [Tensor.get_tabulate hi, sumL_range, hg,
    ← Fin.sum_univ_eq_sum_range (fun q => g.get (unravel T q) * sumL (((terms (unravel T q)).filter fun s => s.2 == idx).map fun s => s.1.elim 0 x.get))]

/-! ## expansions -/

/-- Points where the functions of the expansion are differentiable: not on a boundary between two segments. -/
def Expander.SmoothAt (e : Expander ℝ) (t : ℝ) : Prop :=
  match e with
  | .plain _ _ => True
  | .piecewise _ _ _ segments length => 0 < length ∧ ∀ q : ℕ, 0 < q → q < segments → t ≠ -(length / 2) + length * q / segments

theorem expandSegment_near (shared : Bool) (rank : Rank) {S : ℕ} (hS : 0 < S) {length t : ℝ} (hl : 0 < length)
    (ht : ∀ q : ℕ, 0 < q → q < S → t ≠ -(length / 2) + length * q / S) :
    ∀ᶠ y in 𝓝 t, expandSegment shared rank S length y = expandSegment shared rank S length t := by
  set L := expandTwin shared 1 S length with hL
  have hact : ∀ y, IsActive S (L.seg y) (2 * y / length) := fun y => L.isActive_seg_any hS hl rfl y
  have h2 := isActive_near (hact t) fun q hq0 hq => fun e => ht q hq0 hq ((PwLayer.boundary_iff hS hl _ q).1 e)
  have hcont : ContinuousAt (fun y : ℝ => 2 * y / length) t := by fun_prop
  have hseg : ∀ y, (L.seg y : ℤ) = expandSegment shared rank S length y := by
    intro y
    rw [expandSegment_twin shared rank (n := 1) hS]
    exact (L.whichSegment_eq_seg hS y).symm
  filter_upwards [hcont.eventually h2] with y hy
  rw [← hseg, ← hseg, isActive_unique (hact y) hy]

/-- `dval` is the derivative of the values. -/
theorem Expander.val_deriv (e : Expander ℝ) {r : Rank} (he : e.Fits r) {t : ℝ} (ht : e.SmoothAt t) (v : ℕ) : HasDerivAt (e.val v) (e.dval v t) t := by
  match e, he, ht with
  | .plain n basis, _, _ => exact basis_dcall basis t v
  | .piecewise shared rank n S length, ⟨_, hn, hS⟩, ⟨hl, ht⟩ =>
    have hnear := expandSegment_near shared rank hS hl ht
    generalize hid : expandSegment shared rank S length t = id at hnear
    have hloc : HasDerivAt (fun y : ℝ => expandLocal S length y id) (length / (expandEta S (id + 1) - expandEta S id)) t := by
      unfold expandLocal
      have := ((((hasDerivAt_id t).sub_const (expandEta S id : ℝ)).div_const (expandEta S (id + 1) - expandEta S id)).const_mul length).sub_const (1 / ((2 : ℕ) : ℝ) * length)
      rw [mul_one_div] at this
      exact this
    simp only [Expander.dval, hid]
    set base := id.toNat * (if shared then n - 1 else n) with hbase
    by_cases hc : base ≤ v ∧ v < base + n
    · rw [if_pos hc]
      refine ((basis_dcall (getLagrangeBasis n length) (expandLocal S length t id) (v - base)).comp t hloc).congr_of_eventuallyEq ?_
      filter_upwards [hnear] with y hy
      simp only [Expander.val, expandBase, hy]
      rw [if_pos hc]
      rfl
    · rw [if_neg hc]
      refine (hasDerivAt_const t (0 : ℝ)).congr_of_eventuallyEq ?_
      filter_upwards [hnear] with y hy
      simp only [Expander.val, expandBase, hy]
      rw [if_neg hc]

/-- The entry that the expanded entry comes from. -/
def sourceIdx (V : ℕ) : List ℕ → List ℕ
  | s :: q :: rest => s :: q / V :: rest
  | l => l

theorem sourceIdx_in {V B C : ℕ} {R idx : List ℕ} (hV : 0 < V) (h : InShape (B :: (C * V) :: R) idx) : InShape (B :: C :: R) (sourceIdx V idx) := by
  match idx, h with
  | s :: q :: rest, ⟨h1, h2, h3⟩ => exact ⟨h1, (Nat.div_lt_iff_lt_mul hV).2 h2, h3⟩

/-- The source as a position. -/
def sourcePos {V : ℕ} (hV : 0 < V) (B C : ℕ) (R : List ℕ) (m : Fin (numel (B :: (C * V) :: R))) : Fin (numel (B :: C :: R)) :=
  flatPos _ _ (sourceIdx_in hV (inShape_unravel m.2))

/-- The variable of an expanded entry. -/
def sourceVar {V : ℕ} (B C : ℕ) (R : List ℕ) (m : Fin (numel (B :: (C * V) :: R))) : ℕ := (unravel (B :: (C * V) :: R) m).getD 1 0 % V

theorem sourcePos_iff {V : ℕ} (hV : 0 < V) {B C : ℕ} {R : List ℕ} (m : Fin (numel (B :: (C * V) :: R))) (p : Fin (numel (B :: C :: R))) :
    sourcePos hV B C R m = p ↔ sourceIdx V (unravel (B :: (C * V) :: R) m) = unravel (B :: C :: R) p := flatPos_eq_iff _ p

/-- The expanded entries that come from `p` are the variables of its channel. -/
theorem sum_sources {V : ℕ} (hV : 0 < V) {B C : ℕ} {R : List ℕ} (p : Fin (numel (B :: C :: R))) {s c : ℕ} {rest : List ℕ} (hp : unravel (B :: C :: R) p = s :: c :: rest)
    (h : List ℕ → ℕ → ℝ) :
    (∑ m : Fin (numel (B :: (C * V) :: R)), if sourcePos hV B C R m = p then h (unravel (B :: (C * V) :: R) m) (sourceVar B C R m) else 0)
      = ∑ v ∈ Finset.range V, h (s :: (c * V + v) :: rest) v := by
  have hpin : InShape (B :: C :: R) (s :: c :: rest) := hp ▸ inShape_unravel p.2
  obtain ⟨hs, hc, hrest⟩ := hpin
  have hcv : ∀ v < V, c * V + v < C * V := by
    intro v hv
    have := Nat.mul_le_mul_right V (show c + 1 ≤ C from hc)
    rw [Nat.add_mul, Nat.one_mul] at this
    omega
  have hj : ∀ v : Fin V, InShape (B :: (C * V) :: R) (s :: (c * V + v) :: rest) := fun v => ⟨hs, hcv v v.2, hrest⟩
  have hsrc := fun m => sourcePos_iff (B := B) (C := C) (R := R) hV m p
  rw [hp] at hsrc
  rw [← Finset.sum_filter, ← Fin.sum_univ_eq_sum_range (fun v => h (s :: (c * V + v) :: rest) v)]
  have hun : ∀ v : Fin V, unravel (B :: (C * V) :: R) (flatPos _ _ (hj v)) = s :: (c * V + v) :: rest := fun v => unravel_ravel (hj v)
  have hback : ∀ m : Fin (numel (B :: (C * V) :: R)), sourcePos hV B C R m = p → s :: (c * V + sourceVar B C R m) :: rest = unravel (B :: (C * V) :: R) m := by
    intro m hm
    have h1 := (hsrc m).1 hm
    obtain ⟨s', q', rest', hm'⟩ : ∃ s' q' rest', unravel (B :: (C * V) :: R) m = s' :: q' :: rest' := ⟨_, _, _, rfl⟩
    have hvar : sourceVar B C R m = q' % V := by
      unfold sourceVar
      rw [hm']; rfl
    rw [hm'] at h1 ⊢
    injection h1 with h1 h2
    injection h2 with h2 h3
    rw [hvar, ← h1, ← h2, ← h3, Nat.div_add_mod']
  have hvarj : ∀ v : Fin V, sourceVar B C R (flatPos _ _ (hj v)) = v := by
    intro v
    unfold sourceVar
    rw [hun]
    exact (div_mod_channel v.2).2
  have hlt : ∀ m : Fin (numel (B :: (C * V) :: R)), sourceVar B C R m < V := fun m => Nat.mod_lt _ hV
  refine Finset.sum_nbij' (fun m => (⟨sourceVar B C R m, hlt m⟩ : Fin V)) (fun v => flatPos _ _ (hj v)) (fun m _ => Finset.mem_univ _) (fun v _ => ?_) (fun m hm => ?_) (fun v _ => ?_)
    (fun m hm => ?_)
  · rw [Finset.mem_filter]
    refine ⟨Finset.mem_univ _, (hsrc _).2 ?_⟩
    rw [hun]
    show s :: (c * V + v) / V :: rest = _
    rw [(div_mod_channel v.2).1]
  · exact (flatPos_eq_iff _ m).2 (hback m (Finset.mem_filter.1 hm).2)
  · exact Fin.ext (hvarj v)
  · show _ = h (s :: (c * V + sourceVar B C R m) :: rest) (sourceVar B C R m)
    rw [hback m (Finset.mem_filter.1 hm).2]

/-- `Expansion2d` and `Expansion1d` on vectors. -/
noncomputable def expandFn (e : Expander ℝ) (hV : 0 < e.variables) (B C : ℕ) (R : List ℕ) (Y : Fin (numel (B :: C :: R)) → ℝ) : Fin (numel (B :: (C * e.variables) :: R)) → ℝ :=
  fun m => e.val (sourceVar B C R m) (Y (sourcePos hV B C R m))

theorem backprop_expand {f : Fwd ℝ} (e : Expander ℝ) {r : Rank} (he : e.Fits r) (B C : ℕ) (R : List ℕ)
    (run : ∀ Y, f (ofVec (B :: C :: R) Y) = .ok (ofVec (B :: (C * e.variables) :: R) (expandFn e he.variables_pos B C R Y)))
    (X : Fin (numel (B :: C :: R)) → ℝ) (hX : ∀ p, e.SmoothAt (X p)) :
    Backprop f (B :: C :: R) (B :: (C * e.variables) :: R) (expandFn e he.variables_pos B C R) X (fun g => .ok (expansionGrad e (ofVec (B :: C :: R) X) g)) := by
  have hV := he.variables_pos
  refine Backprop.of_deriv run _ (pick_deriv (sourcePos hV B C R) (fun m => e.val (sourceVar B C R m)) (fun m => e.dval (sourceVar B C R m) (X (sourcePos hV B C R m))) X
    fun m => e.val_deriv he (hX _) _) fun g hg _ => ⟨_, rfl, rfl, Tensor.wf_tabulate _ _, fun p => ?_⟩
  obtain ⟨s, c, rest, hp⟩ : ∃ s c rest, unravel (B :: C :: R) p = s :: c :: rest := ⟨_, _, _, rfl⟩
  unfold expansionGrad
  rw [ofVec_shape, Tensor.get_tabulate (inShape_unravel p.2), ofVec_get_unravel, hp]
  dsimp only
  rw [sumL_range, ← sum_sources hV p hp fun idx v => g.get idx * e.dval v (X p)]
  refine Finset.sum_congr rfl fun m _ => ?_
  beta_reduce
  rw [pick_apply]
  split
  · rename_i h; rw [h]
  · rw [mul_zero]

/-! ## layers -/

namespace ConvLayer

/-- `self.expansion`. -/
def expandCall {K : Type} [TorchScalar K] (L : ConvLayer K) : Fwd K :=
  match L.kind with
  | .conv2d | .convTranspose2d => expansion2d L.expander
  | .conv1d => expansion1d L.expander

/-- `self.conv` with the weight `w`. -/
def convCall {K : Type} [TorchScalar K] (L : ConvLayer K) (w : Tensor K) : Fwd K :=
  match L.kind with
  | .conv2d => conv2d L.geometry w
  | .conv1d => conv1d L.geometry w
  | .convTranspose2d => convTranspose2d L.geometry w

theorem forward_stages {K : Type} [TorchScalar K] (L : ConvLayer K) (x : Tensor K) :
    L.forward x = (L.expandCall (x.map (periodize L.periodicity)) >>= fun e => L.convCall L.weight e >>= fun y => .ok (y.map (· * L.rescale))) := by
  unfold forward expandCall convCall
  cases L.kind <;> rfl

theorem expanded_call {K : Type} [TorchScalar K] (L : ConvLayer K) (x : Tensor K) : L.expanded x = L.expandCall (x.map (periodize L.periodicity)) := by
  unfold expanded expandCall
  cases L.kind <;> rfl

/-- The layer takes tensors of shape `S` to tensors of shape `T`. -/
def Takes (L : ConvLayer ℝ) (S T : List ℕ) : Prop :=
  L.weight.WF ∧ (∀ q, L.periodicity = some q → 0 < q) ∧
  match L.kind with
  | .conv2d => ∃ B C H W O oh ow, S = [B, C, H, W] ∧ T = [B, O, oh, ow] ∧ L.expander.Fits .two ∧
      L.weight.shape = [O, C * L.expander.variables, L.geometry.kernel, L.geometry.kernel] ∧ convSize L.geometry H = .ok oh ∧ convSize L.geometry W = .ok ow
  | .conv1d => ∃ B C H O oh, S = [B, C, H] ∧ T = [B, O, oh] ∧ L.expander.Fits .one ∧
      L.weight.shape = [O, C * L.expander.variables, L.geometry.kernel] ∧ convSize L.geometry H = .ok oh
  | .convTranspose2d => ∃ B C H W O oh ow, S = [B, C, H, W] ∧ T = [B, O, oh, ow] ∧ L.expander.Fits .two ∧
      L.weight.shape = [C * L.expander.variables, O, L.geometry.kernel, L.geometry.kernel] ∧ convTransposeSize L.geometry H = .ok oh ∧ convTransposeSize L.geometry W = .ok ow

/-- What a layer that takes `S` to `T` does in its stages. -/
structure Staged (L : ConvLayer ℝ) (B C : ℕ) (R T : List ℕ) (r : Rank) : Prop where
  fits : L.expander.Fits r
  expand : ∀ Y, L.expandCall (ofVec (B :: C :: R) Y) = .ok (ofVec (B :: (C * L.expander.variables) :: R) (expandFn L.expander fits.variables_pos B C R Y))
  conv : ∀ w : Tensor ℝ, w.shape = L.weight.shape → ∀ Z, L.convCall w (ofVec (B :: (C * L.expander.variables) :: R) Z)
    = .ok (ofVec T (termsFn (B :: (C * L.expander.variables) :: R) T (L.terms (B :: (C * L.expander.variables) :: R)) w Z))
  sites : ∀ m, InShape T m → TermsIn (B :: (C * L.expander.variables) :: R) (L.terms (B :: (C * L.expander.variables) :: R) m)
  weights : ∀ m, InShape T m → ∀ s ∈ L.terms (B :: (C * L.expander.variables) :: R) m, InShape L.weight.shape s.2

/-- The expansions in two and one dimensions. -/
theorem expandCall_ofVec (e : Expander ℝ) {r : Rank} (he : e.Fits r) (f : Fwd ℝ) (B C : ℕ) (R : List ℕ)
    (h : ∀ x : Tensor ℝ, x.WF → x.shape = B :: C :: R → ∃ T : Tensor ℝ, f x = .ok T ∧ T.shape = B :: (C * e.variables) :: R ∧ T.WF ∧
      ∀ s q rest, InShape (B :: (C * e.variables) :: R) (s :: q :: rest) → T.get (s :: q :: rest) = e.val (q % e.variables) (x.get (s :: q / e.variables :: rest)))
    (Y : Fin (numel (B :: C :: R)) → ℝ) :
    f (ofVec (B :: C :: R) Y) = .ok (ofVec (B :: (C * e.variables) :: R) (expandFn e he.variables_pos B C R Y)) := by
  obtain ⟨T, h1, h2, h3, h4⟩ := h _ (ofVec_wf _ Y) rfl
  rw [h1, eq_ofVec h2 h3]
  congr 2
  funext m
  have hin := inShape_unravel m.2
  have hsrc := sourceIdx_in he.variables_pos hin
  have e1 : (ofVec (B :: C :: R) Y).get (sourceIdx e.variables (unravel (B :: (C * e.variables) :: R) m)) = Y (sourcePos he.variables_pos B C R m) := ofVec_get Y hsrc
  unfold expandFn
  rw [← e1]
  exact h4 _ _ _ hin

theorem terms_map2 (tH tW : ℕ → ℕ → Option ℕ) (c k s i j : ℕ) (wi : ℕ → ℕ → ℕ → List ℕ) (x w : List ℕ → ℝ) :
    (((List.range c).flatMap fun q => (List.range k).flatMap fun d => (List.range k).map fun e =>
      ((tH i d).bind fun y => (tW j e).map fun z => [s, q, y, z], wi q d e) : List ConvTerm)).map (fun t => t.1.elim 0 x * w t.2)
    = (List.range c).flatMap fun q => (List.range k).flatMap fun d => (List.range k).map fun e =>
      ((tH i d).elim 0 fun y => (tW j e).elim 0 fun z => x [s, q, y, z]) * w (wi q d e) := by
  rw [List.map_flatMap]
  apply List.flatMap_congr
  intro q _
  rw [List.map_flatMap]
  apply List.flatMap_congr
  intro d _
  rw [List.map_map]
  apply List.map_congr_left
  intro e _
  show Option.elim (Option.bind _ _) _ _ * _ = _
  cases tH i d <;> cases tW j e <;> rfl

theorem terms_map1 (tH : ℕ → ℕ → Option ℕ) (c k s i : ℕ) (wi : ℕ → ℕ → List ℕ) (x w : List ℕ → ℝ) :
    (((List.range c).flatMap fun q => (List.range k).map fun d => ((tH i d).map fun y => [s, q, y], wi q d) : List ConvTerm)).map (fun t => t.1.elim 0 x * w t.2)
    = (List.range c).flatMap fun q => (List.range k).map fun d => ((tH i d).elim 0 fun y => x [s, q, y]) * w (wi q d) := by
  rw [List.map_flatMap]
  apply List.flatMap_congr
  intro q _
  rw [List.map_map]
  apply List.map_congr_left
  intro d _
  show Option.elim (Option.map _ _) _ _ * _ = _
  cases tH i d <;> rfl

theorem mem_terms2 {tH tW : ℕ → ℕ → Option ℕ} {c k s i j : ℕ} {wi : ℕ → ℕ → ℕ → List ℕ} {t : ConvTerm}
    (h : t ∈ (List.range c).flatMap fun q => (List.range k).flatMap fun d => (List.range k).map fun e =>
      ((tH i d).bind fun y => (tW j e).map fun z => [s, q, y, z], wi q d e)) :
    ∃ q < c, ∃ d < k, ∃ e < k, t = ((tH i d).bind fun y => (tW j e).map fun z => [s, q, y, z], wi q d e) := by
  obtain ⟨q, hq, h⟩ := List.mem_flatMap.1 h
  obtain ⟨d, hd, h⟩ := List.mem_flatMap.1 h
  obtain ⟨e, he, h⟩ := List.mem_map.1 h
  exact ⟨q, List.mem_range.1 hq, d, List.mem_range.1 hd, e, List.mem_range.1 he, h.symm⟩

theorem site2 {tH tW : Option ℕ} {s q H W B Q : ℕ} (hH : ∀ y, tH = some y → y < H) (hW : ∀ z, tW = some z → z < W) (hs : s < B) (hq : q < Q) {idx : List ℕ}
    (h : (tH.bind fun y => tW.map fun z => [s, q, y, z]) = some idx) : InShape [B, Q, H, W] idx := by
  cases hh : tH with
  | none => rw [hh] at h; exact absurd h (by simp)
  | some y =>
    cases hw : tW with
    | none => rw [hh, hw] at h; exact absurd h (by simp)
    | some z =>
      rw [hh, hw] at h
      have : [s, q, y, z] = idx := Option.some.inj h
      rw [← this]
      exact inShape4.2 ⟨hs, hq, hH y hh, hW z hw⟩

theorem staged (L : ConvLayer ℝ) {S T : List ℕ} (h : L.Takes S T) : ∃ B C R r, S = B :: C :: R ∧ L.Staged B C R T r := by
  obtain ⟨hww, -, h⟩ := h
  cases hk : L.kind with
  | conv2d =>
    rw [hk] at h
    obtain ⟨B, C, H, W, O, oh, ow, rfl, rfl, hf, hw, h1, h2⟩ := h
    have hterms : L.terms [B, C * L.expander.variables, H, W] = conv2dTerms L.geometry (C * L.expander.variables) H W := by
      unfold terms; rw [hk]
    refine ⟨B, C, [H, W], .two, rfl, hf, fun Y => ?_, fun w hw' Z => ?_, fun m hm => ?_, fun m hm => ?_⟩
    · have : L.expandCall = expansion2d L.expander := by unfold expandCall; rw [hk]
      rw [this]
      refine expandCall_ofVec L.expander hf _ B C [H, W] (fun x hx hs => ?_) Y
      obtain ⟨_, T, _, _, _, t1, t2, t3, t4⟩ := expansion2d_ok hf hx hs
      refine ⟨T, t1, t2, t3, fun s q rest hin => ?_⟩
      match rest, hin with
      | [y, z], ⟨hs', hq, hy, hz, _⟩ =>
        have hv := hf.variables_pos
        obtain ⟨e1, e2⟩ := t4 s hs' _ ((Nat.div_lt_iff_lt_mul hv).2 hq) _ (Nat.mod_lt q hv) y hy z hz
        rw [Nat.div_add_mod'] at e1
        rw [e1, e2]
    · have : L.convCall w = conv2d L.geometry w := by unfold convCall; rw [hk]
      rw [this, hterms]
      unfold conv2d
      rw [hw', hw]
      simp only [ofVec_shape, and_self, if_true, h1, h2, Bind.bind, Except.bind]
      rw [Tensor.tab4, tabulate_ofVec]
      congr 2
      funext m
      obtain ⟨s, r, i, j, hm⟩ : ∃ s r i j, unravel [B, O, oh, ow] m = [s, r, i, j] := ⟨_, _, _, _, rfl⟩
      unfold termsFn
      rw [hm]
      exact congrArg sumL (terms_map2 (tap L.geometry H) (tap L.geometry W) _ _ s i j _ _ _).symm
    · obtain ⟨s, r, i, j, rfl, hs, hr, hi, hj⟩ := inShape4_exists hm
      rw [hterms]
      intro t ht idx hidx
      obtain ⟨q, hq, d, hd, e, he, rfl⟩ := mem_terms2 ht
      exact site2 (fun y hy => tap_lt hy) (fun z hz => tap_lt hz) hs hq hidx
    · obtain ⟨s, r, i, j, rfl, hs, hr, hi, hj⟩ := inShape4_exists hm
      rw [hterms]
      intro t ht
      obtain ⟨q, hq, d, hd, e, he, rfl⟩ := mem_terms2 ht
      rw [hw]
      exact inShape4.2 ⟨hr, hq, hd, he⟩
  | convTranspose2d =>
    rw [hk] at h
    obtain ⟨B, C, H, W, O, oh, ow, rfl, rfl, hf, hw, h1, h2⟩ := h
    have hterms : L.terms [B, C * L.expander.variables, H, W] = convTransposeTerms L.geometry (C * L.expander.variables) H W := by
      unfold terms; rw [hk]
    refine ⟨B, C, [H, W], .two, rfl, hf, fun Y => ?_, fun w hw' Z => ?_, fun m hm => ?_, fun m hm => ?_⟩
    · have : L.expandCall = expansion2d L.expander := by unfold expandCall; rw [hk]
      rw [this]
      refine expandCall_ofVec L.expander hf _ B C [H, W] (fun x hx hs => ?_) Y
      obtain ⟨_, T, _, _, _, t1, t2, t3, t4⟩ := expansion2d_ok hf hx hs
      refine ⟨T, t1, t2, t3, fun s q rest hin => ?_⟩
      match rest, hin with
      | [y, z], ⟨hs', hq, hy, hz, _⟩ =>
        have hv := hf.variables_pos
        obtain ⟨e1, e2⟩ := t4 s hs' _ ((Nat.div_lt_iff_lt_mul hv).2 hq) _ (Nat.mod_lt q hv) y hy z hz
        rw [Nat.div_add_mod'] at e1
        rw [e1, e2]
    · have : L.convCall w = convTranspose2d L.geometry w := by unfold convCall; rw [hk]
      rw [this, hterms]
      unfold convTranspose2d
      rw [hw', hw]
      simp only [ofVec_shape, and_self, if_true, h1, h2, Bind.bind, Except.bind]
      rw [Tensor.tab4, tabulate_ofVec]
      congr 2
      funext m
      obtain ⟨s, r, i, j, hm⟩ : ∃ s r i j, unravel [B, O, oh, ow] m = [s, r, i, j] := ⟨_, _, _, _, rfl⟩
      unfold termsFn
      rw [hm]
      exact congrArg sumL (terms_map2 (tapTranspose L.geometry H) (tapTranspose L.geometry W) _ _ s i j _ _ _).symm
    · obtain ⟨s, r, i, j, rfl, hs, hr, hi, hj⟩ := inShape4_exists hm
      rw [hterms]
      intro t ht idx hidx
      obtain ⟨q, hq, d, hd, e, he, rfl⟩ := mem_terms2 ht
      exact site2 (fun y hy => tapTranspose_lt hy) (fun z hz => tapTranspose_lt hz) hs hq hidx
    · obtain ⟨s, r, i, j, rfl, hs, hr, hi, hj⟩ := inShape4_exists hm
      rw [hterms]
      intro t ht
      obtain ⟨q, hq, d, hd, e, he, rfl⟩ := mem_terms2 ht
      rw [hw]
      exact inShape4.2 ⟨hq, hr, hd, he⟩
  | conv1d =>
    rw [hk] at h
    obtain ⟨B, C, H, O, oh, rfl, rfl, hf, hw, h1⟩ := h
    have hterms : L.terms [B, C * L.expander.variables, H] = conv1dTerms L.geometry (C * L.expander.variables) H := by
      unfold terms; rw [hk]
    refine ⟨B, C, [H], .one, rfl, hf, fun Y => ?_, fun w hw' Z => ?_, fun m hm => ?_, fun m hm => ?_⟩
    · have : L.expandCall = expansion1d L.expander := by unfold expandCall; rw [hk]
      rw [this]
      refine expandCall_ofVec L.expander hf _ B C [H] (fun x hx hs => ?_) Y
      obtain ⟨_, T, _, _, _, t1, t2, t3, t4⟩ := expansion1d_ok hf hx hs
      refine ⟨T, t1, t2, t3, fun s q rest hin => ?_⟩
      match rest, hin with
      | [y], ⟨hs', hq, hy, _⟩ =>
        have hv := hf.variables_pos
        obtain ⟨e1, e2⟩ := t4 s hs' _ ((Nat.div_lt_iff_lt_mul hv).2 hq) _ (Nat.mod_lt q hv) y hy
        rw [Nat.div_add_mod'] at e1
        rw [e1, e2]
    · have : L.convCall w = conv1d L.geometry w := by unfold convCall; rw [hk]
      rw [this, hterms]
      unfold conv1d
      rw [hw', hw]
      simp only [ofVec_shape, and_self, if_true, h1, Bind.bind, Except.bind]
      rw [Tensor.tab3, tabulate_ofVec]
      congr 2
      funext m
      obtain ⟨s, r, i, hm⟩ : ∃ s r i, unravel [B, O, oh] m = [s, r, i] := ⟨_, _, _, rfl⟩
      unfold termsFn
      rw [hm]
      exact congrArg sumL (terms_map1 (tap L.geometry H) _ _ s i _ _ _).symm
    · obtain ⟨s, r, i, rfl, hs, hr, hi⟩ := inShape3_exists hm
      rw [hterms]
      intro t ht idx hidx
      obtain ⟨q, hq, ht⟩ := List.mem_flatMap.1 ht
      obtain ⟨d, hd, rfl⟩ := List.mem_map.1 ht
      obtain ⟨y, hy, rfl⟩ := Option.map_eq_some_iff.1 hidx
      exact inShape3.2 ⟨hs, List.mem_range.1 hq, tap_lt hy⟩
    · obtain ⟨s, r, i, rfl, hs, hr, hi⟩ := inShape3_exists hm
      rw [hterms]
      intro t ht
      obtain ⟨q, hq, ht⟩ := List.mem_flatMap.1 ht
      obtain ⟨d, hd, rfl⟩ := List.mem_map.1 ht
      rw [hw]
      exact inShape3.2 ⟨hr, List.mem_range.1 hq, List.mem_range.1 hd⟩

/-- Inputs at which the layer is differentiable whatever its weights. -/
def SmoothAt (L : ConvLayer ℝ) (v : ℝ) : Prop := OffTurns L.periodicity v ∧ L.expander.SmoothAt (periodize L.periodicity v)

/-- The function a layer computes, on vectors. -/
noncomputable def vecFn (L : ConvLayer ℝ) {B C : ℕ} {R T : List ℕ} {r : Rank} (h : L.Staged B C R T r) (w : Tensor ℝ) (Y : Fin (numel (B :: C :: R)) → ℝ) : Fin (numel T) → ℝ :=
  fun m => termsFn (B :: (C * L.expander.variables) :: R) T (L.terms (B :: (C * L.expander.variables) :: R)) w
    (expandFn L.expander h.fits.variables_pos B C R fun p => periodize L.periodicity (Y p)) m * L.rescale

theorem forward_vec (L : ConvLayer ℝ) {B C : ℕ} {R T : List ℕ} {r : Rank} (h : L.Staged B C R T r) (w : Tensor ℝ) (hw : w.shape = L.weight.shape) (Y : Fin (numel (B :: C :: R)) → ℝ) :
    ({ L with weight := w } : ConvLayer ℝ).forward (ofVec (B :: C :: R) Y) = .ok (ofVec T (L.vecFn h w Y)) := by
  rw [forward_stages]
  show (L.expandCall ((ofVec (B :: C :: R) Y).map (periodize L.periodicity)) >>= fun e => L.convCall w e >>= fun y => .ok (y.map (· * L.rescale))) = _
  rw [map_ofVec, h.expand]
  show (L.convCall w _ >>= fun y => .ok (y.map (· * L.rescale))) = _
  rw [h.conv w hw]
  show Except.ok (Tensor.map _ _) = _
  rw [map_ofVec]
  rfl

/-- The gradient of the input. -/
theorem backprop (L : ConvLayer ℝ) {B C : ℕ} {R T : List ℕ} {r : Rank} (h : L.Staged B C R T r) (hp : ∀ q, L.periodicity = some q → 0 < q)
    (X : Fin (numel (B :: C :: R)) → ℝ) (hX : ∀ p, L.SmoothAt (X p)) :
    Backprop L.forward (B :: C :: R) T (L.vecFn h L.weight) X (L.inputGrad (ofVec (B :: C :: R) X)) := by
  have s1 := backprop_map (B :: C :: R) (periodize L.periodicity) (periodizeGrad L.periodicity) X fun p => periodize_deriv hp (hX p).1
  have s2 := backprop_expand L.expander h.fits B C R h.expand (fun p => periodize L.periodicity (X p)) fun p => (hX p).2
  have s3 := backprop_terms (h.conv L.weight rfl) h.sites (expandFn L.expander h.fits.variables_pos B C R fun p => periodize L.periodicity (X p))
  have s4 := backprop_map T (· * L.rescale) (fun _ => L.rescale) (termsFn (B :: (C * L.expander.variables) :: R) T (L.terms (B :: (C * L.expander.variables) :: R)) L.weight
    (expandFn L.expander h.fits.variables_pos B C R fun p => periodize L.periodicity (X p))) fun p => by
      have := (hasDerivAt_id (termsFn (B :: (C * L.expander.variables) :: R) T (L.terms (B :: (C * L.expander.variables) :: R)) L.weight
        (expandFn L.expander h.fits.variables_pos B C R fun p => periodize L.periodicity (X p)) p)).mul_const L.rescale
      rwa [one_mul] at this
  refine (s1.comp (s2.comp (s3.comp s4))).congr (fun Y => ?_) fun g hg hgw => ?_
  · rw [forward_stages]
    rfl
  · unfold inputGrad
    rw [expanded_call, map_ofVec, h.expand]
    show Except.ok _ = _
    have hmap : g.map (· * L.rescale) = Tensor.tabulate T fun idx => g.get idx * L.rescale := by
      refine Tensor.ext_get (Tensor.wf_map hgw _) (Tensor.wf_tabulate _ _) hg fun idx hin => ?_
      rw [Tensor.get_map hgw hin, Tensor.get_tabulate (hg ▸ hin)]
    rw [hmap]
    rfl

/-- The gradient of the weights. -/
theorem weight_deriv (L : ConvLayer ℝ) {B C : ℕ} {R T : List ℕ} {r : Rank} (h : L.Staged B C R T r) (hw : L.weight.WF) (X : Fin (numel (B :: C :: R)) → ℝ)
    {loss : (Fin (numel T) → ℝ) → ℝ} {D : (Fin (numel T) → ℝ) →L[ℝ] ℝ} {g : Tensor ℝ} (hD : HasFDerivAt loss D (L.vecFn h L.weight X)) (hg : GradVec T D g) :
    ∃ gw, L.weightGrad (ofVec (B :: C :: R) X) g = .ok gw ∧ gw.shape = L.weight.shape ∧ gw.WF ∧ ∀ idx, InShape L.weight.shape idx →
      HasDerivAt (fun t => loss (L.vecFn h (L.weight.set idx t) X)) (gw.get idx) (L.weight.get idx) := by
  refine ⟨convWeightGrad (L.terms (B :: (C * L.expander.variables) :: R))
    (ofVec (B :: (C * L.expander.variables) :: R) (expandFn L.expander h.fits.variables_pos B C R fun p => periodize L.periodicity (X p))) L.weight.shape (g.map (· * L.rescale)),
    ?_, ?_, ?_, fun idx hi => ?_⟩
  · unfold weightGrad
    rw [expanded_call, map_ofVec, h.expand]
    rfl
  · rfl
  · exact Tensor.wf_tabulate _ _
  · rw [convWeightGrad_get _ _ (show (g.map (· * L.rescale)).shape = T from hg.1) hi]
    have key := GradVec.affine hD hg (fun m => sumL (((L.terms (B :: (C * L.expander.variables) :: R) (unravel T m)).filter fun s => s.2 == idx).map fun s => s.1.elim 0
      (ofVec (B :: (C * L.expander.variables) :: R) (expandFn L.expander h.fits.variables_pos B C R fun p => periodize L.periodicity (X p))).get) * L.rescale) (L.weight.get idx)
      (fun t => L.vecFn h (L.weight.set idx t) X) fun t m => by
        unfold vecFn
        rw [termsFn_set _ _ _ _ hw h.weights hi]
        ring
    convert key using 1
    refine Finset.sum_congr rfl fun m _ => ?_
    rw [Tensor.get_map hg.2.1 (hg.1.symm ▸ inShape_unravel m.2)]
    ring

end ConvLayer

end HOL
