import Verif.Spec.TapLevels
import Verif.Model.StageTraining
import Verif.Props.LinkLevels
import Verif.Props.StepConvNet
import Verif.Props.ConvPadding

/-! # C134: gradient descent keeps the differences of the levels of the taps of convolutions -/

namespace HOL
open TorchScalar Spec

/-! ## which products a weight enters -/

/-- The pixel that position `pos` of the kernel reads for entry `m` of the output, in images of size `R`. -/
def ConvLayer.reach (L : ConvLayer ℝ) (R m pos : List ℕ) : Option (List ℕ) :=
  match L.kind, R, m, pos with
  | .conv2d, [h, v], [_, _, i, j], [d, e] => (tap L.geometry h i d).bind fun y => (tap L.geometry v j e).map fun z => [y, z]
  | .conv1d, [h], [_, _, i], [d] => (tap L.geometry h i d).map fun y => [y]
  | .convTranspose2d, [h, v], [_, _, i, j], [d, e] => (tapTranspose L.geometry h i d).bind fun y => (tapTranspose L.geometry v j e).map fun z => [y, z]
  | _, _, _, _ => none

theorem pick_sum {α : Type} (l : List α) (p : α → Bool) (f : α → ℝ) : sumL ((l.filter p).map f) = sumL (l.map fun t => if p t then f t else 0) := by
  show List.sum _ = List.sum _
  induction l with
  | nil => rfl
  | cons a l ih =>
    rw [List.filter_cons, List.map_cons, List.sum_cons, ← ih]
    by_cases h : p a
    · rw [if_pos h, if_pos h, List.map_cons, List.sum_cons]
    · rw [if_neg h, if_neg h, zero_add]

theorem picked2 {c k : ℕ} {src : ℕ → ℕ → ℕ → Option (List ℕ)} {wi : ℕ → ℕ → ℕ → List ℕ} {idx : List ℕ} {r o q0 d0 e0 : ℕ} (hwi : ∀ q d e, wi q d e = idx ↔ r = o ∧ q = q0 ∧ d = d0 ∧ e = e0) (hq : q0 < c)
    (hd : d0 < k) (he : e0 < k) (E : List ℕ → ℝ) :
    sumL ((((List.range c).flatMap fun q => (List.range k).flatMap fun d => (List.range k).map fun e => ((src q d e, wi q d e) : ConvTerm)).filter fun t => t.2 == idx).map fun t => t.1.elim 0 E)
      = if r = o then (src q0 d0 e0).elim 0 E else 0 := by
  rw [pick_sum, List.map_flatMap]
  simp only [List.map_flatMap, List.map_map]
  rw [show (fun q => (List.range k).flatMap fun d => List.map ((fun t : ConvTerm => if (t.2 == idx) = true then t.1.elim 0 E else 0) ∘ fun e => (src q d e, wi q d e)) (List.range k))
    = fun q => (List.range k).flatMap fun d => (List.range k).map fun e => if wi q d e = idx then (src q d e).elim 0 E else 0 from by
      funext q
      refine List.flatMap_congr fun d _ => List.map_congr_left fun e _ => ?_
      show (if (wi q d e == idx) = true then _ else _) = _
      simp only [beq_iff_eq]]
  rw [sumL_flatMap_range3]
  simp only [hwi]
  by_cases hr : r = o
  · rw [if_pos hr, Finset.sum_eq_single q0, Finset.sum_eq_single d0, Finset.sum_eq_single e0, if_pos ⟨hr, rfl, rfl, rfl⟩]
    · exact fun e _ hne => if_neg fun h => hne h.2.2.2
    · exact fun h => absurd (Finset.mem_range.2 he) h
    · exact fun d _ hne => Finset.sum_eq_zero fun e _ => if_neg fun h => hne h.2.2.1
    · exact fun h => absurd (Finset.mem_range.2 hd) h
    · exact fun q _ hne => Finset.sum_eq_zero fun d _ => Finset.sum_eq_zero fun e _ => if_neg fun h => hne h.2.1
    · exact fun h => absurd (Finset.mem_range.2 hq) h
  · rw [if_neg hr]
    exact Finset.sum_eq_zero fun q _ => Finset.sum_eq_zero fun d _ => Finset.sum_eq_zero fun e _ => if_neg fun h => hr h.1

theorem picked1 {c k : ℕ} {src : ℕ → ℕ → Option (List ℕ)} {wi : ℕ → ℕ → List ℕ} {idx : List ℕ} {r o q0 d0 : ℕ} (hwi : ∀ q d, wi q d = idx ↔ r = o ∧ q = q0 ∧ d = d0) (hq : q0 < c) (hd : d0 < k) (E : List ℕ → ℝ) :
    sumL ((((List.range c).flatMap fun q => (List.range k).map fun d => ((src q d, wi q d) : ConvTerm)).filter fun t => t.2 == idx).map fun t => t.1.elim 0 E) = if r = o then (src q0 d0).elim 0 E else 0 := by
  rw [pick_sum, List.map_flatMap]
  simp only [List.map_map]
  rw [show (fun q => List.map ((fun t : ConvTerm => if (t.2 == idx) = true then t.1.elim 0 E else 0) ∘ fun d => (src q d, wi q d)) (List.range k))
    = fun q => (List.range k).map fun d => if wi q d = idx then (src q d).elim 0 E else 0 from by
      funext q
      refine List.map_congr_left fun d _ => ?_
      show (if (wi q d == idx) = true then _ else _) = _
      simp only [beq_iff_eq]]
  rw [sumL_flatMap_range]
  simp only [hwi]
  by_cases hr : r = o
  · rw [if_pos hr, Finset.sum_eq_single q0, Finset.sum_eq_single d0, if_pos ⟨hr, rfl, rfl⟩]
    · exact fun d _ hne => if_neg fun h => hne h.2.2
    · exact fun h => absurd (Finset.mem_range.2 hd) h
    · exact fun q _ hne => Finset.sum_eq_zero fun d _ => if_neg fun h => hne h.2.1
    · exact fun h => absurd (Finset.mem_range.2 hq) h
  · rw [if_neg hr]
    exact Finset.sum_eq_zero fun q _ => Finset.sum_eq_zero fun d _ => if_neg fun h => hr h.1

theorem elim_bind (tH tW : Option ℕ) (s q : ℕ) (E : List ℕ → ℝ) :
    (tH.bind fun y => tW.map fun z => [s, q, y, z]).elim 0 E = (tH.bind fun y => tW.map fun z => [y, z]).elim 0 fun yz => E (s :: q :: yz) := by
  cases tH <;> cases tW <;> rfl

theorem tap_some {g : Geometry} {N v i d : ℕ} (h : convSize g N = .ok v) (hi : i < v) (hd : d < g.kernel) (hp : g.padding = 0) : (tap g N i d).isSome := by
  have := (offset_lt h hi hd).1
  unfold tap
  rw [hp] at this ⊢
  rw [if_pos ⟨Nat.zero_le _, (by simpa using this)⟩]
  rfl

/-- The one product of entry `m` of the output that a weight enters, if any. -/
theorem ConvLayer.picked (L : ConvLayer ℝ) {B C : ℕ} {R T : List ℕ} (h : L.Takes (B :: C :: R) T) {m : List ℕ} (hm : InShape T m) {o q : ℕ} {pos : List ℕ} (hidx : InShape L.weight.shape (L.weightIdx o q pos)) (E : List ℕ → ℝ) :
    (sumL (((L.terms (B :: (C * L.expander.variables) :: R) m).filter fun t => t.2 == L.weightIdx o q pos).map fun t => t.1.elim 0 E)
      = if m.getD 1 0 = o then (L.reach R m pos).elim 0 fun yz => E (m.getD 0 0 :: q :: yz) else 0) ∧
    q < C * L.expander.variables ∧ m.getD 0 0 < B ∧ (∀ yz, L.reach R m pos = some yz → InShape R yz) ∧ (L.kind ≠ .convTranspose2d → L.geometry.padding = 0 → (L.reach R m pos).isSome) := by
  obtain ⟨-, -, h⟩ := h
  cases hk : L.kind with
  | conv2d =>
    rw [hk] at h
    obtain ⟨B', C', H, W, O, oh, ow, hS, rfl, hf, hw, h1, h2⟩ := h
    injection hS with e1 hS
    injection hS with e2 hS
    subst e1 e2 hS
    obtain ⟨s, r, i, j, rfl, hs, hr, hi, hj⟩ := inShape4_exists hm
    unfold weightIdx at hidx ⊢
    rw [hk, hw] at hidx
    simp only [hk]
    match pos, hidx with
    | [d, e], hidx =>
      obtain ⟨ho, hq, hd, he⟩ := inShape4.1 hidx
      unfold terms reach
      simp only [hk]
      refine ⟨?_, hq, hs, ?_, fun _ hp => ?_⟩
      · rw [← elim_bind]
        exact picked2 (wi := fun q d e => [r, q, d, e]) (fun q' d' e' => by simp) hq hd he E
      · intro yz hyz
        simp only [Option.bind_eq_some_iff, Option.map_eq_some_iff] at hyz
        obtain ⟨y, hy, z, hz, rfl⟩ := hyz
        exact inShape2.2 ⟨tap_lt hy, tap_lt hz⟩
      · obtain ⟨y, hy⟩ := Option.isSome_iff_exists.1 (tap_some h1 hi hd hp)
        obtain ⟨z, hz⟩ := Option.isSome_iff_exists.1 (tap_some h2 hj he hp)
        rw [hy, hz]
        rfl
    | [], hidx => exact absurd hidx (by simp [InShape])
    | [_], hidx => exact absurd hidx (by simp [InShape])
    | _ :: _ :: _ :: _, hidx => exact absurd hidx (by simp [InShape])
  | conv1d =>
    rw [hk] at h
    obtain ⟨B', C', H, O, oh, hS, rfl, hf, hw, h1⟩ := h
    injection hS with e1 hS
    injection hS with e2 hS
    subst e1 e2 hS
    obtain ⟨s, r, i, rfl, hs, hr, hi⟩ := inShape3_exists hm
    unfold weightIdx at hidx ⊢
    rw [hk, hw] at hidx
    simp only [hk]
    match pos, hidx with
    | [d], hidx =>
      obtain ⟨ho, hq, hd⟩ := inShape3.1 hidx
      unfold terms reach
      simp only [hk]
      refine ⟨?_, hq, hs, ?_, fun _ hp => ?_⟩
      · refine (picked1 (r := r) (o := o) (q0 := q) (d0 := d) (src := fun q d => (tap L.geometry H i d).map fun y => [s, q, y]) (wi := fun q d => [r, q, d]) (fun q' d' => by simp) hq hd E).trans ?_
        congr 1
        cases tap L.geometry H i d <;> rfl
      · intro yz hyz
        simp only [Option.map_eq_some_iff] at hyz
        obtain ⟨y, hy, rfl⟩ := hyz
        exact ⟨tap_lt hy, trivial⟩
      · obtain ⟨y, hy⟩ := Option.isSome_iff_exists.1 (tap_some h1 hi hd hp)
        rw [hy]
        rfl
    | [], hidx => exact absurd hidx (by simp [InShape])
    | _ :: _ :: _, hidx => exact absurd hidx (by simp [InShape])
  | convTranspose2d =>
    rw [hk] at h
    obtain ⟨B', C', H, W, O, oh, ow, hS, rfl, hf, hw, h1, h2⟩ := h
    injection hS with e1 hS
    injection hS with e2 hS
    subst e1 e2 hS
    obtain ⟨s, r, i, j, rfl, hs, hr, hi, hj⟩ := inShape4_exists hm
    unfold weightIdx at hidx ⊢
    rw [hk, hw] at hidx
    simp only [hk]
    match pos, hidx with
    | [d, e], hidx =>
      obtain ⟨hq, ho, hd, he⟩ := inShape4.1 hidx
      unfold terms reach
      simp only [hk]
      refine ⟨?_, hq, hs, ?_, fun hn => absurd rfl hn⟩
      · rw [← elim_bind]
        exact picked2 (wi := fun q d e => [q, r, d, e]) (fun q' d' e' => by simp; tauto) hq hd he E
      · intro yz hyz
        simp only [Option.bind_eq_some_iff, Option.map_eq_some_iff] at hyz
        obtain ⟨y, hy, z, hz, rfl⟩ := hyz
        exact inShape2.2 ⟨tapTranspose_lt hy, tapTranspose_lt hz⟩
    | [], hidx => exact absurd hidx (by simp [InShape])
    | [_], hidx => exact absurd hidx (by simp [InShape])
    | _ :: _ :: _ :: _, hidx => exact absurd hidx (by simp [InShape])

/-! ## gradients -/

/-- The variables of a level sum to the same number at every pixel value. -/
theorem levelVariables_sum {e : Expander ℝ} {r : Rank} (hf : e.Fits r) (hk : e.Known) : ∃ κ : ℝ, κ ≠ 0 ∧ ∀ t, ∑ v ∈ e.levelVariables, e.val v t = κ := by
  cases e with
  | plain n basis =>
    rcases hk with ⟨length, hl, rfl⟩ | ⟨length, rfl⟩
    · have hv : (Expander.plain n (getLagrangeBasis n length)).levelVariables = Finset.range n := by
        unfold Expander.levelVariables getLagrangeBasis
        split <;> first | rfl | (rename_i he; split at he <;> cases he)
      exact ⟨1, one_ne_zero, fun t => (by rw [hv]; exact sum_basis_one hf hl t)⟩
    · refine ⟨1 / ((2 : ℕ) : ℝ), (by norm_num), fun t => ?_⟩
      show ∑ v ∈ {0}, (BasisFn.fourier length).call t v = _
      rw [Finset.sum_singleton]
      show (1 / ((2 : ℕ) : ℝ)) + 0 * _ = _
      ring
  | piecewise shared rank n segments length => exact ⟨1, one_ne_zero, fun t => val_sum_one shared rank hf.2.1 hf.2.2 hk t⟩

theorem levelVariables_lt {e : Expander ℝ} {r : Rank} (hf : e.Fits r) {v : ℕ} (hv : v ∈ e.levelVariables) : v < e.variables := by
  have h0 := hf.variables_pos
  unfold Expander.levelVariables at hv
  split at hv
  · rw [Finset.mem_singleton.1 hv]
    exact h0
  · exact Finset.mem_range.1 hv

/-- What the weights of a link are multiplied by, summed over the link, in entry `m` of the output. -/
theorem ConvLayer.level_terms (L : ConvLayer ℝ) {B C : ℕ} {R T : List ℕ} {r : Rank} (h : L.Takes (B :: C :: R) T) (hst : L.Staged B C R T r) {κ : ℝ} (hκ : ∀ t, ∑ v ∈ L.expander.levelVariables, L.expander.val v t = κ) (x : Tensor ℝ)
    {E : Tensor ℝ} (hE : E = ofVec (B :: (C * L.expander.variables) :: R) (expandFn L.expander hst.fits.variables_pos B C R fun p => periodize L.periodicity (x.get (unravel (B :: C :: R) p)))) {o c : ℕ} {pos : List ℕ} (hpos : L.IsTap o c pos)
    {m : List ℕ} (hm : InShape T m) :
    ∑ v ∈ L.expander.levelVariables, sumL (((L.terms (B :: (C * L.expander.variables) :: R) m).filter fun t => t.2 == L.weightIdx o (c * L.expander.variables + v) pos).map fun t => t.1.elim 0 E.get)
      = if m.getD 1 0 = o then (if (L.reach R m pos).isSome then κ else 0) else 0 := by
  have hV := hst.fits.variables_pos
  have hval : ∀ s q yz, InShape (B :: (C * L.expander.variables) :: R) (s :: q :: yz) → E.get (s :: q :: yz) = L.expander.val (q % L.expander.variables) (periodize L.periodicity (x.get (s :: q / L.expander.variables :: yz))) := by
    intro s q yz hin
    rw [hE, ofVec_get _ hin]
    have hvar : sourceVar (V := L.expander.variables) B C R (flatPos _ _ hin) = q % L.expander.variables := by
      unfold sourceVar
      show (unravel _ (ravel _ (s :: q :: yz))).getD 1 0 % _ = _
      rw [unravel_ravel hin]
      rfl
    have hpos : unravel (B :: C :: R) (sourcePos hV B C R (flatPos _ _ hin)) = s :: q / L.expander.variables :: yz := by
      have := (sourcePos_iff hV (flatPos _ _ hin) (sourcePos hV B C R (flatPos _ _ hin))).1 rfl
      rw [← this]
      show sourceIdx _ (unravel _ (ravel _ _)) = _
      rw [unravel_ravel hin]
      rfl
    unfold expandFn
    rw [hvar]
    beta_reduce
    rw [hpos]
  rw [Finset.sum_congr rfl fun v hv => (L.picked h hm (hpos v (levelVariables_lt hst.fits hv)) E.get).1]
  by_cases ho : m.getD 1 0 = o
  swap
  · simp only [if_neg ho, Finset.sum_const_zero]
  simp only [if_pos ho]
  cases hr : L.reach R m pos with
  | none => simp
  | some yz =>
    rw [if_pos (show (some yz).isSome = true from rfl)]
    show ∑ v ∈ _, E.get _ = κ
    obtain ⟨-, -, hB, hyz, -⟩ := L.picked h hm (hpos 0 hV) E.get
    rw [Finset.sum_congr rfl fun v hv => hval _ _ _ ⟨hB, (L.picked h hm (hpos v (levelVariables_lt hst.fits hv)) E.get).2.1, hyz yz hr⟩]
    rw [← hκ (periodize L.periodicity (x.get (m.getD 0 0 :: c :: yz)))]
    refine Finset.sum_congr rfl fun v hv => ?_
    have hlt := levelVariables_lt hst.fits hv
    rw [show (c * L.expander.variables + v) % L.expander.variables = v by rw [Nat.mul_comm, Nat.mul_add_mod, Nat.mod_eq_of_lt hlt],
      show (c * L.expander.variables + v) / L.expander.variables = c by rw [Nat.mul_comm, Nat.mul_add_div hV, Nat.div_eq_of_lt hlt, Nat.add_zero]]

/-- The gradient of the level of a tap: over all outputs of the channel for which the tap reads a pixel and not the padding. -/
theorem ConvLayer.tap_gradient (L : ConvLayer ℝ) {B C : ℕ} {R T : List ℕ} (h : L.Takes (B :: C :: R) T) (hk : L.expander.Known) {x g : Tensor ℝ} (hx : x.shape = B :: C :: R) (hwx : x.WF) (hg : g.shape = T) :
    ∃ gw, L.weightGrad x g = .ok gw ∧ gw.shape = L.weight.shape ∧ ∃ κ : ℝ, κ ≠ 0 ∧ ∀ o c pos, L.IsTap o c pos →
      tapLevel L gw o c pos = ∑ m : Fin (numel T), (g.map (· * L.rescale)).get (unravel T m) * if (unravel T m).getD 1 0 = o then (if (L.reach R (unravel T m) pos).isSome then κ else 0) else 0 := by
  obtain ⟨B', C', R', r, hS, hst⟩ := L.staged h
  injection hS with e1 hS
  injection hS with e2 hS
  subst e1 e2 hS
  obtain ⟨κ, h0, hκ⟩ := levelVariables_sum hst.fits hk
  set E := ofVec (B :: (C * L.expander.variables) :: R) (expandFn L.expander hst.fits.variables_pos B C R fun p => periodize L.periodicity (x.get (unravel (B :: C :: R) p))) with hE
  refine ⟨convWeightGrad (L.terms (B :: (C * L.expander.variables) :: R)) E L.weight.shape (g.map (· * L.rescale)), ?_, rfl, κ, h0, fun o c pos hpos => ?_⟩
  · unfold ConvLayer.weightGrad
    rw [eq_ofVec hx hwx, ConvLayer.expanded_call, map_ofVec, hst.expand]
    rfl
  unfold tapLevel
  rw [Finset.sum_congr rfl fun v hv => convWeightGrad_get _ _ (show (g.map (· * L.rescale)).shape = T from hg) (hpos v (levelVariables_lt hst.fits hv)), Finset.sum_comm]
  refine Finset.sum_congr rfl fun m _ => ?_
  rw [← Finset.mul_sum]
  congr 1
  exact L.level_terms h hst hκ x hE hpos (inShape_unravel m.2)

/-- Taps whose levels have the same gradient: at the same position of the kernel; without padding at any position, except for transposed convolutions. -/
def Spec.ReadAlike (L : ConvLayer ℝ) (pos pos' : List ℕ) : Prop := pos' = pos ∨ L.kind ≠ .convTranspose2d ∧ L.geometry.padding = 0

/-- **C134 (gradients).** The gradients of the weights of a link of a convolution, summed over the link, are the same for all input channels at a position of the kernel, whatever the pixels; without padding also for all positions. -/
theorem C134_gradient (L : ConvLayer ℝ) {S T : List ℕ} (h : L.Takes S T) (hk : L.expander.Known) {x g : Tensor ℝ} (hx : x.shape = S) (hwx : x.WF) (hg : g.shape = T) :
    ∃ gw, L.weightGrad x g = .ok gw ∧ gw.shape = L.weight.shape ∧ ∀ o c c' pos pos', L.IsTap o c pos → L.IsTap o c' pos' → ReadAlike L pos pos' → tapLevel L gw o c pos = tapLevel L gw o c' pos' := by
  obtain ⟨B, C, R, r, rfl, hst⟩ := L.staged h
  obtain ⟨gw, h1, h2, κ, -, h3⟩ := L.tap_gradient h hk hx hwx hg
  refine ⟨gw, h1, h2, fun o c c' pos pos' hp hp' hr => ?_⟩
  rw [h3 o c pos hp, h3 o c' pos' hp']
  rcases hr with rfl | ⟨hr1, hr2⟩
  · rfl
  · refine Finset.sum_congr rfl fun m _ => ?_
    rw [if_pos ((L.picked h (inShape_unravel m.2) (hp 0 hst.fits.variables_pos) fun _ => 0).2.2.2.2 hr1 hr2), if_pos ((L.picked h (inShape_unravel m.2) (hp' 0 hst.fits.variables_pos) fun _ => 0).2.2.2.2 hr1 hr2)]

/-! ## networks -/

theorem rowsGrad_shape {back : Tensor ℝ → Tensor ℝ → Tensor ℝ} {x g : Tensor ℝ} {B : ℕ} {R : List ℕ} (hx : x.shape = B :: R) : (rowsGrad back x g).shape = x.shape := by
  unfold rowsGrad
  rw [hx]
  rfl

theorem layer_inputGrad_shape (l : GLayer ℝ) {B I O : ℕ} (hf : l.Fits I O) {x : Tensor ℝ} (hx : x.shape = [B, I]) (g : Tensor ℝ) : (l.inputGrad x g).shape = [B, I] := by
  match l, hf with
  | .pw L, hf => show (L.inputGrad x g).shape = _; unfold PwLayer.inputGrad; rw [hx]; rfl
  | .fn L, hf => show (L.inputGrad x g).shape = _; unfold FnLayer.inputGrad; rw [hx]; rfl
  | .product L, hf => show (L.inputGrad x g).shape = _; unfold ProductLayer.inputGrad; rw [hx]; rfl
  | .linear w b, hf => show (linearInputGrad w x g).shape = _; unfold linearInputGrad; rw [hx, hf.1]; rfl
  | .relu, hf => show (reluGrad x g).shape = _; unfold reluGrad; exact hx

/-- The gradient of the input of a module has the shape of the input. -/
theorem stage_inputGrad_shape (P : Picks ℝ) {s : NStage ℝ} {S T : List ℕ} (h : s.Takes S T) {x g gx : Tensor ℝ} (hx : x.shape = S) (hgx : s.inputGrad P x g = .ok gx) : gx.shape = S := by
  cases s with
  | norm N =>
    obtain ⟨rfl, hN⟩ := h
    obtain rfl := Except.ok.inj hgx
    rw [← hx]
    cases N with
    | maxCenterND eps =>
      obtain ⟨B, R, rfl, -⟩ := hN
      exact rowsGrad_shape hx
    | maxAbsND eps =>
      obtain ⟨B, R, rfl, -⟩ := hN
      exact rowsGrad_shape hx
    | _ => rfl
  | base s =>
    cases s with
    | conv L =>
      change (L.expanded x >>= _) = _ at hgx
      cases he : L.expanded x with
      | error e => rw [he] at hgx; cases hgx
      | ok e =>
        rw [he] at hgx
        obtain rfl := Except.ok.inj hgx
        exact hx
    | norm two training channels N =>
      obtain rfl := Except.ok.inj hgx
      exact hx
    | pool d =>
      obtain rfl := Except.ok.inj hgx
      exact hx
    | flatten =>
      obtain rfl := Except.ok.inj hgx
      exact hx
    | dense l =>
      obtain ⟨B, I, O, rfl, rfl, hl⟩ := h
      obtain rfl := Except.ok.inj hgx
      exact layer_inputGrad_shape l hl hx g

/-- In a backward pass, the gradient of a convolution is that of its weight for an input that fits and a gradient of the shape of its output. -/
theorem stageBackward_conv (P : Picks ℝ) : ∀ (ss : List (NStage ℝ)) {S T : List ℕ}, StagesTake ss S T → ∀ {x y g : Tensor ℝ} {r : Tensor ℝ × List (List (Tensor ℝ))}, x.shape = S → x.WF → stageForward ss x = .ok y → g.shape = y.shape →
    stageBackward P ss x g = .ok r → y.shape = T ∧ r.1.shape = S ∧ ∀ k L, ss[k]? = some (.base (.conv L)) → ∃ S' T' x' g' gw, L.Takes S' T' ∧ x'.shape = S' ∧ x'.WF ∧ g'.shape = T' ∧ L.weightGrad x' g' = .ok gw ∧ r.2.getD k [] = [gw]
  | [], S, T, h, x, y, g, r, hx, hwx, hy, hg, hr => by
    obtain rfl := Except.ok.inj hr
    obtain rfl := Except.ok.inj hy
    obtain rfl : S = T := h
    exact ⟨hx, hg.trans hx, fun k L hk => by cases hk⟩
  | s :: ss, S, T, ⟨M, h1, h2⟩, x, y, g, r, hx, hwx, hy, hg, hr => by
    change (s.forward x >>= stageForward ss) = _ at hy
    change (s.forward x >>= fun u => stageBackward P ss u g >>= fun t => s.inputGrad P x t.1 >>= fun gx => s.paramGrads x t.1 >>= fun gp => .ok (gx, gp :: t.2)) = _ at hr
    cases hu : s.forward x with
    | error e => rw [hu] at hr; cases hr
    | ok u =>
      rw [hu] at hr hy
      change stageForward ss u = _ at hy
      change (stageBackward P ss u g >>= fun t => s.inputGrad P x t.1 >>= fun gx => s.paramGrads x t.1 >>= fun gp => .ok (gx, gp :: t.2)) = _ at hr
      obtain ⟨u1, u2⟩ := stage_shape h1 hx hwx hu
      cases ht : stageBackward P ss u g with
      | error e => rw [ht] at hr; cases hr
      | ok t =>
        rw [ht] at hr
        change (s.inputGrad P x t.1 >>= fun gx => s.paramGrads x t.1 >>= fun gp => .ok (gx, gp :: t.2)) = _ at hr
        obtain ⟨i1, i2, i3⟩ := stageBackward_conv P ss h2 u1 u2 hy hg ht
        cases hgx : s.inputGrad P x t.1 with
        | error e => rw [hgx] at hr; cases hr
        | ok gx =>
          rw [hgx] at hr
          change (s.paramGrads x t.1 >>= fun gp => .ok (gx, gp :: t.2)) = _ at hr
          cases hgp : s.paramGrads x t.1 with
          | error e => rw [hgp] at hr; cases hr
          | ok gp =>
            rw [hgp] at hr
            obtain rfl := Except.ok.inj hr
            refine ⟨i1, stage_inputGrad_shape P h1 hx hgx, fun k L hk => ?_⟩
            match k with
            | 0 =>
              obtain rfl := Option.some.inj hk
              change (L.weightGrad x t.1 >>= fun w => .ok [w]) = _ at hgp
              cases hw : L.weightGrad x t.1 with
              | error e => rw [hw] at hgp; cases hgp
              | ok gw =>
                rw [hw] at hgp
                obtain rfl := Except.ok.inj hgp
                exact ⟨S, M, x, t.1, gw, h1, hx, hwx, i2, hw, rfl⟩
            | k + 1 => exact i3 k L hk

/-- What training does not change of a convolution: everything but the weights, and of these the differences of levels. -/
def Spec.KeepsLevels (L L' : ConvLayer ℝ) : Prop := (∃ w, L' = { L with weight := w } ∧ w.shape = L.weight.shape ∧ w.WF) ∧
  ∀ o c c' pos pos', L.IsTap o c pos → L.IsTap o c' pos' → ReadAlike L pos pos' → tapLevel L' L'.weight o c pos - tapLevel L' L'.weight o c' pos' = tapLevel L L.weight o c pos - tapLevel L L.weight o c' pos'

theorem Spec.KeepsLevels.refl {L : ConvLayer ℝ} (hw : L.weight.WF) : KeepsLevels L L := ⟨⟨L.weight, rfl, rfl, hw⟩, fun _ _ _ _ _ _ _ _ => rfl⟩

theorem Spec.KeepsLevels.trans {L L' L'' : ConvLayer ℝ} (h : KeepsLevels L L') (h' : KeepsLevels L' L'') : KeepsLevels L L'' := by
  obtain ⟨⟨w, rfl, hs, hw⟩, h⟩ := h
  obtain ⟨⟨w', rfl, hs', hw'⟩, h'⟩ := h'
  refine ⟨⟨w', rfl, hs'.trans hs, hw'⟩, fun o c c' pos pos' hp hp' hr => ?_⟩
  have conv : ∀ {o c pos}, L.IsTap o c pos → ({ L with weight := w } : ConvLayer ℝ).IsTap o c pos := fun hp v hv => by
    have := hp v hv
    rw [← hs] at this
    exact this
  exact (h' o c c' pos pos' (conv hp) (conv hp') hr).trans (h o c c' pos pos' hp hp' hr)

/-- **C134 (steps).** One step of gradient descent after a backward pass through a network of convolutions, normalizations, pooling and fully connected layers, with a gradient `g` of the outputs. -/
theorem C134_step (P : Picks ℝ) {ss : List (NStage ℝ)} {S T : List ℕ} (h : StagesTake ss S T) {x y g : Tensor ℝ} {r : Tensor ℝ × List (List (Tensor ℝ))} (hx : x.shape = S) (hwx : x.WF) (hy : stageForward ss x = .ok y)
    (hg : g.shape = y.shape) (hr : stageBackward P ss x g = .ok r) (trained : List ℕ) (lr : ℝ) {k : ℕ} {L : ConvLayer ℝ} (hk : ss[k]? = some (.base (.conv L))) (hkn : L.expander.Known) :
    ∃ L', (stageSgd trained lr r.2 ss)[k]? = some (.base (.conv L')) ∧ KeepsLevels L L' := by
  obtain ⟨-, -, hall⟩ := stageBackward_conv P ss h hx hwx hy hg hr
  obtain ⟨S', T', x', g', gw, t1, t2, t3, t4, t5, t6⟩ := hall k L hk
  unfold stageSgd
  rw [List.getElem?_mapIdx, hk]
  by_cases ht : k ∈ trained
  swap
  · exact ⟨L, congrArg some (if_neg ht), KeepsLevels.refl t1.1⟩
  refine ⟨{ L with weight := sgdParam lr L.weight (some gw) }, ?_, ⟨_, rfl, rfl, Tensor.wf_tabulate _ _⟩, fun o c c' pos pos' hp hp' hra => ?_⟩
  · show some (if k ∈ trained then _ else _) = _
    rw [if_pos ht, t6]
    rfl
  obtain ⟨gw', u1, u2, u3⟩ := C134_gradient L t1 hkn t2 t3 t4
  obtain rfl := Except.ok.inj (u1.symm.trans t5)
  obtain ⟨B, C, R, r, -, hst⟩ := L.staged t1
  have key : ∀ {c pos}, L.IsTap o c pos → tapLevel { L with weight := sgdParam lr L.weight (some gw') } (sgdParam lr L.weight (some gw')) o c pos = tapLevel L L.weight o c pos - lr * tapLevel L gw' o c pos := by
    intro c pos hp
    unfold tapLevel
    rw [Finset.mul_sum, ← Finset.sum_sub_distrib]
    refine Finset.sum_congr rfl fun v hv => ?_
    exact Tensor.get_tabulate (hp v (levelVariables_lt hst.fits hv))
  show tapLevel _ (sgdParam lr L.weight (some gw')) o c pos - tapLevel _ (sgdParam lr L.weight (some gw')) o c' pos' = _
  rw [key hp, key hp', u3 o c c' pos pos' hp hp' hra]
  ring

/-- A step does not change the shapes. -/
theorem stage_sgd_takes {s : NStage ℝ} {S T : List ℕ} (h : s.Takes S T) (lr : ℝ) (grad : ℕ → Option (Tensor ℝ)) : (s.sgd lr grad).Takes S T := by
  cases s with
  | norm N =>
    obtain ⟨rfl, hN⟩ := h
    refine ⟨rfl, ?_⟩
    cases N with
    | layerNorm M =>
      obtain ⟨n, w, h1, h2, h3, h4, h5, h6⟩ := hN
      refine ⟨n, sgdParam lr w (grad 0), h1, h2, ?_, (sgdParam_shape _ _ _).trans h4, sgdParam_wf h5 _, fun b hb => ?_⟩
      · show Option.map _ M.weight = _
        rw [h3]
        rfl
      · obtain ⟨b', hb', rfl⟩ := Option.map_eq_some_iff.1 (show Option.map _ M.bias = some b from hb)
        exact ⟨(sgdParam_shape _ _ _).trans (h6 b' hb').1, sgdParam_wf (h6 b' hb').2 _⟩
    | _ => exact hN
  | base s =>
    cases s with
    | conv L =>
      obtain ⟨h1, h2, h3⟩ := h
      refine ⟨sgdParam_wf h1 _, h2, ?_⟩
      show match L.kind with | .conv2d => _ | .conv1d => _ | .convTranspose2d => _
      have hs := sgdParam_shape lr L.weight (grad 0)
      cases hk : L.kind with
      | conv2d =>
        rw [hk] at h3
        obtain ⟨B, C, H, W, O, oh, ow, a1, a2, a3, a4, a5⟩ := h3
        exact ⟨B, C, H, W, O, oh, ow, a1, a2, a3, hs.trans a4, a5⟩
      | conv1d =>
        rw [hk] at h3
        obtain ⟨B, C, H, O, oh, a1, a2, a3, a4, a5⟩ := h3
        exact ⟨B, C, H, O, oh, a1, a2, a3, hs.trans a4, a5⟩
      | convTranspose2d =>
        rw [hk] at h3
        obtain ⟨B, C, H, W, O, oh, ow, a1, a2, a3, a4, a5⟩ := h3
        exact ⟨B, C, H, W, O, oh, ow, a1, a2, a3, hs.trans a4, a5⟩
    | norm two training channels N => exact h
    | pool d => exact h
    | flatten => exact h
    | dense l =>
      obtain ⟨B, I, O, h1, h2, h3⟩ := h
      exact ⟨B, I, O, h1, h2, GLayer.sgd_fits h3 lr grad⟩

theorem mapIdx_takes {f : ℕ → NStage ℝ → NStage ℝ} (hf : ∀ k s S T, s.Takes S T → (f k s).Takes S T) : ∀ {ss : List (NStage ℝ)} {S T : List ℕ}, StagesTake ss S T → ∀ n, StagesTake (ss.mapIdx fun k => f (k + n)) S T
  | [], S, T, h, n => h
  | s :: ss, S, T, ⟨M, h1, h2⟩, n => by
    rw [List.mapIdx_cons]
    refine ⟨M, hf _ _ _ _ h1, ?_⟩
    have := mapIdx_takes hf h2 (n + 1)
    simpa only [Nat.add_assoc, Nat.add_comm 1 n] using this

theorem stageSgd_takes {ss : List (NStage ℝ)} {S T : List ℕ} (h : StagesTake ss S T) (trained : List ℕ) (lr : ℝ) (gps : List (List (Tensor ℝ))) : StagesTake (stageSgd trained lr gps ss) S T := by
  refine mapIdx_takes (f := fun k s => if k ∈ trained then s.sgd lr (fun j => (gps.getD k [])[j]?) else s) (fun k s S T hs => ?_) h 0
  split
  · exact stage_sgd_takes hs _ _
  · exact hs

/-- **C134 (training).** Whatever the other modules, the images (of any sizes the network takes), the losses and the learning rates: training by gradient descent never changes the differences of the levels of the links to an output channel of a
convolution, at one position of the kernel; without padding, at any two. -/
theorem C134_training (P : Picks ℝ) (trained : List ℕ) {k : ℕ} : ∀ {bs : List (Batch ℝ)} {ss ss' : List (NStage ℝ)} {L : ConvLayer ℝ},
    (∀ b ∈ bs, b.x.WF ∧ (∃ T, StagesTake ss b.x.shape T) ∧ ∀ y, (b.lossGrad y).shape = y.shape) → ss[k]? = some (.base (.conv L)) → L.expander.Known → L.weight.WF → stageTrain P trained ss bs = .ok ss' →
      ∃ L', ss'[k]? = some (.base (.conv L')) ∧ KeepsLevels L L' := by
  intro bs
  induction bs with
  | nil =>
    intro ss ss' L _ hk _ hw ht
    obtain rfl := Except.ok.inj ht
    exact ⟨L, hk, KeepsLevels.refl hw⟩
  | cons b bs ih =>
    intro ss ss' L h hk hkn hw ht
    change (stageTrainStep P trained ss b >>= fun ss => stageTrain P trained ss bs) = _ at ht
    unfold stageTrainStep at ht
    cases hy : stageForward ss b.x with
    | error e => rw [hy] at ht; cases ht
    | ok y =>
      rw [hy] at ht
      change ((stageBackward P ss b.x (b.lossGrad y) >>= fun r => .ok (stageSgd trained b.lr r.2 ss)) >>= fun ss => stageTrain P trained ss bs) = _ at ht
      cases hr : stageBackward P ss b.x (b.lossGrad y) with
      | error e => rw [hr] at ht; cases ht
      | ok r =>
        rw [hr] at ht
        change stageTrain P trained (stageSgd trained b.lr r.2 ss) bs = _ at ht
        obtain ⟨hwx, ⟨T, hT⟩, hl⟩ := h b List.mem_cons_self
        obtain ⟨L1, hk1, hkeep⟩ := C134_step P hT rfl hwx hy (hl y) hr trained b.lr hk hkn
        have hkeep' := hkeep
        obtain ⟨⟨w, rfl, hs, hw1⟩, -⟩ := hkeep'
        obtain ⟨L2, hk2, hkeep2⟩ := ih (fun b' hb' => by
          obtain ⟨a1, ⟨T', a2⟩, a3⟩ := h b' (List.mem_cons_of_mem _ hb')
          exact ⟨a1, ⟨T', stageSgd_takes a2 trained b.lr r.2⟩, a3⟩) hk1 hkn hw1 ht
        exact ⟨L2, hk2, hkeep.trans hkeep2⟩

end HOL
