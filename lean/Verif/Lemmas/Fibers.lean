import Verif.Lemmas.Flat
import Verif.Lemmas.Norm
import Mathlib.Analysis.Calculus.Deriv.Abs
import Mathlib.Analysis.Calculus.FDeriv.Mul
import Mathlib.Analysis.Calculus.Deriv.Inv
import Mathlib.Analysis.SpecialFunctions.Sqrt

/-! # Functions applied along an axis, and the derivatives of the normalizations of one line of entries -/

namespace HOL
open TorchScalar Filter Topology

/-! ## lines along an axis -/

/-- Entry `q` of the line along axis `d` through `p`. -/
def lineAt {S : List ℕ} {d n : ℕ} (hn : S.getD d 0 = n) (p : Fin (numel S)) (q : Fin n) : Fin (numel S) :=
  flatPos S ((unravel S p).set d q) (inShape_set (inShape_unravel p.2) (by rw [hn]; exact q.2))

/-- Place of `p` on its line. -/
def placeOf {S : List ℕ} {d n : ℕ} (hn : S.getD d 0 = n) (hd : d < S.length) (p : Fin (numel S)) : Fin n :=
  ⟨(unravel S p).getD d 0, by have := getD_lt_of_inShape (inShape_unravel p.2) hd; rwa [hn] at this⟩

section
variable {S : List ℕ} {d n : ℕ} (hn : S.getD d 0 = n) (hd : d < S.length)

theorem unravel_lineAt (p : Fin (numel S)) (q : Fin n) : unravel S (lineAt hn p q) = (unravel S p).set d q :=
  unravel_ravel (inShape_set (inShape_unravel p.2) (by rw [hn]; exact q.2))

theorem lineAt_eq_iff (p m : Fin (numel S)) (q : Fin n) : lineAt hn p q = m ↔ (unravel S p).set d q = unravel S m := flatPos_eq_iff _ _

theorem lineAt_place (p : Fin (numel S)) : lineAt hn p (placeOf hn hd p) = p := by
  rw [lineAt_eq_iff]
  exact set_getD_self _ _

theorem place_lineAt (p : Fin (numel S)) (q : Fin n) : placeOf hn hd (lineAt hn p q) = q := by
  apply Fin.ext
  show (unravel S (lineAt hn p q)).getD d 0 = q
  rw [unravel_lineAt]
  have hl : d < (unravel S p).length := by rw [inShape_length (inShape_unravel p.2)]; exact hd
  rw [List.getD_eq_getElem?_getD, List.getElem?_set_self hl]
  rfl

theorem lineAt_lineAt (p : Fin (numel S)) (q r : Fin n) : lineAt hn (lineAt hn p q) r = lineAt hn p r := by
  rw [lineAt_eq_iff, unravel_lineAt, unravel_lineAt, List.set_set]

/-- The line of `Y` through `p`. -/
def lineOf (Y : Fin (numel S) → ℝ) (p : Fin (numel S)) : Fin n → ℝ := fun q => Y (lineAt hn p q)

theorem lineOf_lineAt (Y : Fin (numel S) → ℝ) (p : Fin (numel S)) (q : Fin n) : lineOf hn Y (lineAt hn p q) = lineOf hn Y p := by
  funext r
  show Y _ = Y _
  rw [lineAt_lineAt]

theorem slice_ofVec (Y : Fin (numel S) → ℝ) (p : Fin (numel S)) : slice (ofVec S Y) d (unravel S p) = List.ofFn (lineOf hn Y p) := by
  subst hn
  apply List.ext_getElem
  · simp [slice]
  · intro i h1 h2
    have hi : i < S.getD d 0 := by simpa [slice] using h1
    simp only [slice, List.getElem_map, List.getElem_range, List.getElem_ofFn, ofVec_shape]
    exact ofVec_get Y (inShape_set (inShape_unravel p.2) hi)

/-- A function applied to every line. `J v i j` is the derivative of entry `i` of the result by entry `j` of the line `v`. -/
theorem backprop_lines {f : Fwd ℝ} {Φ : (Fin n → ℝ) → Fin n → ℝ} (run : ∀ Y, f (ofVec S Y) = .ok (ofVec S fun p => Φ (lineOf hn Y p) (placeOf hn hd p)))
    (J : (Fin n → ℝ) → Fin n → Fin n → ℝ) (X : Fin (numel S) → ℝ)
    (hJ : ∀ p i, HasFDerivAt (fun v => Φ v i) (∑ j, J (lineOf hn X p) i j • ContinuousLinearMap.proj (R := ℝ) (φ := fun _ : Fin n => ℝ) j) (lineOf hn X p))
    {back : Tensor ℝ → Py (Tensor ℝ)} (hb : ∀ g : Tensor ℝ, g.shape = S → g.WF → ∃ gx, back g = .ok gx ∧ gx.shape = S ∧ gx.WF ∧
      ∀ p : Fin (numel S), gx.get (unravel S p) = ∑ i : Fin n, g.get ((unravel S p).set d i) * J (lineOf hn X p) i (placeOf hn hd p)) :
    Backprop f S S (fun Y p => Φ (lineOf hn Y p) (placeOf hn hd p)) X back := by
  let Lm : Fin (numel S) → (Fin (numel S) → ℝ) →L[ℝ] (Fin n → ℝ) := fun m =>
    ContinuousLinearMap.pi fun q => ContinuousLinearMap.proj (R := ℝ) (φ := fun _ : Fin (numel S) => ℝ) (lineAt hn m q)
  refine Backprop.of_deriv run (fun m => (∑ j, J (lineOf hn X m) (placeOf hn hd m) j • ContinuousLinearMap.proj (R := ℝ) (φ := fun _ : Fin n => ℝ) j).comp (Lm m))
    (fun m => ?_) fun g hg hw => ?_
  · exact HasFDerivAt.comp (g := fun v => Φ v (placeOf hn hd m)) (f := fun Y => lineOf hn Y m) X (hJ m _) (Lm m).hasFDerivAt
  · obtain ⟨gx, h1, h2, h3, h4⟩ := hb g hg hw
    refine ⟨gx, h1, h2, h3, fun p => ?_⟩
    rw [h4]
    have happ : ∀ m, ((∑ j, J (lineOf hn X m) (placeOf hn hd m) j • ContinuousLinearMap.proj (R := ℝ) (φ := fun _ : Fin n => ℝ) j).comp (Lm m)) (Pi.single p 1)
        = ∑ j, J (lineOf hn X m) (placeOf hn hd m) j * (if lineAt hn m j = p then 1 else 0) := by
      intro m
      rw [ContinuousLinearMap.comp_apply, _root_.sum_apply]
      refine Finset.sum_congr rfl fun j _ => ?_
      show J _ _ j * (Pi.single p (1 : ℝ) : Fin (numel S) → ℝ) (lineAt hn m j) = _
      rw [Pi.single_apply]
    simp only [happ]
    refine Fintype.sum_of_injective (fun q => lineAt hn p q) (fun q r h => ?_) _ _ (fun m hm => ?_) fun q => ?_
    · have := congrArg (placeOf hn hd) h
      simpa only [place_lineAt] using this
    · rw [Finset.sum_eq_zero, mul_zero]
      intro j _
      rw [if_neg, mul_zero]
      rintro rfl
      apply hm
      exact ⟨placeOf hn hd m, by beta_reduce; rw [lineAt_lineAt, lineAt_place]⟩
    · beta_reduce
      rw [unravel_lineAt, lineOf_lineAt, place_lineAt, Finset.sum_eq_single (placeOf hn hd p)]
      · rw [lineAt_lineAt, lineAt_place, if_pos rfl, mul_one]
      · intro j _ hj
        rw [lineAt_lineAt, if_neg, mul_zero]
        intro h
        apply hj
        rw [← place_lineAt hn hd p j, h]
      · simp

end

/-! ## sums and extrema of lines -/

theorem sumL_ofFn {n : ℕ} (v : Fin n → ℝ) : sumL (List.ofFn v) = ∑ i, v i := List.sum_ofFn

theorem maxL_ofFn {n : ℕ} {u : Fin n → ℝ} {a : Fin n} (h : ∀ q, u q ≤ u a) : maxL (List.ofFn u) = u a := by
  have hne : List.ofFn u ≠ [] := by
    intro h0
    have hm : u a ∈ List.ofFn u := List.mem_ofFn.2 ⟨a, rfl⟩
    rw [h0] at hm
    cases hm
  refine (maxL_isGreatest hne).unique ⟨List.mem_ofFn.2 ⟨a, rfl⟩, fun v hv => ?_⟩
  obtain ⟨q, rfl⟩ := List.mem_ofFn.1 hv
  exact h q

theorem minL_ofFn {n : ℕ} {u : Fin n → ℝ} {a : Fin n} (h : ∀ q, u a ≤ u q) : minL (List.ofFn u) = u a := by
  have hne : List.ofFn u ≠ [] := by
    intro h0
    have hm : u a ∈ List.ofFn u := List.mem_ofFn.2 ⟨a, rfl⟩
    rw [h0] at hm
    cases hm
  refine (minL_isLeast hne).unique ⟨List.mem_ofFn.2 ⟨a, rfl⟩, fun v hv => ?_⟩
  obtain ⟨q, rfl⟩ := List.mem_ofFn.1 hv
  exact h q

theorem exists_max {n : ℕ} (hn : 0 < n) (u : Fin n → ℝ) : ∃ a, ∀ q, u q ≤ u a := by
  have : Nonempty (Fin n) := ⟨⟨0, hn⟩⟩
  exact Finite.exists_max u

theorem exists_min {n : ℕ} (hn : 0 < n) (u : Fin n → ℝ) : ∃ a, ∀ q, u a ≤ u q := by
  have : Nonempty (Fin n) := ⟨⟨0, hn⟩⟩
  exact Finite.exists_min u

/-- A strict maximum stays one nearby. -/
theorem eventually_max {E : Type*} [TopologicalSpace E] {n : ℕ} {u : E → Fin n → ℝ} {x : E} (hu : ∀ q, ContinuousAt (fun y => u y q) x) {a : Fin n}
    (h : ∀ q, q ≠ a → u x q < u x a) : ∀ᶠ y in 𝓝 x, maxL (List.ofFn (u y)) = u y a := by
  have h1 : ∀ᶠ y in 𝓝 x, ∀ q, q ≠ a → u y q < u y a := by
    refine eventually_all.2 fun q => ?_
    by_cases hq : q = a
    · exact Eventually.of_forall fun y h0 => absurd hq h0
    · filter_upwards [(hu q).eventually_lt (hu a) (h q hq)] with y hy _ using hy
  filter_upwards [h1] with y hy
  refine maxL_ofFn fun q => ?_
  by_cases hq : q = a
  · rw [hq]
  · exact (hy q hq).le

theorem eventually_min {E : Type*} [TopologicalSpace E] {n : ℕ} {u : E → Fin n → ℝ} {x : E} (hu : ∀ q, ContinuousAt (fun y => u y q) x) {a : Fin n}
    (h : ∀ q, q ≠ a → u x a < u x q) : ∀ᶠ y in 𝓝 x, minL (List.ofFn (u y)) = u y a := by
  have h1 : ∀ᶠ y in 𝓝 x, ∀ q, q ≠ a → u y a < u y q := by
    refine eventually_all.2 fun q => ?_
    by_cases hq : q = a
    · exact Eventually.of_forall fun y h0 => absurd hq h0
    · filter_upwards [(hu a).eventually_lt (hu q) (h q hq)] with y hy _ using hy
  filter_upwards [h1] with y hy
  refine minL_ofFn fun q => ?_
  by_cases hq : q = a
  · rw [hq]
  · exact (hy q hq).le

/-! ## derivatives -/

abbrev prj {n : ℕ} (j : Fin n) : (Fin n → ℝ) →L[ℝ] ℝ := ContinuousLinearMap.proj (R := ℝ) (φ := fun _ : Fin n => ℝ) j

theorem prj_deriv {n : ℕ} (j : Fin n) (v : Fin n → ℝ) : HasFDerivAt (fun w : Fin n → ℝ => w j) (prj j) v := (prj j).hasFDerivAt

theorem clm_ext {n : ℕ} {A B : (Fin n → ℝ) →L[ℝ] ℝ} (h : ∀ c, A c = B c) : A = B := ContinuousLinearMap.ext h

theorem sum_prj {n : ℕ} (k : Fin n → ℝ) (c : Fin n → ℝ) : (∑ j, k j • prj j) c = ∑ j, k j * c j := by
  rw [_root_.sum_apply]
  rfl

/-- A product with a linear factor that vanishes at the point needs no derivative of the other factor. -/
theorem mul_deriv_zero {n : ℕ} (A : (Fin n → ℝ) →L[ℝ] ℝ) {ψ : (Fin n → ℝ) → ℝ} {v : Fin n → ℝ} (hA : A v = 0) (hψ : ContinuousAt ψ v) :
    HasFDerivAt (fun w => A w * ψ w) (ψ v • A) v := by
  rw [hasFDerivAt_iff_isLittleO]
  have e : (fun w => A w * ψ w - A v * ψ v - (ψ v • A) (w - v)) = fun w => A (w - v) * (ψ w - ψ v) := by
    funext w
    show A w * ψ w - A v * ψ v - ψ v * A (w - v) = _
    rw [map_sub, hA]
    ring
  rw [e]
  have h1 : (fun w => A (w - v)) =O[𝓝 v] fun w => w - v := A.isBigO_sub (𝓝 v) v |>.congr_left fun w => by rw [map_sub, hA]
  have h2 : (fun w => ψ w - ψ v) =o[𝓝 v] fun _ => (1 : ℝ) := by
    rw [Asymptotics.isLittleO_one_iff]
    have := hψ.tendsto.sub_const (ψ v)
    rwa [sub_self] at this
  have := h1.norm_right.mul_isLittleO h2
  simp only [mul_one] at this
  exact this.of_norm_right

end HOL
