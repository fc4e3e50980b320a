import Verif.Props.Approx
import Verif.Props.NetworkInit
import Mathlib.Topology.ContinuousMap.StoneWeierstrass
import Mathlib.LinearAlgebra.Finsupp.LinearCombination
import Mathlib.Algebra.Algebra.Subalgebra.Lattice

/-! # Sums of exponentials of linear functions, and networks with chosen weights -/

namespace HOL
open Polynomial Spec TorchScalar

/-! ## density -/

/-- The cube `[-1, 1]^d`. -/
abbrev Cube (d : ℕ) : Set (Fin d → ℝ) := Set.Icc (fun _ => -1) (fun _ => 1)

/-- `x ↦ exp (a · x)` on the cube. -/
noncomputable def expLin {d : ℕ} (a : Fin d → ℝ) : C(Cube d, ℝ) where
  toFun x := Real.exp (∑ i, a i * x.1 i)
  continuous_toFun := Real.continuous_exp.comp (continuous_finsetSum _ fun i _ => continuous_const.mul ((continuous_apply i).comp continuous_subtype_val))

theorem expLin_apply {d : ℕ} (a : Fin d → ℝ) (x : Cube d) : expLin a x = Real.exp (∑ i, a i * x.1 i) := rfl

/-- These functions are closed under products. -/
noncomputable def expMonoid (d : ℕ) : Submonoid C(Cube d, ℝ) where
  carrier := Set.range expLin
  one_mem' := ⟨0, by ext x; simp [expLin_apply]⟩
  mul_mem' := by
    rintro _ _ ⟨a, rfl⟩ ⟨b, rfl⟩
    refine ⟨a + b, ?_⟩
    ext x
    simp only [expLin_apply, ContinuousMap.mul_apply, Pi.add_apply, add_mul, Finset.sum_add_distrib, Real.exp_add]

theorem exp_dense {d : ℕ} (f : (Fin d → ℝ) → ℝ) (hf : ContinuousOn f (Cube d)) {ε : ℝ} (hε : 0 < ε) :
    ∃ c : (Fin d → ℝ) →₀ ℝ, ∀ x ∈ Cube d, |(c.sum fun a r => r * Real.exp (∑ i, a i * x i)) - f x| < ε := by
  have hcomp : CompactSpace (Cube d) := isCompact_iff_compactSpace.1 isCompact_Icc
  let A : Subalgebra ℝ C(Cube d, ℝ) := Algebra.adjoin ℝ (Set.range expLin)
  have hsep : A.SeparatesPoints := by
    intro x y hxy
    have : ∃ i, x.1 i ≠ y.1 i := by
      by_contra h
      push Not at h
      exact hxy (Subtype.ext (funext h))
    obtain ⟨i, hi⟩ := this
    refine ⟨_, ⟨expLin (Pi.single i 1), Algebra.subset_adjoin ⟨_, rfl⟩, rfl⟩, ?_⟩
    show expLin (Pi.single i 1) x ≠ expLin (Pi.single i 1) y
    rw [expLin_apply, expLin_apply]
    intro h
    apply hi
    have := Real.exp_injective h
    simpa [Pi.single_apply] using this
  obtain ⟨g, hg⟩ := ContinuousMap.exists_mem_subalgebra_near_continuous_of_separatesPoints A hsep (fun x : Cube d => f x.1) hf.domRestrict ε hε
  have hmem : g.1 ∈ Submodule.span ℝ (Set.range (expLin (d := d))) := by
    have h1 : g.1 ∈ Subalgebra.toSubmodule A := g.2
    rw [Algebra.adjoin_eq_span] at h1
    refine Submodule.span_mono ?_ h1
    have : Submonoid.closure (Set.range (expLin (d := d))) ≤ expMonoid d := Submonoid.closure_le.2 (by intro z hz; exact hz)
    exact this
  obtain ⟨c, hc⟩ := (Finsupp.mem_span_range_iff_exists_finsupp).1 hmem
  refine ⟨c, fun x hx => ?_⟩
  have h1 := hg ⟨x, hx⟩
  rw [Real.norm_eq_abs] at h1
  have h2 : (g : C(Cube d, ℝ)) ⟨x, hx⟩ = c.sum fun a r => r * Real.exp (∑ i, a i * x i) := by
    rw [← hc]
    simp only [Finsupp.sum, ContinuousMap.coe_sum, Finset.sum_apply, ContinuousMap.smul_apply, smul_eq_mul, expLin_apply]
  rw [← h2]
  exact h1

/-- Several functions at once, with the same exponents, enumerated. -/
theorem exp_dense_list {d m : ℕ} (f : Fin m → (Fin d → ℝ) → ℝ) (hf : ∀ o, ContinuousOn (f o) (Cube d)) {ε : ℝ} (hε : 0 < ε) :
    ∃ (H : ℕ) (a : ℕ → Fin d → ℝ) (c : Fin m → ℕ → ℝ), 0 < H ∧
      ∀ o, ∀ x ∈ Cube d, |∑ h ∈ Finset.range H, c o h * Real.exp (∑ i, a h i * x i) - f o x| < ε := by
  classical
  choose φ hφ using fun o => exp_dense (f o) (hf o) hε
  let T : Finset (Fin d → ℝ) := insert 0 (Finset.univ.biUnion fun o => (φ o).support)
  let e := T.equivFin
  refine ⟨T.card, fun h => if hh : h < T.card then (e.symm ⟨h, hh⟩).1 else 0, fun o h => if hh : h < T.card then φ o (e.symm ⟨h, hh⟩).1 else 0,
    Finset.card_pos.2 ⟨0, Finset.mem_insert_self _ _⟩, fun o x hx => ?_⟩
  have key : ∑ h ∈ Finset.range T.card, (if hh : h < T.card then φ o (e.symm ⟨h, hh⟩).1 else 0)
      * Real.exp (∑ i, (if hh : h < T.card then (e.symm ⟨h, hh⟩).1 else 0 : Fin d → ℝ) i * x i) = (φ o).sum fun a r => r * Real.exp (∑ i, a i * x i) := by
    rw [Finset.sum_range, Finsupp.sum]
    have h1 : ∀ k : Fin T.card, (if hh : (k : ℕ) < T.card then φ o (e.symm ⟨k, hh⟩).1 else 0)
        * Real.exp (∑ i, (if hh : (k : ℕ) < T.card then (e.symm ⟨k, hh⟩).1 else 0 : Fin d → ℝ) i * x i)
        = (fun t : T => φ o t.1 * Real.exp (∑ i, t.1 i * x i)) (e.symm k) := fun k => by
      simp only [k.2, dif_pos]
    rw [Finset.sum_congr rfl fun k _ => h1 k, Equiv.sum_comp e.symm (fun t : T => φ o t.1 * Real.exp (∑ i, t.1 i * x i)),
      Finset.sum_coe_sort T (fun t => φ o t * Real.exp (∑ i, t i * x i))]
    refine (Finset.sum_subset ?_ ?_).symm
    · intro t ht
      exact Finset.mem_insert_of_mem (Finset.mem_biUnion.2 ⟨o, Finset.mem_univ _, ht⟩)
    · intro t _ ht
      rw [Finsupp.notMem_support_iff.1 ht, zero_mul]
  rw [key]
  exact hφ o x hx

/-! ## layers with chosen weights -/

/-- Layers sampling linear functions compute them exactly. -/
theorem linear_layer (L : PwLayer ℝ) (h : L.WF) (hc : L.cls = .continuous ∨ L.cls = .discontinuous) (hl : L.length = 2) (hp : L.periodicity = none) (hn : 2 ≤ L.n)
    (a : ℕ → ℕ → ℝ) (hw : Samples L fun o i t => a o i * t) {B : ℕ} {x : Tensor ℝ} (hx : x.shape = [B, L.inFeatures]) (hwf : x.WF) (hr : InRange x B L.inFeatures) :
    ∃ out, L.forward x = .ok out ∧ out.shape = [B, L.outFeatures] ∧ out.WF ∧ ∀ b < B, ∀ o < L.outFeatures,
      out.get [b, o] = ∑ i ∈ Finset.range L.inFeatures, a o i * x.get [b, i] := by
  have hd : ∀ o i t, iteratedDeriv L.n (fun t => a o i * t) t = 0 := fun o i t => by
    have := congrFun (iteratedDeriv_poly (Polynomial.C (a o i) * X) L.n) t
    simp only [eval_mul, eval_C, eval_X] at this
    rw [this, iterate_derivative_eq_zero (lt_of_le_of_lt (b := 1) (by have := natDegree_linear_le (a := a o i) (b := 0); simpa using this) (by omega))]
    simp
  obtain ⟨out, h1, h2, h3⟩ := C84_order L h hc hl hp (fun o i t => a o i * t) (fun o i => contDiff_const.mul contDiff_id) (fun _ _ => 0)
    (fun o i t _ _ => by rw [hd]; simp) hw hx hwf hr
  refine ⟨out, h1, h2, ?_, fun b hb o ho => ?_⟩
  · rw [L.forward_sum h hc hx hwf] at h1
    cases h1
    exact Tensor.wf_tabulate _ _
  · have := h3 b hb o ho
    simp only [Finset.sum_const_zero, zero_mul] at this
    exact sub_eq_zero.1 (abs_nonpos_iff.1 this)

/-- The module with other weights if it is a piecewise layer. -/
def Mod.retune {K : Type} (w : Option (Tensor K)) : Mod K → Mod K
  | .pw L => .pw (match w with
    | some w => { L with w := w }
    | none => L)
  | m => m

/-- Replace the weights of the piecewise layers at the positions where `W` says so. -/
def Heap.retune {K : Type} (W : ℕ → Option (Tensor K)) (h : Heap K) : Heap K := h.mapIdx fun j m => m.retune (W j)

theorem Heap.retune_get {K : Type} (W : ℕ → Option (Tensor K)) (h : Heap K) (j : ℕ) : (h.retune W)[j]? = h[j]?.map (Mod.retune (W j)) := by
  unfold Heap.retune
  rw [List.getElem?_mapIdx]

theorem Heap.retune_pw {K : Type} (W : ℕ → Option (Tensor K)) (h : Heap K) {j : ℕ} {L : PwLayer K} {w : Tensor K} (hm : h[j]? = some (.pw L)) (hW : W j = some w) :
    (h.retune W)[j]? = some (.pw { L with w := w }) := by
  rw [h.retune_get, hm, hW]
  rfl

theorem Heap.retune_later {K : Type} {W : ℕ → Option (Tensor K)} {h : Heap K}
    (hW : ∀ j (L : PwLayer K) w, h[j]? = some (.pw L) → W j = some w → w.shape = L.w.shape ∧ w.WF) : h.Later (h.retune W) := by
  intro j m hm
  refine ⟨m.retune (W j), by rw [h.retune_get, hm]; rfl, ?_⟩
  cases m with
  | pw L =>
    cases e : W j with
    | none => exact .refl _
    | some w =>
      obtain ⟨h1, h2⟩ := hW j L w hm e
      exact .pw L w h1 h2
  | _ => exact .refl _

theorem Heap.retune_ordered {K : Type} {W : ℕ → Option (Tensor K)} {h : Heap K} (ho : h.Ordered) : (h.retune W).Ordered := by
  intro i m hm k hk
  rw [h.retune_get] at hm
  cases hi : h[i]? with
  | none =>
    rw [hi] at hm
    cases hm
  | some m0 =>
    rw [hi] at hm
    cases hm
    refine ho i m0 hi k ?_
    cases m0 <;> exact hk

/-- A registered piecewise layer, with its number of segments. -/
theorem IsLayer.pwLayer' {K : Type} [TorchScalar K] {cls : PwClass} {a : FcArgs K} (hu : Usable (.leaf (.pw cls)) a) {h : Heap K} {j : ℕ}
    (hl : IsLayer (.leaf (.pw cls)) a h j) : ∃ L : PwLayer K, h[j]? = some (.pw L) ∧ L.WF ∧ L.cls = cls ∧ L.length = ((2 : ℕ) : K) ∧
      a.n = .int L.n ∧ a.segments = some (.int L.segments) ∧ L.inFeatures = a.inFeatures ∧ L.outFeatures = a.outFeatures ∧ L.periodicity = a.periodicity := by
  obtain ⟨rng, base, ms, e1, e2, e3⟩ := hl
  obtain ⟨n, s, hn, hs, h1, h2, h3, h4⟩ := hu
  simp only [fcMods, leafMods, hn, hs] at e1
  cases e1
  have hj : j = base + 0 := by simpa using e2
  obtain ⟨m', f1, f2⟩ := e3 0 _ rfl
  have hwf := PwLayer.init_wf cls h1 h3 h4 h2 ((2 : ℕ) : K) (rng base) 1 a.periodicity
  rw [hj, f1]
  cases f2 with
  | refl => exact ⟨_, rfl, hwf, rfl, rfl, hn, hs, rfl, rfl, rfl⟩
  | pw L w hs' hw => exact ⟨_, rfl, hwf.withW hs' hw, rfl, rfl, hn, hs, rfl, rfl, rfl⟩

end HOL
