import Verif.Lemmas.Layers

/-! # Piecewise layers of any length -/

namespace HOL
open TorchScalar Polynomial Spec

namespace PwLayer

/-- The same layer with the default length. -/
def lengthTwo (L : PwLayer ℝ) : PwLayer ℝ := { L with length := 2 }

theorem segIndex_lengthTwo (L : PwLayer ℝ) (hl : 0 < L.length) (x : ℝ) :
    L.segIndex x = L.lengthTwo.segIndex (2 * x / L.length) := by
  rw [segIndex_real, segIndex_real]
  have e : (x + L.length / 2) / L.length * L.segments
      = (2 * x / L.length + L.lengthTwo.length / 2) / L.lengthTwo.length * L.lengthTwo.segments := by
    show _ = (2 * x / L.length + 2 / 2) / 2 * L.segments
    field_simp
  rw [e]
  rfl

theorem xLocal_any (L : PwLayer ℝ) (hS : 0 < L.segments) (x : ℝ) (s : ℕ) :
    L.xLocal x s = L.length / 2 * localCoord L.segments s x := by
  have hSr : (0 : ℝ) < L.segments := by exact_mod_cast hS
  unfold xLocal localCoord
  simp only [eta_real, half_real]
  push_cast
  have e : ((s : ℝ) + 1) / L.segments * 2 - 1 - ((s : ℝ) / L.segments * 2 - 1) = 2 / L.segments := by
    field_simp; ring
  rw [e]
  field_simp
  ring

theorem isActive_seg_any (L : PwLayer ℝ) (hS : 0 < L.segments) (hl : 0 < L.length)
    (hp : L.periodicity = none) (x : ℝ) : IsActive L.segments (L.seg x) (2 * x / L.length) := by
  have h := L.lengthTwo.isActive_segIndex hS rfl (2 * x / L.length)
  rw [← L.segIndex_lengthTwo hl] at h
  have e : L.seg x = (L.segIndex x).toNat := by
    unfold seg whichSegment
    rw [hp]; rfl
  rw [e]
  exact h

theorem linkFn_any (L : PwLayer ℝ) (hS : 0 < L.segments) (hp : L.periodicity = none) (o i : ℕ) (v : ℝ) :
    L.linkFn o i v = (linkPoly L.n fun k => L.w.get [o, i, L.seg v * L.stride + k]).eval
      (L.length / 2 * localCoord L.segments (L.seg v) v) := by
  unfold linkFn xIn
  rw [L.whichSegment_eq_seg hS, hp]
  exact congrArg (fun t => Polynomial.eval t _) (L.xLocal_any hS v _)

end PwLayer

end HOL
