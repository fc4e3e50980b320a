import Verif.Model.NormBackward

/-! # Where the normalizations of the library are differentiable -/

namespace HOL
open TorchScalar

/-- One entry is greater than all others. -/
def UniqueMax (l : List ℝ) : Prop := ∃ a < l.length, ∀ q < l.length, q ≠ a → l.getD q 0 < l.getD a 0

/-- One entry is smaller than all others. -/
def UniqueMin (l : List ℝ) : Prop := ∃ a < l.length, ∀ q < l.length, q ≠ a → l.getD a 0 < l.getD q 0

/-- The indices belong to a greatest and a smallest entry, whichever these are when there are several. -/
def Picks.Valid (P : Picks ℝ) : Prop :=
  ∀ l : List ℝ, l ≠ [] → (P.max l < l.length ∧ ∀ a ∈ l, a ≤ l.getD (P.max l) 0) ∧ P.min l < l.length ∧ ∀ a ∈ l, l.getD (P.min l) 0 ≤ a

/-- Dividing by the greatest absolute value: all entries zero, or one greater than all others in absolute value. -/
def MaxAbsSmooth (l : List ℝ) : Prop := (∀ a ∈ l, a = 0) ∨ UniqueMax (l.map fun a => |a|)

/-- Centring: one greatest and one smallest entry. -/
def MaxCenterSmooth (l : List ℝ) : Prop := UniqueMax l ∧ UniqueMin l

/-- All entries of sample `b`. -/
def sampleEntries (x : Tensor ℝ) (b : ℕ) : List ℝ := (List.range (numel x.shape.tail)).map fun q => x.get (b :: unravel x.shape.tail q)

namespace NormModule

/-- The module accepts inputs of this shape. -/
def Takes (N : NormModule ℝ) (S : List ℕ) : Prop :=
  match N with
  | .maxAbsLast eps | .maxCenterLast eps => 0 < S.getD (S.length - 1) 0 ∧ 0 < eps
  | .maxAbs eps dim => 0 < S.getD dim 0 ∧ 0 < eps
  | .maxCenter eps | .l2 eps => 0 < S.getD 1 0 ∧ 0 < eps
  | .maxCenterND eps | .maxAbsND eps => ∃ B R, S = B :: R ∧ 0 < B ∧ 0 < numel R ∧ 0 < eps
  | .layerNorm M => ∃ n w, S.getLast? = some n ∧ 0 < n ∧ M.weight = some w ∧ w.shape = [n] ∧ w.WF ∧ ∀ b ∈ M.bias, b.shape = [n] ∧ b.WF

/-- The module is differentiable at this input: `l2` and layer normalization everywhere. -/
def SmoothIn (N : NormModule ℝ) (x : Tensor ℝ) : Prop :=
  match N with
  | .maxAbsLast _ => ∀ idx, InShape x.shape idx → MaxAbsSmooth (slice x (x.shape.length - 1) idx)
  | .maxCenterLast _ => ∀ idx, InShape x.shape idx → MaxCenterSmooth (slice x (x.shape.length - 1) idx)
  | .maxAbs _ dim => ∀ idx, InShape x.shape idx → MaxAbsSmooth (slice x dim idx)
  | .maxCenter _ => ∀ idx, InShape x.shape idx → MaxCenterSmooth (slice x 1 idx)
  | .maxCenterND _ => ∀ b < x.shape.getD 0 0, MaxCenterSmooth (sampleEntries x b)
  | .maxAbsND _ => ∀ b < x.shape.getD 0 0, MaxAbsSmooth (sampleEntries x b)
  | .l2 _ | .layerNorm _ => True

end NormModule

end HOL
