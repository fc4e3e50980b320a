import Verif.Spec.Shared

/-! # Renumbering the units of a network: what it means, apart from the code -/

namespace HOL
open TorchScalar Spec

/-- `ρ` renumbers the units `0, …, n - 1`: unit `i` of the renumbered layer is the unit that was number `ρ i`. -/
def Spec.Renumbers (ρ : ℕ → ℕ) (n : ℕ) : Prop := Set.BijOn ρ (Set.Iio n) (Set.Iio n)

/-- A batch of samples with renumbered columns. -/
def Spec.columns (κ : ℕ → ℕ) (x : Tensor ℝ) : Tensor ℝ := Tensor.tabulate x.shape fun idx => x.get [idx.getD 0 0, κ (idx.getD 1 0)]

/-- Renumbered parameters: outputs come first, then inputs, then (for link functions) the numbers of one link. -/
def Spec.renumberOut (ρ : ℕ → ℕ) (b : Tensor ℝ) : Tensor ℝ := Tensor.tabulate b.shape fun idx => b.get [ρ (idx.getD 0 0)]
def Spec.renumberLinks (κ ρ : ℕ → ℕ) (w : Tensor ℝ) : Tensor ℝ := Tensor.tabulate w.shape fun idx => w.get (ρ (idx.getD 0 0) :: κ (idx.getD 1 0) :: idx.drop 2)

/-- The layer with inputs renumbered by `κ` and outputs by `ρ`. -/
def GLayer.renumber (κ ρ : ℕ → ℕ) : GLayer ℝ → GLayer ℝ
  | .pw L => .pw { L with w := renumberLinks κ ρ L.w }
  | .fn L => .fn { L with w := renumberLinks κ ρ L.w }
  | .product L => .product { L with weight := renumberLinks κ ρ L.weight, bias := L.bias.map (renumberOut ρ) }
  | .linear w b => .linear (renumberLinks κ ρ w) (renumberOut ρ b)
  | .relu => .relu

/-- The same for a module of a heap. -/
def Mod.renumber (κ ρ : ℕ → ℕ) : Mod ℝ → Mod ℝ
  | .pw L => .pw { L with w := renumberLinks κ ρ L.w }
  | .fn L => .fn { L with w := renumberLinks κ ρ L.w }
  | .product L => .product { L with weight := renumberLinks κ ρ L.weight, bias := L.bias.map (renumberOut ρ) }
  | .linear w b => .linear (renumberLinks κ ρ w) (renumberOut ρ b)
  | m => m

/-- Module `j` with units renumbered by `maps j`, if that is given. -/
def Heap.renumber (maps : ℕ → Option ((ℕ → ℕ) × (ℕ → ℕ))) (h : Heap ℝ) : Heap ℝ := h.mapIdx fun j m => match maps j with
  | some (κ, ρ) => m.renumber κ ρ
  | none => m

/-- `l'` is the layer `l` (with parameters) with renumbered units. -/
def GLayer.Renumbered (κ ρ : ℕ → ℕ) (l l' : GLayer ℝ) : Prop := l ≠ .relu ∧ l' = l.renumber κ ρ

/-- Normalizations that treat all columns of a `[batch, width]` tensor alike. A layer normalization has a weight and a bias for every column. -/
def NormModule.Symmetric : NormModule ℝ → Prop
  | .maxAbs _ dim => dim = 1
  | .layerNorm _ => False
  | _ => True

/-- Modules without parameters that treat all columns alike. -/
def NStage.Symmetric : NStage ℝ → Prop
  | .base (.dense .relu) => True
  | .norm N => N.Symmetric
  | _ => False

/-- In a network of modules `σ` and one of modules `τ`, for batches of size `B`: inputs renumbered by `κ`, outputs by `ρ`, and every module of `τ` is the one of `σ` with renumbered units, such that the units of one
module are numbered as the next one expects them. -/
def GExpr.Renumbered (σ τ : ℕ → GLayer ℝ) (B : ℕ) : GExpr ℝ → (κ ρ : ℕ → ℕ) → (I O : ℕ) → Prop
  | .leaf j, κ, ρ, I, O => (σ j).Fits I O ∧ (σ j).Renumbered κ ρ (τ j) ∧ Renumbers κ I ∧ Renumbers ρ O
  | .fixed s, κ, ρ, I, O => s.Takes [B, I] [B, O] ∧ s.Symmetric ∧ κ = ρ ∧ Renumbers κ I
  | .comp a b, κ, ρ, I, O => ∃ μ M, a.Renumbered σ τ B κ μ I M ∧ b.Renumbered σ τ B μ ρ M O
  | .add a b, κ, ρ, I, O | .mul a b, κ, ρ, I, O => a.Renumbered σ τ B κ ρ I O ∧ b.Renumbered σ τ B κ ρ I O

end HOL
