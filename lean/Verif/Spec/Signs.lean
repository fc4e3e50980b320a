import Verif.Spec.Renumber

/-! # Changing the signs of the units of a network: what it means, apart from the code -/

namespace HOL
open TorchScalar Spec

/-- The factor of a unit whose sign is changed (`true`) or kept. -/
def Spec.sg (b : Bool) : ℝ := if b then -1 else 1

/-- A batch of samples in which the columns `i` with `σ i` have the other sign. -/
def Spec.signed (σ : ℕ → Bool) (x : Tensor ℝ) : Tensor ℝ := Tensor.tabulate x.shape fun idx => sg (σ (idx.getD 1 0)) * x.get idx

/-- The numbers of one link in the opposite order. -/
def Spec.inverted (b : Bool) (size r : ℕ) : ℕ := if b then size - 1 - r else r

/-- Links given by values at nodes: those of inputs with `σ i` in the opposite order, those of outputs with `ρ o` with the other sign. -/
def Spec.signLinks (σ ρ : ℕ → Bool) (w : Tensor ℝ) : Tensor ℝ := Tensor.tabulate w.shape fun idx =>
  sg (ρ (idx.getD 0 0)) * w.get [idx.getD 0 0, idx.getD 1 0, inverted (σ (idx.getD 1 0)) (w.shape.getD 2 0) (idx.getD 2 0)]

/-- Links given by Fourier coefficients `1/2, sin, cos, sin, cos, …`: the coefficients of sines change their sign when the input does. -/
def Spec.signSeries (σ ρ : ℕ → Bool) (w : Tensor ℝ) : Tensor ℝ := Tensor.tabulate w.shape fun idx =>
  sg (ρ (idx.getD 0 0)) * (sg (σ (idx.getD 1 0) && (idx.getD 2 0 % 2 == 1)) * w.get idx)

/-- Matrices. -/
def Spec.signMatrix (σ ρ : ℕ → Bool) (w : Tensor ℝ) : Tensor ℝ := Tensor.tabulate w.shape fun idx => sg (ρ (idx.getD 0 0)) * (sg (σ (idx.getD 1 0)) * w.get idx)

/-- Vectors of numbers of the outputs. -/
def Spec.signOut (ρ : ℕ → Bool) (b : Tensor ℝ) : Tensor ℝ := Tensor.tabulate b.shape fun idx => sg (ρ (idx.getD 0 0)) * b.get idx

/-- The layer for inputs with signs `σ` and outputs with signs `ρ`. -/
def GLayer.sign (σ ρ : ℕ → Bool) : GLayer ℝ → GLayer ℝ
  | .pw L => .pw { L with w := signLinks σ ρ L.w }
  | .fn L => .fn { L with w := match L.poly.basis with
      | .fourier _ => signSeries σ ρ L.w
      | _ => signLinks σ ρ L.w }
  | .product L => .product { L with weight := signMatrix σ ρ L.weight, bias := L.bias.map (signOut ρ) }
  | .linear w b => .linear (signMatrix σ ρ w) (signOut ρ b)
  | .relu => .relu

/-- The same for a module of a heap. -/
def Mod.sign (σ ρ : ℕ → Bool) : Mod ℝ → Mod ℝ
  | .pw L => .pw { L with w := signLinks σ ρ L.w }
  | .fn L => .fn { L with w := match L.poly.basis with
      | .fourier _ => signSeries σ ρ L.w
      | _ => signLinks σ ρ L.w }
  | .product L => .product { L with weight := signMatrix σ ρ L.weight, bias := L.bias.map (signOut ρ) }
  | .linear w b => .linear (signMatrix σ ρ w) (signOut ρ b)
  | m => m

/-- Module `j` with the signs `maps j`, if they are given. -/
def Heap.sign (maps : ℕ → Option ((ℕ → Bool) × (ℕ → Bool))) (h : Heap ℝ) : Heap ℝ := h.mapIdx fun j m => match maps j with
  | some (σ, ρ) => m.sign σ ρ
  | none => m

/-- Layers for which signs can be moved into the weights. Piecewise layers have the default length 2 and common values at the ends of segments. Sums take any signs of the outputs; products only keep them. -/
def GLayer.TakesSigns (ρ : ℕ → Bool) : GLayer ℝ → Prop
  | .pw L => L.length = 2 ∧ (L.cls = .continuous ∨ L.cls = .continuousProd ∧ ρ = fun _ => false)
  | .fn L => ∃ len : ℝ, L.poly.basis = getLagrangeBasis L.poly.n len ∨ L.poly.basis = .fourier len
  | .product _ => ρ = fun _ => false
  | .linear _ _ => True
  | .relu => False

/-- Normalizations that change their signs with their inputs. -/
def NormModule.Odd : NormModule ℝ → Prop
  | .maxAbs _ dim => dim = 1
  | .maxAbsLast _ | .maxAbsND _ | .l2 _ => True
  | _ => False

/-- Networks of modules `s` and `t`: inputs have signs `σ`, outputs signs `ρ`, and every module of `t` is the one of `s` for the signs of its inputs and outputs. -/
def GExpr.SignChange (s t : ℕ → GLayer ℝ) (B : ℕ) : GExpr ℝ → (σ ρ : ℕ → Bool) → (I O : ℕ) → Prop
  | .leaf j, σ, ρ, I, O => (s j).Fits I O ∧ (s j).TakesSigns ρ ∧ t j = (s j).sign σ ρ
  | .fixed (.norm N), σ, ρ, I, O => N.Takes [B, I] ∧ I = O ∧ N.Odd ∧ σ = ρ
  | .fixed _, _, _, _, _ => False
  | .comp a b, σ, ρ, I, O => ∃ μ M, a.SignChange s t B σ μ I M ∧ b.SignChange s t B μ ρ M O
  | .add a b, σ, ρ, I, O => a.SignChange s t B σ ρ I O ∧ b.SignChange s t B σ ρ I O
  | .mul a b, σ, ρ, I, O => ∃ μ ν, a.SignChange s t B σ μ I O ∧ b.SignChange s t B σ ν I O ∧ ∀ o, ρ o = (μ o ^^ ν o)

end HOL
