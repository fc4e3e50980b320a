import Verif.Model.SharedBackward
import Verif.Props.NormGradient

/-! # Networks with shared modules: fitting shapes and smooth points -/

namespace HOL
namespace GExpr

/-- The shapes of the modules match: inputs of shape `S`, outputs of shape `T`. -/
def Takes (σ : ℕ → GLayer ℝ) : GExpr ℝ → List ℕ → List ℕ → Prop
  | .leaf j, S, T => ∃ B I O, S = [B, I] ∧ T = [B, O] ∧ (σ j).Fits I O
  | .fixed s, S, T => s.Takes S T
  | .comp a b, S, T => ∃ M, a.Takes σ S M ∧ b.Takes σ M T
  | .add a b, S, T | .mul a b, S, T => a.Takes σ S T ∧ b.Takes σ S T

/-- All intermediate values of the forward pass on `x` are smooth points of the modules that read them. -/
def Smooth (σ : ℕ → GLayer ℝ) : GExpr ℝ → Tensor ℝ → Prop
  | .leaf j, x => ∀ idx, InShape x.shape idx → (σ j).SmoothAt (x.get idx)
  | .fixed s, x => s.SmoothIn x
  | .comp a b, x => a.Smooth σ x ∧ ∀ y, a.forward σ x = .ok y → b.Smooth σ y
  | .add a b, x | .mul a b, x => a.Smooth σ x ∧ b.Smooth σ x

end GExpr
end HOL
