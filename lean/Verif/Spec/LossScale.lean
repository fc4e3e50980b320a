import Verif.Spec.SampleOrder

/-! # The scale of the loss: what it means, apart from the code -/

namespace HOL
open TorchScalar Spec

/-- The same samples with `c` times the loss. -/
def Batch.ScaledBy (c : ℝ) (I O : ℕ) (b b' : Batch ℝ) : Prop := b'.x = b.x ∧ ∃ (B : ℕ) (X : Fin B → Fin I → ℝ), b.x = ofMat X ∧
  ∀ Y : Fin B → Fin O → ℝ, ∃ G : Fin B → Fin O → ℝ, b.lossGrad (ofMat Y) = ofMat G ∧ b'.lossGrad (ofMat Y) = ofMat fun q o => c * G q o

/-- Every number multiplied by `c`. -/
noncomputable def scaleT (c : ℝ) (t : Tensor ℝ) : Tensor ℝ := t.map fun v => c * v

end HOL
