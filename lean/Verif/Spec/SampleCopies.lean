import Verif.Spec.SampleOrder

/-! # Batches with copies of samples, weights and padding: what they mean, apart from the code -/

namespace HOL
open TorchScalar Spec

/-- Batch `b'` holds copies of the samples of `b`: row `q` is a copy of sample `π q` with weight `w q` in the loss, the weights of the copies of every sample add up to 1, and rows with weight 0 (padding) may hold anything. -/
def Batch.Copied (I O : ℕ) (b b' : Batch ℝ) : Prop := b'.lr = b.lr ∧ ∃ (B B' : ℕ) (π : Fin B' → Fin B) (w : Fin B' → ℝ) (X : Fin B → Fin I → ℝ) (X' : Fin B' → Fin I → ℝ), b.x = ofMat X ∧ b'.x = ofMat X' ∧
  (∀ q, w q ≠ 0 → X' q = X (π q)) ∧ (∀ p, ∑ q, (if π q = p then w q else 0) = 1) ∧
  ∀ (Y : Fin B → Fin O → ℝ) (Y' : Fin B' → Fin O → ℝ), (∀ q, w q ≠ 0 → Y' q = Y (π q)) →
    ∃ G : Fin B → Fin O → ℝ, b.lossGrad (ofMat Y) = ofMat G ∧ b'.lossGrad (ofMat Y') = ofMat fun q o => w q * G (π q) o

end HOL
