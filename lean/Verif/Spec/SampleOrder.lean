import Verif.Lemmas.InputGradient
import Verif.Spec.SignTraining
import Verif.Model.Training

/-! # The order of the samples of a batch, and symmetric data: what they mean, apart from the code -/

namespace HOL
open TorchScalar Spec

/-- A network of layers and `relu` with widths that fit. -/
def GExpr.Built (s : ℕ → GLayer ℝ) : GExpr ℝ → (I O : ℕ) → Prop
  | .leaf j, I, O => (s j).Fits I O
  | .fixed (.base (.dense .relu)), I, O => I = O
  | .fixed _, _, _ => False
  | .comp a b, I, O => ∃ M, a.Built s I M ∧ b.Built s M O
  | .add a b, I, O => a.Built s I O ∧ b.Built s I O
  | .mul a b, I, O => a.Built s I O ∧ b.Built s I O

/-- The same samples in another order: sample `q` of `b'` is sample `π q` of `b`, and the losses treat the samples alike. -/
def Batch.Reordered (I O : ℕ) (b b' : Batch ℝ) : Prop := b'.lr = b.lr ∧ ∃ (B : ℕ) (π : Equiv.Perm (Fin B)) (X : Fin B → Fin I → ℝ), b.x = ofMat X ∧ b'.x = ofMat (fun q => X (π q)) ∧
  ∀ Y : Fin B → Fin O → ℝ, ∃ G : Fin B → Fin O → ℝ, b.lossGrad (ofMat Y) = ofMat G ∧ b'.lossGrad (ofMat fun q => Y (π q)) = ofMat fun q => G (π q)

/-- A batch with every sample `q` also has its mirror image, sample `π q`, whose columns `i` with `κ i` have the other sign; and for outputs with signs `ρ` the losses do not distinguish them. -/
def Batch.Symmetric (κ ρ : ℕ → Bool) (I O : ℕ) (b : Batch ℝ) : Prop := ∃ (B : ℕ) (π : Equiv.Perm (Fin B)) (X : Fin B → Fin I → ℝ), b.x = ofMat X ∧ (∀ q i, X (π q) i = sg (κ i) * X q i) ∧
  ∀ Y : Fin B → Fin O → ℝ, (∀ q o, Y (π q) o = sg (ρ o) * Y q o) → ∃ G : Fin B → Fin O → ℝ, b.lossGrad (ofMat Y) = ofMat G ∧ ∀ q o, G (π q) o = sg (ρ o) * G q o

/-- A batch with every sample `q` also has the sample `π q` with columns renumbered by `κ`; and for outputs renumbered by `ρ` the losses do not distinguish them. -/
def Batch.Alike (κ ρ : ℕ → ℕ) (I O : ℕ) (b : Batch ℝ) : Prop := ∃ (B : ℕ) (π : Equiv.Perm (Fin B)) (X : Fin B → Fin I → ℝ), b.x = ofMat X ∧ (∀ (q : Fin B) (i : Fin I), X (π q) i = (ofMat X).get [(q : ℕ), κ i]) ∧
  ∀ Y : Fin B → Fin O → ℝ, (∀ (q : Fin B) (o : Fin O), Y (π q) o = (ofMat Y).get [(q : ℕ), ρ o]) → ∃ G : Fin B → Fin O → ℝ, b.lossGrad (ofMat Y) = ofMat G ∧ ∀ (q : Fin B) (o : Fin O), G (π q) o = (ofMat G).get [(q : ℕ), ρ o]

end HOL
