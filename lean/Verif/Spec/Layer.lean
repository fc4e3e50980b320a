import Verif.Tensor
import Mathlib.Topology.Instances.Real.Lemmas

/-! # Specification vocabulary: what a fully connected layer computes -/

namespace HOL.Spec

/-- The forward function of a layer accepts every `[batch, I]` input and returns a
`[batch, O]` tensor whose row `b` is obtained from row `b` of the input alone, entry `o` by the function `F o`. -/
def Computes (fwd : Tensor ℝ → Py (Tensor ℝ)) (I O : ℕ) (F : ℕ → (ℕ → ℝ) → ℝ) : Prop :=
  ∀ (B : ℕ) (x : Tensor ℝ), x.shape = [B, I] → x.WF →
    ∃ out, fwd x = .ok out ∧ out.shape = [B, O] ∧ out.WF ∧
      ∀ b < B, ∀ o < O, out.get [b, o] = F o fun i => x.get [b, i]

/-- Every entry of the output row is a continuous function of the `I` entries of the input row. -/
def ComputesContinuous (fwd : Tensor ℝ → Py (Tensor ℝ)) (I O : ℕ) : Prop :=
  ∃ F : ℕ → (Fin I → ℝ) → ℝ, (∀ o, Continuous (F o)) ∧ Computes fwd I O fun o r => F o fun i => r i

end HOL.Spec
