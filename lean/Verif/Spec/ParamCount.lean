import Verif.Model.Network

/-! # Specification vocabulary: numbers of parameters -/

namespace HOL

/-- An integer argument. -/
def Spec.intOf : IntOrList → ℕ
  | .int n => n
  | .list _ => 0

/-- The numbers an optimizer sees of a fully connected layer from `i` to `o` features with `n` nodes (or Fourier components) and `s` segments per link. Every one of the `o * i` links has
its own numbers: one weight (linear and product layers, which have `o` biases besides), the values at the nodes, where continuous layers share those between neighbouring segments, or the coefficients of a
series. Polynomial and Fourier layers carry `o` further numbers (`result`), switch layers hide all of theirs. -/
def Spec.layerCount (kind : FcKind) (n s i o : ℕ) : ℕ :=
  match kind with
  | .leaf .linear | .leaf .linearRelu | .leaf .product => o * i + o
  | .leaf (.pw .continuous) | .leaf (.pw .continuousProd) => o * i * (s * (n - 1) + 1)
  | .leaf (.pw .discontinuous) | .leaf (.pw .discontinuousProd) => o * i * (s * n)
  | .leaf .polynomial | .leaf .fourier => o * i * n + o
  | _ => 0

/-- The numbers of the layer built for the arguments `a`. -/
def Spec.argCount {K : Type} (kind : FcKind) (a : FcArgs K) : ℕ :=
  Spec.layerCount kind (Spec.intOf a.n) (a.segments.elim 0 Spec.intOf) a.inFeatures a.outFeatures

end HOL
