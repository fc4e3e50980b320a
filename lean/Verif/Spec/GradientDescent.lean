import Verif.Model.Piecewise
import Verif.Lemmas.LagrangeReal

/-! # Specification: distances between layers and best layers -/

namespace HOL.Spec
open HOL

/-- Sum of the squared differences of all weights of two layers. -/
noncomputable def weightDist (L L' : PwLayer ℝ) : ℝ := ∑ k ∈ Finset.range (numel L.w.shape), (L.w.data.getD k 0 - L'.w.data.getD k 0) ^ 2

end HOL.Spec
