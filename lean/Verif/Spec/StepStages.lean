import Verif.Model.StepStages
import Verif.Spec.Step

/-! # Directions in the space of all parameters of a list of modules -/

namespace HOL
open GLayer

/-- All entries of a list of parameters: the number of the parameter and the index of the entry. -/
def paramEntries (ps : List (Tensor ℝ)) : List Entry :=
  (List.range ps.length).flatMap fun k => ((List.range (numel (ps.getD k ⟨[], []⟩).shape)).map (unravel (ps.getD k ⟨[], []⟩).shape)).map fun idx => (k, idx)

/-- The module with all parameters moved by `t` along the direction `V`. -/
noncomputable def IStage.along (V : Entry → ℝ) (t : ℝ) : IStage ℝ → IStage ℝ
  | .conv L => .conv { L with weight := lineParam t L.weight fun idx => V (0, idx) }
  | .norm two training channels N => .norm two training channels { N with weight := fun i => N.weight i + t * V (0, [i]), bias := fun i => N.bias i + t * V (1, [i]) }
  | .pool d => .pool d
  | .flatten => .flatten
  | .dense l => .dense (l.along V t)

noncomputable def NormModule.along (V : Entry → ℝ) (t : ℝ) : NormModule ℝ → NormModule ℝ
  | .layerNorm M => .layerNorm { M with weight := M.weight.map fun w => lineParam t w fun idx => V (0, idx), bias := M.bias.map fun b => lineParam t b fun idx => V (1, idx) }
  | N => N

noncomputable def NStage.along (V : Entry → ℝ) (t : ℝ) : NStage ℝ → NStage ℝ
  | .base s => .base (s.along V t)
  | .norm N => .norm (N.along V t)

/-- All modules moved by `t`, module `k` along `V k`. -/
noncomputable def stageAlong (V : ℕ → Entry → ℝ) (t : ℝ) (ss : List (NStage ℝ)) : List (NStage ℝ) := ss.mapIdx fun k s => s.along (V k) t

/-- The inner product of a direction with the gradients of all parameters. -/
noncomputable def stageInner (ss : List (NStage ℝ)) (V : ℕ → Entry → ℝ) (gps : List (List (Tensor ℝ))) : ℝ :=
  (ss.mapIdx fun k s => ((paramEntries s.params).map fun e => V k e * gradOf (fun j => (gps.getD k [])[j]?) e).sum).sum

/-- The sum of the squares of all entries of the gradients of the modules at the positions `trained`. -/
noncomputable def stageSquares (ss : List (NStage ℝ)) (trained : List ℕ) (gps : List (List (Tensor ℝ))) : ℝ :=
  (ss.mapIdx fun k s => if k ∈ trained then ((paramEntries s.params).map fun e => gradOf (fun j => (gps.getD k [])[j]?) e ^ 2).sum else 0).sum

end HOL
