import Verif.Spec.Refinement

/-! # Specification vocabulary: networks that differ in their depth -/

namespace HOL
variable {K : Type} [TorchScalar K]

/-- The two networks have the same widths of input and hidden layers, the same types of layers and the same normalization, nonlinearity and
dropout; depth, width of the output and numbers of nodes and segments may differ. -/
structure MLPArgs.SameBlocks (a b : MLPArgs K) : Prop where
  layerType : b.layerType = a.layerType
  layerTypeIn : b.layerTypeIn = a.layerTypeIn
  inWidth : b.inWidth = a.inWidth
  hiddenWidth : b.hiddenWidth = a.hiddenWidth
  periodicity : b.periodicity = a.periodicity
  normalization : b.normalization = a.normalization
  nonLinearity : b.nonLinearity = a.nonLinearity
  dropout : b.dropout = a.dropout
  dropoutFn : b.dropoutFn = a.dropoutFn

/-- Nodes and segments of layer `i` after the input layer; layer `H` is the output layer. -/
def Orders.layer (o : Orders) (H i : ℕ) : ℕ × ℕ := if i < H then (o.nHidden, o.sHidden) else (o.nOut, o.sOut)

/-- Number of outputs of layer `i` after the input layer. -/
def MLPArgs.layerOut (c : MLPArgs K) (i : ℕ) : ℕ := if i < c.hiddenLayers then c.hiddenWidth else c.outWidth

/-- Layers at the same position have the same number of outputs, as long as both networks have one there. -/
def MLPArgs.LayersMatch (a b : MLPArgs K) : Prop :=
  ∀ i ≤ a.hiddenLayers, i ≤ b.hiddenLayers → b.layerOut i = a.layerOut i

/-- The requirement on nodes and segments of layers at the same position. -/
def Orders.Paired (R : ℕ → ℕ → ℕ → ℕ → Prop) (Ha Hb : ℕ) (a b : Orders) : Prop :=
  R a.nIn a.sIn b.nIn b.sIn ∧ ∀ i ≤ Ha, i ≤ Hb → R (a.layer Ha i).1 (a.layer Ha i).2 (b.layer Hb i).1 (b.layer Hb i).2

/-- No normalization, no nonlinearity, no dropout. -/
def MLPArgs.Plain (c : MLPArgs K) : Prop := c.normalization = none ∧ c.nonLinearity = none ∧ TorchScalar.ltB 0 c.dropout = false

/-- The first layers of the two networks have the same type, widths and periodicity. -/
structure MLPArgs.SameLayers (a b : MLPArgs K) : Prop where
  layerType : b.layerType = a.layerType
  layerTypeIn : b.layerTypeIn = a.layerTypeIn
  inWidth : b.inWidth = a.inWidth
  hiddenWidth : b.hiddenWidth = a.hiddenWidth
  periodicity : b.periodicity = a.periodicity

/-- The entries of `network.model`, an `nn.Sequential`. -/
def Heap.entriesOf (h : Heap K) (net : ℕ) (ms : List ℕ) : Prop := ∃ s, h.model net = .ok s ∧ h[s]? = some (.seq ms)

end HOL
