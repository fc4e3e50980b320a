import Verif.Spec.Network

/-! # Specification vocabulary: networks of piecewise layers to be refined -/

namespace HOL
variable {K : Type} [TorchScalar K]

/-- Numbers of nodes and segments of the input layer, the hidden layers and the output layer. -/
structure Orders where
  nIn : ℕ
  sIn : ℕ
  nHidden : ℕ
  sHidden : ℕ
  nOut : ℕ
  sOut : ℕ

/-- The arguments give these (positive) numbers. `n_in`, `n_hidden`, `n_out` default to `n`. -/
structure MLPArgs.HasOrders (c : MLPArgs K) (o : Orders) : Prop where
  nIn : orElse c.nIn c.n = .int o.nIn
  nHidden : orElse c.nHidden c.n = .int o.nHidden
  nOut : orElse c.nOut c.n = .int o.nOut
  sIn : c.inSegments = some (.int o.sIn)
  sHidden : c.hiddenSegments = some (.int o.sHidden)
  sOut : c.outSegments = some (.int o.sOut)
  pos : 0 < o.nIn ∧ 0 < o.nHidden ∧ 0 < o.nOut ∧ 0 < o.sIn ∧ 0 < o.sHidden ∧ 0 < o.sOut
  widths : 0 < c.inWidth ∧ 0 < c.hiddenWidth ∧ 0 < c.outWidth

/-- The two networks differ at most in `n`, `n_in`, `n_hidden`, `n_out`, the numbers of segments and the options without
effect. -/
structure MLPArgs.SameArchitecture (a b : MLPArgs K) : Prop where
  layerType : b.layerType = a.layerType
  layerTypeIn : b.layerTypeIn = a.layerTypeIn
  inWidth : b.inWidth = a.inWidth
  outWidth : b.outWidth = a.outWidth
  hiddenLayers : b.hiddenLayers = a.hiddenLayers
  hiddenWidth : b.hiddenWidth = a.hiddenWidth
  periodicity : b.periodicity = a.periodicity
  normalization : b.normalization = a.normalization
  nonLinearity : b.nonLinearity = a.nonLinearity
  resnet : b.resnet = a.resnet
  dropout : b.dropout = a.dropout
  dropoutFn : b.dropoutFn = a.dropoutFn

/-- Normalization, nonlinearity (a parameterless module of the heap) and dropout keep the shape of their input. -/
structure MLPArgs.KeepShapes (c : MLPArgs K) (h : Heap K) : Prop where
  normalization : ∀ f ∈ c.normalization, KeepsShape f c.hiddenWidth
  nonLinearity : ∀ j ∈ c.nonLinearity, ∃ f, h[j]? = some (.other f) ∧ KeepsShape f c.hiddenWidth
  dropout : KeepsShape c.dropoutFn c.hiddenWidth

/-- `a` and `b` are two networks of a program: each was built by the constructor (in either order, with any other modules created and
any training in between), and `h` is the current state, after any further training. `nonLinearity` is a module existing from the
beginning. -/
structure TwoNetworks (ca cb : MLPArgs K) (a b : ℕ) (h : Heap K) : Prop where
  built : ∃ (rng rng' : Rng K) (h0 h1 k0 k1 : Heap K), h0.Ordered ∧ k0.Ordered ∧ h.Ordered ∧
    mlpInit rng ca h0 = .ok (a, h1) ∧ mlpInit rng' cb k0 = .ok (b, k1) ∧ ca.KeepShapes h0 ∧ cb.KeepShapes k0 ∧
    ((h1.Later k0 ∧ k1.Later h) ∨ (k1.Later h0 ∧ h1.Later h))

/-- The combined requirement on two lists of orders and numbers of segments. -/
def Orders.All (R : ℕ → ℕ → ℕ → ℕ → Prop) (a b : Orders) : Prop :=
  R a.nIn a.sIn b.nIn b.sIn ∧ R a.nHidden a.sHidden b.nHidden b.sHidden ∧ R a.nOut a.sOut b.nOut b.sOut

/-- The layer types `interpolate` works for. -/
def PRefinable (t : String) : Prop :=
  t = "continuous" ∨ t = "discontinuous" ∨ t = "switch_continuous" ∨ t = "switch_discontinuous"

/-- The layer types `refine` works for. -/
def HRefinable (t : String) : Prop := t = "continuous" ∨ t = "continuous_prod" ∨ t = "switch_continuous"

end HOL
