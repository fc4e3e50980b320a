import Verif.Model.Modules

/-! # Specification: how values are written in a configuration -/

namespace HOL
namespace Spec
variable {K : Type} [TorchScalar K]

/-! Configuration values for numbers, lists and missing values. -/

def cNat (n : ℕ) : Cfg K := .int n
def cNats (l : List ℕ) : Cfg K := .list (l.map cNat)
def cIntOrList : IntOrList → Cfg K
  | .int n => cNat n
  | .list l => cNats l
def cOneOrMany : OneOrMany ℕ → Cfg K
  | .one n => cNat n
  | .many l => cNats l
def cStrs : OneOrMany String → Cfg K
  | .one s => .str s
  | .many l => .list (l.map .str)
def cOption {α : Type} (f : α → Cfg K) : Option α → Cfg K
  | none => .null
  | some a => f a

/-- `cfg.net.key = v`. -/
def NetEntry (cfg : Cfg K) (keys : List String) (v : Cfg K) : Prop := cfg.path ("net" :: keys) = .ok v

/-- The configuration asks for a uniform high order network with these values; nothing is said about `n_hidden`, `periodicity` and other entries. -/
structure AsksHighOrder (cfg : Cfg K) (layerType : String) (n : IntOrList) (nIn nOut : Option IntOrList) (inWidth hiddenWidth outWidth hiddenLayers : ℕ)
    (inSegments hiddenSegments outSegments : Option IntOrList) : Prop where
  modelType : NetEntry cfg ["model_type"] (.str "high_order")
  layerType : NetEntry cfg ["layer_type"] (.str layerType)
  n : NetEntry cfg ["n"] (cIntOrList n)
  nIn : NetEntry cfg ["n_in"] (cOption cIntOrList nIn)
  nOut : NetEntry cfg ["n_out"] (cOption cIntOrList nOut)
  inWidth : NetEntry cfg ["input", "width"] (cNat inWidth)
  inSegments : NetEntry cfg ["input", "segments"] (cOption cIntOrList inSegments)
  outWidth : NetEntry cfg ["output", "width"] (cNat outWidth)
  outSegments : NetEntry cfg ["output", "segments"] (cOption cIntOrList outSegments)
  hiddenWidth : NetEntry cfg ["hidden", "width"] (cNat hiddenWidth)
  hiddenLayers : NetEntry cfg ["hidden", "layers"] (cNat hiddenLayers)
  hiddenSegments : NetEntry cfg ["hidden", "segments"] (cOption cIntOrList hiddenSegments)

/-- The configuration asks for a network with a high order input layer; the width of the output is not below `net`. -/
structure AsksHighOrderInput (cfg : Cfg K) (layerType : String) (n : IntOrList) (inWidth hiddenWidth hiddenLayers : ℕ) (segments : Option IntOrList) : Prop where
  modelType : NetEntry cfg ["model_type"] (.str "high_order_input")
  layerType : NetEntry cfg ["layer_type"] (.str layerType)
  n : NetEntry cfg ["n"] (cIntOrList n)
  inWidth : NetEntry cfg ["input", "width"] (cNat inWidth)
  segments : NetEntry cfg ["input", "segments"] (cOption cIntOrList segments)
  hiddenWidth : NetEntry cfg ["hidden", "width"] (cNat hiddenWidth)
  hiddenLayers : NetEntry cfg ["hidden", "layers"] (cNat hiddenLayers)

/-- The entries of both kinds of convolutional networks. -/
structure AsksConv (cfg : Cfg K) (layerType : OneOrMany String) (n : OneOrMany ℕ) (channels : List ℕ) (segments : OneOrMany ℕ) (kernelSize : List ℕ)
    (periodicity : Option K) (stride : Option (OneOrMany ℕ)) : Prop where
  layerType : NetEntry cfg ["layer_type"] (cStrs layerType)
  n : NetEntry cfg ["n"] (cOneOrMany n)
  channels : NetEntry cfg ["channels"] (cNats channels)
  segments : NetEntry cfg ["segments"] (cOneOrMany segments)
  kernelSize : NetEntry cfg ["kernel_size"] (cNats kernelSize)
  periodicity : NetEntry cfg ["periodicity"] (cOption .num periodicity)
  stride : NetEntry cfg ["stride"] (cOption cOneOrMany stride)

end Spec
end HOL
