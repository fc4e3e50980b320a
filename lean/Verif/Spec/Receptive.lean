import Verif.Prelude
import Verif.Tensor

/-! # What an output pixel of a convolutional network sees

Layers with kernels `k t`, strides `s t` and the same padding `p`. -/

namespace HOL.Spec

/-- Distance, in pixels of the image, between neighbouring pixels after `t` layers: the product of the strides. -/
def jump (s : ℕ → ℕ) : ℕ → ℕ
  | 0 => 1
  | t + 1 => jump s t * s t

/-- Size of the window of the image a pixel after `t` layers sees. -/
def reach (k s : ℕ → ℕ) : ℕ → ℕ
  | 0 => 1
  | t + 1 => reach k s t + (k t - 1) * jump s t

/-- How far the window of the first pixel begins before the image. -/
def lead (p : ℕ) (s : ℕ → ℕ) : ℕ → ℕ
  | 0 => 0
  | t + 1 => lead p s t + p * jump s t

/-- The window of pixel `i` after `t` layers lies in an image of `H` pixels. Its first pixel is `i * jump - lead`. -/
def Sees (k s : ℕ → ℕ) (p H t i : ℕ) : Prop := lead p s t ≤ i * jump s t ∧ i * jump s t + reach k s t ≤ H + lead p s t

/-- `f` acts on each pixel of an image with `C` channels separately, in the same way for all of them. -/
def Pixelwise {K : Type} [Zero K] (f : Tensor K → Py (Tensor K)) (C : ℕ) : Prop :=
  ∃ φ : ℕ → (ℕ → K) → K, (∀ o v v', (∀ c < C, v c = v' c) → φ o v = φ o v') ∧
    ∀ (B H W : ℕ) (x : Tensor K), x.WF → x.shape = [B, C, H, W] → ∃ y, f x = .ok y ∧ y.WF ∧ y.shape = [B, C, H, W] ∧
      ∀ b < B, ∀ c < C, ∀ i < H, ∀ j < W, y.get [b, c, i, j] = φ c fun c => x.get [b, c, i, j]

/-- The same for signals. -/
def Pointwise {K : Type} [Zero K] (f : Tensor K → Py (Tensor K)) (C : ℕ) : Prop :=
  ∃ φ : ℕ → (ℕ → K) → K, (∀ o v v', (∀ c < C, v c = v' c) → φ o v = φ o v') ∧
    ∀ (B H : ℕ) (x : Tensor K), x.WF → x.shape = [B, C, H] → ∃ y, f x = .ok y ∧ y.WF ∧ y.shape = [B, C, H] ∧
      ∀ b < B, ∀ c < C, ∀ i < H, y.get [b, c, i] = φ c fun c => x.get [b, c, i]

end HOL.Spec
