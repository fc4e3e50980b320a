import Verif.Model.TensorOps
import Verif.Lemmas.NetRefine

/-! # Lemmas about broadcasting and views -/

namespace HOL
open TorchScalar

section
set_option linter.unusedSectionVars false
variable {K : Type} [TorchScalar K]

theorem bcastRev_self (s : List ℕ) : bcastRev s s = .ok s := by
  induction s with
  | nil => rfl
  | cons a s ih => simp only [bcastRev, bcast_self, ih, bind, Except.bind]

theorem bcastShape_self (s : List ℕ) : bcastShape s s = .ok s := by
  simp [bcastShape, bcastRev_self, bind, Except.bind]

theorem zipWith_bidx_self : ∀ {s idx : List ℕ}, InShape s idx → List.zipWith bidx s idx = idx
  | [], [], _ => rfl
  | [], _ :: _, h => by simp [InShape] at h
  | _ :: _, [], h => by simp [InShape] at h
  | a :: s, i :: idx, h => by
    obtain ⟨h1, h2⟩ := h
    rw [List.zipWith_cons_cons, bidx_of_lt h1, zipWith_bidx_self h2]

theorem InShape.length_eq : ∀ {s idx : List ℕ}, InShape s idx → idx.length = s.length
  | [], [], _ => rfl
  | [], _ :: _, h => by simp [InShape] at h
  | _ :: _, [], h => by simp [InShape] at h
  | _ :: s, _ :: idx, h => by simp [InShape.length_eq h.2]

theorem Tensor.bget_self {t : Tensor K} {idx : List ℕ} (h : InShape t.shape idx) : t.bget idx = t.get idx := by
  unfold Tensor.bget
  rw [h.length_eq, Nat.sub_self, List.drop_zero, zipWith_bidx_self h]

/-- Entry-wise operations on tensors of one shape. -/
theorem zipB_same (f : K → K → K) {s t : Tensor K} {sh : List ℕ} (hs : s.shape = sh) (ht : t.shape = sh) :
    zipB f s t = .ok (Tensor.tabulate sh fun idx => f (s.get idx) (t.get idx)) := by
  unfold zipB
  rw [hs, ht, bcastShape_self]
  simp only [bind, Except.bind]
  congr 1
  apply tabulate_congr
  intro idx h
  rw [Tensor.bget_self (by rw [hs]; exact h), Tensor.bget_self (by rw [ht]; exact h)]

theorem Tensor.data_map_get {t : Tensor K} (ht : t.WF) : t.data = (List.range (numel t.shape)).map fun q => t.data.getD q 0 := by
  apply List.ext_getElem
  · simp [show t.data.length = numel t.shape from ht]
  · intro i h1 h2
    simp [List.getD_eq_getElem?_getD, h1]

end
end HOL
