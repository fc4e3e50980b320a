import Verif.Model.Rotation
import Verif.Lemmas.Norm
import Verif.Lemmas.SparseLion

/-! # Rows of the rotation layer -/

namespace HOL
open TorchScalar

section
variable {K : Type}

/-- Reading a list of rows of equal length through its flattening. -/
theorem flatten_getD [Zero K] : ∀ {cs : List (List K)} {n r i : ℕ}, (∀ c ∈ cs, c.length = n) → i < n →
    cs.flatten.getD (r * n + i) 0 = (cs.getD r []).getD i 0
  | [], n, r, i, _, _ => by simp
  | c :: cs, n, 0, i, h, hi => by
    have hc : c.length = n := h c (by simp)
    simp [List.getD_eq_getElem?_getD, List.getElem?_append_left (hc ▸ hi : i < c.length)]
  | c :: cs, n, r + 1, i, h, hi => by
    have hc : c.length = n := h c (by simp)
    have ih := flatten_getD (cs := cs) (r := r) (fun c' h' => h c' (by simp [h'])) hi
    have e : (r + 1) * n + i = c.length + (r * n + i) := by rw [hc]; ring
    rw [e]
    simp only [List.flatten_cons, List.getD_eq_getElem?_getD]
    rw [List.getElem?_append_right (by omega)]
    simpa [List.getD_eq_getElem?_getD] using ih

theorem flatten_length : ∀ {cs : List (List K)} {n : ℕ}, (∀ c ∈ cs, c.length = n) →
    cs.flatten.length = cs.length * n
  | [], n, _ => by simp
  | c :: cs, n, h => by
    have hc : c.length = n := h c (by simp)
    rw [List.flatten_cons, List.length_append, hc, flatten_length fun c' h' => h c' (by simp [h'])]
    simp; ring

end

section
set_option linter.unusedSectionVars false
variable {K : Type} [TorchScalar K]

theorem addAt_length (row : List K) (i : ℕ) (v : K) : (addAt row i v).length = row.length := by simp [addAt]

theorem addAt_getD (row : List K) {i k : ℕ} (v : K) (hi : i < row.length) :
    (addAt row i v).getD k 0 = if k = i then row.getD i 0 + v else row.getD k 0 := by
  unfold addAt
  simp only [List.getD_eq_getElem?_getD, List.getElem?_set]
  by_cases h : i = k
  · subst h; simp [hi]
  · rw [if_neg h, if_neg (Ne.symm h)]

theorem mem_combos {n rot : ℕ} {normalize : Bool} {row : List K} :
    row ∈ combos n rot normalize ↔ ∃ i < n, row = (List.replicate n (0 : K)).set i 1 ∨
      ∃ j, i < j ∧ j < n ∧ ∃ r, 1 ≤ r ∧ r < rot ∧ row ∈ rotationRows n rot normalize i j r := by
  unfold combos
  simp only [List.mem_flatMap, List.mem_range, List.mem_cons, List.mem_range'_1]
  constructor
  · rintro ⟨i, hi, h | ⟨j, hj, r, hr, h⟩⟩
    · exact ⟨i, hi, Or.inl h⟩
    · exact ⟨i, hi, Or.inr ⟨j, by omega, by omega, r, by omega, by omega, h⟩⟩
  · rintro ⟨i, hi, h | ⟨j, h1, h2, r, h3, h4, h⟩⟩
    · exact ⟨i, hi, Or.inl h⟩
    · exact ⟨i, hi, Or.inr ⟨j, by omega, r, by omega, h⟩⟩

theorem combos_row_length {n rot : ℕ} {normalize : Bool} {row : List K} (h : row ∈ combos n rot normalize) :
    row.length = n := by
  obtain ⟨i, hi, rfl | ⟨j, _, _, r, _, _, h⟩⟩ := mem_combos.1 h
  · simp
  · unfold rotationRows at h
    simp only [List.mem_cons, List.not_mem_nil, or_false] at h
    rcases h with rfl | rfl <;> simp [addAt_length]

theorem combos_length (n rot : ℕ) (normalize : Bool) :
    (combos n rot normalize : List (List K)).length = n + n * (n - 1) * (rot - 1) := by
  have hin : ∀ i, ((List.range' (i + 1) (n - (i + 1))).flatMap fun j =>
        (List.range' 1 (rot - 1)).flatMap fun r => (rotationRows n rot normalize i j r : List (List K))).length
      = (n - (i + 1)) * ((rot - 1) * 2) := by
    intro i
    rw [List.length_flatMap]
    have : ∀ j, ((List.range' 1 (rot - 1)).flatMap fun r =>
        (rotationRows n rot normalize i j r : List (List K))).length = (rot - 1) * 2 := by
      intro j
      rw [List.length_flatMap]
      have e : (List.range' 1 (rot - 1)).map (fun r =>
          (rotationRows n rot normalize i j r : List (List K)).length) = List.replicate (rot - 1) 2 := by
        rw [List.eq_replicate_iff]
        constructor
        · simp
        · intro b hb
          obtain ⟨r, _, rfl⟩ := List.mem_map.1 hb
          rfl
      rw [e]; simp
    have e : (List.range' (i + 1) (n - (i + 1))).map (fun j => ((List.range' 1 (rot - 1)).flatMap fun r =>
        (rotationRows n rot normalize i j r : List (List K))).length)
        = List.replicate (n - (i + 1)) ((rot - 1) * 2) := by
      rw [List.eq_replicate_iff]
      constructor
      · simp
      · intro b hb
        obtain ⟨j, _, rfl⟩ := List.mem_map.1 hb
        exact this j
    rw [e]; simp
  unfold combos
  rw [List.length_flatMap]
  simp only [List.length_cons, hin]
  have key : ∀ m, m ≤ n → ((List.range m).map fun i => (n - (i + 1)) * ((rot - 1) * 2) + 1).sum
      = m + (2 * n - 1 - m) * m * (rot - 1) := by
    intro m
    induction m with
    | zero => intro _; simp
    | succ m ih =>
      intro hm
      rw [List.range_succ, List.map_append, List.sum_append, ih (by omega)]
      simp only [List.map_cons, List.map_nil, List.sum_cons, List.sum_nil, Nat.add_zero]
      obtain ⟨d, rfl⟩ : ∃ d, n = m + 1 + d := ⟨n - (m + 1), by omega⟩
      have e1 : m + 1 + d - (m + 1) = d := by omega
      have e2 : 2 * (m + 1 + d) - 1 - m = m + 1 + 2 * d := by omega
      have e3 : 2 * (m + 1 + d) - 1 - (m + 1) = m + 2 * d := by omega
      rw [e1, e2, e3]
      ring
  rw [key n le_rfl]
  have : 2 * n - 1 - n = n - 1 := by omega
  rw [this, Nat.mul_comm (n - 1) n]

end

end HOL
