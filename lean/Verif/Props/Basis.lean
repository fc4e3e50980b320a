import Verif.Lemmas.LagrangeReal
import Verif.Lemmas.Structural
import Mathlib.Tactic.ComputeDegree

/-! # C01 - C05: nodes and Lagrange basis -/

namespace HOL
open TorchScalar Polynomial

/-- **C01.** `chebyshevLobatto(n)` is the list of the `n` Chebyshev-Lobatto points: strictly increasing, in
`[-1, 1]`, antisymmetric, with both ends for `n ≥ 2` and only the origin for `n = 1`. -/
theorem C01_chebyshev_nodes (n : ℕ) (_hn : 1 ≤ n) :
    (chebyshevLobatto n : Tensor ℝ).shape = [n] ∧ (chebyshevLobatto n : Tensor ℝ).WF ∧
    (∀ i j, i < j → j < n →
      (chebyshevLobatto n : Tensor ℝ).get [i] < (chebyshevLobatto n : Tensor ℝ).get [j]) ∧
    (∀ j < n, -1 ≤ (chebyshevLobatto n : Tensor ℝ).get [j] ∧
      (chebyshevLobatto n : Tensor ℝ).get [j] ≤ 1) ∧
    (∀ j < n, (chebyshevLobatto n : Tensor ℝ).get [n - 1 - j]
      = -(chebyshevLobatto n : Tensor ℝ).get [j]) ∧
    (2 ≤ n → (chebyshevLobatto n : Tensor ℝ).get [0] = -1 ∧
      (chebyshevLobatto n : Tensor ℝ).get [n - 1] = 1) ∧
    (2 ≤ n → ∀ j < n, (chebyshevLobatto n : Tensor ℝ).get [j]
      = -Real.cos (Real.pi * j / ((n : ℝ) - 1))) ∧
    (n = 1 → (chebyshevLobatto n : Tensor ℝ).get [0] = 0) := by
  refine ⟨chebyshev_shape n, chebyshev_wf n, ?_, ?_, ?_, ?_, ?_, ?_⟩
  · intro i j hij hj
    rw [chebyshev_get hj, chebyshev_get (by omega)]
    exact node_strictMono hij hj
  · intro j hj
    rw [chebyshev_get hj]
    exact node_mem n j
  · intro j hj
    rw [chebyshev_get hj, chebyshev_get (by omega)]
    exact node_antisymm hj
  · intro h
    rw [chebyshev_get (by omega), chebyshev_get (by omega)]
    exact ⟨node_zero h, node_last h⟩
  · intro h j hj
    rw [chebyshev_get hj, Spec.node, if_neg (by omega)]
  · intro h
    rw [chebyshev_get (by omega), Spec.node, if_pos h]

/-- The three point rule is `-1, 0, 1`. -/
example : (chebyshevLobatto 3 : Tensor ℝ).get [0] = -1 ∧ (chebyshevLobatto 3 : Tensor ℝ).get [1] = 0 ∧
    (chebyshevLobatto 3 : Tensor ℝ).get [2] = 1 := by
  obtain ⟨_, _, _, _, h5, h6, _⟩ := C01_chebyshev_nodes 3 (by norm_num)
  have := h5 1 (by norm_num)
  refine ⟨(h6 (by norm_num)).1, ?_, (h6 (by norm_num)).2⟩
  norm_num at this
  linarith

/-- The nodes the basis object exposes. -/
theorem basisX {n : ℕ} (hn : 1 ≤ n) (length : ℝ) :
    ∃ X : Tensor ℝ, (getLagrangeBasis n length).X = .ok X ∧ X.shape = [n] ∧
      ∀ j < n, X.get [j] = length / 2 * Spec.node n j := by
  unfold getLagrangeBasis
  split
  · subst_vars
    refine ⟨_, rfl, rfl, ?_⟩
    intro j hj
    rw [Tensor.get_tab1 hj, Spec.node, if_pos rfl]
    ring
  · refine ⟨_, rfl, ?_, ?_⟩
    · show ((chebyshevLobatto n : Tensor ℝ).map _).shape = _
      rw [Tensor.shape_map, chebyshev_shape]
    · intro j hj
      exact init_X_get hj length

/-- **C02.** Basis function `j` is one at node `j` and zero at the other nodes. -/
theorem C02_cardinal (n : ℕ) (hn : 1 ≤ n) (length : ℝ) (hl : length ≠ 0) :
    ∃ X : Tensor ℝ, (getLagrangeBasis n length).X = .ok X ∧ X.shape = [n] ∧
      ∀ j < n, ∀ k < n, (getLagrangeBasis n length).call (X.get [k]) j = if k = j then 1 else 0 := by
  obtain ⟨X, h1, h2, h3⟩ := basisX hn length
  refine ⟨X, h1, h2, ?_⟩
  intro j hj k hk
  rw [basis_call_eq hj, h3 k hk]
  have hinj := scaled_injOn n hl
  by_cases h : k = j
  · subst h
    rw [if_pos rfl]
    exact Lagrange.eval_basis_self hinj (Finset.mem_range.2 hk)
  · rw [if_neg h]
    exact Lagrange.eval_basis_of_ne (v := fun j => length / 2 * Spec.node n j)
      (fun e => h e.symm) (Finset.mem_range.2 hk)

/-- Quadratic basis of length 4: the middle function at the right end and the middle node. -/
example : ∃ X : Tensor ℝ, (getLagrangeBasis 3 (4 : ℝ)).X = .ok X ∧
    (getLagrangeBasis 3 (4 : ℝ)).call (X.get [2]) 1 = 0 ∧
    (getLagrangeBasis 3 (4 : ℝ)).call (X.get [1]) 1 = 1 := by
  obtain ⟨X, h1, _, h3⟩ := C02_cardinal 3 (by norm_num) 4 (by norm_num)
  exact ⟨X, h1, by simpa using h3 1 (by norm_num) 2 (by norm_num),
    by simpa using h3 1 (by norm_num) 1 (by norm_num)⟩

/-- **C03.** The basis values sum to one at every real number. -/
theorem C03_partition_of_unity (n : ℕ) (hn : 1 ≤ n) (length : ℝ) (hl : length ≠ 0) (x : ℝ) :
    ∑ j ∈ Finset.range n, (getLagrangeBasis n length).call x j = 1 := by
  have h := sum_basis_call n length x (fun _ => 1)
  simp only [mul_one] at h
  rw [h]
  have hdeg : (1 : ℝ[X]).degree < (Finset.range n).card := by
    rw [Finset.card_range, degree_one]; exact_mod_cast hn
  have := Lagrange.eq_interpolate (scaled_injOn n hl) hdeg
  simp only [eval_one] at this
  rw [← this, eval_one]

/-- Far outside the node range. -/
example : ∑ j ∈ Finset.range 5, (getLagrangeBasis 5 (2 : ℝ)).call 1000 j = 1 :=
  C03_partition_of_unity 5 (by norm_num) 2 (by norm_num) 1000

/-- **C04.** Interpolating the node values of polynomials of degree `< n` gives back the polynomials,
at every input, for `LagrangePolyFlat` and for the batched `LagrangePoly`. -/
theorem C04_reproduces_polynomials (n : ℕ) (hn : 1 ≤ n) (length : ℝ) (hl : length ≠ 0)
    (B I O : ℕ) (P : ℕ → ℕ → ℝ[X]) (hP : ∀ o i, (P o i).degree < n) :
    ∃ X : Tensor ℝ, (getLagrangeBasis n length).X = .ok X ∧
      (∀ x w : Tensor ℝ, x.shape = [B, I] → w.shape = [O, I, n] →
        (∀ o < O, ∀ i < I, ∀ j < n, w.get [o, i, j] = (P o i).eval (X.get [j])) →
        ∃ out, (lagrangePolyFlat n length).interpolate x w = .ok out ∧
          ∀ b < B, ∀ o < O, out.get [b, o] = ∑ i ∈ Finset.range I, (P o i).eval (x.get [b, i])) ∧
      (∀ (x : ℕ → ℕ → ℝ),
        ∃ out, (lagrangePoly n length).interpolate (Tensor.tab2 B I x)
            (Tensor.tab4 B I O n fun _ i o j => (P o i).eval (X.get [j])) = .ok out ∧
          ∀ b < B, ∀ o < O, out.get [b, o] = ∑ i ∈ Finset.range I, (P o i).eval (x b i)) := by
  obtain ⟨X, h1, _, h3⟩ := basisX hn length
  have key : ∀ o i y, ∑ p ∈ Finset.range n,
      (getLagrangeBasis n length).call y p * (P o i).eval (X.get [p]) = (P o i).eval y := by
    intro o i y
    rw [sum_basis_call n length y (fun p => (P o i).eval (X.get [p]))]
    have hd : (P o i).degree < (Finset.range n).card := by simpa using hP o i
    have e := Lagrange.eq_interpolate (scaled_injOn n hl) hd
    have e2 : Lagrange.interpolate (Finset.range n) (fun j => length / 2 * Spec.node n j)
        (fun p => (P o i).eval (X.get [p])) = P o i := by
      rw [e]
      apply Lagrange.interpolate_eq_of_values_eq_on
      intro p hp
      rw [← e, h3 p (Finset.mem_range.1 hp)]
    rw [e2]
  refine ⟨X, h1, ?_, ?_⟩
  · intro x w hx hw hval
    refine ⟨_, interpolate_flat hn _ hx hw, ?_⟩
    intro b hb o ho
    rw [Tensor.get_tab2 hb ho, sumL_flatMap_range, Finset.sum_comm]
    apply Finset.sum_congr rfl
    intro i hi
    rw [← key o i]
    apply Finset.sum_congr rfl
    intro p hp
    rw [hval o ho i (Finset.mem_range.1 hi) p (Finset.mem_range.1 hp)]
  · intro x
    refine ⟨_, interpolate_batch hn _ _ _, ?_⟩
    intro b hb o ho
    rw [Tensor.get_tab2 hb ho, sumL_flatMap_range, Finset.sum_comm]
    apply Finset.sum_congr rfl
    intro i _
    exact key o i _

/-- **C04 (uniqueness).** For arbitrary node values the interpolated value is that of a polynomial
of degree `< n` through them, and every polynomial of degree `< n` through them is that one. -/
theorem C04_unique_interpolant (n : ℕ) (hn : 1 ≤ n) (length : ℝ) (hl : length ≠ 0) (v : ℕ → ℝ) :
    ∃ X : Tensor ℝ, (getLagrangeBasis n length).X = .ok X ∧
      ∃ P : ℝ[X], P.degree < n ∧ (∀ j < n, P.eval (X.get [j]) = v j) ∧
        (∀ x, ∑ j ∈ Finset.range n, (getLagrangeBasis n length).call x j * v j = P.eval x) ∧
        ∀ Q : ℝ[X], Q.degree < n → (∀ j < n, Q.eval (X.get [j]) = v j) → Q = P := by
  obtain ⟨X, h1, _, h3⟩ := basisX hn length
  have hinj := scaled_injOn n hl
  refine ⟨X, h1, Lagrange.interpolate (Finset.range n) (fun j => length / 2 * Spec.node n j) v,
    ?_, ?_, ?_, ?_⟩
  · have := Lagrange.degree_interpolate_lt v hinj
    simpa using this
  · intro j hj
    rw [h3 j hj]
    exact Lagrange.eval_interpolate_at_node v hinj (Finset.mem_range.2 hj)
  · intro x
    exact sum_basis_call n length x v
  · intro Q hQ hQv
    apply Lagrange.eq_interpolate_of_eval_eq v hinj (by simpa using hQ)
    intro j hj
    have := hQv j (Finset.mem_range.1 hj)
    rwa [h3 j (Finset.mem_range.1 hj)] at this

/-- A cubic with `n = 4`, one input and one output. -/
example : ∃ N : Tensor ℝ, (getLagrangeBasis 4 (2 : ℝ)).X = .ok N ∧
    ∃ out, (lagrangePoly 4 (2 : ℝ)).interpolate (Tensor.tab2 1 1 fun _ _ => 7)
      (Tensor.tab4 1 1 1 4 fun _ _ _ j => (X ^ 3 - C 2 * X : ℝ[X]).eval (N.get [j])) = .ok out ∧
      out.get [0, 0] = 7 ^ 3 - 2 * 7 := by
  have hdeg : (X ^ 3 - C 2 * X : ℝ[X]).degree < (4 : ℕ) := by
    have : (X ^ 3 - C 2 * X : ℝ[X]).degree ≤ 3 := by compute_degree
    exact lt_of_le_of_lt this (by norm_num)
  obtain ⟨N, h1, _, h3⟩ := C04_reproduces_polynomials 4 (by norm_num) 2 (by norm_num) 1 1 1
    (fun _ _ => X ^ 3 - C 2 * X) (fun _ _ => hdeg)
  obtain ⟨out, h4, h5⟩ := h3 fun _ _ => 7
  refine ⟨N, h1, out, h4, ?_⟩
  rw [h5 0 (by norm_num) 0 (by norm_num)]
  simp

/-- **C05.** Rescaling: the basis of length `L` at `(L/2) x` is the basis of length 2 at `x`. -/
theorem C05_length_scaling (n j : ℕ) (hj : j < n) (length x : ℝ) (hl : length ≠ 0) :
    (getLagrangeBasis n length).call (length / 2 * x) j = (getLagrangeBasis n (2 : ℝ)).call x j := by
  rw [basis_call_eq hj, basis_call_eq hj]
  simp only [Lagrange.basis, eval_prod]
  apply Finset.prod_congr rfl
  intro m _
  simp only [Lagrange.basisDivisor, eval_mul, eval_C, eval_sub, eval_X]
  have h2 : length / 2 ≠ 0 := by positivity
  have h1 : (2 : ℝ) / 2 = 1 := by norm_num
  rw [h1, ← mul_sub, ← mul_sub, mul_inv, one_mul, one_mul]
  field_simp

/-- Length 6, at the right end: the last function is one there. -/
example : (getLagrangeBasis 3 (6 : ℝ)).call 3 2 = (getLagrangeBasis 3 (2 : ℝ)).call 1 2 := by
  have := C05_length_scaling 3 2 (by norm_num) 6 1 (by norm_num)
  norm_num at this
  exact this

end HOL
