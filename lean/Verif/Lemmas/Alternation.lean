import Verif.Lemmas.Pieces
import Verif.Lemmas.Xor
import Mathlib.Topology.Order.IntermediateValue
import Mathlib.Topology.Algebra.Polynomial
import Mathlib.Analysis.SpecialFunctions.Trigonometric.Chebyshev.Basic

/-! # How often piecewise polynomials change sign -/

namespace HOL
open Polynomial Spec Topology Filter

/-- A monotone bounded rank is constant just left of every point. -/
theorem rank_left {r : ℝ → ℕ} (hr : Monotone r) {S : ℕ} (hS : ∀ x, r x < S) (z : ℝ) : ∃ l < z, ∀ u, l ≤ u → u < z → r u = r l := by
  classical
  obtain ⟨m, ⟨l, hl, hm⟩, hmax⟩ : ∃ m, (∃ l < z, r l = m) ∧ ∀ k, (∃ l < z, r l = k) → k ≤ m := by
    have hb : ∀ k, (∃ l < z, r l = k) → k ≤ S := fun k ⟨l, _, h⟩ => h ▸ (hS l).le
    have hex : ∃ l < z, r l = r (z - 1) := ⟨z - 1, by linarith, rfl⟩
    exact ⟨Nat.findGreatest (fun k => ∃ l < z, r l = k) S, Nat.findGreatest_spec (P := fun k => ∃ l < z, r l = k) (hb _ hex) hex,
      fun k hk => Nat.le_findGreatest (hb k hk) hk⟩
  exact ⟨l, hl, fun u h1 h2 => le_antisymm (hm ▸ hmax _ ⟨u, h2, rfl⟩) (hr h1)⟩

theorem points_mono {t : ℕ → ℝ} {K : ℕ} (ht : ∀ k < K, t k < t (k + 1)) : ∀ j k, j ≤ k → k ≤ K → t j ≤ t k := by
  intro j k hjk
  induction k, hjk using Nat.le_induction with
  | base => intro _; exact le_rfl
  | succ k hk ih => intro hK; exact (ih (by omega)).trans (ht k (by omega)).le

/-- A continuous function that just left of every point is one of `S` polynomials of degree at most `D` changes sign at most `S D` times. -/
theorem alternations_continuous {f : ℝ → ℝ} (hf : Continuous f) {S D : ℕ} {Q : ℕ → ℝ[X]} (hd : ∀ s, (Q s).natDegree ≤ D)
    (hQ : ∀ z, ∃ s < S, ∃ l < z, ∀ u, l < u → u < z → f u = (Q s).eval u) {K : ℕ} {t : ℕ → ℝ} (ht : ∀ k < K, t k < t (k + 1))
    (hs : ∀ k < K, f (t k) * f (t (k + 1)) < 0) : K ≤ S * D := by
  classical
  have key : ∀ k, k < K → ∃ z, t k < z ∧ z < t (k + 1) ∧ z ∈ (Finset.range S).biUnion fun s => (Q s).roots.toFinset := by
    intro k hk
    set Z : Set ℝ := {u | u ∈ Set.Icc (t k) (t (k + 1)) ∧ f u = 0} with hZ
    have hne : Z.Nonempty := by
      rcases mul_neg_iff.1 (hs k hk) with ⟨h1, h2⟩ | ⟨h1, h2⟩
      · obtain ⟨u, hu, e⟩ := intermediate_value_Icc' (ht k hk).le hf.continuousOn ⟨h2.le, h1.le⟩
        exact ⟨u, hu, e⟩
      · obtain ⟨u, hu, e⟩ := intermediate_value_Icc (ht k hk).le hf.continuousOn ⟨h1.le, h2.le⟩
        exact ⟨u, hu, e⟩
    have hcl : IsCompact Z := by
      have : Z = Set.Icc (t k) (t (k + 1)) ∩ f ⁻¹' {0} := by ext u; simp [hZ]
      rw [this]
      exact isCompact_Icc.inter_right (isClosed_singleton.preimage hf)
    have hz := hcl.sInf_mem hne
    set z := sInf Z with hzd
    have n0 : f (t k) ≠ 0 := fun h => by have := hs k hk; rw [h, zero_mul] at this; exact lt_irrefl _ this
    have n1 : f (t (k + 1)) ≠ 0 := fun h => by have := hs k hk; rw [h, mul_zero] at this; exact lt_irrefl _ this
    have z0 : t k < z := lt_of_le_of_ne hz.1.1 fun h => n0 (by rw [h]; exact hz.2)
    have z1 : z < t (k + 1) := lt_of_le_of_ne hz.1.2 fun h => n1 (by rw [← h]; exact hz.2)
    obtain ⟨s, hsS, l, hl, hlu⟩ := hQ z
    refine ⟨z, z0, z1, Finset.mem_biUnion.2 ⟨s, Finset.mem_range.2 hsS, ?_⟩⟩
    have hroot : (Q s).eval z = 0 := by
      have e : f =ᶠ[𝓝[<] z] fun u => (Q s).eval u := by
        filter_upwards [Ioo_mem_nhdsLT hl] with u hu using hlu u hu.1 hu.2
      have a : Tendsto f (𝓝[<] z) (𝓝 (f z)) := (hf.tendsto z).mono_left nhdsWithin_le_nhds
      have b : Tendsto (fun u => (Q s).eval u) (𝓝[<] z) (𝓝 ((Q s).eval z)) := ((Q s).continuous.tendsto z).mono_left nhdsWithin_le_nhds
      rw [← tendsto_nhds_unique_of_eventuallyEq a b e, hz.2]
    obtain ⟨u, hu1, hu2⟩ := exists_between (max_lt hl z0)
    have hu : f u ≠ 0 := fun h => absurd (csInf_le hcl.bddBelow (⟨⟨((le_max_right _ _).trans hu1.le), (hu2.trans z1).le⟩, h⟩ : u ∈ Z)) (not_le.2 hu2)
    rw [Multiset.mem_toFinset, mem_roots (fun h0 => hu (by rw [hlu u ((le_max_left _ _).trans_lt hu1) hu2, h0, eval_zero]))]
    exact hroot
  choose! z h1 h2 h3 using key
  have hinj : Set.InjOn z (Finset.range K : Set ℕ) := by
    intro j hj k hk e
    have hj' := Finset.mem_range.1 hj
    have hk' := Finset.mem_range.1 hk
    rcases lt_trichotomy j k with h | h | h
    · have := points_mono ht (j + 1) k h hk'.le
      linarith [h2 j hj', h1 k hk']
    · exact h
    · have := points_mono ht (k + 1) j h hj'.le
      linarith [h2 k hk', h1 j hj']
  have := Finset.card_le_card_of_injOn z (fun k hk => h3 k (Finset.mem_range.1 hk)) hinj
  rw [Finset.card_range] at this
  refine this.trans ((Finset.card_biUnion_le_card_mul _ _ D fun s _ => ?_).trans_eq (by rw [Finset.card_range]))
  exact (Multiset.toFinset_card_le _).trans ((card_roots' _).trans (hd s))

/-- A function made of `S` successive polynomials of degree at most `D` changes sign fewer than `S (D + 1)` times. -/
theorem alternations_pieces {f : ℝ → ℝ} {S D : ℕ} {Q : ℕ → ℝ[X]} (hd : ∀ s, (Q s).natDegree ≤ D) {r : ℝ → ℕ} (hr : Monotone r) (hS : ∀ x, r x < S)
    (hQ : ∀ x, f x = (Q (r x)).eval x) {K : ℕ} {t : ℕ → ℝ} (ht : ∀ k < K, t k < t (k + 1))
    (hs : ∀ k < K, f (t k) * f (t (k + 1)) < 0) : K < S * (D + 1) := by
  classical
  have hm := points_mono ht
  set A := (Finset.range K).filter fun k => r (t k) = r (t (k + 1)) with hA
  set B := (Finset.range K).filter fun k => ¬ r (t k) = r (t (k + 1)) with hB
  have hAB : A.card + B.card = K := by rw [hA, hB, Finset.card_filter_add_card_filter_not, Finset.card_range]
  have cB : B.card ≤ S - 1 := by
    have hlt : ∀ k ∈ B, k < K ∧ r (t k) < r (t (k + 1)) := fun k hk => by
      have h := Finset.mem_filter.1 hk
      have hkK := Finset.mem_range.1 h.1
      exact ⟨hkK, lt_of_le_of_ne (hr (ht k hkK).le) h.2⟩
    have := Finset.card_le_card_of_injOn (s := B) (t := Finset.range (S - 1)) (fun k => r (t k))
      (fun k hk => Finset.mem_coe.2 (Finset.mem_range.2 (show r (t k) < S - 1 by have := (hlt k hk).2; have := hS (t (k + 1)); omega))) (by
        intro j hj k hk e
        obtain ⟨hj', hjl⟩ := hlt j hj
        obtain ⟨hk', hkl⟩ := hlt k hk
        dsimp only at e
        rcases lt_trichotomy j k with h | h | h
        · have := hr (hm (j + 1) k h hk'.le); omega
        · exact h
        · have := hr (hm (k + 1) j h hj'.le); omega)
    rwa [Finset.card_range] at this
  have cA : A.card ≤ S * D := by
    have key : ∀ k, k ∈ A → ∃ z, t k < z ∧ z < t (k + 1) ∧ z ∈ (Finset.range S).biUnion fun s => (Q s).roots.toFinset := by
      intro k hk
      have h := Finset.mem_filter.1 hk
      have hkK := Finset.mem_range.1 h.1
      have e := hs k hkK
      rw [hQ, hQ, ← h.2] at e
      set q := Q (r (t k)) with hq
      obtain ⟨z, hz, z0⟩ : ∃ z ∈ Set.Ioo (t k) (t (k + 1)), q.eval z = 0 := by
        have hc : ContinuousOn (fun x => q.eval x) (Set.Icc (t k) (t (k + 1))) := q.continuous.continuousOn
        rcases mul_neg_iff.1 e with ⟨h1, h2⟩ | ⟨h1, h2⟩
        · exact intermediate_value_Ioo' (ht k hkK).le hc ⟨h2, h1⟩
        · exact intermediate_value_Ioo (ht k hkK).le hc ⟨h1, h2⟩
      refine ⟨z, hz.1, hz.2, Finset.mem_biUnion.2 ⟨r (t k), Finset.mem_range.2 (hS _), ?_⟩⟩
      rw [Multiset.mem_toFinset, ← hq, mem_roots (fun h0 => by rw [h0, eval_zero, zero_mul] at e; exact lt_irrefl _ e)]
      exact z0
    choose! z h1 h2 h3 using key
    have hinj : Set.InjOn z (A : Set ℕ) := by
      intro j hj k hk e
      have hj' := Finset.mem_range.1 (Finset.mem_filter.1 hj).1
      have hk' := Finset.mem_range.1 (Finset.mem_filter.1 hk).1
      rcases lt_trichotomy j k with h | h | h
      · have := hm (j + 1) k h hk'.le
        linarith [h2 j hj, h1 k hk]
      · exact h
      · have := hm (k + 1) j h hj'.le
        linarith [h2 k hk, h1 j hj]
    have := Finset.card_le_card_of_injOn z (fun k hk => h3 k hk) hinj
    refine this.trans ((Finset.card_biUnion_le_card_mul _ _ D fun s _ => ?_).trans_eq (by rw [Finset.card_range]))
    exact (Multiset.toFinset_card_le _).trans ((card_roots' _).trans (hd s))
  have hS0 : 0 < S := (Nat.zero_le _).trans_lt (hS 0)
  rw [Nat.mul_succ]
  omega

/-- A polynomial of degree at most `D` changes sign at most `D` times. -/
theorem alternations_poly {P : ℝ[X]} {D : ℕ} (hP : P.natDegree ≤ D) {K : ℕ} {t : ℕ → ℝ} (ht : ∀ k < K, t k < t (k + 1))
    (hs : ∀ k < K, P.eval (t k) * P.eval (t (k + 1)) < 0) : K ≤ D := by
  have := alternations_pieces (f := fun x => P.eval x) (S := 1) (Q := fun _ => P) (fun _ => hP) (r := fun _ => 0) monotone_const (fun _ => one_pos) (fun _ => rfl) ht hs
  omega

/-! ## links -/

/-- The segment responsible for a point grows with the point. -/
theorem isActive_mono {S s s' : ℕ} {x y : ℝ} (hs : IsActive S s x) (hs' : IsActive S s' y) (hxy : x ≤ y) : s ≤ s' := by
  by_contra h
  push Not at h
  obtain ⟨a1, a2, a3⟩ := hs
  obtain ⟨b1, b2, b3⟩ := hs'
  have h1 : segLeft S s ≤ x := a2.resolve_left (by omega)
  have h2 : y < segLeft S (s' + 1) := b3.resolve_left (by omega)
  have h3 : segLeft S (s' + 1) ≤ segLeft S s := by
    have : ((s' + 1 : ℕ) : ℝ) ≤ s := by exact_mod_cast h
    unfold segLeft
    gcongr
  linarith

/-- The pieces of a link as polynomials of the input. -/
theorem link_pieces {n S stride : ℕ} (hS : 0 < S) {v : ℕ → ℝ} {f : ℝ → ℝ} (hf : IsPiecewisePoly n S stride v f) :
    ∃ (Q : ℕ → ℝ[X]) (r : ℝ → ℕ), (∀ s, (Q s).natDegree ≤ n - 1) ∧ Monotone r ∧ (∀ x, r x < S) ∧ ∀ x, f x = (Q (r x)).eval x := by
  choose r hr using fun x => isActive_exists hS x
  let A : ℕ → ℝ[X] := fun s => C (S : ℝ) * X + C ((S : ℝ) - 2 * (s : ℝ) - 1)
  refine ⟨fun s => (linkPoly n fun k => v (s * stride + k)).comp (A s), r, fun s => ?_, fun x y h => isActive_mono (hr x) (hr y) h, fun x => (hr x).1, fun x => ?_⟩
  · have h0 := linkPoly_degree n fun k => v (s * stride + k)
    have h3 : (linkPoly n fun k => v (s * stride + k)).natDegree ≤ n - 1 := by
      by_cases e : (linkPoly n fun k => v (s * stride + k)) = 0
      · rw [e, natDegree_zero]; exact Nat.zero_le _
      · exact Nat.le_sub_one_of_lt ((natDegree_lt_iff_degree_lt e).2 h0)
    have hA : (A s).natDegree ≤ 1 := natDegree_linear_le
    calc _ ≤ _ := natDegree_comp_le
      _ ≤ (n - 1) * 1 := Nat.mul_le_mul h3 hA
      _ = n - 1 := Nat.mul_one _
  · rw [hf (r x) x (hr x), eval_comp]
    congr 1
    simp only [A, eval_add, eval_mul, eval_C, eval_X, localCoord]
    ring

/-- The largest number of sign changes of a link. -/
def linkAlternations : LinkFamily → ℕ → ℕ → ℕ
  | .polynomial, n, _ => n - 1
  | .continuous, n, S => S * (n - 1)
  | .discontinuous, n, S => S * n - 1

theorem alternations_link (k : LinkFamily) {n S : ℕ} (hn : 0 < n) (hS : 0 < S) {f : ℝ → ℝ} (hf : InFamily k n S f) {K : ℕ} {t : ℕ → ℝ}
    (ht : ∀ k < K, t k < t (k + 1)) (hs : ∀ k < K, f (t k) * f (t (k + 1)) < 0) : K ≤ linkAlternations k n S := by
  cases k with
  | polynomial =>
    obtain ⟨P, h1, h2⟩ := hf
    refine alternations_poly (P := P) ?_ ht fun k hk => by rw [← h2, ← h2]; exact hs k hk
    by_cases e : P = 0
    · rw [e, natDegree_zero]; exact Nat.zero_le _
    · exact Nat.le_sub_one_of_lt ((natDegree_lt_iff_degree_lt e).2 h1)
  | continuous =>
    obtain ⟨v, hv⟩ := hf
    obtain ⟨Q, r, q1, q2, q3, q4⟩ := link_pieces hS hv
    refine alternations_continuous (continuous_of_isPiecewise hn hS hv) q1 (fun z => ?_) ht hs
    obtain ⟨l, hl, h⟩ := rank_left q2 q3 z
    exact ⟨r l, q3 l, l, hl, fun u h1 h2 => by rw [q4, h u h1.le h2]⟩
  | discontinuous =>
    obtain ⟨v, hv⟩ := hf
    obtain ⟨Q, r, q1, q2, q3, q4⟩ := link_pieces hS hv
    have := alternations_pieces q1 q2 q3 q4 ht hs
    rw [Nat.sub_add_cancel hn] at this
    show K ≤ S * n - 1
    omega

/-- Continuous paths with polynomial pieces. -/
theorem alternations_path {w M D : ℕ} {γ : ℝ → Fin w → ℝ} (h : PolyPath γ M D) (i : Fin w) (hc : Continuous fun t => γ t i) {K : ℕ} {t : ℕ → ℝ}
    (ht : ∀ k < K, t k < t (k + 1)) (hs : ∀ k < K, γ (t k) i * γ (t (k + 1)) i < 0) : K ≤ M * D := by
  obtain ⟨T, hT, hp⟩ := h
  choose P hd hP using fun k => hp (piece T k) (piece_ordConnected T k) fun t ht => ht.1
  refine (alternations_continuous hc (S := T.card + 1) (Q := fun k => P k i) (fun k => hd k i) (fun z => ?_) ht hs).trans (Nat.mul_le_mul_right _ hT)
  obtain ⟨l, hl, h⟩ := rank_left (pieceRank_mono T) (fun x => Nat.lt_succ_of_le (pieceRank_le T x)) z
  refine ⟨pieceRank T l, Nat.lt_succ_of_le (pieceRank_le T l), l, hl, fun u h1 h2 => hP _ i u ⟨fun hu => ?_, h u h1.le h2⟩⟩
  obtain ⟨y, hy1, hy2⟩ := exists_between h2
  have a := h u h1.le h2
  have b := h y (h1.trans hy1).le hy2
  have c := pieceRank_lt hu le_rfl hy1
  omega

/-! ## Fourier series -/

/-- The even part of a Fourier series with at most `2 d + 2` terms is a polynomial of degree `d` in the cosine. -/
theorem fourier_even {n d : ℕ} (hn : n ≤ 2 * d + 2) (c : ℕ → ℝ) : ∃ P : ℝ[X], P.natDegree ≤ d ∧ ∀ x, fourierSum n 2 c x + fourierSum n 2 c (-x) = P.eval (Real.cos (Real.pi * x)) := by
  let p : ℕ → ℝ[X] := fun j => match j with
    | 0 => C (c 0)
    | j + 1 => if j % 2 = 0 then 0 else C (2 * c (j + 1)) * Chebyshev.T ℝ ((j / 2 + 1 : ℕ) : ℤ)
  refine ⟨∑ j ∈ Finset.range n, p j, natDegree_sum_le_of_forall_le _ _ fun j hj => ?_, fun x => ?_⟩
  · rcases j with _ | j
    · exact (natDegree_C _).le.trans (Nat.zero_le _)
    · have hj' := Finset.mem_range.1 hj
      show (if j % 2 = 0 then 0 else C (2 * c (j + 1)) * Chebyshev.T ℝ ((j / 2 + 1 : ℕ) : ℤ) : ℝ[X]).natDegree ≤ d
      split
      · rw [natDegree_zero]; exact Nat.zero_le _
      · refine (natDegree_C_mul_le _ _).trans ?_
        rw [Chebyshev.natDegree_T]
        simp only [Int.natAbs_natCast]
        omega
  · rw [eval_finsetSum]
    unfold fourierSum
    rw [← Finset.sum_add_distrib]
    refine Finset.sum_congr rfl fun j _ => ?_
    rcases j with _ | j
    · show c 0 * (1 / 2) + c 0 * (1 / 2) = (C (c 0)).eval _
      rw [eval_C]; ring
    · show _ = (if j % 2 = 0 then 0 else C (2 * c (j + 1)) * Chebyshev.T ℝ ((j / 2 + 1 : ℕ) : ℤ) : ℝ[X]).eval _
      simp only [fourierTerm]
      have e : ∀ m : ℝ, 2 * Real.pi * m * (-x / 2) = -(2 * Real.pi * m * (x / 2)) := fun m => by ring
      split
      · rw [e, Real.sin_neg, eval_zero]; ring
      · rw [e, Real.cos_neg, eval_mul, eval_C, Chebyshev.T_real_cos]
        have : ((((j / 2 + 1 : ℕ) : ℤ)) : ℝ) * (Real.pi * x) = 2 * Real.pi * ((j / 2 + 1 : ℕ) : ℝ) * (x / 2) := by rw [Int.cast_natCast]; ring
        rw [this]
        ring

end HOL
