import Verif.Spec.Pieces
import Verif.Props.NetworkContinuity
import Mathlib.Algebra.Polynomial.Roots
import Mathlib.Topology.Order.IntermediateValue

/-! # Lemmas on paths made of polynomial pieces -/

namespace HOL
open TorchScalar Spec Polynomial

/-- How many of the points lie before `t`. -/
noncomputable def pieceRank (T : Finset ℝ) (t : ℝ) : ℕ := (T.filter (· < t)).card

theorem pieceRank_mono (T : Finset ℝ) : Monotone (pieceRank T) := fun _ _ h =>
  Finset.card_le_card fun _ hx => Finset.mem_filter.2 ⟨(Finset.mem_filter.1 hx).1, (Finset.mem_filter.1 hx).2.trans_le h⟩

theorem pieceRank_lt {T : Finset ℝ} {a b c : ℝ} (hc : c ∈ T) (h1 : a ≤ c) (h2 : c < b) : pieceRank T a < pieceRank T b := by
  refine Finset.card_lt_card ((Finset.ssubset_iff_of_subset fun x hx =>
    Finset.mem_filter.2 ⟨(Finset.mem_filter.1 hx).1, (Finset.mem_filter.1 hx).2.trans_le (h1.trans h2.le)⟩).2 ⟨c, Finset.mem_filter.2 ⟨hc, h2⟩, fun hx => ?_⟩)
  exact absurd (Finset.mem_filter.1 hx).2 (not_lt.2 h1)

/-- The interval between the points with `k` points before it. -/
def piece (T : Finset ℝ) (k : ℕ) : Set ℝ := {t | t ∉ T ∧ pieceRank T t = k}

theorem piece_ordConnected (T : Finset ℝ) (k : ℕ) : (piece T k).OrdConnected := by
  refine ⟨fun a ha b hb c hc => ⟨fun hcT => ?_, le_antisymm ?_ ?_⟩⟩
  · have hne : c ≠ b := fun h => hb.1 (h ▸ hcT)
    have := pieceRank_lt hcT hc.1 (lt_of_le_of_ne hc.2 hne)
    rw [ha.2, hb.2] at this
    exact lt_irrefl _ this
  · rw [← hb.2]
    exact pieceRank_mono T hc.2
  · rw [← ha.2]
    exact pieceRank_mono T hc.1

theorem subset_piece {T : Finset ℝ} {U : Set ℝ} (hU : U.OrdConnected) (hT : ∀ t ∈ U, t ∉ T) {t0 : ℝ} (h0 : t0 ∈ U) : U ⊆ piece T (pieceRank T t0) := by
  intro t ht
  refine ⟨hT t ht, ?_⟩
  have key : ∀ a ∈ U, ∀ b ∈ U, a ≤ b → pieceRank T a = pieceRank T b := by
    intro a ha b hb hab
    refine le_antisymm (pieceRank_mono T hab) (Finset.card_le_card fun x hx => ?_)
    obtain ⟨h1, h2⟩ := Finset.mem_filter.1 hx
    refine Finset.mem_filter.2 ⟨h1, ?_⟩
    by_contra h
    exact hT x (hU.out ha hb ⟨not_lt.1 h, h2.le⟩) h1
  rcases le_total t t0 with h | h
  · exact key t ht t0 h0 h
  · exact (key t0 h0 t ht h).symm

theorem pieceRank_le (T : Finset ℝ) (t : ℝ) : pieceRank T t ≤ T.card := Finset.card_le_card (Finset.filter_subset _ _)

/-- Cutting a path at the preimages of finitely many values: afterwards every coordinate of every piece is constant or avoids the values. -/
theorem Spec.PolyPath.cut {w M D : ℕ} {γ : ℝ → Fin w → ℝ} (h : PolyPath γ M D) (κ : Finset ℝ) :
    ∃ T : Finset ℝ, T.card < M * (1 + w * κ.card * D) ∧ ∀ U : Set ℝ, U.OrdConnected → (∀ t ∈ U, t ∉ T) →
      ∃ p : Fin w → ℝ[X], ∀ i, (p i).natDegree ≤ D ∧ (∀ t ∈ U, γ t i = (p i).eval t) ∧ ((∃ c, p i = C c) ∨ ∀ t ∈ U, (p i).eval t ∉ κ) := by
  classical
  obtain ⟨T, hT, hp⟩ := h
  choose P hd hP using fun k => hp (piece T k) (piece_ordConnected T k) fun t ht => ht.1
  let R : Finset ℝ := (Finset.range (T.card + 1)).biUnion fun k => Finset.univ.biUnion fun i : Fin w => κ.biUnion fun c => (P k i - C c).roots.toFinset
  have hR : R.card ≤ (T.card + 1) * (w * (κ.card * D)) := by
    refine (Finset.card_biUnion_le_card_mul _ _ _ fun k _ => ?_).trans_eq (by rw [Finset.card_range])
    refine (Finset.card_biUnion_le_card_mul _ _ _ fun i _ => ?_).trans_eq (by rw [Finset.card_univ, Fintype.card_fin])
    refine Finset.card_biUnion_le_card_mul _ _ _ fun c _ => ?_
    refine (Multiset.toFinset_card_le _).trans ((card_roots' _).trans ?_)
    rw [natDegree_sub_C]
    exact hd k i
  refine ⟨T ∪ R, ?_, fun U hU hUT => ?_⟩
  · calc (T ∪ R).card ≤ T.card + R.card := Finset.card_union_le _ _
      _ ≤ T.card + (T.card + 1) * (w * (κ.card * D)) := by omega
      _ < (T.card + 1) * (1 + w * κ.card * D) := by rw [mul_add, mul_one, mul_assoc w]; omega
      _ ≤ M * (1 + w * κ.card * D) := Nat.mul_le_mul_right _ hT
  · rcases U.eq_empty_or_nonempty with rfl | ⟨t0, h0⟩
    · exact ⟨fun _ => C 0, fun i => ⟨by rw [natDegree_C]; exact Nat.zero_le _, fun t ht => absurd ht (Set.notMem_empty t), Or.inl ⟨0, rfl⟩⟩⟩
    · have hsub := subset_piece hU (fun t ht hT => hUT t ht (Finset.mem_union_left _ hT)) h0
      refine ⟨P (pieceRank T t0), fun i => ⟨hd _ i, fun t ht => hP _ i t (hsub ht), ?_⟩⟩
      by_cases hz : (P (pieceRank T t0) i).natDegree = 0
      · obtain ⟨c, hc⟩ := natDegree_eq_zero.1 hz
        exact Or.inl ⟨c, hc.symm⟩
      · refine Or.inr fun t ht hk => hUT t ht (Finset.mem_union_right _ ?_)
        refine Finset.mem_biUnion.2 ⟨pieceRank T t0, Finset.mem_range.2 (Nat.lt_succ_of_le (pieceRank_le T t0)),
          Finset.mem_biUnion.2 ⟨i, Finset.mem_univ i, Finset.mem_biUnion.2 ⟨_, hk, ?_⟩⟩⟩
        rw [Multiset.mem_toFinset, mem_roots, IsRoot, eval_sub, eval_C, sub_self]
        intro h0
        apply hz
        rw [sub_eq_zero.1 h0, natDegree_C]

/-- Functions of one variable made of pieces, applied to the coordinates of a path: the pieces are polynomials again. -/
theorem Spec.PolyPath.link {w M D m : ℕ} {γ : ℝ → Fin w → ℝ} (h : PolyPath γ M D) {κ : Finset ℝ} {ι : Type} (φ : ι → Fin w → ℝ → ℝ) (hφ : ∀ o i, PolyBetween κ m (φ o i)) :
    ∃ T : Finset ℝ, T.card < M * (1 + w * κ.card * D) ∧ ∀ U : Set ℝ, U.OrdConnected → (∀ t ∈ U, t ∉ T) →
      ∀ o i, ∃ p : ℝ[X], p.natDegree ≤ m * D ∧ ∀ t ∈ U, φ o i (γ t i) = p.eval t := by
  obtain ⟨T, hT, hp⟩ := h.cut κ
  refine ⟨T, hT, fun U hU hUT o i => ?_⟩
  obtain ⟨p, hp⟩ := hp U hU hUT
  obtain ⟨h1, h2, h3⟩ := hp i
  rcases h3 with ⟨c, hc⟩ | h3
  · refine ⟨C (φ o i c), by rw [natDegree_C]; exact Nat.zero_le _, fun t ht => ?_⟩
    rw [h2 t ht, hc, eval_C, eval_C]
  · have hV : ((fun t => (p i).eval t) '' U).OrdConnected := (hU.isPreconnected.image _ (p i).continuous.continuousOn).ordConnected
    obtain ⟨q, hq1, hq2⟩ := hφ o i _ hV (by rintro _ ⟨t, ht, rfl⟩; exact h3 t ht)
    refine ⟨q.comp (p i), ?_, fun t ht => ?_⟩
    · rw [natDegree_comp]
      exact Nat.mul_le_mul hq1 h1
    · rw [eval_comp, h2 t ht]
      exact hq2 _ ⟨t, ht, rfl⟩

/-- Sums over the coordinates. -/
theorem Spec.PolyPath.sum {w M D m O : ℕ} {γ : ℝ → Fin w → ℝ} (h : PolyPath γ M D) {κ : Finset ℝ} (φ : Fin O → Fin w → ℝ → ℝ) (hφ : ∀ o i, PolyBetween κ m (φ o i)) (a : Fin O → ℝ) :
    PolyPath (fun t o => ∑ i, φ o i (γ t i) + a o) (M * (1 + w * κ.card * D)) (m * D) := by
  obtain ⟨T, hT, hp⟩ := h.link φ hφ
  refine ⟨T, hT, fun U hU hUT o => ?_⟩
  choose p h1 h2 using hp U hU hUT o
  refine ⟨∑ i, p i + C (a o), ?_, fun t ht => ?_⟩
  · rw [natDegree_add_C]
    exact natDegree_sum_le_of_forall_le _ _ fun i _ => h1 i
  · rw [eval_add, eval_C, eval_finsetSum]
    exact congrArg (· + a o) (Finset.sum_congr rfl fun i _ => h2 i t ht)

/-- Products over the coordinates, minus multiples of their sum. -/
theorem Spec.PolyPath.prod {w M D m O : ℕ} {γ : ℝ → Fin w → ℝ} (h : PolyPath γ M D) {κ : Finset ℝ} (φ : Fin O → Fin w → ℝ → ℝ) (hφ : ∀ o i, PolyBetween κ m (φ o i)) (e : ℝ) (a : Fin O → ℝ) :
    PolyPath (fun t o => ∏ i, (φ o i (γ t i) + 1) - e * ∑ i, φ o i (γ t i) + a o) (M * (1 + w * κ.card * D)) (w * m * D) := by
  obtain ⟨T, hT, hp⟩ := h.link φ hφ
  refine ⟨T, hT, fun U hU hUT o => ?_⟩
  choose p h1 h2 using hp U hU hUT o
  refine ⟨∏ i, (p i + C 1) - C e * ∑ i, p i + C (a o), ?_, fun t ht => ?_⟩
  · rw [natDegree_add_C]
    refine (natDegree_sub_le _ _).trans (max_le ?_ ?_)
    · refine (natDegree_prod_le _ _).trans ((Finset.sum_le_card_nsmul _ _ (m * D) fun i _ => ?_).trans_eq ?_)
      · rw [natDegree_add_C]
        exact h1 i
      · rw [Finset.card_univ, Fintype.card_fin, smul_eq_mul, mul_assoc]
    · refine (natDegree_C_mul_le _ _).trans (natDegree_sum_le_of_forall_le _ _ fun i _ => (h1 i).trans ?_)
      rw [mul_assoc]
      exact Nat.le_mul_of_pos_left _ (Nat.lt_of_le_of_lt (Nat.zero_le _) i.2)
  · rw [eval_add, eval_C, eval_sub, eval_mul, eval_C, eval_prod, eval_finsetSum]
    simp only [eval_add, eval_C, h2 _ t ht]

theorem Spec.PolyPath.mono {w M D M' D' : ℕ} {γ : ℝ → Fin w → ℝ} (h : PolyPath γ M D) (hM : M ≤ M') (hD : D ≤ D') : PolyPath γ M' D' := by
  obtain ⟨T, hT, hp⟩ := h
  exact ⟨T, hT.trans_le hM, fun U hU hUT i => let ⟨p, h1, h2⟩ := hp U hU hUT i; ⟨p, h1.trans hD, h2⟩⟩

theorem Spec.PolyBetween.of_poly (p : ℝ[X]) {m : ℕ} (hp : p.natDegree ≤ m) : PolyBetween ∅ m fun v => p.eval v := fun _ _ _ => ⟨p, hp, fun _ _ => rfl⟩

theorem polyBetween_relu : PolyBetween {0} 1 fun v : ℝ => if ltB v 0 then 0 else v := by
  intro V hV h0
  have key : (∀ v ∈ V, v < 0) ∨ ∀ v ∈ V, 0 < v := by
    by_contra hno
    push Not at hno
    obtain ⟨⟨a, ha, ha0⟩, b, hb, hb0⟩ := hno
    exact h0 0 (hV.out hb ha ⟨hb0, ha0⟩) (Finset.mem_singleton_self 0)
  rcases key with h | h
  · refine ⟨0, by rw [natDegree_zero]; exact Nat.zero_le _, fun v hv => ?_⟩
    beta_reduce
    rw [if_pos (by rw [ltB_real]; simpa using h v hv), eval_zero]
  · refine ⟨X, natDegree_X_le, fun v hv => ?_⟩
    beta_reduce
    rw [if_neg (by rw [ltB_real]; simpa using (h v hv).le), eval_X]

/-- The inner knots of `S` segments. -/
noncomputable def knots (S : ℕ) : Finset ℝ := (Finset.range (S - 1)).image fun k => segLeft S (k + 1)

theorem knots_card (S : ℕ) : (knots S).card ≤ S - 1 := Finset.card_image_le.trans_eq (Finset.card_range _)

/-- A piecewise polynomial in the sense of C09 and C16 is one between the knots. -/
theorem Spec.PolyBetween.of_isPiecewise {n S stride : ℕ} (hS : 0 < S) {v : ℕ → ℝ} {f : ℝ → ℝ} (hf : IsPiecewisePoly n S stride v f) : PolyBetween (knots S) (n - 1) f := by
  intro V hV hk
  rcases V.eq_empty_or_nonempty with rfl | ⟨x0, h0⟩
  · exact ⟨0, by rw [natDegree_zero]; exact Nat.zero_le _, fun x hx => absurd hx (Set.notMem_empty x)⟩
  obtain ⟨s, hs⟩ := isActive_exists hS x0
  have hact : ∀ x ∈ V, IsActive S s x := by
    intro x hx
    obtain ⟨h1, h2, h3⟩ := hs
    refine ⟨h1, ?_, ?_⟩
    · rcases Nat.eq_zero_or_pos s with h | h
      · exact Or.inl h
      · right
        by_contra hlt
        have h2' := h2.resolve_left (by omega)
        refine hk _ (hV.out hx h0 ⟨(not_le.1 hlt).le, h2'⟩) (Finset.mem_image.2 ⟨s - 1, Finset.mem_range.2 (by omega), ?_⟩)
        rw [Nat.sub_add_cancel h]
    · by_cases h : s + 1 = S
      · exact Or.inl h
      · right
        by_contra hlt
        have h3' := h3.resolve_left h
        exact hk _ (hV.out h0 hx ⟨h3'.le, not_lt.1 hlt⟩) (Finset.mem_image.2 ⟨s, Finset.mem_range.2 (by omega), rfl⟩)
  refine ⟨(linkPoly n fun k => v (s * stride + k)).comp (C (S : ℝ) * (X + C 1) - C (2 * (s : ℝ)) - C 1), ?_, fun x hx => ?_⟩
  · rw [natDegree_comp]
    have h1 : (linkPoly n fun k => v (s * stride + k)).natDegree ≤ n - 1 := by
      by_cases hne : (linkPoly n fun k => v (s * stride + k)) = 0
      · rw [hne, natDegree_zero]
        exact Nat.zero_le _
      · exact Nat.le_sub_one_of_lt ((natDegree_lt_iff_degree_lt hne).2 (linkPoly_degree_lt n _))
    have h2 : (C (S : ℝ) * (X + C 1) - C (2 * (s : ℝ)) - C 1).natDegree ≤ 1 := by
      rw [natDegree_sub_C, natDegree_sub_C]
      exact (natDegree_C_mul_le _ _).trans (by rw [natDegree_X_add_C])
    exact (Nat.mul_le_mul h1 h2).trans_eq (mul_one _)
  · rw [hf s x (hact x hx), eval_comp]
    congr 1
    simp only [eval_sub, eval_mul, eval_C, eval_add, eval_X]
    rfl

end HOL
