import Verif.Lemmas.Layers

/-! # Lemmas on fitting samples -/

namespace HOL
open TorchScalar Polynomial Spec

theorem poly_through {n : ℕ} (A : Finset ℝ) (h : A.card ≤ n) (f : ℝ → ℝ) : ∃ P : ℝ[X], P.degree < n ∧ ∀ x ∈ A, P.eval x = f x := by
  refine ⟨Lagrange.interpolate A id f, ?_, fun x hx => ?_⟩
  · exact lt_of_lt_of_le (Lagrange.degree_interpolate_lt f Function.injective_id.injOn) (by exact_mod_cast h)
  · exact Lagrange.eval_interpolate_at_node (s := A) (v := id) f Function.injective_id.injOn hx

theorem localCoord_inj {S : ℕ} (hS : 0 < S) (s : ℕ) : Function.Injective (localCoord S s) := by
  intro x y h
  have hSr : (0 : ℝ) < S := by exact_mod_cast hS
  unfold localCoord at h
  have := mul_left_cancel₀ hSr.ne' (show (S : ℝ) * (x - segLeft S s) = S * (y - segLeft S s) by linarith)
  linarith

/-- A polynomial in the local coordinate through samples of one segment. -/
theorem segment_poly {n S : ℕ} (hS : 0 < S) (s : ℕ) (A : Finset ℝ) (h : A.card ≤ n) (f : ℝ → ℝ) :
    ∃ P : ℝ[X], P.degree < n ∧ ∀ x ∈ A, P.eval (localCoord S s x) = f x := by
  obtain ⟨P, h1, h2⟩ := poly_through (n := n) (A.image (localCoord S s)) (Finset.card_image_le.trans h) fun y => f (Function.invFun (localCoord S s) y)
  refine ⟨P, h1, fun x hx => ?_⟩
  rw [h2 _ (Finset.mem_image_of_mem _ hx), Function.leftInverse_invFun (localCoord_inj hS s)]

open Classical in
/-- Separate segments fit `n` samples each. -/
theorem fit_separate {n S : ℕ} (hn : 0 < n) (hS : 0 < S) (A : Finset ℝ) (hA : ∀ s < S, (A.filter (IsActive S s)).card ≤ n) (f : ℝ → ℝ) :
    ∃ v : ℕ → ℝ, ∀ s, ∀ x ∈ A, IsActive S s x → (linkPoly n fun k => v (s * n + k)).eval (localCoord S s x) = f x := by
  have h := fun s (hs : s < S) => segment_poly hS s _ (hA s hs) f
  choose! P hP hf using h
  refine ⟨fun q => (P (q / n)).eval (node n (q % n)), fun s x hx hs => ?_⟩
  have e : (linkPoly n fun k => (P ((s * n + k) / n)).eval (node n ((s * n + k) % n))) = P s := by
    rw [← linkPoly_eq_of_degree_lt (hP s hs.1)]
    refine linkPoly_congr fun k hk => ?_
    have e1 : (s * n + k) / n = s := by
      rw [mul_comm, Nat.mul_add_div hn, Nat.div_eq_of_lt hk, add_zero]
    have e2 : (s * n + k) % n = k := by
      rw [mul_comm, Nat.mul_add_mod, Nat.mod_eq_of_lt hk]
    rw [e1, e2]
  rw [e]
  exact hf s hs.1 x (Finset.mem_filter.2 ⟨hx, hs⟩)

open Classical in
/-- Segments with a common node fit `n - 1` samples each, the last one `n`. -/
theorem fit_shared {n S : ℕ} (hn : 0 < n) (hS : 0 < S) (A : Finset ℝ) (hA : ∀ s < S, (A.filter (IsActive S s)).card ≤ if s + 1 < S then n - 1 else n) (f : ℝ → ℝ) :
    ∃ v : ℕ → ℝ, ∀ s, ∀ x ∈ A, IsActive S s x → (linkPoly n fun k => v (s * (n - 1) + k)).eval (localCoord S s x) = f x := by
  have key : ∀ m, m ≤ S → ∃ v : ℕ → ℝ, ∀ s, S ≤ s + m → ∀ x ∈ A, IsActive S s x → (linkPoly n fun k => v (s * (n - 1) + k)).eval (localCoord S s x) = f x := by
    intro m
    induction m with
    | zero => exact fun _ => ⟨fun _ => 0, fun s hs x _ h => absurd h.1 (by omega)⟩
    | succ m ih =>
      intro hm
      obtain ⟨v, hv⟩ := ih (by omega)
      set t := S - (m + 1) with ht
      have htS : t < S := by omega
      -- the polynomial of segment `t`
      have hP : ∃ P : ℝ[X], P.degree < n ∧ (∀ x ∈ A, IsActive S t x → P.eval (localCoord S t x) = f x) ∧ (t + 1 < S → 2 ≤ n → P.eval 1 = v ((t + 1) * (n - 1))) := by
        by_cases h1 : t + 1 < S
        · by_cases h2 : 2 ≤ n
          · have hc : (insert (segLeft S (t + 1)) (A.filter (IsActive S t))).card ≤ n := by
              refine (Finset.card_insert_le _ _).trans ?_
              have := hA t htS
              rw [if_pos h1] at this
              omega
            obtain ⟨P, hP1, hP2⟩ := segment_poly hS t _ hc fun x => if x = segLeft S (t + 1) then v ((t + 1) * (n - 1)) else f x
            refine ⟨P, hP1, fun x hx hxt => ?_, fun _ _ => ?_⟩
            · rw [hP2 x (Finset.mem_insert_of_mem (Finset.mem_filter.2 ⟨hx, hxt⟩)), if_neg]
              rcases hxt.2.2 with h | h
              · omega
              · exact h.ne
            · have := hP2 _ (Finset.mem_insert_self (segLeft S (t + 1)) _)
              rw [localCoord_right hS, if_pos rfl] at this
              exact this
          · have := hA t htS
            rw [if_pos h1] at this
            have hz : A.filter (IsActive S t) = ∅ := Finset.card_eq_zero.1 (by omega)
            refine ⟨0, by rw [degree_zero]; exact WithBot.bot_lt_coe n, fun x hx hxt => ?_, fun _ h => absurd h h2⟩
            have : x ∈ A.filter (IsActive S t) := Finset.mem_filter.2 ⟨hx, hxt⟩
            rw [hz] at this
            simp at this
        · have h3 := hA t htS
          rw [if_neg h1] at h3
          obtain ⟨P, hP1, hP2⟩ := segment_poly hS t _ h3 f
          exact ⟨P, hP1, fun x hx hxt => hP2 x (Finset.mem_filter.2 ⟨hx, hxt⟩), fun h => absurd h h1⟩
      obtain ⟨P, hP1, hP2, hP3⟩ := hP
      by_cases hlast : t + 1 < S
      · by_cases h2 : 2 ≤ n
        · have hadd : (t + 1) * (n - 1) = t * (n - 1) + (n - 1) := by ring
          refine ⟨fun q => if q < (t + 1) * (n - 1) then P.eval (node n (q - t * (n - 1))) else v q, fun s hs x hx hxs => ?_⟩
          by_cases hst : s = t
          · rw [hst] at hxs ⊢
            have e : (linkPoly n fun k => if t * (n - 1) + k < (t + 1) * (n - 1) then P.eval (node n (t * (n - 1) + k - t * (n - 1))) else v (t * (n - 1) + k)) = P := by
              rw [← linkPoly_eq_of_degree_lt hP1]
              refine linkPoly_congr fun k hk => ?_
              rw [linkPoly_eq_of_degree_lt hP1]
              by_cases hk' : k < n - 1
              · rw [if_pos (by omega), Nat.add_sub_cancel_left]
              · obtain rfl : k = n - 1 := by omega
                rw [if_neg (by omega), node_last h2, hP3 hlast h2, hadd]
            rw [e]
            exact hP2 x hx hxs
          · rw [← hv s (by omega) x hx hxs]
            refine congrArg (fun p : ℝ[X] => p.eval _) (linkPoly_congr fun k _ => ?_)
            have : (t + 1) * (n - 1) ≤ s * (n - 1) := Nat.mul_le_mul_right _ (by omega)
            beta_reduce
            rw [if_neg (by omega)]
        · refine ⟨v, fun s hs x hx hxs => ?_⟩
          by_cases hst : s = t
          · have := hA t htS
            rw [if_pos hlast] at this
            have hz : A.filter (IsActive S t) = ∅ := Finset.card_eq_zero.1 (by omega)
            have hm : x ∈ A.filter (IsActive S t) := Finset.mem_filter.2 ⟨hx, hst ▸ hxs⟩
            rw [hz] at hm
            simp at hm
          · exact hv s (by omega) x hx hxs
      · refine ⟨fun q => P.eval (node n (q - t * (n - 1))), fun s hs x hx hxs => ?_⟩
        have hst : s = t := by have := hxs.1; omega
        rw [hst] at hxs ⊢
        have e : (linkPoly n fun k => P.eval (node n (t * (n - 1) + k - t * (n - 1)))) = P := by
          rw [← linkPoly_eq_of_degree_lt hP1]
          refine linkPoly_congr fun k hk => ?_
          rw [linkPoly_eq_of_degree_lt hP1, Nat.add_sub_cancel_left]
        rw [e]
        exact hP2 x hx hxs
  obtain ⟨v, hv⟩ := key S le_rfl
  exact ⟨v, fun s x hx hs => hv s (by omega) x hx hs⟩

end HOL
