import Verif.Lemmas.Rounding

/-! # Real numbers with a rounding function satisfy the laws -/

namespace HOL
open Spec TorchScalar

/-- The operations, each followed by rounding; sums and products are computed from left to right. -/
noncomputable instance (fl : ℝ → ℝ) : TorchScalar (Fl fl) where
  zero := ⟨0⟩
  one := ⟨1⟩
  add a b := ⟨fl (a.num + b.num)⟩
  sub a b := ⟨fl (a.num - b.num)⟩
  mul a b := ⟨fl (a.num * b.num)⟩
  div a b := ⟨fl (a.num / b.num)⟩
  neg a := ⟨-a.num⟩
  natCast n := ⟨fl (n : ℝ)⟩
  intCast n := ⟨fl (n : ℝ)⟩
  ltB a b := ltB a.num b.num
  eqB a b := eqB a.num b.num
  toLong a := toLong a.num
  remainder a b := ⟨fl (remainder a.num b.num)⟩
  cos a := ⟨fl (Real.cos a.num)⟩
  sin a := ⟨fl (Real.sin a.num)⟩
  exp a := ⟨fl (Real.exp a.num)⟩
  sqrt a := ⟨fl (Real.sqrt a.num)⟩
  pi := ⟨fl Real.pi⟩
  sumL l := ⟨(l.map Fl.num).foldl (fun s a => fl (s + a)) 0⟩
  prodL l := ⟨(l.map Fl.num).foldl (fun s a => fl (s * a)) 1⟩
  abs a := ⟨|a.num|⟩
  log a := ⟨fl (Real.log a.num)⟩
  tanh a := ⟨fl (Real.tanh a.num)⟩
  sign a := ⟨sign a.num⟩
  maxL l := ⟨maxL (l.map Fl.num)⟩
  minL l := ⟨minL (l.map Fl.num)⟩

theorem foldl_sum_err {fl : ℝ → ℝ} {ε : ℝ} (h0 : 0 ≤ ε) (h : ∀ y, |fl y - y| ≤ ε * (1 + |y|)) (l : List ℝ) (s t Q g : ℝ) (hQ : |t| ≤ Q) (hg : 1 ≤ g)
    (hs : |s - t| ≤ (g - 1) * (1 + Q)) :
    |l.foldl (fun s a => fl (s + a)) s - (t + l.sum)| ≤ (g * (1 + ε) ^ l.length - 1) * (1 + (Q + (l.map fun a => |a|).sum)) := by
  induction l generalizing s t Q g with
  | nil => simpa using hs
  | cons a l ih =>
    simp only [List.foldl_cons, List.sum_cons, List.map_cons, List.length_cons]
    have hstep : |fl (s + a) - (t + a)| ≤ (g * (1 + ε) - 1) * (1 + (Q + |a|)) := by
      have e : fl (s + a) - (t + a) = (fl (s + a) - (s + a)) + (s - t) := by ring
      rw [e]
      refine (abs_add_le _ _).trans ?_
      have h1 := h (s + a)
      have h2 : |s + a| ≤ (g - 1) * (1 + Q) + (Q + |a|) := by
        have e2 : s + a = (s - t) + (t + a) := by ring
        rw [e2]
        refine (abs_add_le _ _).trans (add_le_add hs ((abs_add_le _ _).trans (by linarith)))
      have h3 : ε * (1 + |s + a|) ≤ ε * (1 + ((g - 1) * (1 + Q) + (Q + |a|))) := mul_le_mul_of_nonneg_left (by linarith) h0
      have h4 := abs_nonneg a
      have h5 : 0 ≤ ε * ((g - 1) * |a|) := mul_nonneg h0 (mul_nonneg (by linarith) h4)
      have h6 : 0 ≤ (g - 1) * |a| := mul_nonneg (by linarith) h4
      nlinarith
    have := ih (fl (s + a)) (t + a) (Q + |a|) (g * (1 + ε)) ((abs_add_le _ _).trans (by linarith)) (by nlinarith) hstep
    have e1 : t + a + l.sum = t + (a + l.sum) := by ring
    have e2 : Q + |a| + (l.map fun a => |a|).sum = Q + (|a| + (l.map fun a => |a|).sum) := by ring
    have e3 : g * (1 + ε) * (1 + ε) ^ l.length = g * (1 + ε) ^ (l.length + 1) := by ring
    rw [e1, e2, e3] at this
    exact this

theorem foldl_prod_err {fl : ℝ → ℝ} {ε : ℝ} (h0 : 0 ≤ ε) (h : ∀ y, |fl y - y| ≤ ε * (1 + |y|)) (l : List ℝ) (s t Q g : ℝ) (hQ : |t| ≤ Q) (hQ1 : 1 ≤ Q) (hg : 1 ≤ g)
    (hs : |s - t| ≤ (g - 1) * Q) :
    |l.foldl (fun s a => fl (s * a)) s - t * l.prod| ≤ (g * (1 + ε) ^ l.length - 1) * (Q * (l.map fun a => 1 + |a|).prod) := by
  induction l generalizing s t Q g with
  | nil => simpa using hs
  | cons a l ih =>
    simp only [List.foldl_cons, List.prod_cons, List.map_cons, List.length_cons]
    have h4 := abs_nonneg a
    have hstep : |fl (s * a) - t * a| ≤ (g * (1 + ε) - 1) * (Q * (1 + |a|)) := by
      have e : fl (s * a) - t * a = (fl (s * a) - s * a) + (s - t) * a := by ring
      rw [e]
      refine (abs_add_le _ _).trans ?_
      have h1 := h (s * a)
      have h2 : |s * a| ≤ g * Q * |a| := by
        rw [abs_mul]
        apply mul_le_mul_of_nonneg_right _ h4
        have e2 : s = (s - t) + t := by ring
        rw [e2]
        exact (abs_add_le _ _).trans (by linarith)
      have h3 : ε * (1 + |s * a|) ≤ ε * (1 + g * Q * |a|) := mul_le_mul_of_nonneg_left (by linarith) h0
      have h5 : |(s - t) * a| ≤ (g - 1) * Q * |a| := by
        rw [abs_mul]
        exact mul_le_mul_of_nonneg_right hs h4
      have h6 : (g * (1 + ε) - 1) * (Q * (1 + |a|)) - ((g - 1) * Q * |a| + ε * (g * Q * |a|)) = (g - 1 + g * ε) * Q := by ring
      have h7 : ε ≤ (g - 1 + g * ε) * Q := by
        have h8 : ε ≤ g - 1 + g * ε := by nlinarith
        have h9 : 0 ≤ g - 1 + g * ε := h0.trans h8
        nlinarith
      linarith
    have := ih (fl (s * a)) (t * a) (Q * (1 + |a|)) (g * (1 + ε)) (by rw [abs_mul]; exact mul_le_mul hQ (by linarith) h4 (by linarith)) (by nlinarith) (by nlinarith) hstep
    have e1 : t * a * l.prod = t * (a * l.prod) := by ring
    have e2 : Q * (1 + |a|) * (l.map fun a => 1 + |a|).prod = Q * ((1 + |a|) * (l.map fun a => 1 + |a|).prod) := by ring
    have e3 : g * (1 + ε) * (1 + ε) ^ l.length = g * (1 + ε) ^ (l.length + 1) := by ring
    rw [e1, e2, e3] at this
    exact this

/-- Every rounding function with errors at most `ε (1 + |y|)` gives an arithmetic, for every range. -/
def flRounding {fl : ℝ → ℝ} {ε : ℝ} (h0 : 0 ≤ ε) (h : ∀ y, |fl y - y| ≤ ε * (1 + |y|)) (M : ℝ) : Rounding (Fl fl) ε M where
  val := Fl.num
  fin _ := True
  zero := ⟨trivial, rfl⟩
  one := ⟨trivial, rfl⟩
  add a b _ _ _ := ⟨trivial, h _⟩
  sub a b _ _ _ := ⟨trivial, h _⟩
  mul a b _ _ _ := ⟨trivial, h _⟩
  div a b _ _ _ _ := ⟨trivial, h _⟩
  neg a _ := ⟨trivial, rfl⟩
  natCast n _ := ⟨trivial, h _⟩
  intCast n _ := ⟨trivial, h _⟩
  pi _ := ⟨trivial, h _⟩
  cos a _ _ := ⟨trivial, h _⟩
  sin a _ _ := ⟨trivial, h _⟩
  toLong a _ _ := rfl
  sumL l _ _ := ⟨trivial, by
    have := foldl_sum_err h0 h (l.map Fl.num) 0 0 0 1 (by simp) le_rfl (by simp)
    simp only [zero_add, one_mul, List.length_map, List.map_map] at this
    exact this⟩
  prodL l _ _ := ⟨trivial, by
    have := foldl_prod_err h0 h (l.map Fl.num) 1 1 1 1 (by simp) le_rfl le_rfl (by simp)
    simp only [one_mul, List.length_map, List.map_map] at this
    exact this⟩

end HOL
