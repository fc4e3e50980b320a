import Verif.Lemmas.ConvNet
import Verif.Lemmas.MLP
import Mathlib.Algebra.BigOperators.Group.Finset.Basic

/-! # Tails of signals and their concatenation -/

namespace HOL
open TorchScalar Spec

set_option linter.unusedSectionVars false
variable {K : Type} [TorchScalar K]

/-- Number of columns in `x[:, :, -f:]` of a signal with `w` columns. -/
def tailLen (f w : ℕ) : ℕ := if f = 0 then w else min f w

theorem tailSlice_ok {x : Tensor K} {B C W : ℕ} (hs : x.shape = [B, C, W]) (f : ℕ) :
    ∃ t, tailSlice f x = .ok t ∧ t.WF ∧ t.shape = [B, C * tailLen f W] ∧
      ∀ b < B, ∀ c < C, ∀ q < tailLen f W, t.get [b, c * tailLen f W + q] = x.get [b, c, W - tailLen f W + q] := by
  have e1 : (if f = 0 then 0 else W - f) = W - tailLen f W := by
    unfold tailLen
    split <;> omega
  have e2 : W - (W - tailLen f W) = tailLen f W := by
    unfold tailLen
    split <;> omega
  have hn : numel [C, tailLen f W] = C * tailLen f W := by simp [numel]
  refine ⟨(Tensor.tab3 B C (tailLen f W) fun s r i => x.get [s, r, W - tailLen f W + i]).reshape [B, C * tailLen f W], ?_, ?_, rfl, ?_⟩
  · unfold tailSlice
    rw [hs]
    simp only [e1, e2]
    unfold flatten1
    simp only [Tensor.shape_tab3, hn]
  · exact Tensor.wf_reshape (Tensor.wf_tab3 _ _ _ _) (by simp [numel])
  · intro b hb c hc q hq
    rw [Tensor.get_reshape (idx' := [b, c, q]), Tensor.get_tab3 hb hc hq]
    simp only [Tensor.shape_tab3, ravel3]
    simp [ravel, numel]
    ring

theorem mul_add_lt {b B n q : ℕ} (hb : b < B) (hq : q < n) : b * n + q < B * n := by
  calc b * n + q < b * n + n := by omega
    _ = (b + 1) * n := by ring
    _ ≤ B * n := Nat.mul_le_mul_right _ hb

/-- `torch.cat(..., dim=1)`: block `i` starts at the sum of the widths of the blocks before. -/
theorem catColumns_ok {k B : ℕ} {ts : ℕ → Tensor K} {n : ℕ → ℕ} (hk : 1 ≤ k) (hs : ∀ i < k, (ts i).shape = [B, n i]) :
    ∃ out, catColumns ((List.range k).map ts) = .ok out ∧ out.WF ∧ out.shape = [B, ∑ i ∈ Finset.range k, n i] ∧
      ∀ b < B, ∀ i < k, ∀ q < n i, out.get [b, (∑ j ∈ Finset.range i, n j) + q] = (ts i).get [b, q] := by
  have hm : ((List.range k).map ts).mapM matrixSize = .ok ((List.range k).map fun i => (B, n i)) := by
    rw [mapM_ok (g := fun t : Tensor K => (t.shape.getD 0 0, t.shape.getD 1 0))]
    · congr 1
      rw [List.map_map]
      apply List.map_congr_left
      intro i hi
      rw [List.mem_range] at hi
      simp [hs i hi]
    · intro t ht
      obtain ⟨i, hi, rfl⟩ := List.mem_map.1 ht
      rw [List.mem_range] at hi
      unfold matrixSize
      rw [hs i hi]
      rfl
  have hsum : (((List.range k).map fun i => (B, n i)).map Prod.snd).sum = ∑ i ∈ Finset.range k, n i := by
    rw [List.map_map]
    clear hk hs hm
    induction k with
    | zero => rfl
    | succ k ih => rw [List.range_succ, List.map_append, List.sum_append, ih, Finset.sum_range_succ]; simp
  have hall : (((List.range k).map fun i => (B, n i)).all fun s => s.1 == B) = true := by simp
  obtain ⟨k, rfl⟩ : ∃ k', k = k' + 1 := ⟨k - 1, by omega⟩
  have hcat : catColumns ((List.range (k + 1)).map ts) = .ok ⟨[B, ∑ i ∈ Finset.range (k + 1), n i],
      (List.range B).flatMap fun s => ((List.range (k + 1)).map ts).flatMap fun t => (List.range (t.shape.getD 1 0)).map fun j => t.get [s, j]⟩ := by
    unfold catColumns
    simp only [bind, Except.bind]
    rw [hm]
    have hc : ((List.range (k + 1)).map fun i => (B, n i)) = (B, n 0) :: ((List.range k).map fun i => (B, n (i + 1))) := by
      rw [List.range_succ_eq_map]
      simp [Function.comp_def]
    rw [hc] at hall hsum ⊢
    simp only [hall, if_true, hsum]
  refine ⟨_, hcat, ?_, rfl, ?_⟩
  all_goals
    have hrow : ∀ s, ((List.range (k + 1)).map ts).flatMap (fun t => (List.range (t.shape.getD 1 0)).map fun j => t.get [s, j])
        = (List.range (k + 1)).flatMap fun i => (List.range (if i < k + 1 then n i else 0)).map fun j => (ts i).get [s, j] := by
      intro s
      rw [List.flatMap_map]
      apply List.flatMap_congr
      intro i hi
      rw [List.mem_range] at hi
      rw [hs i hi, if_pos hi]
      rfl
    have hstart : ∀ i, (∑ j ∈ Finset.range (i + 1), if j < k + 1 then n j else 0)
        = (∑ j ∈ Finset.range i, if j < k + 1 then n j else 0) + (if i < k + 1 then n i else 0) := fun i => Finset.sum_range_succ _ _
    have hsum' : ∀ i ≤ k + 1, (∑ j ∈ Finset.range i, if j < k + 1 then n j else 0) = ∑ j ∈ Finset.range i, n j := by
      intro i hi
      apply Finset.sum_congr rfl
      intro j hj
      rw [Finset.mem_range] at hj
      rw [if_pos (by omega)]
    have hblock := fun s => getElem?_flatMap_blocks (fun i => (List.range (if i < k + 1 then n i else 0)).map fun j => (ts i).get [s, j])
      (fun i => ∑ j ∈ Finset.range i, if j < k + 1 then n j else 0) rfl (by intro i; rw [hstart i]; simp) (k + 1)
    have hlen : ∀ s, (((List.range (k + 1)).map ts).flatMap fun t => (List.range (t.shape.getD 1 0)).map fun j => t.get [s, j]).length
        = ∑ j ∈ Finset.range (k + 1), n j := by
      intro s
      rw [hrow, (hblock s).1, hsum' _ le_rfl]
    have hrows := getElem?_flatMap_blocks
      (fun s => ((List.range (k + 1)).map ts).flatMap fun t => (List.range (t.shape.getD 1 0)).map fun j => t.get [s, j])
      (fun s => s * ∑ j ∈ Finset.range (k + 1), n j) (by simp) (by intro i; rw [hlen]; ring) B
  · show (List.flatMap _ _).length = _
    rw [hrows.1]
    simp [numel]
  · intro b hb i hi q hq
    show List.getD _ _ _ = _
    have hq' : (∑ j ∈ Finset.range i, n j) + q < ∑ j ∈ Finset.range (k + 1), n j := by
      have h1 : (∑ j ∈ Finset.range i, n j) + n i = ∑ j ∈ Finset.range (i + 1), n j := (Finset.sum_range_succ _ _).symm
      have h2 : ∑ j ∈ Finset.range (i + 1), n j ≤ ∑ j ∈ Finset.range (k + 1), n j :=
        Finset.sum_le_sum_of_subset (Finset.range_mono (by omega))
      omega
    have hrv : ravel [B, ∑ j ∈ Finset.range (k + 1), n j] [b, (∑ j ∈ Finset.range i, n j) + q]
        = b * (∑ j ∈ Finset.range (k + 1), n j) + ((∑ j ∈ Finset.range i, n j) + q) := by simp [ravel, numel]
    rw [hrv, List.getD_eq_getElem?_getD, hrows.2 b hb _ (by rw [hlen]; exact hq'), hrow]
    rw [← hsum' i (by omega), (hblock b).2 i hi q (by simp [hi, hq])]
    simp [hi, hq]

/-! ## the loop -/

/-- No tails are kept once the list is used up. -/
theorem loop_rest {focus : List ℕ} {count : ℕ} (hc : focus.length ≤ count) (ss : List (ConvStage K)) (x : Tensor K) :
    TailFocus.loop focus ss count x = (do let y ← runStages ss x; .ok (y, [])) := by
  induction ss generalizing x with
  | nil => rfl
  | cons s ss ih =>
    simp only [TailFocus.loop, runStages, bind, Except.bind]
    cases s.call x with
    | error e => rfl
    | ok y =>
      simp only [List.getElem?_eq_none hc]
      have := ih y
      simp only [bind, Except.bind] at this
      cases s <;> exact this

/-- No tails are kept after convolutions. -/
theorem loop_conv (focus : List ℕ) (count : ℕ) (Ls : List (ConvLayer K)) (x : Tensor K) :
    TailFocus.loop focus (Ls.map .conv) count x = (do let y ← runStages (Ls.map .conv) x; .ok (y, [])) := by
  induction Ls generalizing x with
  | nil => rfl
  | cons s ss ih =>
    simp only [List.map_cons, TailFocus.loop, runStages, bind, Except.bind]
    cases (ConvStage.conv s).call x with
    | error e => rfl
    | ok y =>
      have := ih y
      simp only [bind, Except.bind] at this
      exact this

theorem runStages_pairs {m : ℕ} {Ls : ℕ → ConvLayer K} {g : ℕ → Fwd K} {ys : ℕ → Tensor K}
    (hstep : ∀ j < m, ∃ z, (Ls j).forward (ys j) = .ok z ∧ g j z = .ok (ys (j + 1))) (k : ℕ) :
    ∀ i, i + k = m → runStages ((List.range' i k).flatMap fun j => [.conv (Ls j), .normal (g j)]) (ys i) = .ok (ys m) := by
  induction k with
  | zero =>
    intro i hi
    simp only [Nat.add_zero] at hi
    subst hi
    rfl
  | succ k ih =>
    intro i hi
    obtain ⟨z, h1, h2⟩ := hstep i (by omega)
    rw [List.range'_succ, List.flatMap_cons]
    simp only [List.cons_append, List.nil_append, runStages, ConvStage.call, bind, Except.bind, h1, h2]
    exact ih (i + 1) (by omega)

theorem loop_normalized {m : ℕ} {Ls : ℕ → ConvLayer K} {g : ℕ → Fwd K} {focus : List ℕ} {ys tails : ℕ → Tensor K}
    (hstep : ∀ j < m, ∃ z, (Ls j).forward (ys j) = .ok z ∧ g j z = .ok (ys (j + 1)))
    (htail : ∀ j ≤ m, tailSlice (focus.getD j 0) (ys j) = .ok (tails j)) (k : ℕ) :
    ∀ i, i + k = m → TailFocus.loop focus ((List.range' i k).flatMap fun j => [.conv (Ls j), .normal (g j)]) (i + 1) (ys i)
      = .ok (ys m, (List.range' (i + 1) (min m (focus.length - 1) - i)).map tails) := by
  induction k with
  | zero =>
    intro i hi
    have : min m (focus.length - 1) - i = 0 := by omega
    rw [this]
    simp only [Nat.add_zero] at hi
    subst hi
    rfl
  | succ k ih =>
    intro i hi
    obtain ⟨z, h1, h2⟩ := hstep i (by omega)
    have ih' := ih (i + 1) (by omega)
    rw [List.range'_succ, List.flatMap_cons]
    simp only [List.cons_append, List.nil_append, TailFocus.loop, ConvStage.call, bind, Except.bind, h1, h2]
    by_cases hf : i + 1 < focus.length
    · have e : focus[i + 1]? = some (focus.getD (i + 1) 0) := by
        rw [List.getElem?_eq_getElem hf, List.getD_eq_getElem _ _ hf]
      rw [e]
      simp only [htail (i + 1) (by omega), ih']
      have e3 : min m (focus.length - 1) - i = min m (focus.length - 1) - (i + 1) + 1 := by omega
      rw [e3, List.range'_succ]
      rfl
    · have e3 : min m (focus.length - 1) - i = 0 := by omega
      rw [List.getElem?_eq_none (by omega), e3]
      simp only [loop_rest (Nat.le_of_not_lt hf), runStages_pairs hstep k (i + 1) (by omega), bind, Except.bind]
      rfl

end HOL
