import Verif.Model.Attention
import Verif.Spec.Attention
import Verif.Lemmas.TensorOps
import Mathlib.Data.List.GetD
import Mathlib.Algebra.Order.BigOperators.Ring.Finset
import Mathlib.Algebra.BigOperators.Field
import Mathlib.Tactic.FieldSimp

/-! # Lemmas about the attention model -/

namespace HOL
open TorchScalar Spec

/-! ## softmax over the reals -/

/-- `exp`, with `exp(-inf) = 0`. -/
noncomputable def expO : Option ℝ → ℝ
  | none => 0
  | some v => Real.exp v

theorem getD_map_range {α : Type} (f : ℕ → α) {c j : ℕ} (h : j < c) (d : α) : ((List.range c).map f).getD j d = f j := by
  rw [List.getD_eq_getElem?_getD, List.getElem?_map, List.getElem?_range h]
  rfl

theorem softmaxEntry_eq (f : ℕ → Option ℝ) {c j : ℕ} (h : j < c) :
    softmaxEntry ((List.range c).map f) j = expO (f j) / ∑ k ∈ Finset.range c, expO (f k) := by
  unfold softmaxEntry
  dsimp only
  rw [getD_map_range f h, List.map_map, sumL_range]
  generalize maxL (List.filterMap id (List.map f (List.range c))) = m
  have e : ∀ o, expShift m o = expO o * Real.exp (-m) := by
    intro o
    cases o with
    | none => simp [expO, expShift]
    | some v => simp only [expO, expShift, exp_real, sub_eq_add_neg, Real.exp_add]
  simp only [Function.comp_apply, e]
  rw [← Finset.sum_mul, mul_div_mul_right _ _ (Real.exp_pos _).ne']

theorem softmaxEntry_some (f : ℕ → ℝ) {c j : ℕ} (h : j < c) :
    softmaxEntry ((List.range c).map fun j => some (f j)) j = attnWeight c f (fun _ => False) j := by
  rw [softmaxEntry_eq _ h]
  simp [attnWeight, expO]

open Classical in
theorem softmaxEntry_mask (f : ℕ → ℝ) (P : ℕ → Prop) [DecidablePred P] {c j : ℕ} (h : j < c) :
    softmaxEntry ((List.range c).map fun j => if P j then none else some (f j)) j = attnWeight c f P j := by
  rw [softmaxEntry_eq _ h]
  have e : ∀ k, expO (if P k then none else some (f k)) = if P k then 0 else Real.exp (f k) := by
    intro k
    by_cases hp : P k <;> simp [hp, expO]
  simp only [e, attnWeight]
  rw [Finset.sum_filter]
  by_cases hp : P j
  · simp [hp]
  · simp only [hp, if_false]
    congr 1
    apply Finset.sum_congr rfl
    intro k _
    by_cases hk : P k <;> simp [hk]

theorem sum_unmasked_pos {T : ℕ} {score : ℕ → ℝ} {masked : ℕ → Prop} [DecidablePred fun k => ¬ masked k] (h : ∃ k < T, ¬ masked k) :
    0 < ∑ k ∈ (Finset.range T).filter (fun k => ¬ masked k), Real.exp (score k) := by
  obtain ⟨k, hk, hm⟩ := h
  exact Finset.sum_pos (fun _ _ => Real.exp_pos _) ⟨k, by simp [hk, hm]⟩

/-- The weights are a distribution, zero exactly at the masked positions. -/
theorem attnWeight_distribution {T : ℕ} {score : ℕ → ℝ} {masked : ℕ → Prop} (h : ∃ k < T, ¬ masked k) :
    IsDistribution T (attnWeight T score masked) ∧ ∀ j, attnWeight T score masked j = 0 ↔ masked j := by
  classical
  have hp := sum_unmasked_pos (score := score) h
  refine ⟨⟨fun j _ => ?_, ?_⟩, fun j => ?_⟩
  · unfold attnWeight
    split
    · exact le_rfl
    · exact div_nonneg (Real.exp_pos _).le hp.le
  · unfold attnWeight
    have : ∀ j, (if masked j then 0 else Real.exp (score j) / ∑ k ∈ (Finset.range T).filter (fun k => ¬ masked k), Real.exp (score k))
        = (if ¬ masked j then Real.exp (score j) else 0) / ∑ k ∈ (Finset.range T).filter (fun k => ¬ masked k), Real.exp (score k) := by
      intro j
      by_cases hm : masked j <;> simp [hm]
    simp only [this]
    rw [← Finset.sum_div, ← Finset.sum_filter, div_self hp.ne']
  · unfold attnWeight
    by_cases hm : masked j
    · simp [hm]
    · simp only [hm, if_false, iff_false]
      exact (div_pos (Real.exp_pos _) hp).ne'

theorem attnWeight_congr {T : ℕ} {s s' : ℕ → ℝ} {m m' : ℕ → Prop} (hs : ∀ k < T, s k = s' k) (hm : ∀ k < T, m k ↔ m' k) {j : ℕ} (hj : j < T) :
    attnWeight T s m j = attnWeight T s' m' j := by
  classical
  unfold attnWeight
  have e : ∑ k ∈ (Finset.range T).filter (fun k => ¬ m k), Real.exp (s k) = ∑ k ∈ (Finset.range T).filter (fun k => ¬ m' k), Real.exp (s' k) := by
    rw [Finset.sum_filter, Finset.sum_filter]
    apply Finset.sum_congr rfl
    intro k hk
    rw [Finset.mem_range] at hk
    simp only [hm k hk, hs k hk]
  simp only [hm j hj, hs j hj]
  rw [e]

theorem mix_congr {T : ℕ} {w w' v v' : ℕ → ℝ} (hw : ∀ j < T, w j = w' j) (hv : ∀ j < T, v j = v' j) : mix T w v = mix T w' v' := by
  unfold mix
  apply Finset.sum_congr rfl
  intro j hj
  rw [Finset.mem_range] at hj
  rw [hw j hj, hv j hj]

/-- A mixture lies between bounds of the values. -/
theorem mix_bounds {T : ℕ} {w v : ℕ → ℝ} (h : IsDistribution T w) {a b : ℝ} (ha : ∀ j < T, w j ≠ 0 → a ≤ v j ∧ v j ≤ b) :
    a ≤ mix T w v ∧ mix T w v ≤ b := by
  have h1 : ∑ j ∈ Finset.range T, w j * a = a := by rw [← Finset.sum_mul, h.2, one_mul]
  have h2 : ∑ j ∈ Finset.range T, w j * b = b := by rw [← Finset.sum_mul, h.2, one_mul]
  constructor
  · rw [← h1]
    apply Finset.sum_le_sum
    intro j hj
    rw [Finset.mem_range] at hj
    by_cases hz : w j = 0
    · simp [hz]
    · exact mul_le_mul_of_nonneg_left (ha j hj hz).1 (h.1 j hj)
  · rw [← h2]
    apply Finset.sum_le_sum
    intro j hj
    rw [Finset.mem_range] at hj
    by_cases hz : w j = 0
    · simp [hz]
    · exact mul_le_mul_of_nonneg_left (ha j hj hz).2 (h.1 j hj)

/-! ## tensor operations -/

section
set_option linter.unusedSectionVars false
variable {K : Type} [TorchScalar K]

theorem bmm_ok {x y : Tensor K} {b m k n : ℕ} (hx : x.shape = [b, m, k]) (hy : y.shape = [b, k, n]) :
    bmm x y = .ok (Tensor.tab3 b m n fun s i j => sumL ((List.range k).map fun q => x.get [s, i, q] * y.get [s, q, j])) := by
  unfold bmm
  simp only [hx, hy]
  simp only [and_self, if_true]

theorem transpose12_ok {t : Tensor K} {a b c : ℕ} (ht : t.shape = [a, b, c]) : transpose12 t = .ok (Tensor.tab3 a c b fun s i j => t.get [s, j, i]) := by
  unfold transpose12
  simp only [ht]

theorem matmul4_ok {x y : Tensor K} {a b m k n : ℕ} (hx : x.shape = [a, b, m, k]) (hy : y.shape = [a, b, k, n]) :
    matmul4 x y = .ok (Tensor.tab4 a b m n fun s h i j => sumL ((List.range k).map fun q => x.get [s, h, i, q] * y.get [s, h, q, j])) := by
  unfold matmul4
  simp only [hx, hy]
  simp only [and_self, if_true]

theorem viewAs_ok {α : Type} {t : Tensor α} {s : List ℕ} (h : numel s = numel t.shape) : viewAs s t = .ok (t.reshape s) := by
  unfold viewAs
  rw [if_pos h]

theorem viewSecond_ok {α : Type} {t : Tensor α} {a m : ℕ} {tail : List ℕ} (h : numel t.shape = a * numel tail * m) (hp : 0 < a * numel tail) :
    viewSecond a tail t = .ok (t.reshape (a :: m :: tail)) := by
  unfold viewSecond
  dsimp only
  rw [if_neg (by omega), h, if_pos (Nat.mul_mod_right _ _), Nat.mul_div_cancel_left _ hp]

theorem viewFirst_ok {α : Type} {t : Tensor α} {m : ℕ} {tail : List ℕ} (h : numel t.shape = numel tail * m) (hp : 0 < numel tail) :
    viewFirst tail t = .ok (t.reshape (m :: tail)) := by
  unfold viewFirst
  rw [if_neg (by omega), h, if_pos (Nat.mul_mod_right _ _), Nat.mul_div_cancel_left _ hp]

theorem viewThird_ok {t : Tensor K} {a b d m : ℕ} (h : numel t.shape = a * b * d * m) (hp : 0 < a * b * d) :
    viewThird a b d t = .ok (t.reshape [a, b, m, d]) := by
  unfold viewThird
  rw [if_neg (by omega), h, if_pos (Nat.mul_mod_right _ _), Nat.mul_div_cancel_left _ hp]

theorem permute0213 {α : Type} [Zero α] {t : Tensor α} {a b c d : ℕ} (ht : t.shape = [a, b, c, d]) :
    permute [0, 2, 1, 3] t = .ok (Tensor.tab4 a c b d fun i j k l => t.get [i, k, j, l]) := by
  unfold permute
  rw [ht]
  rfl

theorem permute2013 {α : Type} [Zero α] {t : Tensor α} {a b c d : ℕ} (ht : t.shape = [a, b, c, d]) :
    permute [2, 0, 1, 3] t = .ok (Tensor.tab4 c a b d fun i j k l => t.get [j, k, i, l]) := by
  unfold permute
  rw [ht]
  rfl

theorem permute1203 {α : Type} [Zero α] {t : Tensor α} {a b c d : ℕ} (ht : t.shape = [a, b, c, d]) :
    permute [1, 2, 0, 3] t = .ok (Tensor.tab4 b c a d fun i j k l => t.get [k, i, j, l]) := by
  unfold permute
  rw [ht]
  rfl

theorem permute0132 {α : Type} [Zero α] {t : Tensor α} {a b c d : ℕ} (ht : t.shape = [a, b, c, d]) :
    permute [0, 1, 3, 2] t = .ok (Tensor.tab4 a b d c fun i j k l => t.get [i, j, l, k]) := by
  unfold permute
  rw [ht]
  rfl

theorem permute0231 {α : Type} [Zero α] {t : Tensor α} {a b c d : ℕ} (ht : t.shape = [a, b, c, d]) :
    permute [0, 2, 3, 1] t = .ok (Tensor.tab4 a c d b fun i j k l => t.get [i, l, j, k]) := by
  unfold permute
  rw [ht]
  rfl

theorem unsqueeze1_two {α : Type} [Zero α] {t : Tensor α} {a b : ℕ} (ht : t.shape = [a, b]) :
    ∃ u, unsqueeze1 t = .ok u ∧ u.shape = [a, 1, b] ∧ ∀ i j, u.get [i, 0, j] = t.get [i, j] := by
  unfold unsqueeze1
  simp only [ht]
  refine ⟨_, rfl, rfl, fun i j => ?_⟩
  apply Tensor.get_reshape
  rw [ht]
  simp [ravel, numel]

/-- Broadcasting an axis of size one, and a vector along the last axis. -/
theorem zipB_bcast3 (f : K → K → K) {s t : Tensor K} {B T H q : ℕ} (hs : s.shape = [B, T, H]) (ht : t.shape = [B, q, H]) (hq : q = T ∨ q = 1) :
    zipB f s t = .ok (Tensor.tab3 B T H fun b i h => f (s.get [b, i, h]) (t.get [b, bidx q i, h])) := by
  have hb : bcast T q = .ok T := by
    rcases hq with rfl | rfl
    · exact bcast_self _
    · unfold bcast
      by_cases h1 : T = 1
      · simp [h1]
      · simp [h1]
  have hsh : bcastShape [B, T, H] [B, q, H] = .ok [B, T, H] := by
    simp [bcastShape, bcastRev, hb, bind, Except.bind]
  unfold zipB
  rw [hs, ht, hsh]
  simp only [bind, Except.bind]
  congr 1
  apply tabulate_congr
  intro idx hidx
  obtain ⟨b, i, h, rfl, h1, h2, h3⟩ := inShape3_exists hidx
  simp only [Tensor.bget, hs, ht, List.length_cons, List.length_nil, Nat.reduceAdd, Nat.sub_self, List.drop_zero, List.zipWith_cons_cons, List.zipWith_nil_left,
    bidx_of_lt h1, bidx_of_lt h2, bidx_of_lt h3, List.getD_cons_zero, List.getD_cons_succ]

theorem zipB_bcast3' (f : K → K → K) {s t : Tensor K} {B T H q : ℕ} (hs : s.shape = [B, q, H]) (ht : t.shape = [B, T, H]) (hq : q = T ∨ q = 1) :
    zipB f s t = .ok (Tensor.tab3 B T H fun b i h => f (s.get [b, bidx q i, h]) (t.get [b, i, h])) := by
  have hb : bcast q T = .ok T := by
    rcases hq with rfl | rfl
    · exact bcast_self _
    · unfold bcast
      by_cases h1 : T = 1
      · simp [h1]
      · simp [h1, Ne.symm h1]
  have hsh : bcastShape [B, q, H] [B, T, H] = .ok [B, T, H] := by
    simp [bcastShape, bcastRev, hb, bind, Except.bind]
  unfold zipB
  rw [hs, ht, hsh]
  simp only [bind, Except.bind]
  congr 1
  apply tabulate_congr
  intro idx hidx
  obtain ⟨b, i, h, rfl, h1, h2, h3⟩ := inShape3_exists hidx
  simp only [Tensor.bget, hs, ht, List.length_cons, List.length_nil, Nat.reduceAdd, Nat.sub_self, List.drop_zero, List.zipWith_cons_cons, List.zipWith_nil_left,
    bidx_of_lt h1, bidx_of_lt h2, bidx_of_lt h3, List.getD_cons_zero, List.getD_cons_succ]

theorem bidx_lt {q T i : ℕ} (hq : q = T ∨ q = 1) (hi : i < T) : bidx q i < q := by
  unfold bidx
  rcases hq with rfl | rfl
  · split <;> omega
  · simp

theorem zipB_vec (f : K → K → K) {s t : Tensor K} {B T H : ℕ} (hs : s.shape = [B, T, H]) (ht : t.shape = [H]) :
    zipB f s t = .ok (Tensor.tab3 B T H fun b i h => f (s.get [b, i, h]) (t.get [h])) := by
  have hsh : bcastShape [B, T, H] [H] = .ok [B, T, H] := by
    simp [bcastShape, bcastRev, bind, Except.bind]
  unfold zipB
  rw [hs, ht, hsh]
  simp only [bind, Except.bind]
  congr 1
  apply tabulate_congr
  intro idx hidx
  obtain ⟨b, i, h, rfl, h1, h2, h3⟩ := inShape3_exists hidx
  simp only [Tensor.bget, hs, ht, List.length_cons, List.length_nil, Nat.reduceAdd, Nat.sub_self, List.drop_zero, List.zipWith_cons_cons, List.zipWith_nil_left,
    bidx_of_lt h1, bidx_of_lt h2, bidx_of_lt h3, List.getD_cons_zero, List.getD_cons_succ, Nat.reduceSub, List.drop_succ_cons]

theorem zipB_heads (f : K → K → K) {s t : Tensor K} {B T N D : ℕ} (hs : s.shape = [B, T, N, D]) (ht : t.shape = [N, D]) :
    zipB f s t = .ok (Tensor.tab4 B T N D fun b i h d => f (s.get [b, i, h, d]) (t.get [h, d])) := by
  have hsh : bcastShape [B, T, N, D] [N, D] = .ok [B, T, N, D] := by
    simp [bcastShape, bcastRev, bind, Except.bind]
  unfold zipB
  rw [hs, ht, hsh]
  simp only [bind, Except.bind]
  congr 1
  apply tabulate_congr
  intro idx hidx
  obtain ⟨b, i, h, d, rfl, h1, h2, h3, h4⟩ := inShape4_exists hidx
  simp only [Tensor.bget, hs, ht, List.length_cons, List.length_nil, Nat.reduceAdd, Nat.sub_self, List.drop_zero, List.zipWith_cons_cons, List.zipWith_nil_left,
    bidx_of_lt h1, bidx_of_lt h2, bidx_of_lt h3, bidx_of_lt h4, List.getD_cons_zero, List.getD_cons_succ, Nat.reduceSub, List.drop_succ_cons]

/-! ## linear layers -/

/-- The value of an `nn.Linear` at one row. -/
def Linear.row (L : Linear K) (I : ℕ) (x : ℕ → K) (o : ℕ) : K :=
  let v := sumL ((List.range I).map fun q => x q * L.weight.get [o, q])
  match L.bias with
  | none => v
  | some b => v + b.get [o]

theorem Linear.forward3 (L : Linear K) {x : Tensor K} {B T I O : ℕ} (hw : L.weight.shape = [O, I]) (hx : x.shape = [B, T, I]) :
    ∃ y, L.forward x = .ok y ∧ y.WF ∧ y.shape = [B, T, O] ∧
      ∀ b < B, ∀ t < T, ∀ o < O, y.get [b, t, o] = L.row I (fun q => x.get [b, t, q]) o := by
  unfold Linear.forward linearLast
  simp only [hx, hw, List.getLast?_cons_cons, List.getLast?_singleton, if_true, List.dropLast]
  refine ⟨_, rfl, ?_, rfl, ?_⟩
  · apply Tensor.wf_reshape (Tensor.wf_tab2 _ _ _)
    simp [numel, Nat.mul_assoc]
  · intro b hb t ht o ho
    have hbt : b * T + t < numel [B, T] := by
      simp only [numel, Nat.mul_one]
      calc b * T + t < b * T + T := by omega
        _ = (b + 1) * T := by ring
        _ ≤ B * T := Nat.mul_le_mul_right _ hb
    rw [Tensor.get_reshape (idx' := [b * T + t, o]), Tensor.get_tab2 hbt ho]
    · unfold Linear.row
      have e : ∀ q, (x.reshape [numel [B, T], I]).get [b * T + t, q] = x.get [b, t, q] := by
        intro q
        apply Tensor.get_reshape
        rw [hx]
        simp only [ravel, numel]
        ring
      simp only [e]
      cases L.bias <;> rfl
    · simp only [ravel, numel, Tensor.shape_tab2, List.cons_append, List.nil_append]
      ring

theorem Linear.forward2 (L : Linear K) {x : Tensor K} {B I O : ℕ} (hw : L.weight.shape = [O, I]) (hx : x.shape = [B, I]) :
    ∃ y, L.forward x = .ok y ∧ y.WF ∧ y.shape = [B, O] ∧ ∀ b < B, ∀ o < O, y.get [b, o] = L.row I (fun q => x.get [b, q]) o := by
  unfold Linear.forward linearLast
  simp only [hx, hw, List.getLast?_cons_cons, List.getLast?_singleton, if_true, List.dropLast]
  refine ⟨_, rfl, ?_, rfl, ?_⟩
  · apply Tensor.wf_reshape (Tensor.wf_tab2 _ _ _)
    simp [numel]
  · intro b hb o ho
    have hb' : b < numel [B] := by simpa [numel] using hb
    rw [Tensor.get_reshape (idx' := [b, o]), Tensor.get_tab2 hb' ho]
    · unfold Linear.row
      have e : ∀ q, (x.reshape [numel [B], I]).get [b, q] = x.get [b, q] := by
        intro q
        apply Tensor.get_reshape
        rw [hx]
        simp only [ravel, numel]
      simp only [e]
      cases L.bias <;> rfl
    · simp only [ravel, numel, Tensor.shape_tab2, List.cons_append, List.nil_append]

/-- Position in the concatenation of the heads. -/
theorem head_lt {N D h d : ℕ} (hh : h < N) (hd : d < D) : h * D + d < D * N := by
  calc h * D + d < h * D + D := by omega
    _ = D * (h + 1) := by ring
    _ ≤ D * N := Nat.mul_le_mul_left _ hh

theorem splitHeads_ok (P : Linear K) {x : Tensor K} {B T I N D : ℕ} (hw : P.weight.shape = [D * N, I]) (hx : x.shape = [B, T, I]) (hp : 0 < B * (N * D)) :
    ∃ y, splitHeads P B N D x = .ok y ∧ y.WF ∧ y.shape = [B, T, N, D] ∧
      ∀ b < B, ∀ t < T, ∀ h < N, ∀ d < D, y.get [b, t, h, d] = P.row I (fun q => x.get [b, t, q]) (h * D + d) := by
  obtain ⟨r, r1, r2, r3, r4⟩ := P.forward3 hw hx
  have hv : viewSecond B [N, D] r = .ok (r.reshape [B, T, N, D]) := by
    apply viewSecond_ok
    · rw [r3]
      simp only [numel]
      ring
    · simpa [numel] using hp
  unfold splitHeads
  simp only [r1, bind, Except.bind, hv]
  refine ⟨_, rfl, ?_, rfl, ?_⟩
  · apply Tensor.wf_reshape r2
    rw [r3]
    simp only [numel]
    ring
  · intro b hb t ht h hh d hd
    rw [Tensor.get_reshape (idx' := [b, t, h * D + d])]
    · exact r4 b hb t ht _ (head_lt hh hd)
    · rw [r3]
      simp only [ravel, numel]
      ring

theorem headRows_ok {x : Tensor K} {B T N D : ℕ} (hx : x.shape = [B, T, N, D]) (hp : 0 < B * N * D) :
    ∃ y, headRows B N D x = .ok y ∧ y.WF ∧ y.shape = [B * N, T, D] ∧
      ∀ b < B, ∀ t < T, ∀ h < N, ∀ d < D, y.get [h * B + b, t, d] = x.get [b, t, h, d] := by
  unfold headRows
  rw [permute2013 hx]
  simp only [bind, Except.bind]
  rw [viewSecond_ok (m := T) (by simp only [Tensor.shape_tab4, numel]; ring) (by simpa [numel] using hp)]
  refine ⟨_, rfl, ?_, rfl, ?_⟩
  · apply Tensor.wf_reshape (Tensor.wf_tab4 _ _ _ _ _)
    simp only [Tensor.shape_tab4, numel]
    ring
  · intro b hb t ht h hh d hd
    rw [Tensor.get_reshape (idx' := [h, b, t, d]), Tensor.get_tab4 hh hb ht hd]
    simp only [Tensor.shape_tab4, ravel, numel]
    ring

end

theorem Linear.forward_shape (L : Linear ℝ) {x : Tensor ℝ} {pre : List ℕ} {I O : ℕ} (hw : L.weight.shape = [O, I]) (hx : x.shape = pre ++ [I]) :
    ∃ y, L.forward x = .ok y ∧ y.shape = pre ++ [O] := by
  unfold Linear.forward linearLast
  simp only [hx, hw, List.getLast?_append, List.getLast?_singleton, Option.some_or, if_true, List.dropLast_concat]
  exact ⟨_, rfl, rfl⟩

/-! ## rows over the reals -/

/-- The bias of output `o`. -/
noncomputable def Linear.biasAt (L : Linear ℝ) (o : ℕ) : ℝ :=
  match L.bias with
  | none => 0
  | some b => b.get [o]

/-- Output `o` of a linear layer at the row `x`. -/
noncomputable def linearRow (L : Linear ℝ) (I : ℕ) (x : ℕ → ℝ) (o : ℕ) : ℝ := ∑ q ∈ Finset.range I, x q * L.weight.get [o, q] + L.biasAt o

theorem Linear.row_real (L : Linear ℝ) (I : ℕ) (x : ℕ → ℝ) (o : ℕ) : L.row I x o = linearRow L I x o := by
  unfold Linear.row linearRow Linear.biasAt
  dsimp only
  rw [sumL_range]
  cases L.bias with
  | none => simp
  | some b => rfl

theorem linearRow_congr (L : Linear ℝ) {I : ℕ} {x y : ℕ → ℝ} (h : ∀ q < I, x q = y q) (o : ℕ) : linearRow L I x o = linearRow L I y o := by
  unfold linearRow
  congr 1
  apply Finset.sum_congr rfl
  intro q hq
  rw [Finset.mem_range] at hq
  rw [h q hq]

theorem squeezeLast3 {t : Tensor ℝ} (hw : t.WF) {A T : ℕ} (ht : t.shape = [A, T, 1]) :
    (squeezeLast t).WF ∧ (squeezeLast t).shape = [A, T] ∧ ∀ a < A, ∀ j < T, (squeezeLast t).get [a, j] = t.get [a, j, 0] := by
  unfold squeezeLast
  rw [ht]
  simp only [List.getLast?_cons_cons, List.getLast?_singleton, if_true, List.dropLast]
  refine ⟨?_, rfl, ?_⟩
  · apply Tensor.wf_reshape hw
    rw [ht]
    simp [numel]
  · intro a _ j _
    apply Tensor.get_reshape
    rw [ht]
    simp [ravel, numel]

theorem projRows_ok (P : Linear ℝ) {x : Tensor ℝ} {B T H : ℕ} (hw : P.weight.shape = [H, H]) (hx : x.shape = [B, T, H]) (hB : 0 < B) (hH : 0 < H) :
    ∃ y, projRows P B H x = .ok y ∧ y.WF ∧ y.shape = [B, T, H] ∧ ∀ b < B, ∀ t < T, ∀ o < H, y.get [b, t, o] = linearRow P H (fun q => x.get [b, t, q]) o := by
  unfold projRows
  rw [viewFirst_ok (m := B * T) (by rw [hx]; simp only [numel]; ring) (by simpa [numel] using hH)]
  simp only [bind, Except.bind]
  obtain ⟨r, r1, r2, r3, r4⟩ := P.forward2 (x := x.reshape [B * T, H]) hw rfl
  rw [r1]
  dsimp only
  rw [viewSecond_ok (m := T) (by rw [r3]; simp only [numel]; ring) (by simpa [numel] using ⟨hB, hH⟩)]
  refine ⟨_, rfl, ?_, rfl, ?_⟩
  · apply Tensor.wf_reshape r2
    rw [r3]
    simp only [numel]
    ring
  · intro b hb t ht o ho
    have hbt : b * T + t < B * T := by
      calc b * T + t < b * T + T := by omega
        _ = (b + 1) * T := by ring
        _ ≤ B * T := Nat.mul_le_mul_right _ hb
    rw [Tensor.get_reshape (idx' := [b * T + t, o]), r4 _ hbt o ho, Linear.row_real]
    · apply linearRow_congr
      intro q _
      apply Tensor.get_reshape
      rw [hx]
      simp only [ravel, numel]
      ring
    · rw [r3]
      simp only [ravel, numel]
      ring

/-- A kernel of size three sliding over a zero padded sequence. -/
noncomputable def slide3 (w : ℕ → ℝ) (T : ℕ) (x : ℕ → ℝ) (t : ℕ) : ℝ :=
  ∑ s ∈ Finset.range 3, w s * if 1 ≤ t + s ∧ t + s - 1 < T then x (t + s - 1) else 0

theorem convThree_ok {weight bias x : Tensor ℝ} {B C T O : ℕ} (hw : weight.shape = [O, C, 3]) (hx : x.shape = [B, C, T]) :
    ∃ y, convThree weight bias x = .ok y ∧ y.WF ∧ y.shape = [B, O, T] ∧ ∀ b < B, ∀ o < O, ∀ t < T,
      y.get [b, o, t] = ∑ c ∈ Finset.range C, slide3 (fun s => weight.get [o, c, s]) T (fun k => x.get [b, c, k]) t + bias.get [o] := by
  unfold convThree
  simp only [hx, hw, if_true]
  refine ⟨_, rfl, Tensor.wf_tab3 _ _ _ _, rfl, fun b hb o ho t ht => ?_⟩
  rw [Tensor.get_tab3 hb ho ht, sumL_flatMap_range]
  rfl

/-- The context of weights without a query axis. -/
theorem bmm_context {a value : Tensor ℝ} {B T E : ℕ} (ha : a.shape = [B, T]) (hv : value.shape = [B, T, E]) :
    ∃ u c, unsqueeze1 a = .ok u ∧ bmm u value = .ok c ∧ c.WF ∧ c.shape = [B, 1, E] ∧
      ∀ b < B, ∀ e < E, c.get [b, 0, e] = mix T (fun j => a.get [b, j]) (fun j => value.get [b, j, e]) := by
  obtain ⟨u, u1, u2, u3⟩ := unsqueeze1_two ha
  refine ⟨u, _, u1, bmm_ok u2 hv, Tensor.wf_tab3 _ _ _ _, rfl, ?_⟩
  intro b hb e he
  rw [Tensor.get_tab3 hb Nat.one_pos he, sumL_range]
  simp only [u3]
  rfl

/-! ## softmax of tensors -/

theorem softmaxLast2 {t : Tensor ℝ} {A T : ℕ} (ht : t.shape = [A, T]) :
    (softmaxLast t).WF ∧ (softmaxLast t).shape = [A, T] ∧
      ∀ a < A, ∀ j < T, (softmaxLast t).get [a, j] = attnWeight T (fun k => t.get [a, k]) (fun _ => False) j := by
  unfold softmaxLast
  dsimp only
  refine ⟨Tensor.wf_tabulate _ _, ht, ?_⟩
  intro a ha j hj
  have hin : InShape t.shape [a, j] := by rw [ht]; exact ⟨ha, hj, trivial⟩
  rw [Tensor.get_tabulate hin, ht]
  exact softmaxEntry_some (fun k => t.get [a, k]) hj

theorem softmaxLast3 {t : Tensor ℝ} {A Q T : ℕ} (ht : t.shape = [A, Q, T]) :
    (softmaxLast t).WF ∧ (softmaxLast t).shape = [A, Q, T] ∧
      ∀ a < A, ∀ i < Q, ∀ j < T, (softmaxLast t).get [a, i, j] = attnWeight T (fun k => t.get [a, i, k]) (fun _ => False) j := by
  unfold softmaxLast
  dsimp only
  refine ⟨Tensor.wf_tabulate _ _, ht, ?_⟩
  intro a ha i hi j hj
  have hin : InShape t.shape [a, i, j] := by rw [ht]; exact ⟨ha, hi, hj, trivial⟩
  rw [Tensor.get_tabulate hin, ht]
  exact softmaxEntry_some (fun k => t.get [a, i, k]) hj

theorem softmaxLast4 {t : Tensor ℝ} {A N Q T : ℕ} (ht : t.shape = [A, N, Q, T]) :
    (softmaxLast t).WF ∧ (softmaxLast t).shape = [A, N, Q, T] ∧
      ∀ a < A, ∀ h < N, ∀ i < Q, ∀ j < T, (softmaxLast t).get [a, h, i, j] = attnWeight T (fun k => t.get [a, h, i, k]) (fun _ => False) j := by
  unfold softmaxLast
  dsimp only
  refine ⟨Tensor.wf_tabulate _ _, ht, ?_⟩
  intro a ha h hh i hi j hj
  have hin : InShape t.shape [a, h, i, j] := by rw [ht]; exact ⟨ha, hh, hi, hj, trivial⟩
  rw [Tensor.get_tabulate hin, ht]
  exact softmaxEntry_some (fun k => t.get [a, h, i, k]) hj

theorem maskedSoftmax3 {t : Tensor ℝ} {m : Tensor ℕ} {A Q T : ℕ} (ht : t.shape = [A, Q, T]) :
    (maskedSoftmax t m).WF ∧ (maskedSoftmax t m).shape = [A, Q, T] ∧
      ∀ a < A, ∀ i < Q, ∀ j < T, (maskedSoftmax t m).get [a, i, j] = attnWeight T (fun k => t.get [a, i, k]) (fun k => m.get [a, i, k] ≠ 0) j := by
  unfold maskedSoftmax
  dsimp only
  refine ⟨Tensor.wf_tabulate _ _, ht, ?_⟩
  intro a ha i hi j hj
  have hin : InShape t.shape [a, i, j] := by rw [ht]; exact ⟨ha, hi, hj, trivial⟩
  rw [Tensor.get_tabulate hin, ht]
  exact softmaxEntry_mask (fun k => t.get [a, i, k]) (fun k => m.get [a, i, k] ≠ 0) hj

end HOL
