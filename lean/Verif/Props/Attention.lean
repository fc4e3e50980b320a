import Verif.Lemmas.Attention
import Verif.Lemmas.Expand
import Mathlib.Tactic.IntervalCases

/-! # Attention: weights, masks, heads and shifts (C64-C67) -/

namespace HOL
open TorchScalar Spec

/-! ## C64: attention weights are a distribution -/

/-- Key `k` is masked for row `i` of batch element `b`. -/
def maskedAt (mask : Option (Tensor ℕ)) (B Q T b i k : ℕ) : Prop :=
  match mask with
  | none => False
  | some m => (m.reshape [B, Q, T]).get [b, i, k] ≠ 0

theorem scaledDot_eq {dim B Q T D E : ℕ} {query key value : Tensor ℝ} {mask : Option (Tensor ℕ)} (hq : query.shape = [B, Q, D]) (hk : key.shape = [B, T, D])
    (hv : value.shape = [B, T, E]) (hm : ∀ m, mask = some m → numel m.shape = B * Q * T) :
    ∃ c a, scaledDot dim query key value mask = .ok (c, a) ∧ c.WF ∧ a.WF ∧ c.shape = [B, Q, E] ∧ a.shape = [B, Q, T] ∧
      (∀ b < B, ∀ i < Q, ∀ j < T, a.get [b, i, j] = attnWeight T
        (fun k => (∑ d ∈ Finset.range D, query.get [b, i, d] * key.get [b, k, d]) / Real.sqrt dim) (maskedAt mask B Q T b i) j) ∧
      ∀ b < B, ∀ i < Q, ∀ e < E, c.get [b, i, e] = mix T (fun j => a.get [b, i, j]) (fun j => value.get [b, j, e]) := by
  unfold scaledDot
  rw [transpose12_ok hk]
  simp only [bind, Except.bind]
  rw [bmm_ok hq (Tensor.shape_tab3 _ _ _ _)]
  dsimp only
  set score := (Tensor.tab3 B Q T fun s i j => sumL ((List.range D).map fun q => query.get [s, i, q] * (Tensor.tab3 B D T fun s i j => key.get [s, j, i]).get [s, q, j])).map
    (fun v => v / TorchScalar.sqrt ((dim : ℕ) : ℝ)) with hscore
  have hs : score.shape = [B, Q, T] := rfl
  have hsc : ∀ b < B, ∀ i < Q, ∀ k < T, score.get [b, i, k] = (∑ d ∈ Finset.range D, query.get [b, i, d] * key.get [b, k, d]) / Real.sqrt dim := by
    intro b hb i hi k hk
    have hin : InShape [B, Q, T] [b, i, k] := ⟨hb, hi, hk, trivial⟩
    rw [hscore, Tensor.get_map (Tensor.wf_tab3 _ _ _ _) hin, Tensor.get_tab3 hb hi hk, sumL_range]
    congr 1
    apply Finset.sum_congr rfl
    intro d hd
    rw [Finset.mem_range] at hd
    rw [Tensor.get_tab3 hb hd hk]
  have final : ∀ attn : Tensor ℝ, attn.WF → attn.shape = [B, Q, T] → ∃ c, bmm attn value = .ok c ∧ c.WF ∧ c.shape = [B, Q, E] ∧
      ∀ b < B, ∀ i < Q, ∀ e < E, c.get [b, i, e] = mix T (fun j => attn.get [b, i, j]) (fun j => value.get [b, j, e]) := by
    intro attn _ h2
    rw [bmm_ok h2 hv]
    refine ⟨_, rfl, Tensor.wf_tab3 _ _ _ _, rfl, ?_⟩
    intro b hb i hi e he
    rw [Tensor.get_tab3 hb hi he, sumL_range]
    rfl
  cases mask with
  | none =>
    dsimp only
    obtain ⟨w1, w2, w3⟩ := softmaxLast3 hs
    obtain ⟨c, c1, c2, c3, c4⟩ := final _ w1 w2
    rw [c1]
    refine ⟨c, _, rfl, c2, w1, c3, w2, ?_, c4⟩
    intro b hb i hi j hj
    rw [w3 b hb i hi j hj]
    exact attnWeight_congr (hsc b hb i hi) (fun _ _ => Iff.rfl) hj
  | some m =>
    dsimp only
    rw [hs, viewAs_ok (by rw [hm m rfl]; simp [numel, Nat.mul_assoc])]
    dsimp only
    obtain ⟨w1, w2, w3⟩ := maskedSoftmax3 (m := m.reshape [B, Q, T]) hs
    obtain ⟨c, c1, c2, c3, c4⟩ := final _ w1 w2
    rw [c1]
    refine ⟨c, _, rfl, c2, w1, c3, w2, ?_, c4⟩
    intro b hb i hi j hj
    rw [w3 b hb i hi j hj]
    exact attnWeight_congr (hsc b hb i hi) (fun _ _ => Iff.rfl) hj

/-- C64: the weights are the softmax of `q·k/√dim` over the keys that are not masked: nonnegative, of sum one, zero exactly at the masked keys; the context is the combination
of the values with these weights and lies between bounds of the values that are not masked. -/
theorem C64_weights {dim B Q T D E : ℕ} {query key value : Tensor ℝ} {mask : Option (Tensor ℕ)} (_ : 0 < dim) (hq : query.shape = [B, Q, D]) (hk : key.shape = [B, T, D])
    (hv : value.shape = [B, T, E]) (hm : ∀ m, mask = some m → numel m.shape = B * Q * T) :
    ∃ c a, scaledDot dim query key value mask = .ok (c, a) ∧ c.shape = [B, Q, E] ∧ a.shape = [B, Q, T] ∧
      ∀ b < B, ∀ i < Q,
        (∀ j < T, a.get [b, i, j] = attnWeight T
          (fun k => (∑ d ∈ Finset.range D, query.get [b, i, d] * key.get [b, k, d]) / Real.sqrt dim) (maskedAt mask B Q T b i) j) ∧
        (∀ e < E, c.get [b, i, e] = mix T (fun j => a.get [b, i, j]) (fun j => value.get [b, j, e])) ∧
        ((∃ k < T, ¬ maskedAt mask B Q T b i k) →
          IsDistribution T (fun j => a.get [b, i, j]) ∧ (∀ j < T, a.get [b, i, j] = 0 ↔ maskedAt mask B Q T b i j) ∧
          ∀ e < E, ∀ lo hi : ℝ, (∀ j < T, ¬ maskedAt mask B Q T b i j → lo ≤ value.get [b, j, e] ∧ value.get [b, j, e] ≤ hi) →
            lo ≤ c.get [b, i, e] ∧ c.get [b, i, e] ≤ hi) := by
  obtain ⟨c, a, h1, -, -, h2, h3, h4, h5⟩ := scaledDot_eq (dim := dim) hq hk hv hm
  refine ⟨c, a, h1, h2, h3, fun b hb i hi => ⟨h4 b hb i hi, h5 b hb i hi, fun hex => ?_⟩⟩
  obtain ⟨d1, d2⟩ := attnWeight_distribution (score := fun k => (∑ d ∈ Finset.range D, query.get [b, i, d] * key.get [b, k, d]) / Real.sqrt dim) hex
  have hd : IsDistribution T (fun j => a.get [b, i, j]) := by
    refine ⟨fun j hj => ?_, ?_⟩
    · beta_reduce
      rw [h4 b hb i hi j hj]
      exact d1.1 j hj
    · rw [← d1.2]
      apply Finset.sum_congr rfl
      intro j hj
      rw [Finset.mem_range] at hj
      exact h4 b hb i hi j hj
  have hz : ∀ j < T, a.get [b, i, j] = 0 ↔ maskedAt mask B Q T b i j := by
    intro j hj
    rw [h4 b hb i hi j hj]
    exact d2 j
  refine ⟨hd, hz, fun e he lo hi' hb' => ?_⟩
  rw [h5 b hb i hi e he]
  exact mix_bounds hd fun j hj hne => hb' j hj fun hmk => hne ((hz j hj).2 hmk)

/-- Reordering keys. -/
theorem attnWeight_perm {T : ℕ} (σ : Equiv.Perm ℕ) (hσ : ∀ k, σ k < T ↔ k < T) (s : ℕ → ℝ) (m : ℕ → Prop) (j : ℕ) :
    attnWeight T (fun k => s (σ k)) (fun k => m (σ k)) j = attnWeight T s m (σ j) := by
  classical
  unfold attnWeight
  have e : ∑ k ∈ (Finset.range T).filter (fun k => ¬ m (σ k)), Real.exp (s (σ k)) = ∑ k ∈ (Finset.range T).filter (fun k => ¬ m k), Real.exp (s k) := by
    apply Finset.sum_equiv σ
    · intro k
      simp [hσ]
    · intros
      rfl
  rw [e]

theorem mix_perm {T : ℕ} (σ : Equiv.Perm ℕ) (hσ : ∀ k, σ k < T ↔ k < T) (w v : ℕ → ℝ) : mix T (fun k => w (σ k)) (fun k => v (σ k)) = mix T w v := by
  unfold mix
  apply Finset.sum_equiv σ
  · intro k
    simp [hσ]
  · intros
    rfl

/-- C64: keys, values and masks may be given in any order. -/
theorem C64_permutation {dim B Q T D E : ℕ} {query key value key' value' : Tensor ℝ} {mask mask' : Option (Tensor ℕ)} (σ : Equiv.Perm ℕ) (hσ : ∀ k, σ k < T ↔ k < T)
    (hq : query.shape = [B, Q, D]) (hk : key.shape = [B, T, D]) (hv : value.shape = [B, T, E]) (hk' : key'.shape = [B, T, D]) (hv' : value'.shape = [B, T, E])
    (hm : ∀ m, mask = some m → numel m.shape = B * Q * T) (hm' : ∀ m, mask' = some m → numel m.shape = B * Q * T)
    (pk : ∀ b < B, ∀ k < T, ∀ d < D, key'.get [b, k, d] = key.get [b, σ k, d]) (pv : ∀ b < B, ∀ k < T, ∀ e < E, value'.get [b, k, e] = value.get [b, σ k, e])
    (pm : ∀ b < B, ∀ i < Q, ∀ k < T, maskedAt mask' B Q T b i k ↔ maskedAt mask B Q T b i (σ k)) :
    ∃ c a a', scaledDot dim query key value mask = .ok (c, a) ∧ scaledDot dim query key' value' mask' = .ok (c, a') ∧
      ∀ b < B, ∀ i < Q, ∀ j < T, a'.get [b, i, j] = a.get [b, i, σ j] := by
  obtain ⟨c, a, h1, w1, -, h2, h3, h4, h5⟩ := scaledDot_eq (dim := dim) hq hk hv hm
  obtain ⟨c', a', h1', w1', -, h2', h3', h4', h5'⟩ := scaledDot_eq (dim := dim) hq hk' hv' hm'
  have ha : ∀ b < B, ∀ i < Q, ∀ j < T, a'.get [b, i, j] = a.get [b, i, σ j] := by
    intro b hb i hi j hj
    rw [h4 b hb i hi (σ j) ((hσ j).2 hj), ← attnWeight_perm σ hσ, h4' b hb i hi j hj]
    apply attnWeight_congr _ (pm b hb i hi) hj
    intro k hk
    congr 1
    apply Finset.sum_congr rfl
    intro d hd
    rw [Finset.mem_range] at hd
    rw [pk b hb k hk d hd]
  have hc : c' = c := by
    apply Tensor.ext_get w1' w1 (by rw [h2, h2'])
    intro idx hidx
    rw [h2'] at hidx
    obtain ⟨b, i, e, rfl, hb, hi, he⟩ := inShape3_exists hidx
    rw [h5 b hb i hi e he, h5' b hb i hi e he, ← mix_perm σ hσ (fun j => a.get [b, i, j])]
    exact mix_congr (fun j hj => ha b hb i hi j hj) (fun j hj => pv b hb j hj e he)
  exact ⟨c, a, a', h1, hc ▸ h1', ha⟩

theorem bmm_err {x y : Tensor ℝ} {b m k b' k' n : ℕ} (hx : x.shape = [b, m, k]) (hy : y.shape = [b', k', n]) (h : ¬ (b = b' ∧ k = k')) :
    bmm x y = .error .runtimeError := by
  unfold bmm
  simp only [hx, hy]
  rw [if_neg h]

/-- C64: among tensors with three axes, exactly those of matching sizes are accepted; others raise a RuntimeError. -/
theorem C64_sizes {dim B Q D B' T D' B'' T' E : ℕ} {query key value : Tensor ℝ} {mask : Option (Tensor ℕ)} (hq : query.shape = [B, Q, D]) (hk : key.shape = [B', T, D'])
    (hv : value.shape = [B'', T', E]) :
    (B = B' ∧ D = D' ∧ B = B'' ∧ T = T' ∧ (∀ m, mask = some m → numel m.shape = B * Q * T) → ∃ r, scaledDot dim query key value mask = .ok r) ∧
    (¬ (B = B' ∧ D = D' ∧ B = B'' ∧ T = T' ∧ ∀ m, mask = some m → numel m.shape = B * Q * T) → scaledDot dim query key value mask = .error .runtimeError) := by
  constructor
  · rintro ⟨rfl, rfl, rfl, rfl, hm⟩
    obtain ⟨c, a, h, -⟩ := scaledDot_eq (dim := dim) hq hk hv hm
    exact ⟨_, h⟩
  · intro hn
    unfold scaledDot
    rw [transpose12_ok hk]
    simp only [bind, Except.bind]
    by_cases h1 : B = B' ∧ D = D'
    · obtain ⟨rfl, rfl⟩ := h1
      rw [bmm_ok hq (Tensor.shape_tab3 _ _ _ _)]
      dsimp only
      cases mask with
      | none =>
        have h2 : ¬ (B = B'' ∧ T = T') := fun h => hn ⟨rfl, rfl, h.1, h.2, by simp⟩
        dsimp only
        rw [bmm_err (softmaxLast3 rfl).2.1 hv h2]
      | some m =>
        dsimp only
        by_cases h3 : numel m.shape = B * Q * T
        · have h2 : ¬ (B = B'' ∧ T = T') := fun h => hn ⟨rfl, rfl, h.1, h.2, by simpa using h3⟩
          rw [Tensor.shape_map, Tensor.shape_tab3, viewAs_ok (by rw [h3]; simp [numel, Nat.mul_assoc])]
          dsimp only
          rw [bmm_err (maskedSoftmax3 rfl).2.1 hv h2]
        · unfold viewAs
          rw [Tensor.shape_map, Tensor.shape_tab3, if_neg]
          intro h
          apply h3
          rw [← h]
          simp [numel, Nat.mul_assoc]
    · rw [bmm_err hq (Tensor.shape_tab3 _ _ _ _) h1]

/-- No mask. -/
def noMask : ℕ → Prop := fun _ => False

theorem noMask_exists {T : ℕ} (h : 0 < T) : ∃ k < T, ¬ noMask k := ⟨0, h, id⟩

/-- Entries given by unmasked weights are a distribution. -/
theorem distribution_of {T : ℕ} {w s : ℕ → ℝ} (hT : 0 < T) (h : ∀ j < T, w j = attnWeight T s noMask j) : IsDistribution T w ∧ ∀ j < T, 0 < w j := by
  obtain ⟨d1, d2⟩ := attnWeight_distribution (score := s) (noMask_exists hT)
  refine ⟨⟨fun j hj => ?_, ?_⟩, fun j hj => ?_⟩
  · rw [h j hj]
    exact d1.1 j hj
  · rw [← d1.2]
    apply Finset.sum_congr rfl
    intro j hj
    rw [Finset.mem_range] at hj
    exact h j hj
  · rw [h j hj]
    exact lt_of_le_of_ne (d1.1 j hj) fun e => (d2 j).1 e.symm

/-- C64: `DotProductAttention` weighs the values by the softmax of their dot products with the query. -/
theorem C64_dot {B Q T H : ℕ} {query value : Tensor ℝ} (hB : 0 < B) (hT : 0 < T) (hq : query.shape = [B, Q, H]) (hv : value.shape = [B, T, H]) :
    ∃ c a, dotProduct query value = .ok (c, a) ∧ c.shape = [B, Q, H] ∧ a.shape = [B, Q, T] ∧
      ∀ b < B, ∀ i < Q,
        (∀ j < T, a.get [b, i, j] = attnWeight T (fun k => ∑ d ∈ Finset.range H, query.get [b, i, d] * value.get [b, k, d]) noMask j) ∧
        IsDistribution T (fun j => a.get [b, i, j]) ∧
        ∀ e < H, c.get [b, i, e] = mix T (fun j => a.get [b, i, j]) (fun j => value.get [b, j, e]) := by
  unfold dotProduct attentionSizes
  simp only [hq, hv, bind, Except.bind]
  rw [transpose12_ok hv]
  dsimp only
  rw [bmm_ok hq (Tensor.shape_tab3 _ _ _ _)]
  dsimp only
  rw [viewFirst_ok (m := B * Q) (by simp only [Tensor.shape_tab3, numel]; ring) (by simpa [numel] using hT)]
  dsimp only
  set score := (Tensor.tab3 B Q T fun s i j => sumL ((List.range H).map fun q => query.get [s, i, q] * (Tensor.tab3 B H T fun s i j => value.get [s, j, i]).get [s, q, j])) with hscore
  have hsc : ∀ b < B, ∀ i < Q, ∀ k < T, (score.reshape [B * Q, T]).get [b * Q + i, k] = ∑ d ∈ Finset.range H, query.get [b, i, d] * value.get [b, k, d] := by
    intro b hb i hi k hk
    rw [Tensor.get_reshape (idx' := [b, i, k]), hscore, Tensor.get_tab3 hb hi hk, sumL_range]
    · apply Finset.sum_congr rfl
      intro d hd
      rw [Finset.mem_range] at hd
      rw [Tensor.get_tab3 hb hd hk]
    · rw [hscore, Tensor.shape_tab3]
      simp only [ravel, numel]
      ring
  obtain ⟨w1, w2, w3⟩ := softmaxLast2 (t := score.reshape [B * Q, T]) rfl
  rw [viewSecond_ok (m := Q) (by rw [w2]; simp only [numel]; ring) (by simpa [numel] using ⟨hB, hT⟩)]
  dsimp only
  rw [bmm_ok (m := Q) rfl hv]
  refine ⟨_, _, rfl, rfl, rfl, ?_⟩
  intro b hb i hi
  have hbi : b * Q + i < B * Q := by
    calc b * Q + i < b * Q + Q := by omega
      _ = (b + 1) * Q := by ring
      _ ≤ B * Q := Nat.mul_le_mul_right _ hb
  have ha : ∀ j < T, ((softmaxLast (score.reshape [B * Q, T])).reshape [B, Q, T]).get [b, i, j]
      = attnWeight T (fun k => ∑ d ∈ Finset.range H, query.get [b, i, d] * value.get [b, k, d]) noMask j := by
    intro j hj
    rw [Tensor.get_reshape (idx' := [b * Q + i, j]), w3 _ hbi j hj]
    · exact attnWeight_congr (hsc b hb i hi) (fun _ _ => Iff.rfl) hj
    · rw [w2]
      simp only [ravel, numel]
      ring
  refine ⟨ha, (distribution_of hT ha).1, ?_⟩
  intro e he
  rw [Tensor.get_tab3 hb hi he, sumL_range]
  rfl

/-- The score of key `k` in `AdditiveAttention`. -/
noncomputable def AdditiveAttn.score (A : AdditiveAttn ℝ) (H q : ℕ) (query key : Tensor ℝ) (b k : ℕ) : ℝ :=
  linearRow A.scoreProj H (fun h => Real.tanh (linearRow A.keyProj H (fun d => key.get [b, k, d]) h
    + linearRow A.queryProj H (fun d => query.get [b, if q = 1 then 0 else k, d]) h + A.bias.get [h])) 0

/-- C64: `AdditiveAttention` weighs the values by the softmax of `w·tanh(W_k k + W_q q + b)`; the query has one row, or a row for every key. -/
theorem C64_additive (A : AdditiveAttn ℝ) {B T q H E : ℕ} {query key value : Tensor ℝ} (wq : A.queryProj.weight.shape = [H, H]) (wk : A.keyProj.weight.shape = [H, H])
    (wb : A.bias.shape = [H]) (ws : A.scoreProj.weight.shape = [1, H]) (hq : query.shape = [B, q, H]) (hk : key.shape = [B, T, H]) (hv : value.shape = [B, T, E])
    (hqT : q = T ∨ q = 1) (hT : 0 < T) :
    ∃ c a, A.forward query key value = .ok (c, a) ∧ c.shape = [B, 1, E] ∧ a.shape = [B, T] ∧
      ∀ b < B, (∀ j < T, a.get [b, j] = attnWeight T (A.score H q query key b) noMask j) ∧ IsDistribution T (fun j => a.get [b, j]) ∧
        ∀ e < E, c.get [b, 0, e] = mix T (fun j => a.get [b, j]) (fun j => value.get [b, j, e]) := by
  obtain ⟨k, k1, k2, k3, k4⟩ := A.keyProj.forward3 wk hk
  obtain ⟨p, p1, p2, p3, p4⟩ := A.queryProj.forward3 wq hq
  unfold AdditiveAttn.forward
  simp only [bind, Except.bind, k1, p1]
  rw [zipB_bcast3 _ k3 p3 hqT]
  dsimp only
  rw [zipB_vec _ (Tensor.shape_tab3 _ _ _ _) wb]
  dsimp only
  set t := (Tensor.tab3 B T H fun b i h => (Tensor.tab3 B T H fun b i h => k.get [b, i, h] + p.get [b, bidx q i, h]).get [b, i, h] + A.bias.get [h]) with ht
  obtain ⟨e, e1, e2, e3, e4⟩ := A.scoreProj.forward3 (x := t.map TorchScalar.tanh) (B := B) (T := T) ws rfl
  rw [e1]
  dsimp only
  obtain ⟨s1, s2, s3⟩ := squeezeLast3 e2 e3
  obtain ⟨w1, w2, w3⟩ := softmaxLast2 s2
  obtain ⟨u, c, u1, c1, c2, c3, c4⟩ := bmm_context w2 hv
  rw [u1]
  dsimp only
  rw [c1]
  refine ⟨_, _, rfl, c3, w2, ?_⟩
  intro b hb
  have ha : ∀ j < T, (softmaxLast (squeezeLast e)).get [b, j] = attnWeight T (A.score H q query key b) noMask j := by
    intro j hj
    rw [w3 b hb j hj]
    refine attnWeight_congr (fun i hi => ?_) (fun _ _ => Iff.rfl) hj
    beta_reduce
    rw [s3 b hb i hi, e4 b hb i hi 0 Nat.one_pos, Linear.row_real]
    unfold AdditiveAttn.score
    apply linearRow_congr
    intro h hh
    have hin : InShape t.shape [b, i, h] := ⟨hb, hi, hh, trivial⟩
    rw [Tensor.get_map (Tensor.wf_tab3 _ _ _ _) hin, Tensor.get_tab3 hb hi hh, Tensor.get_tab3 hb hi hh, k4 b hb i hi h hh, p4 b hb _ (bidx_lt hqT hi) h hh,
      Linear.row_real, Linear.row_real]
    rfl
  exact ⟨ha, (distribution_of hT ha).1, c4 b hb⟩

/-- **C64 (constructor).** `AdditiveAttention(H)` has the shapes `C64_additive` asks for, whatever is drawn. Its bias lies between -1/10 and 1/10, the projections of queries and
keys have none. -/
theorem C64_additive_init (H : ℕ) (wq wk ws : ℕ → ℕ → ℝ) (bs r : ℕ → ℝ) (hr : ∀ h, 0 ≤ r h ∧ r h < 1) {B T q E : ℕ} {query key value : Tensor ℝ}
    (hq : query.shape = [B, q, H]) (hk : key.shape = [B, T, H]) (hv : value.shape = [B, T, E]) (hqT : q = T ∨ q = 1) (hT : 0 < T) :
    let A := AdditiveAttn.init H wq wk ws bs r
    (∀ h < H, -1 / 10 ≤ A.bias.get [h] ∧ A.bias.get [h] < 1 / 10) ∧ A.queryProj.bias = none ∧ A.keyProj.bias = none ∧
    ∃ c a, A.forward query key value = .ok (c, a) ∧ c.shape = [B, 1, E] ∧ a.shape = [B, T] ∧
      ∀ b < B, IsDistribution T (fun j => a.get [b, j]) ∧ ∀ e < E, c.get [b, 0, e] = mix T (fun j => a.get [b, j]) (fun j => value.get [b, j, e]) := by
  intro A
  refine ⟨fun h hh => ?_, rfl, rfl, ?_⟩
  · have hb : A.bias.get [h] = -(1 / ((10 : ℕ) : ℝ)) + (1 / ((10 : ℕ) : ℝ) - -(1 / ((10 : ℕ) : ℝ))) * r h := Tensor.get_tab1 hh
    have := hr h
    rw [hb]
    push_cast
    constructor <;> linarith
  · obtain ⟨c, a, h1, h2, h3, h4⟩ := C64_additive A (H := H) rfl rfl rfl rfl hq hk hv hqT hT
    exact ⟨c, a, h1, h2, h3, fun b hb => (h4 b hb).2⟩

/-- One key, hidden size 1: the weight is one and the context the value 5, for all draws. -/
example (r : ℕ → ℝ) (hr : ∀ h, 0 ≤ r h ∧ r h < 1) (wq wk ws : ℕ → ℕ → ℝ) (bs : ℕ → ℝ) : ∃ c a,
    (AdditiveAttn.init 1 wq wk ws bs r).forward (Tensor.tab3 1 1 1 fun _ _ _ => 3) (Tensor.tab3 1 1 1 fun _ _ _ => 4) (Tensor.tab3 1 1 1 fun _ _ _ => 5) = .ok (c, a) ∧
      c.get [0, 0, 0] = 5 := by
  obtain ⟨-, -, -, c, a, h1, -, -, h4⟩ := C64_additive_init 1 wq wk ws bs r hr (B := 1) (T := 1) (q := 1) (E := 1) (query := Tensor.tab3 1 1 1 fun _ _ _ => 3)
    (key := Tensor.tab3 1 1 1 fun _ _ _ => 4) (value := Tensor.tab3 1 1 1 fun _ _ _ => 5) rfl rfl rfl (Or.inl rfl) one_pos
  refine ⟨c, a, h1, ?_⟩
  obtain ⟨h5, h6⟩ := h4 0 one_pos
  rw [h6 0 one_pos]
  have h7 := h5.2
  simp only [Finset.sum_range_one] at h7
  simp only [mix, Finset.sum_range_one, h7, one_mul]
  exact Tensor.get_tab3 one_pos one_pos one_pos

/-! ## C65: multi head attention -/

/-- The score of key `k` for query row `i` of batch element `b` in head `h`: the scaled dot product of the projected vectors, entries `h*D .. h*D+D-1`. -/
noncomputable def MultiHead.score (M : MultiHead ℝ) (I : ℕ) (query key : Tensor ℝ) (b h i k : ℕ) : ℝ :=
  (∑ d ∈ Finset.range M.dHead, linearRow M.queryProj I (fun q => query.get [b, i, q]) (h * M.dHead + d)
    * linearRow M.keyProj I (fun q => key.get [b, k, q]) (h * M.dHead + d)) / Real.sqrt M.dHead

/-- The projections of `MultiHeadAttention(d_model, num_heads)` with at least one feature per head. -/
structure MultiHead.Wf (M : MultiHead ℝ) (I : ℕ) : Prop where
  heads : 0 < M.numHeads
  dim : 0 < M.dHead
  query : M.queryProj.weight.shape = [M.dHead * M.numHeads, I]
  key : M.keyProj.weight.shape = [M.dHead * M.numHeads, I]
  value : M.valueProj.weight.shape = [M.dHead * M.numHeads, I]

theorem row_lt {B N h b : ℕ} (hh : h < N) (hb : b < B) : h * B + b < B * N := head_lt hh hb

theorem multiHead_eq (M : MultiHead ℝ) {I B Q T : ℕ} (hM : M.Wf I) {query key value : Tensor ℝ} {mask mm : Option (Tensor ℕ)} (hB : 0 < B) (hq : query.shape = [B, Q, I])
    (hk : key.shape = [B, T, I]) (hv : value.shape = [B, T, I]) (hmm : headMask M.numHeads mask = .ok mm) (hm : ∀ m, mm = some m → numel m.shape = B * M.numHeads * Q * T) :
    ∃ c a, M.forward query key value mask = .ok (c, a) ∧ c.shape = [B, Q, M.numHeads * M.dHead] ∧ a.shape = [B * M.numHeads, Q, T] ∧
      ∀ b < B, ∀ h < M.numHeads, ∀ i < Q,
        (∀ j < T, a.get [h * B + b, i, j] = attnWeight T (M.score I query key b h i) (maskedAt mm (B * M.numHeads) Q T (h * B + b) i) j) ∧
        ∀ d < M.dHead, c.get [b, i, h * M.dHead + d] = mix T (fun j => a.get [h * B + b, i, j])
          (fun j => linearRow M.valueProj I (fun q => value.get [b, j, q]) (h * M.dHead + d)) := by
  have hN := hM.heads
  have hD := hM.dim
  have hp1 : 0 < B * (M.numHeads * M.dHead) := by positivity
  have hp2 : 0 < B * M.numHeads * M.dHead := by positivity
  obtain ⟨q1, a1, a2, a3, a4⟩ := splitHeads_ok M.queryProj hM.query hq hp1
  obtain ⟨k1, b1, b2, b3, b4⟩ := splitHeads_ok M.keyProj hM.key hk hp1
  obtain ⟨v1, c1, c2, c3, c4⟩ := splitHeads_ok M.valueProj hM.value hv hp1
  obtain ⟨q2, d1, d2, d3, d4⟩ := headRows_ok a3 hp2
  obtain ⟨k2, e1, e2, e3, e4⟩ := headRows_ok b3 hp2
  obtain ⟨v2, f1, f2, f3, f4⟩ := headRows_ok c3 hp2
  obtain ⟨c, a, g1, g2, g3, g4, g5, g6, g7⟩ := scaledDot_eq (dim := M.dHead) d3 e3 f3 hm
  unfold MultiHead.forward
  simp only [sizeZero, hv, bind, Except.bind, a1, b1, c1, d1, e1, f1, hmm, g1]
  rw [viewThird_ok (m := Q) (by rw [g4]; simp only [numel]; ring) (by positivity)]
  dsimp only
  rw [permute1203 (t := c.reshape [M.numHeads, B, Q, M.dHead]) rfl]
  dsimp only
  rw [viewSecond_ok (m := Q) (by simp only [Tensor.shape_tab4, numel]; ring) (by simpa [numel] using ⟨hB, hN, hD⟩)]
  refine ⟨_, _, rfl, rfl, g5, ?_⟩
  intro b hb h hh i hi
  have hr := row_lt hh hb
  constructor
  · intro j hj
    rw [g6 _ hr i hi j hj]
    refine attnWeight_congr (fun k hk => ?_) (fun _ _ => Iff.rfl) hj
    unfold MultiHead.score
    congr 1
    apply Finset.sum_congr rfl
    intro d hd
    rw [Finset.mem_range] at hd
    rw [d4 b hb i hi h hh d hd, e4 b hb k hk h hh d hd, a4 b hb i hi h hh d hd, b4 b hb k hk h hh d hd, Linear.row_real, Linear.row_real]
  · intro d hd
    rw [Tensor.get_reshape (idx' := [b, i, h, d]), Tensor.get_tab4 hb hi hh hd, Tensor.get_reshape (idx' := [h * B + b, i, d]), g7 _ hr i hi d hd]
    · refine mix_congr (fun _ _ => rfl) (fun j hj => ?_)
      beta_reduce
      rw [f4 b hb j hj h hh d hd, c4 b hb j hj h hh d hd, Linear.row_real]
    · rw [g4]
      simp only [ravel, numel]
      ring
    · simp only [Tensor.shape_tab4, ravel, numel]
      ring

/-- C65: without a mask every head attends with the softmax of its own scaled scores, and its context is the combination of its own value features. -/
theorem C65_heads (M : MultiHead ℝ) {I B Q T : ℕ} (hM : M.Wf I) {query key value : Tensor ℝ} (hB : 0 < B) (hT : 0 < T) (hq : query.shape = [B, Q, I])
    (hk : key.shape = [B, T, I]) (hv : value.shape = [B, T, I]) :
    ∃ c a, M.forward query key value none = .ok (c, a) ∧ c.shape = [B, Q, M.numHeads * M.dHead] ∧ a.shape = [B * M.numHeads, Q, T] ∧
      ∀ b < B, ∀ h < M.numHeads, ∀ i < Q,
        (∀ j < T, a.get [h * B + b, i, j] = attnWeight T (M.score I query key b h i) noMask j) ∧ IsDistribution T (fun j => a.get [h * B + b, i, j]) ∧
        ∀ d < M.dHead, c.get [b, i, h * M.dHead + d] = mix T (fun j => a.get [h * B + b, i, j])
          (fun j => linearRow M.valueProj I (fun q => value.get [b, j, q]) (h * M.dHead + d)) := by
  obtain ⟨c, a, h1, h2, h3, h4⟩ := multiHead_eq M hM (mask := none) (mm := none) hB hq hk hv rfl (by simp)
  refine ⟨c, a, h1, h2, h3, fun b hb h hh i hi => ?_⟩
  obtain ⟨h5, h6⟩ := h4 b hb h hh i hi
  have h7 : ∀ j < T, a.get [h * B + b, i, j] = attnWeight T (M.score I query key b h i) noMask j := h5
  exact ⟨h7, (distribution_of hT h7).1, h6⟩

/-- C65: which mask governs: row `h*B+b` of the scores takes the mask of batch element `(h*B+b)/num_heads`. -/
theorem C65_mask_rows (M : MultiHead ℝ) {I B Q T : ℕ} (hM : M.Wf I) {query key value : Tensor ℝ} {m : Tensor ℕ} (hB : 0 < B) (hq : query.shape = [B, Q, I])
    (hk : key.shape = [B, T, I]) (hv : value.shape = [B, T, I]) (hm : m.shape = [B, Q, T]) :
    ∃ c a, M.forward query key value (some m) = .ok (c, a) ∧ c.shape = [B, Q, M.numHeads * M.dHead] ∧ a.shape = [B * M.numHeads, Q, T] ∧
      ∀ b < B, ∀ h < M.numHeads, ∀ i < Q,
        (∀ j < T, a.get [h * B + b, i, j] = attnWeight T (M.score I query key b h i) (fun k => m.get [(h * B + b) / M.numHeads, i, k] ≠ 0) j) ∧
        ∀ d < M.dHead, c.get [b, i, h * M.dHead + d] = mix T (fun j => a.get [h * B + b, i, j])
          (fun j => linearRow M.valueProj I (fun q => value.get [b, j, q]) (h * M.dHead + d)) := by
  have e : headMask M.numHeads (some m) = .ok (some (Tensor.tab4 B M.numHeads Q T fun s _ i j => m.get [s, i, j])) := by
    unfold headMask repeatHeads
    simp only [hm, bind, Except.bind]
  obtain ⟨c, a, h1, h2, h3, h4⟩ := multiHead_eq M hM hB hq hk hv e (by
    intro m' h
    obtain rfl := Option.some.inj h
    simp only [Tensor.shape_tab4, numel]
    ring)
  refine ⟨c, a, h1, h2, h3, fun b hb h hh i hi => ?_⟩
  obtain ⟨h5, h6⟩ := h4 b hb h hh i hi
  refine ⟨fun j hj => ?_, h6⟩
  rw [h5 j hj]
  refine attnWeight_congr (fun _ _ => rfl) (fun k hk => ?_) hj
  have hr := row_lt hh hb
  have hN := hM.heads
  have h7 : (h * B + b) / M.numHeads < B := Nat.div_lt_of_lt_mul (by rw [Nat.mul_comm M.numHeads B]; exact hr)
  have h8 : (h * B + b) % M.numHeads < M.numHeads := Nat.mod_lt _ hN
  unfold maskedAt
  dsimp only
  rw [Tensor.get_reshape (idx' := [(h * B + b) / M.numHeads, (h * B + b) % M.numHeads, i, k]), Tensor.get_tab4 h7 h8 hi hk]
  rw [Tensor.shape_tab4, ravel4, ravel3, Nat.div_add_mod']

/-- C65: with one batch element, one head, or the same mask for all batch elements, the mask of an element governs its scores in every head. -/
theorem C65_mask_right (M : MultiHead ℝ) {I B Q T : ℕ} (hM : M.Wf I) {query key value : Tensor ℝ} {m : Tensor ℕ} (hB : 0 < B) (hq : query.shape = [B, Q, I])
    (hk : key.shape = [B, T, I]) (hv : value.shape = [B, T, I]) (hm : m.shape = [B, Q, T])
    (hone : B = 1 ∨ M.numHeads = 1 ∨ ∀ b < B, ∀ b' < B, ∀ i < Q, ∀ k < T, m.get [b, i, k] = m.get [b', i, k]) :
    ∃ c a, M.forward query key value (some m) = .ok (c, a) ∧
      ∀ b < B, ∀ h < M.numHeads, ∀ i < Q,
        (∀ j < T, a.get [h * B + b, i, j] = attnWeight T (M.score I query key b h i) (fun k => m.get [b, i, k] ≠ 0) j) ∧
        ∀ d < M.dHead, c.get [b, i, h * M.dHead + d] = mix T (fun j => a.get [h * B + b, i, j])
          (fun j => linearRow M.valueProj I (fun q => value.get [b, j, q]) (h * M.dHead + d)) := by
  obtain ⟨c, a, h1, -, -, h4⟩ := C65_mask_rows M hM hB hq hk hv hm
  refine ⟨c, a, h1, fun b hb h hh i hi => ?_⟩
  obtain ⟨h5, h6⟩ := h4 b hb h hh i hi
  refine ⟨fun j hj => ?_, h6⟩
  rw [h5 j hj]
  refine attnWeight_congr (fun _ _ => rfl) (fun k hk => ?_) hj
  have hr := row_lt hh hb
  have h7 : (h * B + b) / M.numHeads < B := Nat.div_lt_of_lt_mul (by rw [Nat.mul_comm M.numHeads B]; exact hr)
  have : m.get [(h * B + b) / M.numHeads, i, k] = m.get [b, i, k] := by
    rcases hone with rfl | hN | heq
    · obtain rfl : b = 0 := by omega
      obtain h0 : (h * 1 + 0) / M.numHeads = 0 := Nat.div_eq_of_lt (by omega)
      rw [h0]
    · obtain rfl : h = 0 := by omega
      rw [hN]
      simp
    · exact heq _ h7 _ hb i hi k hk
  rw [this]

/-- C65: with at least two batch elements and two heads the mask of a batch element does not govern its scores: key 0 hidden from element 1 only, still has positive weight in the first head
of element 1, whatever the parameters and inputs. -/
theorem C65_mask_misplaced (M : MultiHead ℝ) {I B Q T : ℕ} (hM : M.Wf I) {query key value : Tensor ℝ} (hB : 2 ≤ B) (hN : 2 ≤ M.numHeads) (hT : 0 < T)
    (hq : query.shape = [B, Q, I]) (hk : key.shape = [B, T, I]) (hv : value.shape = [B, T, I]) :
    ∃ m : Tensor ℕ, m.shape = [B, Q, T] ∧ (∀ i < Q, m.get [1, i, 0] ≠ 0) ∧
      ∃ c a, M.forward query key value (some m) = .ok (c, a) ∧ ∀ i < Q, 0 < a.get [0 * B + 1, i, 0] := by
  refine ⟨Tensor.tab3 B Q T fun b _ k => if b = 1 ∧ k = 0 then 1 else 0, rfl, ?_, ?_⟩
  · intro i hi
    rw [Tensor.get_tab3 (by omega) hi hT]
    simp
  · obtain ⟨c, a, h1, -, -, h4⟩ := C65_mask_rows M hM (m := Tensor.tab3 B Q T fun b _ k => if b = 1 ∧ k = 0 then 1 else 0) (by omega) hq hk hv rfl
    refine ⟨c, a, h1, fun i hi => ?_⟩
    obtain ⟨h5, -⟩ := h4 1 (by omega) 0 (by omega) i hi
    have e : (0 * B + 1) / M.numHeads = 0 := by
      rw [Nat.zero_mul, Nat.zero_add]
      exact Nat.div_eq_of_lt (by omega)
    have : ∀ j < T, a.get [0 * B + 1, i, j] = attnWeight T (M.score I query key 1 0 i) noMask j := by
      intro j hj
      rw [h5 j hj]
      refine attnWeight_congr (fun _ _ => rfl) (fun k hk => ?_) hj
      rw [e, Tensor.get_tab3 (by omega) hi hk]
      simp [noMask]
    exact (distribution_of hT this).2 0 hT

/-- C65: masks of keys alone (`[batch, key]`), accepted when there is one query row, govern their own batch element. -/
theorem C65_key_mask (M : MultiHead ℝ) {I B T : ℕ} (hM : M.Wf I) {query key value : Tensor ℝ} {m : Tensor ℕ} (hB : 0 < B) (hq : query.shape = [B, 1, I])
    (hk : key.shape = [B, T, I]) (hv : value.shape = [B, T, I]) (hm : m.shape = [B, T]) :
    ∃ c a, M.forward query key value (some m) = .ok (c, a) ∧
      ∀ b < B, ∀ h < M.numHeads,
        (∀ j < T, a.get [h * B + b, 0, j] = attnWeight T (M.score I query key b h 0) (fun k => m.get [b, k] ≠ 0) j) ∧
        ∀ d < M.dHead, c.get [b, 0, h * M.dHead + d] = mix T (fun j => a.get [h * B + b, 0, j])
          (fun j => linearRow M.valueProj I (fun q => value.get [b, j, q]) (h * M.dHead + d)) := by
  have e : headMask M.numHeads (some m) = .ok (some (Tensor.tab4 1 (M.numHeads * B) 1 T fun _ r _ j => m.get [r % B, j])) := by
    unfold headMask repeatHeads
    simp only [hm, bind, Except.bind]
  obtain ⟨c, a, h1, -, -, h4⟩ := multiHead_eq M hM hB hq hk hv e (by
    intro m' h
    obtain rfl := Option.some.inj h
    simp only [Tensor.shape_tab4, numel]
    ring)
  refine ⟨c, a, h1, fun b hb h hh => ?_⟩
  obtain ⟨h5, h6⟩ := h4 b hb h hh 0 Nat.one_pos
  refine ⟨fun j hj => ?_, h6⟩
  rw [h5 j hj]
  refine attnWeight_congr (fun _ _ => rfl) (fun k hk => ?_) hj
  have hr := row_lt hh hb
  unfold maskedAt
  dsimp only
  rw [Tensor.get_reshape (idx' := [0, h * B + b, 0, k]), Tensor.get_tab4 Nat.one_pos (by rw [Nat.mul_comm M.numHeads B]; exact hr) Nat.one_pos hk,
    Nat.mul_comm h B, Nat.mul_add_mod, Nat.mod_eq_of_lt hb]
  rw [Tensor.shape_tab4, ravel4, ravel3]
  ring

/-- C65: the constructor accepts exactly a positive number of heads dividing `d_model`, and builds square projections. -/
theorem C65_init (dModel N : ℕ) (q k v : Draw ℝ) :
    (N = 0 → MultiHead.init dModel N q k v = .error .zeroDivisionError) ∧
    (0 < N → dModel % N ≠ 0 → MultiHead.init dModel N q k v = .error .assertionError) ∧
    (0 < N → 0 < dModel → dModel % N = 0 → ∃ M, MultiHead.init dModel N q k v = .ok M ∧ M.numHeads = N ∧ M.numHeads * M.dHead = dModel ∧ M.Wf dModel) := by
  unfold MultiHead.init assertDivides
  refine ⟨fun h => by simp [h, bind, Except.bind], fun h1 h2 => by simp [h1.ne', h2, bind, Except.bind], fun h1 h2 h3 => ?_⟩
  have hd : N ∣ dModel := Nat.dvd_of_mod_eq_zero h3
  rw [if_neg h1.ne', if_pos h3]
  simp only [bind, Except.bind]
  exact ⟨_, rfl, rfl, Nat.mul_div_cancel' hd, h1, Nat.div_pos (Nat.le_of_dvd h2 hd) h1, rfl, rfl, rfl⟩

/-! ## C66: relative positions -/

/-- Entry `(i, j)` of the shifted position scores of `T1` query rows and `T2` positions. -/
noncomputable def relPos (T1 T2 : ℕ) (pos : ℕ → ℕ → ℝ) (i j : ℕ) : ℝ :=
  if (T1 + i * T2 + j) % (T2 + 1) = 0 then 0 else pos ((T1 + i * T2 + j) / (T2 + 1)) ((T1 + i * T2 + j) % (T2 + 1) - 1)

theorem relPos_lt {T1 T2 i j : ℕ} (hi : i < T1) (hj : j < T2) : (T1 + i * T2 + j) / (T2 + 1) < T1 := by
  apply Nat.div_lt_of_lt_mul
  have h1 : i * T2 + T2 ≤ T1 * T2 := by
    calc i * T2 + T2 = (i + 1) * T2 := by ring
      _ ≤ T1 * T2 := Nat.mul_le_mul_right _ hi
  have h2 : (T2 + 1) * T1 = T1 * T2 + T1 := by ring
  omega

theorem relShift_ok {t : Tensor ℝ} {B N T1 T2 : ℕ} (ht : t.shape = [B, N, T1, T2]) :
    ∃ y, relShift t = .ok y ∧ y.WF ∧ y.shape = [B, N, T1, T2] ∧
      ∀ b < B, ∀ h < N, ∀ i < T1, ∀ j < T2, y.get [b, h, i, j] = relPos T1 T2 (fun i j => t.get [b, h, i, j]) i j := by
  unfold relShift
  simp only [ht]
  refine ⟨_, rfl, ?_, rfl, ?_⟩
  · apply Tensor.wf_reshape (Tensor.wf_tab4 _ _ _ _ _)
    simp only [Tensor.shape_tab4, numel]
    ring
  · intro b hb h hh i hi j hj
    have hlt : i * T2 + j < T2 * T1 := head_lt hi hj
    have hT1 : 0 < T1 := by omega
    have h1 : (i * T2 + j) / T1 < T2 := Nat.div_lt_of_lt_mul (by rw [Nat.mul_comm T1 T2]; exact hlt)
    have h2 : (i * T2 + j) % T1 < T1 := Nat.mod_lt _ hT1
    have hr := relPos_lt hi hj
    have hc : (T1 + i * T2 + j) % (T2 + 1) < T2 + 1 := Nat.mod_lt _ (by omega)
    rw [Tensor.get_reshape (idx' := [b, h, (i * T2 + j) / T1, (i * T2 + j) % T1]), Tensor.get_tab4 hb hh h1 h2,
      Tensor.get_reshape (idx' := [b, h, (T1 + i * T2 + j) / (T2 + 1), (T1 + i * T2 + j) % (T2 + 1)]), Tensor.get_tab4 hb hh hr hc]
    · rfl
    · rw [Tensor.shape_tab4, ravel4, ravel4]
      have e1 := Nat.div_add_mod (i * T2 + j) T1
      have e2 := Nat.div_add_mod (T1 + i * T2 + j) (T2 + 1)
      generalize (i * T2 + j) / T1 = u at *
      generalize (i * T2 + j) % T1 = v at *
      generalize (T1 + i * T2 + j) / (T2 + 1) = w at *
      generalize (T1 + i * T2 + j) % (T2 + 1) = z at *
      have e3 : w * (T2 + 1) + z = (u + 1) * T1 + v := by
        calc w * (T2 + 1) + z = (T2 + 1) * w + z := by ring
          _ = T1 + (T1 * u + v) := by rw [e2, e1]; ring
          _ = (u + 1) * T1 + v := by ring
      symm
      calc ((b * N + h) * T1 + w) * (T2 + 1) + z = (b * N + h) * T1 * (T2 + 1) + (w * (T2 + 1) + z) := by ring
        _ = (b * N + h) * T1 * (T2 + 1) + ((u + 1) * T1 + v) := by rw [e3]
        _ = ((b * N + h) * (T2 + 1) + (u + 1)) * T1 + v := by ring
    · rw [Tensor.shape_tab4, ravel4, ravel4]
      have e1 := Nat.div_add_mod (i * T2 + j) T1
      generalize (i * T2 + j) / T1 = u at *
      generalize (i * T2 + j) % T1 = v at *
      symm
      calc ((b * N + h) * T2 + u) * T1 + v = (b * N + h) * T2 * T1 + (T1 * u + v) := by ring
        _ = (b * N + h) * T2 * T1 + (i * T2 + j) := by rw [e1]
        _ = ((b * N + h) * T1 + i) * T2 + j := by ring

theorem relPos_near {T1 T2 : ℕ} (pos : ℕ → ℕ → ℝ) {i j : ℕ} (hi : i < T1) (h : T1 + j ≤ T2 + i) : relPos T1 T2 pos i j = pos i (T1 + j - i - 1) := by
  have e : T1 + i * T2 + j = (T2 + 1) * i + (T1 + j - i) := by
    have : (T2 + 1) * i = i * T2 + i := by ring
    omega
  have hlt : T1 + j - i < T2 + 1 := by omega
  unfold relPos
  rw [e, Nat.mul_add_mod, Nat.mod_eq_of_lt hlt, Nat.mul_add_div (by omega), Nat.div_eq_of_lt hlt, if_neg (by omega), Nat.add_zero]

theorem relPos_zero {T : ℕ} (pos : ℕ → ℕ → ℝ) (i : ℕ) : relPos T T pos i (i + 1) = 0 := by
  have e : T + i * T + (i + 1) = (T + 1) * (i + 1) := by ring
  unfold relPos
  rw [e, Nat.mul_mod_right, if_pos rfl]

theorem relPos_far {T : ℕ} (pos : ℕ → ℕ → ℝ) {i j : ℕ} (hj : j < T) (h : i + 1 < j) : relPos T T pos i j = pos (i + 1) (j - i - 2) := by
  have e : T + i * T + j = (T + 1) * (i + 1) + (j - i - 1) := by
    have : (T + 1) * (i + 1) = T + i * T + (i + 1) := by ring
    omega
  have hlt : j - i - 1 < T + 1 := by omega
  unfold relPos
  rw [e, Nat.mul_add_mod, Nat.mod_eq_of_lt hlt, Nat.mul_add_div (by omega), Nat.div_eq_of_lt hlt, if_neg (by omega), Nat.add_zero]
  congr 1

/-- C66: the shift of a square of position scores: at and below the diagonal row `i` holds its own score of relative position `T-1-(i-j)`; right above the diagonal there is zero, and
further right the leading scores of the next row. -/
theorem C66_shift {t : Tensor ℝ} {B N T : ℕ} (ht : t.shape = [B, N, T, T]) :
    ∃ y, relShift t = .ok y ∧ y.shape = [B, N, T, T] ∧ ∀ b < B, ∀ h < N, ∀ i < T, ∀ j < T,
      (j ≤ i → y.get [b, h, i, j] = t.get [b, h, i, T - 1 - (i - j)]) ∧ (j = i + 1 → y.get [b, h, i, j] = 0) ∧
      (i + 1 < j → y.get [b, h, i, j] = t.get [b, h, i + 1, j - i - 2]) := by
  obtain ⟨y, h1, -, h2, h3⟩ := relShift_ok ht
  refine ⟨y, h1, h2, fun b hb h hh i hi j hj => ⟨fun hle => ?_, fun he => ?_, fun hlt => ?_⟩⟩
  · rw [h3 b hb h hh i hi j hj, relPos_near _ hi (by omega), show T + j - i - 1 = T - 1 - (i - j) by omega]
  · subst he
    rw [h3 b hb h hh i hi _ hj, relPos_zero]
  · rw [h3 b hb h hh i hi j hj, relPos_far _ hj hlt]

/-- C66: with `T1` query rows and `T2 ≥ T1` positions, row `i` holds at `j ≤ i + T2 - T1` its own score of position `T1-1-i+j`. Other numbers of axes raise a ValueError. -/
theorem C66_shift_general {t : Tensor ℝ} :
    (∀ B N T1 T2, t.shape = [B, N, T1, T2] → ∃ y, relShift t = .ok y ∧ y.shape = [B, N, T1, T2] ∧
      ∀ b < B, ∀ h < N, ∀ i < T1, ∀ j < T2, T1 + j ≤ T2 + i → y.get [b, h, i, j] = t.get [b, h, i, T1 - 1 - i + j]) ∧
    (t.shape.length ≠ 4 → relShift t = .error .valueError) := by
  constructor
  · intro B N T1 T2 ht
    obtain ⟨y, h1, -, h2, h3⟩ := relShift_ok ht
    refine ⟨y, h1, h2, fun b hb h hh i hi j hj hle => ?_⟩
    rw [h3 b hb h hh i hi j hj, relPos_near _ hi hle, show T1 + j - i - 1 = T1 - 1 - i + j by omega]
  · intro hl
    unfold relShift
    split
    · rename_i heq
      rw [heq] at hl
      simp at hl
    · rfl

/-- The shapes of the parameters of `RelativeMultiHeadAttention(d_model, num_heads)`, evaluated (no dropout). -/
structure RelativeAttn.Wf (A : RelativeAttn ℝ) : Prop where
  heads : 0 < A.numHeads
  dim : 0 < A.dHead
  model : A.dModel = A.dHead * A.numHeads
  query : A.queryProj.weight.shape = [A.dModel, A.dModel]
  key : A.keyProj.weight.shape = [A.dModel, A.dModel]
  value : A.valueProj.weight.shape = [A.dModel, A.dModel]
  pos : A.posProj.weight.shape = [A.dModel, A.dModel]
  out : A.outProj.weight.shape = [A.dModel, A.dModel]
  u : A.uBias.shape = [A.numHeads, A.dHead]
  v : A.vBias.shape = [A.numHeads, A.dHead]
  eval : ∀ t, A.drop t = .ok t

/-- The content score of query row `i` and key `k`. -/
noncomputable def RelativeAttn.content (A : RelativeAttn ℝ) (query key : Tensor ℝ) (b h i k : ℕ) : ℝ :=
  ∑ d ∈ Finset.range A.dHead, (linearRow A.queryProj A.dModel (fun q => query.get [b, i, q]) (h * A.dHead + d) + A.uBias.get [h, d])
    * linearRow A.keyProj A.dModel (fun q => key.get [b, k, q]) (h * A.dHead + d)

/-- The score of query row `i` and embedding row `k`, before the shift. -/
noncomputable def RelativeAttn.posScore (A : RelativeAttn ℝ) (query pos : Tensor ℝ) (b h i k : ℕ) : ℝ :=
  ∑ d ∈ Finset.range A.dHead, (linearRow A.queryProj A.dModel (fun q => query.get [b, i, q]) (h * A.dHead + d) + A.vBias.get [h, d])
    * linearRow A.posProj A.dModel (fun q => pos.get [b, k, q]) (h * A.dHead + d)

/-- The mask at `(b, i, k)`; axes of size one are broadcast. -/
def relMasked (mask : Option (Tensor ℕ)) (b i k : ℕ) : Prop :=
  match mask with
  | none => False
  | some m => match m.shape with
    | [b', q, t] => m.get [if b' = 1 then 0 else b, if q = 1 then 0 else i, if t = 1 then 0 else k] ≠ 0
    | _ => False

open Classical in
/-- The score after scaling and masking. -/
noncomputable def RelativeAttn.score (A : RelativeAttn ℝ) (Q T : ℕ) (query key pos : Tensor ℝ) (mask : Option (Tensor ℕ)) (b h i k : ℕ) : ℝ :=
  if relMasked mask b i k then -1000000000
  else (A.content query key b h i k + relPos Q T (A.posScore query pos b h) i k) / Real.sqrt A.dModel

/-- Masks that can be broadcast to the scores. -/
def FitsMask (mask : Option (Tensor ℕ)) (B Q T : ℕ) : Prop :=
  ∀ m, mask = some m → ∃ b' q t, m.shape = [b', q, t] ∧ (b' = B ∨ b' = 1) ∧ (q = Q ∨ q = 1) ∧ (t = T ∨ t = 1)

theorem fillMask_ok {score : Tensor ℝ} {mask : Option (Tensor ℕ)} {B N Q T : ℕ} (hw : score.WF) (hs : score.shape = [B, N, Q, T]) (hm : FitsMask mask B Q T) :
    ∃ y, fillMask score mask = .ok y ∧ y.WF ∧ y.shape = [B, N, Q, T] ∧ ∀ b < B, ∀ h < N, ∀ i < Q, ∀ k < T,
      (relMasked mask b i k → y.get [b, h, i, k] = -1000000000) ∧ (¬ relMasked mask b i k → y.get [b, h, i, k] = score.get [b, h, i, k]) := by
  cases mask with
  | none => exact ⟨score, rfl, hw, hs, fun b _ h _ i _ k _ => ⟨fun h => h.elim, fun _ => rfl⟩⟩
  | some m =>
    obtain ⟨b', q, t, h1, h2, h3, h4⟩ := hm m rfl
    unfold fillMask
    simp only [hs, h1]
    rw [if_pos ⟨h2, h3, h4⟩]
    refine ⟨_, rfl, Tensor.wf_tab4 _ _ _ _ _, rfl, fun b hb h hh i hi k hk => ?_⟩
    rw [Tensor.get_tab4 hb hh hi hk]
    unfold relMasked
    simp only [h1]
    unfold bidx
    exact ⟨fun hp => by rw [if_pos hp]; norm_num, fun hp => by rw [if_neg hp]⟩

/-- The head and the feature of entry `r` of the concatenated heads. -/
theorem head_split {N D r : ℕ} (hD : 0 < D) (hr : r < D * N) : r / D < N ∧ r % D < D ∧ r / D * D + r % D = r :=
  ⟨Nat.div_lt_of_lt_mul hr, Nat.mod_lt _ hD, Nat.div_add_mod' r D⟩

/-- C66: what `RelativeMultiHeadAttention` computes: the softmax of the scaled sum of content scores and shifted position scores, masked scores being `-1e9`, and the projection of the
concatenated heads' combinations of their value features. -/
theorem C66_forward (A : RelativeAttn ℝ) (hA : A.Wf) {B Q T : ℕ} {query key value pos : Tensor ℝ} {mask : Option (Tensor ℕ)} (hB : 0 < B) (hq : query.shape = [B, Q, A.dModel])
    (hk : key.shape = [B, T, A.dModel]) (hv : value.shape = [B, T, A.dModel]) (hp : pos.shape = [B, T, A.dModel]) (hm : FitsMask mask B Q T) :
    ∃ y, A.forward query key value pos mask = .ok y ∧ y.shape = [B, Q, A.dModel] ∧ ∀ b < B, ∀ i < Q, ∀ o < A.dModel,
      y.get [b, i, o] = linearRow A.outProj A.dModel (fun r => mix T (attnWeight T (A.score Q T query key pos mask b (r / A.dHead) i) noMask)
        (fun j => linearRow A.valueProj A.dModel (fun q => value.get [b, j, q]) r)) o := by
  have hN := hA.heads
  have hD := hA.dim
  have hM := hA.model
  have hp1 : 0 < B * (A.numHeads * A.dHead) := by positivity
  obtain ⟨q1, a1, a2, a3, a4⟩ := splitHeads_ok A.queryProj (by rw [hA.query, ← hM]) hq hp1
  obtain ⟨k1, b1, b2, b3, b4⟩ := splitHeads_ok A.keyProj (by rw [hA.key, ← hM]) hk hp1
  obtain ⟨v1, c1, c2, c3, c4⟩ := splitHeads_ok A.valueProj (by rw [hA.value, ← hM]) hv hp1
  obtain ⟨p1, d1, d2, d3, d4⟩ := splitHeads_ok A.posProj (by rw [hA.pos, ← hM]) hp hp1
  unfold RelativeAttn.forward
  simp only [sizeZero, hv, bind, Except.bind, a1, b1, c1, d1]
  rw [permute0213 b3]
  dsimp only
  rw [permute0213 c3]
  dsimp only
  rw [zipB_heads _ a3 hA.u]
  dsimp only
  rw [permute0213 (Tensor.shape_tab4 _ _ _ _ _)]
  dsimp only
  rw [permute0132 (Tensor.shape_tab4 _ _ _ _ _)]
  dsimp only
  rw [matmul4_ok (Tensor.shape_tab4 _ _ _ _ _) (Tensor.shape_tab4 _ _ _ _ _)]
  dsimp only
  rw [zipB_heads _ a3 hA.v]
  dsimp only
  rw [permute0213 (Tensor.shape_tab4 _ _ _ _ _)]
  dsimp only
  rw [permute0231 d3]
  dsimp only
  rw [matmul4_ok (Tensor.shape_tab4 _ _ _ _ _) (Tensor.shape_tab4 _ _ _ _ _)]
  dsimp only
  set content := Tensor.tab4 B A.numHeads Q T (fun s h i j => sumL ((List.range A.dHead).map fun q =>
    (Tensor.tab4 B A.numHeads Q A.dHead fun i j k l => (Tensor.tab4 B Q A.numHeads A.dHead fun b i h d => q1.get [b, i, h, d] + A.uBias.get [h, d]).get [i, k, j, l]).get [s, h, i, q]
    * (Tensor.tab4 B A.numHeads A.dHead T fun i j k l => (Tensor.tab4 B A.numHeads T A.dHead fun i j k l => k1.get [i, k, j, l]).get [i, j, l, k]).get [s, h, q, j])) with hcontent
  set posi := Tensor.tab4 B A.numHeads Q T (fun s h i j => sumL ((List.range A.dHead).map fun q =>
    (Tensor.tab4 B A.numHeads Q A.dHead fun i j k l => (Tensor.tab4 B Q A.numHeads A.dHead fun b i h d => q1.get [b, i, h, d] + A.vBias.get [h, d]).get [i, k, j, l]).get [s, h, i, q]
    * (Tensor.tab4 B A.numHeads A.dHead T fun i j k l => p1.get [i, l, j, k]).get [s, h, q, j])) with hposi
  have gc : ∀ b < B, ∀ h < A.numHeads, ∀ i < Q, ∀ k < T, content.get [b, h, i, k] = A.content query key b h i k := by
    intro b hb h hh i hi k hk
    rw [hcontent, Tensor.get_tab4 hb hh hi hk, sumL_range]
    apply Finset.sum_congr rfl
    intro d hd
    rw [Finset.mem_range] at hd
    rw [Tensor.get_tab4 hb hh hi hd, Tensor.get_tab4 hb hi hh hd, Tensor.get_tab4 hb hh hd hk, Tensor.get_tab4 hb hh hk hd, a4 b hb i hi h hh d hd, b4 b hb k hk h hh d hd,
      Linear.row_real, Linear.row_real]
  have gp : ∀ b < B, ∀ h < A.numHeads, ∀ i < Q, ∀ k < T, posi.get [b, h, i, k] = A.posScore query pos b h i k := by
    intro b hb h hh i hi k hk
    rw [hposi, Tensor.get_tab4 hb hh hi hk, sumL_range]
    apply Finset.sum_congr rfl
    intro d hd
    rw [Finset.mem_range] at hd
    rw [Tensor.get_tab4 hb hh hi hd, Tensor.get_tab4 hb hi hh hd, Tensor.get_tab4 hb hh hd hk, a4 b hb i hi h hh d hd, d4 b hb k hk h hh d hd,
      Linear.row_real, Linear.row_real]
  obtain ⟨ps, e1, e2, e3, e4⟩ := relShift_ok (t := posi) (B := B) (N := A.numHeads) (T1 := Q) (T2 := T) rfl
  rw [e1]
  dsimp only
  rw [zipB_same _ (sh := [B, A.numHeads, Q, T]) rfl e3]
  dsimp only
  set score := (Tensor.tabulate [B, A.numHeads, Q, T] fun idx => content.get idx + ps.get idx).map (fun x => x / TorchScalar.sqrt ((A.dModel : ℕ) : ℝ)) with hscore
  have gs : ∀ b < B, ∀ h < A.numHeads, ∀ i < Q, ∀ k < T,
      score.get [b, h, i, k] = (A.content query key b h i k + relPos Q T (A.posScore query pos b h) i k) / Real.sqrt A.dModel := by
    intro b hb h hh i hi k hk
    have hin : InShape [B, A.numHeads, Q, T] [b, h, i, k] := ⟨hb, hh, hi, hk, trivial⟩
    rw [hscore, Tensor.get_map (Tensor.wf_tabulate _ _) hin, Tensor.get_tabulate hin, gc b hb h hh i hi k hk, e4 b hb h hh i hi k hk]
    have : relPos Q T (fun i j => posi.get [b, h, i, j]) i k = relPos Q T (A.posScore query pos b h) i k := by
      unfold relPos
      by_cases hz : (Q + i * T + k) % (T + 1) = 0
      · rw [if_pos hz, if_pos hz]
      · rw [if_neg hz, if_neg hz]
        have hlt : (Q + i * T + k) % (T + 1) < T + 1 := Nat.mod_lt _ (by omega)
        exact gp b hb h hh _ (relPos_lt hi hk) _ (by omega)
    rw [this]
    rfl
  obtain ⟨f, f1, f2, f3, f4⟩ := fillMask_ok (score := score) (mask := mask) (Tensor.wf_map (Tensor.wf_tabulate _ _) _) rfl hm
  rw [f1]
  dsimp only
  rw [hA.eval]
  dsimp only
  obtain ⟨w1, w2, w3⟩ := softmaxLast4 f3
  rw [matmul4_ok w2 (Tensor.shape_tab4 _ _ _ _ _)]
  dsimp only
  rw [permute0213 (Tensor.shape_tab4 _ _ _ _ _)]
  dsimp only
  rw [viewSecond_ok (m := Q) (by simp only [Tensor.shape_tab4, numel]; rw [hM]; ring) (by rw [hM]; simp only [numel]; positivity)]
  dsimp only
  set ctx := (Tensor.tab4 B Q A.numHeads A.dHead fun i j k l => (Tensor.tab4 B A.numHeads Q A.dHead fun s h i j => sumL ((List.range T).map fun q =>
    (softmaxLast f).get [s, h, i, q] * (Tensor.tab4 B A.numHeads T A.dHead fun i j k l => v1.get [i, k, j, l]).get [s, h, q, j])).get [i, k, j, l]) with hctx
  obtain ⟨y, y1, y2, y3, y4⟩ := A.outProj.forward3 (x := ctx.reshape [B, Q, A.dModel]) hA.out rfl
  refine ⟨y, y1, y3, fun b hb i hi o ho => ?_⟩
  rw [y4 b hb i hi o ho, Linear.row_real]
  apply linearRow_congr
  intro r hr
  rw [hM] at hr
  obtain ⟨hh, hd, hrd⟩ := head_split hD hr
  rw [Tensor.get_reshape (idx' := [b, i, r / A.dHead, r % A.dHead]), hctx, Tensor.get_tab4 hb hi hh hd, Tensor.get_tab4 hb hh hi hd, sumL_range]
  · unfold mix
    apply Finset.sum_congr rfl
    intro j hj
    rw [Finset.mem_range] at hj
    rw [w3 b hb _ hh i hi j hj, Tensor.get_tab4 hb hh hj hd, c4 b hb j hj _ hh _ hd, Linear.row_real, hrd]
    congr 1
    refine attnWeight_congr (fun k hk => ?_) (fun _ _ => Iff.rfl) hj
    obtain ⟨m1, m2⟩ := f4 b hb _ hh i hi k hk
    unfold RelativeAttn.score
    by_cases hmk : relMasked mask b i k
    · rw [if_pos hmk]
      exact m1 hmk
    · rw [if_neg hmk]
      exact (m2 hmk).trans (gs b hb _ hh i hi k hk)
  · rw [hctx, Tensor.shape_tab4, ravel4, ravel3, hM]
    generalize r / A.dHead = h at *
    generalize r % A.dHead = d at *
    rw [← hrd]
    ring

/-- C66: a masked key keeps a positive weight, at most `exp(-1e9 - s)` when some key that is not masked has score `s`; if all keys are masked the weights are uniform. -/
theorem C66_masked (A : RelativeAttn ℝ) {Q T : ℕ} {query key pos : Tensor ℝ} {mask : Option (Tensor ℕ)} {b h i j : ℕ} (hj : j < T) (hm : relMasked mask b i j) :
    0 < attnWeight T (A.score Q T query key pos mask b h i) noMask j ∧
    (∀ k < T, attnWeight T (A.score Q T query key pos mask b h i) noMask j ≤ Real.exp (-1000000000 - A.score Q T query key pos mask b h i k)) ∧
    ((∀ k < T, relMasked mask b i k) → attnWeight T (A.score Q T query key pos mask b h i) noMask j = 1 / T) := by
  classical
  have hT : 0 < T := by omega
  have hs : A.score Q T query key pos mask b h i j = -1000000000 := by
    unfold RelativeAttn.score
    rw [if_pos hm]
  have hw : attnWeight T (A.score Q T query key pos mask b h i) noMask j
      = Real.exp (-1000000000) / ∑ k ∈ Finset.range T, Real.exp (A.score Q T query key pos mask b h i k) := by
    unfold attnWeight noMask
    simp [hs]
  refine ⟨(distribution_of hT (fun _ _ => rfl)).2 j hj, fun k hk => ?_, fun hall => ?_⟩
  · rw [hw, Real.exp_sub]
    apply div_le_div_of_nonneg_left (Real.exp_pos _).le (Real.exp_pos _)
    exact Finset.single_le_sum (f := fun k => Real.exp (A.score Q T query key pos mask b h i k)) (fun _ _ => (Real.exp_pos _).le) (Finset.mem_range.2 hk)
  · have : ∀ k ∈ Finset.range T, Real.exp (A.score Q T query key pos mask b h i k) = Real.exp (-1000000000) := by
      intro k hk
      unfold RelativeAttn.score
      rw [if_pos (hall k (Finset.mem_range.1 hk))]
    rw [hw, Finset.sum_congr rfl this, Finset.sum_const, Finset.card_range, nsmul_eq_mul]
    have := (Real.exp_pos (-1000000000 : ℝ)).ne'
    have : (T : ℝ) ≠ 0 := by exact_mod_cast hT.ne'
    field_simp

/-- C66: the constructor accepts exactly a positive number of heads dividing `d_model`. -/
theorem C66_init (dModel N : ℕ) (q k v p o : Draw ℝ) (u w : ℕ → ℕ → ℝ) (drop : Fwd ℝ) :
    (N = 0 → RelativeAttn.init dModel N q k v p o u w drop = .error .zeroDivisionError) ∧
    (0 < N → dModel % N ≠ 0 → RelativeAttn.init dModel N q k v p o u w drop = .error .assertionError) ∧
    (0 < N → 0 < dModel → dModel % N = 0 → (∀ t, drop t = .ok t) →
      ∃ A, RelativeAttn.init dModel N q k v p o u w drop = .ok A ∧ A.numHeads = N ∧ A.dModel = dModel ∧ A.posProj.bias = none ∧ A.Wf) := by
  unfold RelativeAttn.init assertDivides
  refine ⟨fun h => by simp [h, bind, Except.bind], fun h1 h2 => by simp [h1.ne', h2, bind, Except.bind], fun h1 h2 h3 h4 => ?_⟩
  have hd : N ∣ dModel := Nat.dvd_of_mod_eq_zero h3
  rw [if_neg h1.ne', if_pos h3]
  simp only [bind, Except.bind]
  exact ⟨_, rfl, rfl, rfl, rfl, h1, Nat.div_pos (Nat.le_of_dvd h2 hd) h1, (Nat.div_mul_cancel hd).symm, rfl, rfl, rfl, rfl, rfl, rfl, rfl, h4⟩

/-! ## C67: location aware attention -/

/-- The previous attention, zero if none is given. -/
noncomputable def lastAt (last : Option (Tensor ℝ)) (idx : List ℕ) : ℝ :=
  match last with
  | none => 0
  | some l => l.get idx

/-- The score of time step `k` in `LocationAwareAttention`. -/
noncomputable def LocationAttn.score (A : LocationAttn ℝ) (H q T : ℕ) (query value : Tensor ℝ) (last : Option (Tensor ℝ)) (b k : ℕ) : ℝ :=
  linearRow A.scoreProj H (fun h => Real.tanh (linearRow A.queryProj H (fun d => query.get [b, if q = 1 then 0 else k, d]) h
    + linearRow A.valueProj H (fun d => value.get [b, k, d]) h
    + (slide3 (fun s => A.convWeight.get [h, 0, s]) T (fun t => lastAt last [b, t]) k + A.convBias.get [h]) + A.bias.get [h])) 0

/-- The logistic function. -/
noncomputable def logistic (x : ℝ) : ℝ := 1 / (1 + Real.exp (-x))

structure LocationAttn.Wf (A : LocationAttn ℝ) (H : ℕ) : Prop where
  dim : 0 < H
  conv : A.convWeight.shape = [H, 1, 3]
  query : A.queryProj.weight.shape = [H, H]
  value : A.valueProj.weight.shape = [H, H]
  score : A.scoreProj.weight.shape = [1, H]
  bias : A.bias.shape = [H]

theorem logistic_pos (x : ℝ) : 0 < logistic x := by
  unfold logistic
  have := Real.exp_pos (-x)
  positivity

theorem normalizeLast2 {t : Tensor ℝ} {A T : ℕ} (ht : t.shape = [A, T]) :
    (normalizeLast t).WF ∧ (normalizeLast t).shape = [A, T] ∧
      ∀ a < A, ∀ j < T, (normalizeLast t).get [a, j] = t.get [a, j] / ∑ k ∈ Finset.range T, t.get [a, k] := by
  unfold normalizeLast
  dsimp only
  refine ⟨Tensor.wf_tabulate _ _, ht, ?_⟩
  intro a ha j hj
  have hin : InShape t.shape [a, j] := by rw [ht]; exact ⟨ha, hj, trivial⟩
  rw [Tensor.get_tabulate hin, ht]
  have := sumL_range T (fun k => t.get [a, k])
  rw [← this]
  rfl

/-- C67: `LocationAwareAttention` returns positive weights of sum one over the time steps (the softmax of the scores, or their normalized logistic values when smoothing) and the combination of the
value vectors of the same batch element with these weights. -/
theorem C67_location (A : LocationAttn ℝ) {B T q H : ℕ} (hA : A.Wf H) {query value : Tensor ℝ} {last : Option (Tensor ℝ)} (hB : 0 < B) (hT : 0 < T) (hq : query.shape = [B, q, H])
    (hv : value.shape = [B, T, H]) (hqT : q = T ∨ q = 1) (hl : ∀ l, last = some l → l.shape = [B, T]) :
    ∃ c a, A.forward query value last = .ok (c, a) ∧ c.shape = [B, H] ∧ a.shape = [B, T] ∧ ∀ b < B,
      (A.smoothing = false → ∀ j < T, a.get [b, j] = attnWeight T (A.score H q T query value last b) noMask j) ∧
      (A.smoothing = true → ∀ j < T, a.get [b, j] = logistic (A.score H q T query value last b j) / ∑ k ∈ Finset.range T, logistic (A.score H q T query value last b k)) ∧
      IsDistribution T (fun j => a.get [b, j]) ∧ (∀ j < T, 0 < a.get [b, j]) ∧
      ∀ e < H, c.get [b, e] = mix T (fun j => a.get [b, j]) (fun j => value.get [b, j, e]) := by
  set l := last.getD (Tensor.tab2 B T fun _ _ => 0) with hlast
  have hls : l.shape = [B, T] := by
    cases last with
    | none => rfl
    | some l' => exact hl l' rfl
  have hlg : ∀ b < B, ∀ t < T, l.get [b, t] = lastAt last [b, t] := by
    intro b hb t ht
    cases last with
    | none =>
      have h0 : (Tensor.tab2 B T fun _ _ => (0 : ℝ)).get [b, t] = 0 := Tensor.get_tab2 hb ht
      exact h0
    | some l' => rfl
  obtain ⟨l1, a1, a2, a3⟩ := unsqueeze1_two hls
  obtain ⟨cv, b1, b2, b3, b4⟩ := convThree_ok (bias := A.convBias) hA.conv a2
  obtain ⟨qp, c1, c2, c3, c4⟩ := projRows_ok A.queryProj hA.query hq hB hA.dim
  obtain ⟨vp, d1, d2, d3, d4⟩ := projRows_ok A.valueProj hA.value hv hB hA.dim
  unfold LocationAttn.forward attentionSizes
  simp only [hq, hv, bind, Except.bind]
  rw [← hlast, a1]
  dsimp only
  rw [b1]
  dsimp only
  rw [transpose12_ok b3, c1]
  dsimp only
  rw [d1]
  dsimp only
  rw [zipB_bcast3' _ c3 d3 hqT]
  dsimp only
  rw [zipB_bcast3 _ (Tensor.shape_tab3 _ _ _ _) (Tensor.shape_tab3 _ _ _ _) (Or.inl rfl)]
  dsimp only
  rw [zipB_vec _ (Tensor.shape_tab3 _ _ _ _) hA.bias]
  dsimp only
  set t := (Tensor.tab3 B T H fun b i h => (Tensor.tab3 B T H fun b i h => (Tensor.tab3 B T H fun b i h => qp.get [b, bidx q i, h] + vp.get [b, i, h]).get [b, i, h]
    + (Tensor.tab3 B T H fun s i j => cv.get [s, j, i]).get [b, bidx T i, h]).get [b, i, h] + A.bias.get [h]) with ht
  obtain ⟨e, e1, e2, e3, e4⟩ := A.scoreProj.forward3 (x := t.map TorchScalar.tanh) (B := B) (T := T) hA.score rfl
  rw [e1]
  dsimp only
  obtain ⟨s1, s2, s3⟩ := squeezeLast3 e2 e3
  have hs : ∀ b < B, ∀ k < T, (squeezeLast e).get [b, k] = A.score H q T query value last b k := by
    intro b hb k hk
    rw [s3 b hb k hk, e4 b hb k hk 0 Nat.one_pos, Linear.row_real]
    unfold LocationAttn.score
    apply linearRow_congr
    intro h hh
    have hin : InShape t.shape [b, k, h] := ⟨hb, hk, hh, trivial⟩
    rw [Tensor.get_map (Tensor.wf_tab3 _ _ _ _) hin, Tensor.get_tab3 hb hk hh, Tensor.get_tab3 hb hk hh, Tensor.get_tab3 hb hk hh, bidx_of_lt hk, Tensor.get_tab3 hb hk hh,
      c4 b hb _ (bidx_lt hqT hk) h hh, d4 b hb k hk h hh, b4 b hb h hh k hk, Finset.sum_range_one]
    have : slide3 (fun s => A.convWeight.get [h, 0, s]) T (fun k => l1.get [b, 0, k]) k = slide3 (fun s => A.convWeight.get [h, 0, s]) T (fun t => lastAt last [b, t]) k := by
      unfold slide3
      apply Finset.sum_congr rfl
      intro s _
      by_cases hin : 1 ≤ k + s ∧ k + s - 1 < T
      · rw [if_pos hin, if_pos hin]
        beta_reduce
        rw [a3, hlg b hb _ hin.2]
      · rw [if_neg hin, if_neg hin]
    rw [this]
    rfl
  have final : ∀ a : Tensor ℝ, a.shape = [B, T] → ∃ u c c', unsqueeze1 a = .ok u ∧ bmm u value = .ok c ∧ squeeze1 c = .ok c' ∧ c'.shape = [B, H] ∧
      ∀ b < B, ∀ e < H, c'.get [b, e] = mix T (fun j => a.get [b, j]) (fun j => value.get [b, j, e]) := by
    intro a ha
    obtain ⟨u, c, u1, k1, k2, k3, k4⟩ := bmm_context ha hv
    refine ⟨u, c, c.reshape [B, H], u1, k1, ?_, rfl, fun b hb e he => ?_⟩
    · unfold squeeze1
      simp only [k3]
    · rw [Tensor.get_reshape (idx' := [b, 0, e]), k4 b hb e he]
      rw [k3]
      simp [ravel, numel]
  cases hsm : A.smoothing with
  | false =>
    simp only [Bool.false_eq_true, if_false]
    obtain ⟨w1, w2, w3⟩ := softmaxLast2 s2
    obtain ⟨u, c, c', u1, k1, k2, k3, k4⟩ := final _ w2
    rw [u1]
    dsimp only
    rw [k1]
    dsimp only
    rw [k2]
    refine ⟨_, _, rfl, k3, w2, fun b hb => ?_⟩
    have ha : ∀ j < T, (softmaxLast (squeezeLast e)).get [b, j] = attnWeight T (A.score H q T query value last b) noMask j := by
      intro j hj
      rw [w3 b hb j hj]
      exact attnWeight_congr (hs b hb) (fun _ _ => Iff.rfl) hj
    exact ⟨fun _ => ha, by simp, (distribution_of hT ha).1, (distribution_of hT ha).2, k4 b hb⟩
  | true =>
    simp only [if_true]
    obtain ⟨w1, w2, w3⟩ := normalizeLast2 (t := (squeezeLast e).map sigmoid) (A := B) (T := T) s2
    obtain ⟨u, c, c', u1, k1, k2, k3, k4⟩ := final _ w2
    rw [u1]
    dsimp only
    rw [k1]
    dsimp only
    rw [k2]
    refine ⟨_, _, rfl, k3, w2, fun b hb => ?_⟩
    have hlog : ∀ k < T, ((squeezeLast e).map sigmoid).get [b, k] = logistic (A.score H q T query value last b k) := by
      intro k hk
      have hin : InShape (squeezeLast e).shape [b, k] := by rw [s2]; exact ⟨hb, hk, trivial⟩
      rw [Tensor.get_map s1 hin, hs b hb k hk]
      simp [sigmoid, logistic]
    have hsum : ∑ k ∈ Finset.range T, ((squeezeLast e).map sigmoid).get [b, k] = ∑ k ∈ Finset.range T, logistic (A.score H q T query value last b k) :=
      Finset.sum_congr rfl fun k hk => hlog k (Finset.mem_range.1 hk)
    have hpos : 0 < ∑ k ∈ Finset.range T, logistic (A.score H q T query value last b k) :=
      Finset.sum_pos (fun _ _ => logistic_pos _) ⟨0, Finset.mem_range.2 hT⟩
    have ha : ∀ j < T, (normalizeLast ((squeezeLast e).map sigmoid)).get [b, j]
        = logistic (A.score H q T query value last b j) / ∑ k ∈ Finset.range T, logistic (A.score H q T query value last b k) := by
      intro j hj
      rw [w3 b hb j hj, hsum, hlog j hj]
    have hp : ∀ j < T, 0 < (normalizeLast ((squeezeLast e).map sigmoid)).get [b, j] := by
      intro j hj
      rw [ha j hj]
      exact div_pos (logistic_pos _) hpos
    refine ⟨by simp, fun _ => ha, ⟨fun j hj => (hp j hj).le, ?_⟩, hp, k4 b hb⟩
    rw [Finset.sum_congr rfl fun j hj => ha j (Finset.mem_range.1 hj), ← Finset.sum_div, div_self hpos.ne']

structure MultiLocationAttn.Wf (A : MultiLocationAttn ℝ) (I C : ℕ) : Prop where
  heads : 0 < A.numHeads
  dim : 0 < A.dim
  conv : A.convWeight.shape = [C, A.numHeads, 3]
  loc : A.locProj.weight.shape = [A.dim, C]
  query : A.queryProj.weight.shape = [A.dim * A.numHeads, I]
  value : A.valueProj.weight.shape = [A.dim * A.numHeads, I]
  score : A.scoreProj.weight.shape = [1, A.dim]
  bias : A.bias.shape = [A.dim]

/-- Feature `r` of the projected value at time `t`; head `h` has the features `h*dim .. h*dim+dim-1`. -/
noncomputable def MultiLocationAttn.feature (A : MultiLocationAttn ℝ) (I : ℕ) (value : Tensor ℝ) (b t r : ℕ) : ℝ :=
  linearRow A.valueProj I (fun q => value.get [b, t, q]) r

/-- The location term: all heads share it. -/
noncomputable def MultiLocationAttn.location (A : MultiLocationAttn ℝ) (C T : ℕ) (last : Option (Tensor ℝ)) (b k d : ℕ) : ℝ :=
  Real.tanh (linearRow A.locProj C (fun c => ∑ h ∈ Finset.range A.numHeads, slide3 (fun s => A.convWeight.get [c, h, s]) T (fun t => lastAt last [b, h, t]) k + A.convBias.get [c]) d)

/-- The score of time step `k` in head `h`. -/
noncomputable def MultiLocationAttn.score (A : MultiLocationAttn ℝ) (I C T : ℕ) (query value : Tensor ℝ) (last : Option (Tensor ℝ)) (b h k : ℕ) : ℝ :=
  linearRow A.scoreProj A.dim (fun d => Real.tanh (A.feature I value b k (h * A.dim + d)
    + linearRow A.queryProj I (fun q => query.get [b, 0, q]) (h * A.dim + d) + A.location C T last b k d + A.bias.get [d])) 0

theorem slide3_congr {w : ℕ → ℝ} {T : ℕ} {x y : ℕ → ℝ} (h : ∀ t < T, x t = y t) (t : ℕ) : slide3 w T x t = slide3 w T y t := by
  unfold slide3
  apply Finset.sum_congr rfl
  intro s _
  by_cases hin : 1 ≤ t + s ∧ t + s - 1 < T
  · rw [if_pos hin, if_pos hin, h _ hin.2]
  · rw [if_neg hin, if_neg hin]

/-- C67: `MultiHeadLocationAwareAttention` returns a distribution over the time steps for every head. The context of head `h` combines, with the weight of time step `j`, the features of head `(j*N+h)/T` at time
`(j*N+h) mod T` (N heads, T steps). -/
theorem C67_multi (A : MultiLocationAttn ℝ) {I C B T : ℕ} (hA : A.Wf I C) {query value : Tensor ℝ} {last : Option (Tensor ℝ)} (hB : 0 < B) (hT : 0 < T) (hq : query.shape = [B, 1, I])
    (hv : value.shape = [B, T, I]) (hl : ∀ l, last = some l → l.shape = [B, A.numHeads, T]) :
    ∃ c a, A.forward query value last = .ok (c, a) ∧ c.shape = [B, 1, A.numHeads * A.dim] ∧ a.shape = [B, A.numHeads, T] ∧ ∀ b < B, ∀ h < A.numHeads,
      (∀ j < T, a.get [b, h, j] = attnWeight T (A.score I C T query value last b h) noMask j) ∧ IsDistribution T (fun j => a.get [b, h, j]) ∧
      ∀ d < A.dim, c.get [b, 0, h * A.dim + d] = mix T (fun j => a.get [b, h, j])
        (fun j => A.feature I value b ((j * A.numHeads + h) % T) ((j * A.numHeads + h) / T * A.dim + d)) := by
  have hN := hA.heads
  have hD := hA.dim
  have hp1 : 0 < B * (A.numHeads * A.dim) := by positivity
  have hp2 : 0 < numel [T, A.dim] := by simp only [numel]; positivity
  have hrow : ∀ {b h : ℕ}, b < B → h < A.numHeads → b * A.numHeads + h < B * A.numHeads := by
    intro b h hb hh
    calc b * A.numHeads + h < b * A.numHeads + A.numHeads := by omega
      _ = (b + 1) * A.numHeads := by ring
      _ ≤ B * A.numHeads := Nat.mul_le_mul_right _ hb
  set l := last.getD (Tensor.tab3 B A.numHeads T fun _ _ _ => 0) with hlast
  have hls : l.shape = [B, A.numHeads, T] := by
    cases last with
    | none => rfl
    | some l' => exact hl l' rfl
  have hlg : ∀ b < B, ∀ h < A.numHeads, ∀ t < T, l.get [b, h, t] = lastAt last [b, h, t] := by
    intro b hb h hh t ht
    cases last with
    | none =>
      have h0 : (Tensor.tab3 B A.numHeads T fun _ _ _ => (0 : ℝ)).get [b, h, t] = 0 := Tensor.get_tab3 hb hh ht
      exact h0
    | some l' => rfl
  obtain ⟨cv, b1, b2, b3, b4⟩ := convThree_ok (bias := A.convBias) hA.conv hls
  obtain ⟨loc, l1, l2, l3, l4⟩ := A.locProj.forward3 (x := Tensor.tab3 B T C fun s i j => cv.get [s, j, i]) hA.loc rfl
  obtain ⟨qp, c1, c2, c3, c4⟩ := splitHeads_ok A.queryProj hA.query hq hp1
  obtain ⟨vp, d1, d2, d3, d4⟩ := splitHeads_ok A.valueProj hA.value hv hp1
  unfold MultiLocationAttn.forward firstSizes
  simp only [hv, bind, Except.bind]
  rw [← hlast, b1]
  dsimp only
  rw [transpose12_ok b3]
  dsimp only
  rw [l1]
  dsimp only
  have hrep : repeatHeads A.numHeads (loc.map TorchScalar.tanh) = .ok (Tensor.tab4 B A.numHeads T A.dim fun s _ i j => (loc.map TorchScalar.tanh).get [s, i, j]) := by
    unfold repeatHeads
    simp only [Tensor.shape_map, l3]
  rw [hrep]
  dsimp only
  set rep := Tensor.tab4 B A.numHeads T A.dim fun s _ i j => (loc.map TorchScalar.tanh).get [s, i, j] with hrepdef
  rw [viewFirst_ok (t := rep) (m := B * A.numHeads) (by rw [hrepdef]; simp only [Tensor.shape_tab4, numel]; ring) hp2]
  dsimp only
  rw [c1]
  dsimp only
  rw [permute0213 c3]
  dsimp only
  rw [d1]
  dsimp only
  rw [permute0213 d3]
  dsimp only
  rw [viewFirst_ok (m := B * A.numHeads) (by simp only [Tensor.shape_tab4, numel]; ring) (by simpa [numel] using hD)]
  dsimp only
  rw [viewFirst_ok (m := B * A.numHeads) (by simp only [Tensor.shape_tab4, numel]; ring) hp2]
  dsimp only
  set vr := (Tensor.tab4 B A.numHeads T A.dim fun i j k l => vp.get [i, k, j, l]).reshape [B * A.numHeads, T, A.dim] with hvr
  set qr := (Tensor.tab4 B A.numHeads 1 A.dim fun i j k l => qp.get [i, k, j, l]).reshape [B * A.numHeads, 1, A.dim] with hqr
  have gv : ∀ b < B, ∀ h < A.numHeads, ∀ t < T, ∀ d < A.dim, vr.get [b * A.numHeads + h, t, d] = A.feature I value b t (h * A.dim + d) := by
    intro b hb h hh t ht d hd
    rw [hvr, Tensor.get_reshape (idx' := [b, h, t, d]), Tensor.get_tab4 hb hh ht hd, d4 b hb t ht h hh d hd, Linear.row_real]
    · rfl
    · rw [Tensor.shape_tab4, ravel4, ravel3]
  have gq : ∀ b < B, ∀ h < A.numHeads, ∀ d < A.dim, qr.get [b * A.numHeads + h, 0, d] = linearRow A.queryProj I (fun q => query.get [b, 0, q]) (h * A.dim + d) := by
    intro b hb h hh d hd
    rw [hqr, Tensor.get_reshape (idx' := [b, h, 0, d]), Tensor.get_tab4 hb hh Nat.one_pos hd, c4 b hb 0 Nat.one_pos h hh d hd, Linear.row_real]
    rw [Tensor.shape_tab4, ravel4, ravel3]
  have gl : ∀ b < B, ∀ h < A.numHeads, ∀ t < T, ∀ d < A.dim, (rep.reshape [B * A.numHeads, T, A.dim]).get [b * A.numHeads + h, t, d] = A.location C T last b t d := by
    intro b hb h hh t ht d hd
    have hin : InShape loc.shape [b, t, d] := by rw [l3]; exact ⟨hb, ht, hd, trivial⟩
    rw [Tensor.get_reshape (idx' := [b, h, t, d]), hrepdef, Tensor.get_tab4 hb hh ht hd, Tensor.get_map l2 hin, l4 b hb t ht d hd, Linear.row_real]
    · unfold MultiLocationAttn.location
      rw [tanh_real]
      congr 1
      apply linearRow_congr
      intro c hc
      rw [Tensor.get_tab3 hb ht hc, b4 b hb c hc t ht]
      congr 1
      apply Finset.sum_congr rfl
      intro h' hh'
      exact slide3_congr (fun t ht => hlg b hb h' (Finset.mem_range.1 hh') t ht) t
    · rw [hrepdef, Tensor.shape_tab4, ravel4, ravel3]
  rw [zipB_bcast3 (s := vr) (t := qr) (B := B * A.numHeads) (T := T) (H := A.dim) _ rfl rfl (Or.inr rfl)]
  dsimp only
  rw [zipB_bcast3 (B := B * A.numHeads) (T := T) (H := A.dim) _ (Tensor.shape_tab3 _ _ _ _) rfl (Or.inl rfl)]
  dsimp only
  rw [zipB_vec _ (Tensor.shape_tab3 _ _ _ _) hA.bias]
  dsimp only
  set t := (Tensor.tab3 (B * A.numHeads) T A.dim fun b i h => (Tensor.tab3 (B * A.numHeads) T A.dim fun b i h => (Tensor.tab3 (B * A.numHeads) T A.dim fun b i h =>
    vr.get [b, i, h] + qr.get [b, bidx 1 i, h]).get [b, i, h] + (rep.reshape [B * A.numHeads, T, A.dim]).get [b, bidx T i, h]).get [b, i, h] + A.bias.get [h]) with ht
  obtain ⟨e, e1, e2, e3, e4⟩ := A.scoreProj.forward3 (x := t.map TorchScalar.tanh) (B := B * A.numHeads) (T := T) hA.score rfl
  rw [e1]
  dsimp only
  obtain ⟨s1, s2, s3⟩ := squeezeLast3 e2 e3
  obtain ⟨w1, w2, w3⟩ := softmaxLast2 s2
  have hs : ∀ b < B, ∀ h < A.numHeads, ∀ k < T, (squeezeLast e).get [b * A.numHeads + h, k] = A.score I C T query value last b h k := by
    intro b hb h hh k hk
    have hr := hrow hb hh
    rw [s3 _ hr k hk, e4 _ hr k hk 0 Nat.one_pos, Linear.row_real]
    unfold MultiLocationAttn.score
    apply linearRow_congr
    intro d hd
    have hin : InShape t.shape [b * A.numHeads + h, k, d] := ⟨hr, hk, hd, trivial⟩
    have hb1 : bidx 1 k = 0 := rfl
    rw [Tensor.get_map (Tensor.wf_tab3 _ _ _ _) hin, Tensor.get_tab3 hr hk hd, Tensor.get_tab3 hr hk hd, Tensor.get_tab3 hr hk hd, bidx_of_lt hk, hb1,
      gv b hb h hh k hk d hd, gq b hb h hh d hd, gl b hb h hh k hk d hd]
    rfl
  rw [viewAs_ok (t := vr) (by rw [hvr]; simp only [Tensor.shape_reshape, numel]; ring)]
  dsimp only
  rw [permute0213 (t := vr.reshape [B, T, A.numHeads, A.dim]) rfl]
  dsimp only
  rw [viewFirst_ok (m := B * A.numHeads) (by simp only [Tensor.shape_tab4, numel]; ring) hp2]
  dsimp only
  set v2 := (Tensor.tab4 B A.numHeads T A.dim fun i j k l => (vr.reshape [B, T, A.numHeads, A.dim]).get [i, k, j, l]).reshape [B * A.numHeads, T, A.dim] with hv2
  obtain ⟨u, c, u1, k1, k2, k3, k4⟩ := bmm_context (value := v2) (E := A.dim) w2 rfl
  rw [u1]
  dsimp only
  rw [k1]
  dsimp only
  rw [viewSecond_ok (m := 1) (by rw [k3]; simp only [numel]; ring) (by simp only [numel]; positivity)]
  dsimp only
  have hdiv : numel (softmaxLast (squeezeLast e)).shape / (B * A.numHeads) = T := by
    rw [w2]
    simp only [numel, Nat.mul_one]
    exact Nat.mul_div_cancel_left _ (by positivity)
  rw [hdiv, viewAs_ok (by rw [w2]; simp only [numel]; ring)]
  refine ⟨_, _, rfl, rfl, rfl, fun b hb h hh => ?_⟩
  have hr := hrow hb hh
  have hget : ∀ j, ((softmaxLast (squeezeLast e)).reshape [B, A.numHeads, T]).get [b, h, j] = (softmaxLast (squeezeLast e)).get [b * A.numHeads + h, j] := by
    intro j
    apply Tensor.get_reshape
    rw [w2]
    simp only [ravel, numel]
    ring
  have ha : ∀ j < T, ((softmaxLast (squeezeLast e)).reshape [B, A.numHeads, T]).get [b, h, j] = attnWeight T (A.score I C T query value last b h) noMask j := by
    intro j hj
    rw [hget, w3 _ hr j hj]
    exact attnWeight_congr (hs b hb h hh) (fun _ _ => Iff.rfl) hj
  refine ⟨ha, (distribution_of hT ha).1, fun d hd => ?_⟩
  rw [Tensor.get_reshape (idx' := [b * A.numHeads + h, 0, d]), k4 _ hr d hd]
  · refine mix_congr (fun j _ => (hget j).symm) (fun j hj => ?_)
    beta_reduce
    have hjh : j * A.numHeads + h < A.numHeads * T := head_lt hj hh
    have h1 : (j * A.numHeads + h) / T < A.numHeads := Nat.div_lt_of_lt_mul (by rw [Nat.mul_comm T]; exact hjh)
    have h2 : (j * A.numHeads + h) % T < T := Nat.mod_lt _ hT
    rw [hv2, Tensor.get_reshape (idx' := [b, h, j, d]), Tensor.get_tab4 hb hh hj hd,
      Tensor.get_reshape (idx' := [b * A.numHeads + (j * A.numHeads + h) / T, (j * A.numHeads + h) % T, d]), gv b hb _ h1 _ h2 d hd]
    · rw [hvr, Tensor.shape_reshape, ravel3, ravel4]
      have e1 := Nat.div_add_mod' (j * A.numHeads + h) T
      generalize (j * A.numHeads + h) / T = x at *
      generalize (j * A.numHeads + h) % T = z at *
      have e2 : (b * A.numHeads + x) * T + z = (b * T + j) * A.numHeads + h := by
        calc (b * A.numHeads + x) * T + z = b * A.numHeads * T + (x * T + z) := by ring
          _ = b * A.numHeads * T + (j * A.numHeads + h) := by rw [e1]
          _ = (b * T + j) * A.numHeads + h := by ring
      rw [e2]
    · rw [Tensor.shape_tab4, ravel4, ravel3]
  · rw [k3, ravel3, ravel3]
    ring

/-- C67: with one head or one time step the context of a head combines its own features. -/
theorem C67_multi_right (A : MultiLocationAttn ℝ) {I C B T : ℕ} (hA : A.Wf I C) {query value : Tensor ℝ} {last : Option (Tensor ℝ)} (hB : 0 < B) (hT : 0 < T) (hq : query.shape = [B, 1, I])
    (hv : value.shape = [B, T, I]) (hl : ∀ l, last = some l → l.shape = [B, A.numHeads, T]) (hone : A.numHeads = 1 ∨ T = 1) :
    ∃ c a, A.forward query value last = .ok (c, a) ∧ ∀ b < B, ∀ h < A.numHeads, ∀ d < A.dim,
      c.get [b, 0, h * A.dim + d] = mix T (fun j => a.get [b, h, j]) (fun j => A.feature I value b j (h * A.dim + d)) := by
  obtain ⟨c, a, h1, -, -, h4⟩ := C67_multi A hA hB hT hq hv hl
  refine ⟨c, a, h1, fun b hb h hh d hd => ?_⟩
  rw [(h4 b hb h hh).2.2 d hd]
  refine mix_congr (fun _ _ => rfl) (fun j hj => ?_)
  beta_reduce
  rcases hone with hN | rfl
  · obtain rfl : h = 0 := by omega
    rw [hN, Nat.mul_one, Nat.add_zero, Nat.mod_eq_of_lt hj, Nat.div_eq_of_lt hj]
  · obtain rfl : j = 0 := by omega
    simp [Nat.mod_one]

/-- C67: with at least two heads and two time steps the context of a head is not a combination of its own features: where the features of the first head are one and those of the second head are zero, the context
of the second head is positive. -/
theorem C67_multi_mixed (A : MultiLocationAttn ℝ) {I C B T : ℕ} (hA : A.Wf I C) {query value : Tensor ℝ} {last : Option (Tensor ℝ)} (hN : 2 ≤ A.numHeads) (hT : 2 ≤ T)
    (hq : query.shape = [B, 1, I]) (hv : value.shape = [B, T, I]) (hl : ∀ l, last = some l → l.shape = [B, A.numHeads, T]) {b : ℕ} (hb : b < B)
    (h0 : ∀ t < T, ∀ r < A.dim, A.feature I value b t r = 1) (h1 : ∀ t < T, ∀ r, A.dim ≤ r → A.feature I value b t r = 0) :
    ∃ c a, A.forward query value last = .ok (c, a) ∧ ∀ d < A.dim, 0 < c.get [b, 0, 1 * A.dim + d] ∧
      mix T (fun j => a.get [b, 1, j]) (fun j => A.feature I value b j (1 * A.dim + d)) = 0 := by
  obtain ⟨c, a, hf, -, -, h4⟩ := C67_multi A hA (by omega) (by omega) hq hv hl
  obtain ⟨ha, -, hc⟩ := h4 b hb 1 (by omega)
  refine ⟨c, a, hf, fun d hd => ⟨?_, ?_⟩⟩
  · rw [hc d hd]
    have hp := (distribution_of (by omega) ha).2
    unfold mix
    apply Finset.sum_pos'
    · intro j hj
      rw [Finset.mem_range] at hj
      apply mul_nonneg (hp j hj).le
      beta_reduce
      have hm : (j * A.numHeads + 1) % T < T := Nat.mod_lt _ (by omega)
      by_cases hz : (j * A.numHeads + 1) / T = 0
      · rw [hz, h0 _ hm _ (by omega)]
        exact zero_le_one
      · rw [h1 _ hm]
        have : 1 ≤ (j * A.numHeads + 1) / T := Nat.one_le_iff_ne_zero.2 hz
        calc A.dim = 1 * A.dim := (Nat.one_mul _).symm
          _ ≤ (j * A.numHeads + 1) / T * A.dim := Nat.mul_le_mul_right _ this
          _ ≤ _ := Nat.le_add_right _ _
    · refine ⟨0, Finset.mem_range.2 (by omega), ?_⟩
      have hz : (0 * A.numHeads + 1) / T = 0 := by
        rw [Nat.zero_mul, Nat.zero_add]
        exact Nat.div_eq_of_lt (by omega)
      have hm : (0 * A.numHeads + 1) % T < T := Nat.mod_lt _ (by omega)
      beta_reduce
      rw [hz, h0 _ hm _ (by omega), mul_one]
      exact hp 0 (by omega)
  · unfold mix
    apply Finset.sum_eq_zero
    intro j hj
    rw [Finset.mem_range] at hj
    beta_reduce
    rw [h1 j hj (1 * A.dim + d) (by omega), mul_zero]

/-! ## C67: CustomizingAttention -/

theorem bind_ne_ok {α β : Type} (x : Py α) (f : α → Py β) (h : ∀ a r, f a ≠ .ok r) (r : β) : (x >>= f) ≠ .ok r := by
  cases x with
  | error e => simp [bind, Except.bind]
  | ok a => exact h a r

/-- C67: `CustomizingAttention.forward` never returns: it calls its attention without a value. -/
theorem C67_customizing (A : CustomAttn ℝ) (query value : Tensor ℝ) (last : Option (Tensor ℝ)) (r : Tensor ℝ × Tensor ℝ) : A.forward query value last ≠ .ok r := by
  unfold CustomAttn.forward
  revert r
  repeat
    apply bind_ne_ok
    intro _
  intro r
  simp

structure CustomAttn.Wf (A : CustomAttn ℝ) (I C : ℕ) : Prop where
  heads : 0 < A.numHeads
  dim : 0 < A.dim
  conv : A.convWeight.shape = [C, 1, 3]
  query : A.queryProj.weight.shape = [A.dim * A.numHeads, I]
  value : A.valueProj.weight.shape = [A.dim * A.numHeads, I]
  loc : A.locProj.weight.shape = [A.dim, C]
  bias : A.bias.shape = [A.dim * A.numHeads]

/-- C67: for tensors of the documented shapes the failure is a TypeError. -/
theorem C67_customizing_type (A : CustomAttn ℝ) {I C B Q T : ℕ} (hA : A.Wf I C) {query value : Tensor ℝ} {last : Option (Tensor ℝ)} (hB : 0 < B) (hQ : 0 < Q) (hT : 0 < T)
    (hq : query.shape = [B, Q, I]) (hv : value.shape = [B, T, I]) (hl : ∀ l, last = some l → l.shape = [B * A.numHeads, T]) :
    A.forward query value last = .error .typeError := by
  have hN := hA.heads
  have hD := hA.dim
  set l := last.getD (Tensor.tab2 (B * A.numHeads) T fun _ _ => 0) with hlast
  have hls : l.shape = [B * A.numHeads, T] := by
    cases last with
    | none => rfl
    | some l' => exact hl l' rfl
  have hloc : ∃ y, A.locEnergy l B T = .ok y ∧ y.shape = [B, T, A.numHeads * A.dim] := by
    obtain ⟨l1, a1, a2, a3⟩ := unsqueeze1_two hls
    obtain ⟨cv, b1, b2, b3, b4⟩ := convThree_ok (bias := A.convBias) hA.conv a2
    unfold CustomAttn.locEnergy
    simp only [bind, Except.bind, a1, b1]
    rw [viewThird_ok (m := C) (by rw [b3]; simp only [numel]; ring) (by positivity)]
    dsimp only
    rw [permute0132 (t := cv.reshape [B, A.numHeads, C, T]) rfl]
    dsimp only
    obtain ⟨e, e1, e2⟩ := A.locProj.forward_shape (x := Tensor.tab4 B A.numHeads T C fun i j k l => (cv.reshape [B, A.numHeads, C, T]).get [i, j, l, k]) (pre := [B, A.numHeads, T]) hA.loc rfl
    rw [e1]
    dsimp only
    rw [viewAs_ok (by rw [e2]; rfl)]
    dsimp only
    rw [permute0213 (t := e.reshape [B, A.numHeads, T, A.dim]) rfl]
    dsimp only
    rw [viewAs_ok (by simp only [Tensor.shape_tab4, numel]; ring)]
    exact ⟨_, rfl, rfl⟩
  obtain ⟨y, y1, y2⟩ := hloc
  obtain ⟨q1, c1, -, c3, -⟩ := A.queryProj.forward3 hA.query hq
  obtain ⟨v1, d1, -, d3, -⟩ := A.valueProj.forward3 hA.value hv
  unfold CustomAttn.forward firstSizes sizeOne
  simp only [hv, hq, bind, Except.bind]
  rw [← hlast, y1]
  dsimp only
  rw [c1]
  dsimp only
  rw [viewAs_ok (by rw [c3]; simp only [numel]; ring)]
  dsimp only
  rw [d1]
  dsimp only
  rw [viewAs_ok (by rw [d3]; simp only [numel]; ring)]
  dsimp only
  rw [zipB_same (s := v1.reshape [B, T, A.numHeads * A.dim]) _ rfl y2]
  dsimp only
  rw [zipB_vec (B := B) (T := T) (H := A.numHeads * A.dim) _ rfl (by rw [hA.bias, Nat.mul_comm])]
  dsimp only
  rw [viewAs_ok (t := q1.reshape [B, Q, A.numHeads * A.dim]) (by simp only [Tensor.shape_reshape, numel]; ring)]
  dsimp only
  rw [permute2013 (a := B) (b := Q) (c := A.numHeads) (d := A.dim) rfl]
  dsimp only
  rw [viewAs_ok (by simp only [Tensor.shape_tab3, numel]; ring)]
  dsimp only
  rw [permute2013 (a := B) (b := T) (c := A.numHeads) (d := A.dim) rfl]
  dsimp only
  rw [viewFirst_ok (m := A.numHeads * B) (by simp only [Tensor.shape_tab4, numel]; ring) (by simp only [numel]; positivity)]
  dsimp only
  rw [viewFirst_ok (m := A.numHeads * B) (by simp only [Tensor.shape_tab4, numel]; ring) (by simp only [numel]; positivity)]

/-! ## examples -/

section examples

/-- Two keys of scores `0` and `0`, the second masked: all weight is on the first. -/
example : ∃ c a, scaledDot 1 (Tensor.tab3 1 1 1 fun _ _ _ => (0 : ℝ)) (Tensor.tab3 1 2 1 fun _ _ _ => 1) (Tensor.tab3 1 2 1 fun _ j _ => (j : ℝ) + 5)
    (some (Tensor.tab3 1 1 2 fun _ _ k => k)) = .ok (c, a) ∧ a.get [0, 0, 1] = 0 ∧ c.get [0, 0, 0] = 5 := by
  have hm : ∀ k < 2, maskedAt (some (Tensor.tab3 1 1 2 fun _ _ k => k)) 1 1 2 0 0 k ↔ k ≠ 0 := by
    intro k hk
    interval_cases k <;> simp [maskedAt, Tensor.reshape, Tensor.tab3, Tensor.get, Tensor.tabulate, ravel, numel, unravel]
  obtain ⟨c, a, h1, -, -, h2⟩ := C64_weights (dim := 1) (query := Tensor.tab3 1 1 1 fun _ _ _ => (0 : ℝ)) (key := Tensor.tab3 1 2 1 fun _ _ _ => 1)
    (value := Tensor.tab3 1 2 1 fun _ j _ => (j : ℝ) + 5) (mask := some (Tensor.tab3 1 1 2 fun _ _ k => k)) (by norm_num) rfl rfl rfl (by
      intro m h
      obtain rfl := Option.some.inj h
      rfl)
  obtain ⟨-, -, h3⟩ := h2 0 (by norm_num) 0 (by norm_num)
  obtain ⟨-, h5, h6⟩ := h3 ⟨0, by norm_num, by rw [hm 0 (by norm_num)]; simp⟩
  refine ⟨c, a, h1, (h5 1 (by norm_num)).2 ((hm 1 (by norm_num)).2 (by norm_num)), ?_⟩
  obtain ⟨lo, hi⟩ := h6 0 (by norm_num) 5 5 (by
    intro j hj hn
    have : j = 0 := by
      by_contra hne
      exact hn ((hm j hj).2 hne)
    subst this
    rw [Tensor.get_tab3 (by norm_num) (by norm_num) (by norm_num)]
    norm_num)
  exact le_antisymm hi lo

/-- A two headed attention with two features per head. -/
noncomputable def exDraw : Draw ℝ := { weight := fun i j => if i = j then 1 else 0, bias := fun _ => 0 }

example : ∃ M, MultiHead.init 4 2 exDraw exDraw exDraw = .ok M ∧ M.dHead = 2 ∧
    ∃ m : Tensor ℕ, m.shape = [3, 1, 2] ∧ m.get [1, 0, 0] ≠ 0 ∧
      ∃ c a, M.forward (Tensor.tab3 3 1 4 fun _ _ _ => 1) (Tensor.tab3 3 2 4 fun _ _ _ => 1) (Tensor.tab3 3 2 4 fun _ _ _ => 1) (some m) = .ok (c, a) ∧ 0 < a.get [1, 0, 0] := by
  obtain ⟨M, h1, h2, h3, h4⟩ := (C65_init 4 2 exDraw exDraw exDraw).2.2 (by norm_num) (by norm_num) (by norm_num)
  rw [h2] at h3
  refine ⟨M, h1, by omega, ?_⟩
  obtain ⟨m, m1, m2, c, a, m3, m4⟩ := C65_mask_misplaced M (I := 4) (B := 3) (Q := 1) (T := 2) (query := Tensor.tab3 3 1 4 fun _ _ _ => 1) (key := Tensor.tab3 3 2 4 fun _ _ _ => 1)
    (value := Tensor.tab3 3 2 4 fun _ _ _ => 1) h4 (by norm_num) (by omega) (by norm_num) rfl rfl rfl
  exact ⟨m, m1, m2 0 (by norm_num), c, a, m3, m4 0 (by norm_num)⟩

/-- The shift of a 3 by 3 score: `pos[i][k] = 10 i + k + 1`. -/
example : ∃ y, relShift (Tensor.tab4 1 1 3 3 fun _ _ i k => (10 * i + k + 1 : ℝ)) = .ok y ∧ y.get [0, 0, 0, 0] = 3 ∧ y.get [0, 0, 0, 1] = 0 ∧ y.get [0, 0, 0, 2] = 11 ∧
    y.get [0, 0, 1, 0] = 12 ∧ y.get [0, 0, 2, 2] = 23 := by
  obtain ⟨y, h1, -, h2⟩ := C66_shift (t := Tensor.tab4 1 1 3 3 fun _ _ i k => (10 * i + k + 1 : ℝ)) rfl
  have h3 := h2 0 (by norm_num) 0 (by norm_num)
  refine ⟨y, h1, ?_, ?_, ?_, ?_, ?_⟩
  · rw [(h3 0 (by norm_num) 0 (by norm_num)).1 (by norm_num), Tensor.get_tab4 (by norm_num) (by norm_num) (by norm_num) (by norm_num)]
    norm_num
  · exact (h3 0 (by norm_num) 1 (by norm_num)).2.1 rfl
  · rw [(h3 0 (by norm_num) 2 (by norm_num)).2.2 (by norm_num), Tensor.get_tab4 (by norm_num) (by norm_num) (by norm_num) (by norm_num)]
    norm_num
  · rw [(h3 1 (by norm_num) 0 (by norm_num)).1 (by norm_num), Tensor.get_tab4 (by norm_num) (by norm_num) (by norm_num) (by norm_num)]
    norm_num
  · rw [(h3 2 (by norm_num) 2 (by norm_num)).1 (by norm_num), Tensor.get_tab4 (by norm_num) (by norm_num) (by norm_num) (by norm_num)]
    norm_num

/-- A relative attention. -/
example : ∃ A, RelativeAttn.init 4 2 exDraw exDraw exDraw exDraw exDraw (fun _ _ => 1) (fun _ _ => 1) (fun t => .ok t) = .ok A ∧
    ∃ y, A.forward (Tensor.tab3 1 2 4 fun _ _ _ => 1) (Tensor.tab3 1 2 4 fun _ _ _ => 1) (Tensor.tab3 1 2 4 fun _ _ _ => 1) (Tensor.tab3 1 2 4 fun _ _ _ => 1)
      (some (Tensor.tab3 1 1 2 fun _ _ k => k)) = .ok y ∧ y.shape = [1, 2, 4] := by
  obtain ⟨A, h1, -, h3, -, h4⟩ := (C66_init 4 2 exDraw exDraw exDraw exDraw exDraw (fun _ _ => 1) (fun _ _ => 1) (fun t => .ok t)).2.2 (by norm_num) (by norm_num) (by norm_num) (fun _ => rfl)
  obtain ⟨y, y1, y2, -⟩ := C66_forward A h4 (B := 1) (Q := 2) (T := 2) (query := Tensor.tab3 1 2 4 fun _ _ _ => 1) (key := Tensor.tab3 1 2 4 fun _ _ _ => 1)
    (value := Tensor.tab3 1 2 4 fun _ _ _ => 1) (pos := Tensor.tab3 1 2 4 fun _ _ _ => 1) (mask := some (Tensor.tab3 1 1 2 fun _ _ k => k)) (by norm_num) (by rw [h3]; rfl) (by rw [h3]; rfl)
    (by rw [h3]; rfl) (by rw [h3]; rfl) (by
      intro m h
      obtain rfl := Option.some.inj h
      exact ⟨1, 1, 2, rfl, Or.inl rfl, Or.inr rfl, Or.inl rfl⟩)
  exact ⟨A, h1, y, y1, by rw [y2, h3]⟩

/-- A location aware attention with two features. -/
noncomputable def exLocation (s : Bool) : LocationAttn ℝ :=
  { convWeight := Tensor.tab3 2 1 3 fun _ _ _ => 1, convBias := Tensor.tab1 2 fun _ => 0
    queryProj := .init 2 2 false (fun _ _ => 1) (fun _ => 0), valueProj := .init 2 2 false (fun _ _ => 1) (fun _ => 0)
    scoreProj := .init 2 1 true (fun _ _ => 1) (fun _ => 0), bias := Tensor.tab1 2 fun _ => 0, smoothing := s }

example (s : Bool) : ∃ c a, (exLocation s).forward (Tensor.tab3 1 1 2 fun _ _ _ => 1) (Tensor.tab3 1 3 2 fun _ _ _ => 7) none = .ok (c, a) ∧ c.get [0, 1] = 7 := by
  obtain ⟨c, a, h1, -, -, h2⟩ := C67_location (exLocation s) (B := 1) (T := 3) (q := 1) (H := 2) ⟨by norm_num, rfl, rfl, rfl, rfl, rfl⟩ (query := Tensor.tab3 1 1 2 fun _ _ _ => 1)
    (value := Tensor.tab3 1 3 2 fun _ _ _ => 7) (last := none) (by norm_num) (by norm_num) rfl rfl (Or.inr rfl) (by simp)
  obtain ⟨-, -, h3, -, h4⟩ := h2 0 (by norm_num)
  refine ⟨c, a, h1, ?_⟩
  rw [h4 1 (by norm_num)]
  obtain ⟨lo, hi⟩ := mix_bounds h3 (v := fun j => (Tensor.tab3 1 3 2 fun _ _ _ => (7 : ℝ)).get [0, j, 1]) (a := 7) (b := 7) (by
    intro j hj _
    beta_reduce
    rw [Tensor.get_tab3 (by norm_num) hj (by norm_num)]
    exact ⟨le_rfl, le_rfl⟩)
  exact le_antisymm hi lo

/-- Two heads of one feature; the value projection gives the first head the first input, the second head nothing. -/
noncomputable def exMultiLocation : MultiLocationAttn ℝ :=
  { numHeads := 2, dim := 1, convWeight := Tensor.tab3 1 2 3 fun _ _ _ => 1, convBias := Tensor.tab1 1 fun _ => 0
    locProj := .init 1 1 false (fun _ _ => 1) (fun _ => 0), queryProj := .init 2 2 false (fun _ _ => 1) (fun _ => 0)
    valueProj := .init 2 2 false (fun i j => if i = 0 ∧ j = 0 then 1 else 0) (fun _ => 0), scoreProj := .init 1 1 true (fun _ _ => 1) (fun _ => 0), bias := Tensor.tab1 1 fun _ => 0 }

example : ∃ c a, exMultiLocation.forward (Tensor.tab3 1 1 2 fun _ _ _ => 1) (Tensor.tab3 1 2 2 fun _ _ _ => 1) none = .ok (c, a) ∧ 0 < c.get [0, 0, 1] := by
  have hf : ∀ t < 2, ∀ r, exMultiLocation.feature 2 (Tensor.tab3 1 2 2 fun _ _ _ => 1) 0 t r = if r = 0 then 1 else 0 := by
    intro t ht r
    unfold MultiLocationAttn.feature linearRow
    rw [Finset.sum_range_succ, Finset.sum_range_one]
    beta_reduce
    rw [Tensor.get_tab3 (by norm_num) ht (by norm_num), Tensor.get_tab3 (by norm_num) ht (by norm_num)]
    rcases Nat.lt_or_ge r 2 with hr | hr
    · rw [show exMultiLocation.valueProj.weight = Tensor.tab2 2 2 fun i j => if i = 0 ∧ j = 0 then 1 else 0 from rfl, Tensor.get_tab2 hr (by norm_num), Tensor.get_tab2 hr (by norm_num)]
      interval_cases r <;> simp [Linear.biasAt, exMultiLocation, Linear.init]
    · have e : ∀ q, exMultiLocation.valueProj.weight.get [r, q] = 0 := by
        intro q
        unfold Tensor.get
        apply List.getD_eq_default
        have : r * 2 + q ≥ 4 := by omega
        simpa [exMultiLocation, Linear.init, Tensor.tab2, Tensor.tabulate, ravel, numel] using this
      rw [e, e, if_neg (by omega)]
      simp [Linear.biasAt, exMultiLocation, Linear.init]
  obtain ⟨c, a, h1, h2⟩ := C67_multi_mixed exMultiLocation (I := 2) (C := 1) (B := 1) (T := 2) ⟨by decide, by decide, rfl, rfl, rfl, rfl, rfl, rfl⟩
    (query := Tensor.tab3 1 1 2 fun _ _ _ => 1) (value := Tensor.tab3 1 2 2 fun _ _ _ => 1) (last := none) (by decide) (by norm_num) rfl rfl (by simp) (b := 0) (by norm_num)
    (by
      intro t ht r hr
      have : r < 1 := hr
      rw [hf t ht r, if_pos (by omega)])
    (by
      intro t ht r hr
      have : 1 ≤ r := hr
      rw [hf t ht r, if_neg (by omega)])
  exact ⟨c, a, h1, (h2 0 (by decide)).1⟩

end examples

end HOL
