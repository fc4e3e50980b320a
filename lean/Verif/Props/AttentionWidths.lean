import Verif.Props.Attention

/-! # C64, C65, C66: queries, keys and values of the wrong width -/

namespace HOL

/-- The only exception is a RuntimeError. -/
def OnlyRuntime {α : Type} (r : Py α) : Prop := ∀ e, r = .error e → e = .runtimeError

theorem OnlyRuntime.bind {α β : Type} {r : Py α} (h : OnlyRuntime r) {f : α → Py β} (hf : ∀ a, r = .ok a → f a = .error .runtimeError) : (r >>= f) = .error .runtimeError := by
  cases hr : r with
  | error e =>
    obtain rfl := h e hr
    rfl
  | ok a => exact hf a hr

theorem Linear.onlyRuntime (L : Linear ℝ) (x : Tensor ℝ) : OnlyRuntime (L.forward x) := by
  intro e he
  unfold Linear.forward linearLast at he
  repeat' split at he
  all_goals cases he
  all_goals rfl

/-- A tensor whose last axis does not have the width of the layer is rejected. -/
theorem Linear.wrong_width (L : Linear ℝ) {I O : ℕ} (hw : L.weight.shape = [O, I]) {x : Tensor ℝ} (hx : x.shape.getLast? ≠ some I) : L.forward x = .error .runtimeError := by
  unfold Linear.forward linearLast
  rw [hw]
  cases hl : x.shape.getLast? with
  | none => rfl
  | some i =>
    dsimp only
    rw [if_neg]
    rintro rfl
    exact hx hl

theorem viewSecond_onlyRuntime (b : ℕ) (s : List ℕ) (x : Tensor ℝ) : OnlyRuntime (viewSecond b s x) := by
  intro e he
  unfold viewSecond at he
  dsimp only at he
  repeat' split at he
  all_goals cases he
  all_goals rfl

theorem splitHeads_onlyRuntime (L : Linear ℝ) (b n d : ℕ) (x : Tensor ℝ) : OnlyRuntime (splitHeads L b n d x) := by
  intro e he
  unfold splitHeads at he
  cases hr : L.forward x with
  | error e' =>
    rw [hr] at he
    cases he
    exact L.onlyRuntime x _ hr
  | ok y =>
    rw [hr] at he
    exact viewSecond_onlyRuntime _ _ _ _ he

theorem splitHeads_wrong (L : Linear ℝ) {I O : ℕ} (hw : L.weight.shape = [O, I]) (b n d : ℕ) {x : Tensor ℝ} (hx : x.shape.getLast? ≠ some I) : splitHeads L b n d x = .error .runtimeError := by
  unfold splitHeads
  rw [L.wrong_width hw hx]
  rfl

theorem permute_onlyRuntime (p : List ℕ) (x : Tensor ℝ) : OnlyRuntime (permute p x) := by
  intro e he
  unfold permute at he
  split at he
  all_goals cases he
  rfl

/-- **C65 (widths).** `MultiHeadAttention` raises RuntimeError if the last axis of the query, the keys or the values is not `d_model` wide. -/
theorem C65_width (M : MultiHead ℝ) {I : ℕ} (hM : M.Wf I) {query key value : Tensor ℝ} (mask : Option (Tensor ℕ)) (hv : value.shape ≠ [])
    (hbad : query.shape.getLast? ≠ some I ∨ key.shape.getLast? ≠ some I ∨ value.shape.getLast? ≠ some I) : M.forward query key value mask = .error .runtimeError := by
  unfold MultiHead.forward
  obtain ⟨b, s, hs⟩ := List.exists_cons_of_ne_nil hv
  have hb : sizeZero value = .ok b := by
    unfold sizeZero
    rw [hs]
  rw [hb]
  refine (splitHeads_onlyRuntime M.queryProj b _ _ query).bind fun q hq => (splitHeads_onlyRuntime M.keyProj b _ _ key).bind fun k hk =>
    (splitHeads_onlyRuntime M.valueProj b _ _ value).bind fun v hv' => ?_
  rcases hbad with h | h | h
  · cases (splitHeads_wrong _ hM.query _ _ _ h).symm.trans hq
  · cases (splitHeads_wrong _ hM.key _ _ _ h).symm.trans hk
  · cases (splitHeads_wrong _ hM.value _ _ _ h).symm.trans hv'

/-- **C66 (widths).** `RelativeMultiHeadAttention` raises RuntimeError if the last axis of the query, the keys, the values or the positions is not `d_model` wide. -/
theorem C66_width (A : RelativeAttn ℝ) (hA : A.Wf) {query key value pos : Tensor ℝ} (mask : Option (Tensor ℕ)) (hv : value.shape ≠ [])
    (hbad : query.shape.getLast? ≠ some A.dModel ∨ key.shape.getLast? ≠ some A.dModel ∨ value.shape.getLast? ≠ some A.dModel ∨ pos.shape.getLast? ≠ some A.dModel) :
    A.forward query key value pos mask = .error .runtimeError := by
  unfold RelativeAttn.forward
  obtain ⟨b, s, hs⟩ := List.exists_cons_of_ne_nil hv
  have hb : sizeZero value = .ok b := by
    unfold sizeZero
    rw [hs]
  rw [hb]
  refine (splitHeads_onlyRuntime A.queryProj b _ _ query).bind fun q hq => (splitHeads_onlyRuntime A.keyProj b _ _ key).bind fun k hk =>
    (permute_onlyRuntime _ _).bind fun k' _ => (splitHeads_onlyRuntime A.valueProj b _ _ value).bind fun v hv' => (permute_onlyRuntime _ _).bind fun v' _ =>
      (splitHeads_onlyRuntime A.posProj b _ _ pos).bind fun p hp => ?_
  rcases hbad with h | h | h | h
  · cases (splitHeads_wrong _ hA.query _ _ _ h).symm.trans hq
  · cases (splitHeads_wrong _ hA.key _ _ _ h).symm.trans hk
  · cases (splitHeads_wrong _ hA.value _ _ _ h).symm.trans hv'
  · cases (splitHeads_wrong _ hA.pos _ _ _ h).symm.trans hp

/-- **C64 (widths).** `AdditiveAttention(H)` raises RuntimeError if the last axis of the query or of the keys is not `H` wide. -/
theorem C64_additive_width (H : ℕ) (wq wk ws : ℕ → ℕ → ℝ) (bs r : ℕ → ℝ) {query key value : Tensor ℝ} (hbad : query.shape.getLast? ≠ some H ∨ key.shape.getLast? ≠ some H) :
    (AdditiveAttn.init H wq wk ws bs r).forward query key value = .error .runtimeError := by
  unfold AdditiveAttn.forward
  refine (Linear.onlyRuntime _ key).bind fun k hk => (Linear.onlyRuntime _ query).bind fun q hq => ?_
  rcases hbad with h | h
  · cases (Linear.wrong_width _ (I := H) (O := H) rfl h).symm.trans hq
  · cases (Linear.wrong_width _ (I := H) (O := H) rfl h).symm.trans hk

/-- Values of width 3 for two heads of two features. -/
example (mask : Option (Tensor ℕ)) (q k v : Draw ℝ) : ∃ M, MultiHead.init 4 2 q k v = .ok M ∧
    M.forward (Tensor.tab3 1 2 4 fun _ _ _ => 1) (Tensor.tab3 1 2 4 fun _ _ _ => 1) (Tensor.tab3 1 2 3 fun _ _ _ => 1) mask = .error .runtimeError := by
  refine ⟨_, rfl, C65_width (I := 4) _ ⟨by show 0 < 2; norm_num, by show 0 < 4 / 2; norm_num, rfl, rfl, rfl⟩ mask (by simp) (Or.inr (Or.inr ?_))⟩
  simp

end HOL
