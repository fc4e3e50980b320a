import Verif.Lemmas.TailFocus
import Mathlib.Tactic.IntervalCases

/-! # C55: tail focus networks -/

namespace HOL
open TorchScalar Spec

section
set_option linter.unusedSectionVars false
variable {K : Type} [TorchScalar K]

/-- **C55 (forward).** In every arithmetic: a configuration of `m` layers of 1d classes with a non-empty list `focus` is accepted. Whatever the weights and the (shape
preserving) normalizations are later, the output for a signal is the concatenation of `T + 1` blocks: for `i < T` the last `focus[i]` columns (all columns if
`focus[i]` is zero or too large) of the signal `ys i` after `i` layers, and then the whole final signal, every block flattened channel by channel. With
normalizations `T` is the smaller of `m + 1` and `len(focus)`; without, only the tail of the input is kept: `T = 1`. -/
theorem C55_forward {a : ConvNetArgs K} {cls : ℕ → ConvClass} {m : ℕ} (h : a.Fine a.kernelSize.length .one cls m) {focus : List ℕ}
    (hf : a.focus.map (·.toList a.kernelSize.length) = some focus) (hF : 1 ≤ focus.length) (rand : ℕ → ConvRng K) :
    ∃ (N : TailFocus K) (Ls : ℕ → ConvLayer K), TailFocus.init a rand = .ok N ∧
      N = ⟨stagesOf m Ls (a.normalization.map fun f i => f i (a.chan (i + 1))), a.channels, a.kernelSize, (a.lists a.kernelSize.length).stride, some focus⟩ ∧
      ∀ (Ws : ℕ → Tensor K) (g : Option (ℕ → Fwd K)), (∀ i < m, (Ws i).shape = (Ls i).weight.shape) →
      ∀ (B w : ℕ) (x : Tensor K), x.WF → x.shape = [B, a.chan 0, w] →
      (∀ i < m, a.kern i ≤ a.widthAt a.kernelSize.length w i + 2 * a.padding) →
      (∀ f ∈ g, ∀ i < m, KeepsBatch (f i) [B, a.chan (i + 1), a.widthAt a.kernelSize.length w (i + 1)]) →
      let Ls' := fun i => ({ Ls i with weight := Ws i } : ConvLayer K)
      let width := a.widthAt a.kernelSize.length w
      let T := if g.isSome then min (m + 1) focus.length else 1
      let tail := fun i => tailLen (focus.getD i 0) (width i)
      let len := fun i => if i < T then a.chan i * tail i else a.chan m * width m
      ∃ ys : ℕ → Tensor K, ys 0 = x ∧
        (∀ i ≤ m, runStages (stagesOf i Ls' g) x = .ok (ys i) ∧ (ys i).WF ∧ (ys i).shape = [B, a.chan i, width i]) ∧
        ∃ out, ({ N with stages := stagesOf m Ls' g } : TailFocus K).forward x = .ok out ∧ out.WF ∧
          out.shape = [B, ∑ i ∈ Finset.range (T + 1), len i] ∧
          (∀ b < B, ∀ i < T, ∀ c < a.chan i, ∀ q < tail i,
            out.get [b, (∑ j ∈ Finset.range i, len j) + (c * tail i + q)] = (ys i).get [b, c, width i - tail i + q]) ∧
          (∀ b < B, ∀ c < a.chan m, ∀ q < width m,
            out.get [b, (∑ j ∈ Finset.range T, len j) + (c * width m + q)] = (ys m).get [b, c, q]) := by
  obtain ⟨Ls, h1, h2⟩ := convStages_ok h rand
  have hlen := h.channels
  have hm := h.layers
  refine ⟨_, Ls, by unfold TailFocus.init; dsimp only; rw [h1, hf]; rfl, rfl, ?_⟩
  intro Ws g hWs B w x hx hxs hw hg Ls' width T tail len
  have hL : ∀ i < m, (Ls' i).Between .one (a.chan i) (a.chan (i + 1)) (a.kern i) (a.step a.kernelSize.length i) a.padding :=
    fun i hi => (h2 i hi).withWeight (hWs i hi)
  have maps : ∀ i < m, MapsShape (Ls' i).forward [a.chan i, width i] [a.chan (i + 1), width (i + 1)] := fun i hi =>
    (hL i hi).mapsShape (H := width i) (W := 0) (h.kernel i hi).2 (h.stride i hi).2 (hw i hi) (by simp)
  -- the signals after every layer
  have hys : ∀ i, ∃ y : Tensor K, i ≤ m → runStages (stagesOf i Ls' g) x = .ok y ∧ y.WF ∧ y.shape = [B, a.chan i, width i] := by
    intro i
    by_cases hi : i ≤ m
    · obtain ⟨y, hy⟩ := runStages_keeps (m := i) (Ls := Ls') (g := g) (S := fun i => [a.chan i, width i])
        (fun j hj => maps j (by omega)) (fun f hf j hj => hg f hf j (by omega)) hx hxs
      exact ⟨y, fun _ => hy⟩
    · exact ⟨x, fun h => absurd h hi⟩
  choose ys hys using hys
  have hy0 : ys 0 = x := by
    have := (hys 0 (Nat.zero_le _)).1
    exact (Except.ok.inj this).symm
  refine ⟨ys, hy0, fun i hi => hys i hi, ?_⟩
  -- tails
  have htails : ∀ i, ∃ t : Tensor K, i ≤ m → tailSlice (focus.getD i 0) (ys i) = .ok t ∧ t.WF ∧ t.shape = [B, a.chan i * tail i] ∧
      ∀ b < B, ∀ c < a.chan i, ∀ q < tail i, t.get [b, c * tail i + q] = (ys i).get [b, c, width i - tail i + q] := by
    intro i
    by_cases hi : i ≤ m
    · obtain ⟨t, ht⟩ := tailSlice_ok (hys i hi).2.2 (focus.getD i 0)
      exact ⟨t, fun _ => ht⟩
    · exact ⟨x, fun h => absurd h hi⟩
  choose tails htails using htails
  -- the last block
  have hlast : flatten1 (ys m) = .ok ((ys m).reshape [B, a.chan m * width m]) := by
    unfold flatten1
    rw [(hys m le_rfl).2.2]
    simp [numel]
  have hT : T ≤ m + 1 ∧ 1 ≤ T := by
    cases g with
    | none => exact ⟨Nat.succ_le_succ (Nat.zero_le _), le_refl _⟩
    | some f => exact ⟨min_le_left _ _, le_min (by omega) hF⟩
  -- the loop
  have hloop : TailFocus.loop focus (stagesOf m Ls' g) 1 x = .ok (ys m, (List.range' 1 (T - 1)).map tails) := by
    cases g with
    | none =>
      have e : stagesOf m Ls' none = ((List.range m).map Ls').map ConvStage.conv := by
        unfold stagesOf
        rw [List.map_map]
        exact List.flatMap_pure_eq_map _ _
      have hT1 : T = 1 := rfl
      have hr := (hys m le_rfl).1
      rw [hT1]
      rw [e] at hr ⊢
      rw [loop_conv, hr]
      rfl
    | some f =>
      have hT1 : T = min (m + 1) focus.length := rfl
      have e : stagesOf m Ls' (some f) = (List.range' 0 m).flatMap fun j => [.conv (Ls' j), .normal (f j)] := by
        rw [stagesOf, List.range_eq_range']
        rfl
      have hstep : ∀ j < m, ∃ z, (Ls' j).forward (ys j) = .ok z ∧ f j z = .ok (ys (j + 1)) := by
        intro j hj
        have r1 := (hys (j + 1) (by omega)).1
        rw [stagesOf_succ, runStages_append, (hys j (by omega)).1] at r1
        simp only [bind, Except.bind, Option.map_some, Option.toList_some, runStages, ConvStage.call] at r1
        cases hz : (Ls' j).forward (ys j) with
        | error e => rw [hz] at r1; cases r1
        | ok z =>
          rw [hz] at r1
          refine ⟨z, rfl, ?_⟩
          dsimp only at r1
          cases hu : f j z with
          | error e => rw [hu] at r1; cases r1
          | ok u => rw [hu] at r1; exact r1
      have := loop_normalized hstep (fun j hj => (htails j hj).1) m 0 (by omega)
      rw [hy0] at this
      rw [e, this, hT1]
      congr 4
      omega
  have hfocus0 : pyIndex focus 0 = .ok (focus.getD 0 0) := pyIndex_ok (by omega) 0
  have hfirst : tailSlice (focus.getD 0 0) x = .ok (tails 0) := by
    have := (htails 0 (Nat.zero_le _)).1
    rwa [hy0] at this
  let ts : ℕ → Tensor K := fun i => if i < T then tails i else (ys m).reshape [B, a.chan m * width m]
  obtain ⟨out, o1, o2, o3, o4⟩ := catColumns_ok (k := T + 1) (B := B) (ts := ts) (n := len) (by omega) (by
    intro i hi
    show (if i < T then _ else _ : Tensor K).shape = _
    by_cases hiT : i < T
    · rw [if_pos hiT, (htails i (by omega)).2.2.1]
      show _ = [B, if i < T then _ else _]
      rw [if_pos hiT]
    · rw [if_neg hiT]
      show _ = [B, if i < T then _ else _]
      rw [if_neg hiT]
      rfl)
  refine ⟨out, ?_, o2, o3, ?_, ?_⟩
  · unfold TailFocus.forward
    simp only [bind, Except.bind, hfocus0, hfirst, hloop, hlast]
    rw [← o1]
    congr 1
    have e1 : List.range (T + 1) = 0 :: List.range' 1 (T - 1) ++ [T] := by
      rw [List.range_succ, List.range_eq_range']
      obtain ⟨T', hT'⟩ : ∃ T', T = T' + 1 := ⟨T - 1, by omega⟩
      rw [hT', List.range'_succ]
      rfl
    rw [e1, List.map_append, List.map_cons]
    congr 2
    · show _ = (if 0 < T then _ else _)
      rw [if_pos (by omega)]
    · apply List.map_congr_left
      intro i hi
      rw [List.mem_range'_1] at hi
      show _ = (if i < T then _ else _)
      rw [if_pos (by omega)]
    · show _ = (if T < T then _ else _)
      rw [if_neg (lt_irrefl _)]
  · intro b hb i hi c hc q hq
    have hl : len i = a.chan i * tail i := if_pos hi
    rw [o4 b hb i (by omega) _ (by rw [hl]; exact mul_add_lt hc hq)]
    show Tensor.get (if i < T then _ else _) _ = _
    rw [if_pos hi]
    exact (htails i (by omega)).2.2.2 b hb c hc q hq
  · intro b hb c hc q hq
    have hl : len T = a.chan m * width m := if_neg (lt_irrefl _)
    rw [o4 b hb T (by omega) _ (by rw [hl]; exact mul_add_lt hc hq)]
    show Tensor.get (if T < T then _ else _) _ = _
    rw [if_neg (lt_irrefl _), Tensor.get_reshape (idx' := [b, c, q])]
    rw [(hys m le_rfl).2.2, ravel3]
    simp [ravel, numel]
    ring

theorem neg_ediv_ceil (d : ℕ) {s : ℕ} (hs : 1 ≤ s) : -((-((d : ℤ) + 1)) / (s : ℤ)) = ((d / s + 1 : ℕ) : ℤ) := by
  have h := Int.negSucc_ediv d (b := (s : ℤ)) (by exact_mod_cast hs)
  rw [Int.negSucc_eq] at h
  rw [h, neg_neg]
  push_cast
  rfl

theorem widthsFrom_ok {a : ConvNetArgs K} {m : ℕ} (hk : a.kernelSize.length = m) (hp : a.padding = 0) {st : List ℕ}
    (hst : (a.lists m).stride = some st) (hsl : m ≤ st.length) (hs : ∀ i < m, 1 ≤ a.step m i) {w : ℕ} (hw : ∀ i < m, a.kern i ≤ a.widthAt m w i)
    {N : TailFocus K} (hN : N.stride = some st) :
    ∀ ks i, a.kernelSize.drop i = ks → i ≤ m →
      N.widthsFrom (a.widthAt m w i) i ks = .ok ((List.range' i (ks.length + 1)).map fun j => (a.widthAt m w j : ℤ)) := by
  intro ks
  induction ks with
  | nil => intro i _ _; rfl
  | cons k ks ih =>
    intro i hi him
    have hlt : i < m := by
      have := congrArg List.length hi
      rw [List.length_drop, List.length_cons] at this
      omega
    have hki : a.kern i = k := by
      unfold ConvNetArgs.kern
      have h1 : a.kernelSize.drop i = a.kernelSize[i] :: a.kernelSize.drop (i + 1) := List.drop_eq_getElem_cons (by omega)
      rw [h1] at hi
      rw [List.getD_eq_getElem _ _ (by omega)]
      exact (List.cons.inj hi).1
    have htl : a.kernelSize.drop (i + 1) = ks := by
      have h1 : a.kernelSize.drop i = a.kernelSize[i] :: a.kernelSize.drop (i + 1) := List.drop_eq_getElem_cons (by omega)
      rw [h1] at hi
      exact (List.cons.inj hi).2
    have hstep : a.step m i = st.getD i 0 := by unfold ConvNetArgs.step; rw [hst]
    have hnext : N.nextWidth (a.widthAt m w i) i k = .ok (a.widthAt m w (i + 1) : ℤ) := by
      unfold TailFocus.nextWidth
      rw [hN]
      simp only [bind, Except.bind, pyIndex_ok (l := st) (i := i) (by omega) 0, ← hstep]
      have h1 := hs i hlt
      have h2 := hw i hlt
      rw [if_neg (by omega), ConvNetArgs.widthAt, convOut, hp, hki]
      congr 1
      rw [hki] at h2
      have h3 : ((a.widthAt m w i : ℤ) - (k : ℤ) + 1) = ((a.widthAt m w i + 2 * 0 - k : ℕ) : ℤ) + 1 := by omega
      rw [h3]
      exact neg_ediv_ceil _ h1
    rw [TailFocus.widthsFrom, hnext]
    simp only [bind, Except.bind]
    rw [ih (i + 1) htl hlt, List.length_cons, List.range'_succ (n := ks.length + 1), List.map_cons]

/-- **C55 (compute_sizes).** For every configuration of the previous theorem without padding, with given strides and one kernel per layer, if no kernel is wider than its signal:
`compute_sizes(w)` returns the true widths of the signals after each layer, and as sizes of the blocks `channels[i] focus[i]` and then `channels[len(focus)]` times
the last width (an IndexError if there are more than `m` focus values). -/
theorem C55_compute_sizes {a : ConvNetArgs K} {cls : ℕ → ConvClass} {m : ℕ} (h : a.Fine m .one cls m) (hk : a.kernelSize.length = m) (hp : a.padding = 0)
    {st focus : List ℕ} (hst : (a.lists m).stride = some st) (hf : a.focus.map (·.toList m) = some focus) {w : ℕ} (hw : ∀ i < m, a.kern i ≤ a.widthAt m w i)
    {rand : ℕ → ConvRng K} {N : TailFocus K} (hN : TailFocus.init a rand = .ok N) :
    (focus.length ≤ m → N.computeSizes w = .ok ((List.range (m + 1)).map fun i => (a.widthAt m w i : ℤ),
      ((List.range focus.length).map fun i => ((a.chan i * focus.getD i 0 : ℕ) : ℤ)) ++ [((a.chan focus.length * a.widthAt m w m : ℕ) : ℤ)])) ∧
    (m < focus.length → N.computeSizes w = .error .indexError) := by
  obtain ⟨Ls, h1, h2⟩ := convStages_ok h rand
  have hlen := h.channels
  have hm := h.layers
  have hNeq : N = ⟨stagesOf m Ls (a.normalization.map fun f i => f i (a.chan (i + 1))), a.channels, a.kernelSize, some st, some focus⟩ := by
    unfold TailFocus.init at hN
    dsimp only at hN
    rw [hk, h1, hf, hst] at hN
    exact (Except.ok.inj hN).symm
  have hsl : m ≤ st.length := by
    have := (h.stride (m - 1) (by omega)).1 st hst
    omega
  have hws : N.widthsFrom w 0 N.kernelSize = .ok ((List.range (m + 1)).map fun j => (a.widthAt m w j : ℤ)) := by
    have := widthsFrom_ok hk hp hst hsl (fun i hi => (h.stride i hi).2) hw (N := N) (by rw [hNeq]) a.kernelSize 0 rfl (Nat.zero_le _)
    rw [hk] at this
    rw [hNeq] at this ⊢
    rw [List.range_eq_range']
    exact this
  have hlast : ((List.range (m + 1)).map fun j => (a.widthAt m w j : ℤ)).getLastD 0 = (a.widthAt m w m : ℤ) := by
    rw [List.range_succ, List.map_append]
    simp
  have hall : (focus.map (fun v : ℕ => (v : ℤ)) ++ [(a.widthAt m w m : ℤ)]).zipIdx
      = ((List.range focus.length).map fun i => ((focus.getD i 0 : ℤ), i)) ++ [((a.widthAt m w m : ℤ), focus.length)] := by
    rw [List.zipIdx_append]
    simp only [List.length_map, Nat.zero_add, List.zipIdx_singleton]
    congr 1
    apply List.ext_getElem
    · simp
    · intro i h1 h2
      simp only [List.length_zipIdx, List.length_map] at h1
      simp only [List.getElem_zipIdx, List.getElem_map, List.getElem_range, Nat.zero_add, Prod.mk.injEq, and_true]
      rw [List.getD_eq_getElem _ _ h1]
  have hfocus : N.focus = some focus := by rw [hNeq]
  have hch : N.channels = a.channels := by rw [hNeq]
  unfold TailFocus.computeSizes
  simp only [bind, Except.bind, hws, hfocus, hlast, hall, hch]
  constructor
  · intro hF
    rw [mapM_ok (g := fun p : ℤ × ℕ => (a.chan p.2 : ℤ) * p.1)]
    · simp
    · intro p hp'
      have : p.2 < a.channels.length := by
        rw [List.mem_append] at hp'
        rcases hp' with h' | h'
        · obtain ⟨i, hi, rfl⟩ := List.mem_map.1 h'
          rw [List.mem_range] at hi
          dsimp only
          omega
        · rw [List.mem_singleton] at h'
          rw [h']
          dsimp only
          omega
      rw [pyIndex_ok this 0]
      rfl
  · intro hF
    have hsplit : ((List.range focus.length).map fun i => ((focus.getD i 0 : ℤ), i)) ++ [((a.widthAt m w m : ℤ), focus.length)]
        = ((List.range focus.length ++ [focus.length]).map fun i => (if i < focus.length then (focus.getD i 0 : ℤ) else (a.widthAt m w m : ℤ), i)) := by
      rw [List.map_append]
      congr 1
      · apply List.map_congr_left
        intro i hi
        rw [List.mem_range] at hi
        simp [hi]
      · simp
    rw [hsplit, ← List.range_succ, range_split (n := focus.length + 1) (j := m + 1) (by omega), List.map_append, List.map_cons,
      mapM_prefix_error (e := .indexError)]
    · intro p hp'
      obtain ⟨i, hi, rfl⟩ := List.mem_map.1 hp'
      rw [List.mem_range] at hi
      refine ⟨(a.channels.getD i 0 : ℤ) * (if i < focus.length then (focus.getD i 0 : ℤ) else (a.widthAt m w m : ℤ)), ?_⟩
      dsimp only
      rw [pyIndex_ok (l := a.channels) (i := i) (by omega) 0]
    · dsimp only
      rw [pyIndex_error (by omega)]

theorem sum_map_range_int (n : ℕ) (f : ℕ → ℕ) : ((List.range n).map fun i => (f i : ℤ)).sum = ((∑ i ∈ Finset.range n, f i : ℕ) : ℤ) := by
  induction n with
  | zero => rfl
  | succ n ih => rw [List.range_succ, List.map_append, List.sum_append, ih, Finset.sum_range_succ]; simp

/-- **C55.** A normalized network of `m` 1d layers without padding, with given strides, one kernel and one focus value `1 ≤ focus[i] ≤ width[i]` per layer:
`compute_sizes(w)` tells the widths of the signals before and after every layer, and the sizes of the blocks of the output of `forward`, which are the last `focus[i]`
columns of the input and of the signals after each but the last layer, and the whole final signal. In particular the output is `sum(output_sizes)` wide. -/
theorem C55_sizes_match {a : ConvNetArgs K} {cls : ℕ → ConvClass} {m : ℕ} (h : a.Fine m .one cls m) (hk : a.kernelSize.length = m) (hp : a.padding = 0)
    {st focus : List ℕ} (hst : (a.lists m).stride = some st) (hf : a.focus.map (·.toList m) = some focus) (hF : focus.length = m) (rand : ℕ → ConvRng K) :
    ∃ (N : TailFocus K) (Ls : ℕ → ConvLayer K), TailFocus.init a rand = .ok N ∧
      N.stages = stagesOf m Ls (a.normalization.map fun f i => f i (a.chan (i + 1))) ∧
      ∀ (Ws : ℕ → Tensor K) (g : ℕ → Fwd K), (∀ i < m, (Ws i).shape = (Ls i).weight.shape) →
      ∀ (B w : ℕ) (x : Tensor K), x.WF → x.shape = [B, a.chan 0, w] → (∀ i < m, a.kern i ≤ a.widthAt m w i) →
      (∀ i < m, 1 ≤ focus.getD i 0 ∧ focus.getD i 0 ≤ a.widthAt m w i) → (∀ i < m, KeepsBatch (g i) [B, a.chan (i + 1), a.widthAt m w (i + 1)]) →
      let Ls' := fun i => ({ Ls i with weight := Ws i } : ConvLayer K)
      ∃ (widths sizes : List ℤ) (out : Tensor K), N.computeSizes w = .ok (widths, sizes) ∧
        ({ N with stages := stagesOf m Ls' (some g) } : TailFocus K).forward x = .ok out ∧ out.WF ∧
        out.shape.map (fun v => (v : ℤ)) = [(B : ℤ), sizes.sum] ∧ widths.length = m + 1 ∧ sizes.length = m + 1 ∧
        ∀ i ≤ m, ∃ y : Tensor K, runStages (stagesOf i Ls' (some g)) x = .ok y ∧ y.shape.map (fun v => (v : ℤ)) = [(B : ℤ), a.chan i, widths.getD i 0] ∧
          ∀ f, f = (if i < m then focus.getD i 0 else a.widthAt m w m) → sizes.getD i 0 = (a.chan i * f : ℕ) ∧
            ∀ b < B, ∀ c < a.chan i, ∀ q < f,
              out.get [b, ((sizes.take i).sum.toNat) + (c * f + q)] = y.get [b, c, (widths.getD i 0).toNat - f + q] := by
  have hm := h.layers
  subst hk
  obtain ⟨N, Ls, n1, n2, n3⟩ := C55_forward h hf (by omega) rand
  refine ⟨N, Ls, n1, by rw [n2], ?_⟩
  intro Ws g hWs B w x hx hxs hw hfo hg Ls'
  have hT : min (a.kernelSize.length + 1) focus.length = a.kernelSize.length := by omega
  obtain ⟨ys, -, y1, out, o1, o2, o3, o4, o5⟩ := n3 Ws (some g) hWs B w x hx hxs (fun i hi => le_trans (hw i hi) (by omega)) (by
    intro f hf' i hi
    cases hf'
    exact hg i hi)
  simp only [Option.isSome_some, if_true, hT] at o3 o4 o5
  have cs := (C55_compute_sizes h rfl hp hst hf hw n1).1 (by omega)
  rw [hF] at cs
  have tl : ∀ i < a.kernelSize.length, tailLen (focus.getD i 0) (a.widthAt a.kernelSize.length w i) = focus.getD i 0 := by
    intro i hi
    obtain ⟨f1, f2⟩ := hfo i hi
    unfold tailLen
    rw [if_neg (by omega), min_eq_left f2]
  -- the sizes as one function
  let size : ℕ → ℕ := fun i => a.chan i * (if i < a.kernelSize.length then focus.getD i 0 else a.widthAt a.kernelSize.length w a.kernelSize.length)
  have hsizes : ((List.range a.kernelSize.length).map fun i => ((a.chan i * focus.getD i 0 : ℕ) : ℤ)) ++
      [((a.chan a.kernelSize.length * a.widthAt a.kernelSize.length w a.kernelSize.length : ℕ) : ℤ)]
      = (List.range (a.kernelSize.length + 1)).map fun i => (size i : ℤ) := by
    rw [List.range_succ, List.map_append]
    congr 1
    · apply List.map_congr_left
      intro i hi
      rw [List.mem_range] at hi
      show _ = ((a.chan i * (if _ then _ else _) : ℕ) : ℤ)
      rw [if_pos hi]
    · show _ = [((a.chan _ * (if _ then _ else _) : ℕ) : ℤ)]
      rw [if_neg (lt_irrefl _)]
  rw [hsizes] at cs
  have hlen : ∀ i ≤ a.kernelSize.length, (if i < a.kernelSize.length then
      a.chan i * tailLen (focus.getD i 0) (a.widthAt a.kernelSize.length w i)
      else a.chan a.kernelSize.length * a.widthAt a.kernelSize.length w a.kernelSize.length) = size i := by
    intro i hi
    show _ = a.chan i * (if _ then _ else _)
    by_cases hlt : i < a.kernelSize.length
    · rw [if_pos hlt, if_pos hlt, tl i hlt]
    · have : i = a.kernelSize.length := by omega
      rw [if_neg hlt, if_neg hlt, this]
  have hsum : ∀ i ≤ a.kernelSize.length + 1, (∑ j ∈ Finset.range i, if j < a.kernelSize.length then
      a.chan j * tailLen (focus.getD j 0) (a.widthAt a.kernelSize.length w j)
      else a.chan a.kernelSize.length * a.widthAt a.kernelSize.length w a.kernelSize.length) = ∑ j ∈ Finset.range i, size j := by
    intro i hi
    apply Finset.sum_congr rfl
    intro j hj
    rw [Finset.mem_range] at hj
    exact hlen j (by omega)
  have htake : ∀ i ≤ a.kernelSize.length, (((List.range (a.kernelSize.length + 1)).map fun i => (size i : ℤ)).take i).sum.toNat
      = ∑ j ∈ Finset.range i, size j := by
    intro i hi
    rw [← List.map_take, List.take_range, min_eq_left (by omega), sum_map_range_int]
    rfl
  have hwd : ∀ i ≤ a.kernelSize.length, ((List.range (a.kernelSize.length + 1)).map fun i => (a.widthAt a.kernelSize.length w i : ℤ)).getD i 0
      = (a.widthAt a.kernelSize.length w i : ℤ) := by
    intro i hi
    rw [List.getD_eq_getElem _ _ (by simp; omega)]
    simp
  refine ⟨_, _, out, cs, o1, o2, ?_, by simp, by simp, ?_⟩
  · rw [o3, hsum _ le_rfl, sum_map_range_int]
    rfl
  · intro i hi
    obtain ⟨r1, r2, r3⟩ := y1 i hi
    refine ⟨ys i, r1, by rw [r3, hwd i hi]; rfl, ?_⟩
    intro f hf'
    constructor
    · rw [List.getD_eq_getElem _ _ (by simp; omega)]
      simp only [List.getElem_map, List.getElem_range]
      rw [hf']
    · intro b hb c hc q hq
      rw [htake i hi, hwd i hi, Int.toNat_natCast]
      by_cases hlt : i < a.kernelSize.length
      · rw [if_pos hlt] at hf'
        have := o4 b hb i hlt c hc q (by rw [tl i hlt]; omega)
        rw [hsum i (by omega), tl i hlt] at this
        rw [hf']
        exact this
      · have hi' : i = a.kernelSize.length := by omega
        rw [if_neg hlt] at hf'
        subst hi'
        have := o5 b hb c hc q (by omega)
        rw [hsum _ (by omega)] at this
        rw [hf', this, Nat.sub_self, Nat.zero_add]

/-- **C55 (limits).** Without normalization the output has the tail of the input and the final signal only, though `compute_sizes` counts a block per focus value; without strides
`compute_sizes` is a TypeError, and without focus values `forward` and `compute_sizes` are. -/
theorem C55_limits {a : ConvNetArgs K} {cls : ℕ → ConvClass} {m : ℕ} (h : a.Fine a.kernelSize.length .one cls m) (rand : ℕ → ConvRng K) :
    ∃ (N : TailFocus K), TailFocus.init a rand = .ok N ∧
      (a.normalization = none → ∀ focus, a.focus.map (·.toList a.kernelSize.length) = some focus → 1 ≤ focus.length →
        ∀ (B w : ℕ) (x : Tensor K), x.WF → x.shape = [B, a.chan 0, w] →
        (∀ i < m, a.kern i ≤ a.widthAt a.kernelSize.length w i + 2 * a.padding) →
        ∃ out, N.forward x = .ok out ∧
          out.shape = [B, a.chan 0 * tailLen (focus.getD 0 0) w + a.chan m * a.widthAt a.kernelSize.length w m]) ∧
      (a.stride = none → 1 ≤ a.kernelSize.length → ∀ w, N.computeSizes w = .error .typeError) ∧
      (a.focus = none → ∀ x, N.forward x = .error .typeError) := by
  obtain ⟨Ls, h1, h2⟩ := convStages_ok h rand
  refine ⟨⟨stagesOf m Ls (a.normalization.map fun f i => f i (a.chan (i + 1))), a.channels, a.kernelSize, (a.lists a.kernelSize.length).stride,
    a.focus.map (·.toList a.kernelSize.length)⟩, by unfold TailFocus.init; dsimp only; rw [h1]; rfl, ?_, ?_, ?_⟩
  · intro hn focus hf hF B w x hx hxs hw
    obtain ⟨N, Ls', n1, n2, n3⟩ := C55_forward h hf hF rand
    obtain ⟨ys, -, -, out, o1, -, o3, -⟩ := n3 (fun i => (Ls' i).weight) none (fun _ _ => rfl) B w x hx hxs hw (by simp)
    refine ⟨out, ?_, ?_⟩
    · rw [← o1]
      congr 1
      unfold TailFocus.init at n1
      dsimp only at n1
      rw [h1] at n1
      have n4 := Except.ok.inj n1
      rw [n4, n2, hn]
      rfl
    · rw [o3]
      simp [Finset.sum_range_succ, ConvNetArgs.widthAt]
  · intro hs hk w
    unfold TailFocus.computeSizes
    obtain ⟨k, ks, hks⟩ : ∃ k ks, a.kernelSize = k :: ks := List.exists_cons_of_length_pos hk
    simp only [hks, TailFocus.widthsFrom, TailFocus.nextWidth, ConvNetArgs.lists, hs, Option.map_none, bind, Except.bind]
  · intro hf x
    unfold TailFocus.forward
    rw [hf]
    rfl

end

/-- Two layers with kernels 3 and 2, strides 2 and 1, focus 2 and 3. -/
noncomputable def exTail : ConvNetArgs ℝ :=
  { layerType := .one "continuous1d", n := .one 3, channels := [2, 5, 4], segments := .one 2, kernelSize := [3, 2], rescaleOutput := false
    periodicity := none, normalization := some fun _ _ x => .ok x, pooling := "", stride := some (.many [2, 1]), padding := 0, focus := some (.many [2, 3]) }

theorem exTail_fine : exTail.Fine 2 .one (fun _ => .piecewise true .one) 2 := by
  refine ⟨by decide, rfl, ?_, ?_, ?_, ?_, ?_, ?_, ?_⟩
  all_goals intro i hi
  all_goals interval_cases i
  all_goals first
    | exact ⟨_, rfl, rfl⟩
    | simp [exTail, ConvNetArgs.chan, ConvNetArgs.kern, ConvNetArgs.step, ConvNetArgs.lists, OneOrMany.toList, ConvClass.rank]

/-- Ten columns become four, then three: the output has `2 * 2 + 5 * 3 + 4 * 3` columns. -/
example (rand : ℕ → ConvRng ℝ) : ∃ N : TailFocus ℝ, TailFocus.init exTail rand = .ok N ∧ N.computeSizes 10 = .ok ([10, 4, 3], [4, 15, 12]) ∧
    ∀ x : Tensor ℝ, x.WF → x.shape = [7, 2, 10] → ∃ out, N.forward x = .ok out ∧ out.shape = [7, 31] := by
  obtain ⟨N, Ls, h1, h2, h4⟩ := C55_forward (a := exTail) (focus := [2, 3]) exTail_fine rfl (by decide) rand
  refine ⟨N, h1, ?_, fun x hx hs => ?_⟩
  · exact (C55_compute_sizes (a := exTail) exTail_fine rfl rfl rfl rfl (by decide) h1).1 (by decide)
  obtain ⟨ys, -, -, out, h5, -, h6, -⟩ := h4 (fun i => (Ls i).weight) (some fun _ x => .ok x) (fun _ _ => rfl) 7 10 x hx hs (by decide)
    (by intro f hf i _ x hx hs; cases hf; exact ⟨x, rfl, hx, hs⟩)
  refine ⟨out, ?_, h6⟩
  rw [← h5]
  congr 1
  rw [h2]
  rfl

/-- With padding 1 the widths are 10, 5, 6, but `compute_sizes` says 10, 4, 3. -/
example (rand : ℕ → ConvRng ℝ) : ∃ N : TailFocus ℝ, TailFocus.init { exTail with padding := 1 } rand = .ok N ∧
    N.computeSizes 10 = .ok ([10, 4, 3], [4, 15, 12]) ∧
    ∀ x : Tensor ℝ, x.WF → x.shape = [7, 2, 10] → ∃ out, N.forward x = .ok out ∧ out.shape = [7, 43] := by
  have hfine : ({ exTail with padding := 1 } : ConvNetArgs ℝ).Fine 2 .one (fun _ => .piecewise true .one) 2 := by
    obtain ⟨f1, f2, f3, f4, f5, f6, f7, f8, f9⟩ := exTail_fine
    exact ⟨f1, f2, f3, f4, f5, f6, f7, f8, f9⟩
  obtain ⟨N, Ls, h1, h2, h4⟩ := C55_forward (a := { exTail with padding := 1 }) (focus := [2, 3]) hfine rfl (by decide) rand
  refine ⟨N, h1, ?_, fun x hx hs => ?_⟩
  · rw [h2]
    rfl
  obtain ⟨ys, -, -, out, h5, -, h6, -⟩ := h4 (fun i => (Ls i).weight) (some fun _ x => .ok x) (fun _ _ => rfl) 7 10 x hx hs (by decide)
    (by intro f hf i _ x hx hs; cases hf; exact ⟨x, rfl, hx, hs⟩)
  refine ⟨out, ?_, h6⟩
  rw [← h5]
  congr 1
  rw [h2]
  rfl

end HOL
