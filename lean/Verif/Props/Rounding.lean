import Verif.Lemmas.RoundingStack

/-!
# Rounding errors of piecewise layers (C86)

The theorems quantify over every arithmetic satisfying the laws of `Spec.Rounding` (unit `ε`, range `M`): the constants depend only on the sizes of the layers, the bound
on the weights and the bound on the inputs.
-/

namespace HOL
open Spec TorchScalar

/-- Continuous piecewise layers (sums and products) in sequence, evaluated in any sufficiently precise arithmetic with a sufficiently large range: the call succeeds, every
entry of the output is finite and differs from the exact one by at most a constant times the rounding unit, for every input in the box, on and off the segment boundaries. -/
theorem C86_continuous_stack (zs : List PwSize) (I O : ℕ) (hw : Widths I zs O) (hz : ∀ z ∈ zs, 0 < z.segments ∧ z.cls.shared = true) (W X : ℝ) (hW : 0 ≤ W)
    (hX : 0 ≤ X) :
    ∃ C M0 e0 : ℝ, 0 < e0 ∧ ∀ (K : Type) [TorchScalar K] (ε M : ℝ) (R : Rounding K ε M), 0 ≤ ε → ε ≤ e0 → M0 ≤ M →
      ∀ Ls : List (PwLayer K), List.Forall₂ (Bounded R W) Ls zs → ∀ (x : Tensor K) (B : ℕ), x.shape = [B, I] → x.WF →
        (∀ b < B, ∀ i < I, R.fin (x.get [b, i]) ∧ |R.val (x.get [b, i])| ≤ X) →
        ∃ out ex, seqForward (Ls.map PwLayer.forward) x = .ok out ∧ seqForward (Ls.map fun L => (L.exact R.val).forward) (x.map R.val) = .ok ex ∧
          out.shape = [B, O] ∧ ex.shape = [B, O] ∧ ∀ b < B, ∀ o < O, R.fin (out.get [b, o]) ∧ |R.val (out.get [b, o]) - ex.get [b, o]| ≤ C * ε := by
  have hz1 : ∀ z ∈ zs, 0 < z.segments := fun z h => (hz z h).1
  set Fs : List (AnyFam (P := StackPt zs W X I) (fun p => p.A) W) := (List.finRange zs.length).map (StackPt.fam hz1) with hFs
  have hFz : Fs.map AnyFam.z = zs := StackPt.fams_z hz1
  have hWd : Widths I (Fs.map AnyFam.z) O := by rw [hFz]; exact hw
  have hsh : ∀ F ∈ Fs, F.z.cls.shared = true := fun F hF => by
    have h := List.mem_map_of_mem (f := AnyFam.z) hF
    have key : ∀ l, l = zs → F.z ∈ l → F.z ∈ zs := fun l e h => by subst e; exact h
    exact (hz _ (key _ hFz h)).2
  have hFL : ∀ p, Fs.map (fun F => F.F.L p) = p.Ls := fun p => StackPt.fams_L hz1 p
  clear_value Fs
  have htr := row_tracks hW Fs hsh hWd (x := fun p => p.x) (rx := fun p i => p.A.R.val (p.x i)) fun i hi => StackPt.x_tracks i hi
  obtain ⟨C, B0, M0, e0, _, _, he, _, hall⟩ := Tracks.all (List.range O) fun o ho => htr o (List.mem_range.1 ho)
  refine ⟨C, M0, e0, he, ?_⟩
  intro K _ ε M R h0 h1 h2 Ls hLs x B hx hwf hfin
  let Ar : Arith := { K := K, inst := inferInstance, eps := ε, M := M, R := R, nonneg := h0 }
  let pt (r : ℕ → K) (hr : ∀ i < I, R.fin (r i) ∧ |R.val (r i)| ≤ X) : StackPt zs W X I := { A := Ar, Ls := Ls, hLs := hLs, x := r, hx := hr }
  have eK : ∀ r hr, Fs.map (fun F => (F.F.L (pt r hr)).forward) = Ls.map PwLayer.forward := fun r hr => by
    calc Fs.map (fun F => (F.F.L (pt r hr)).forward) = (Fs.map fun F => F.F.L (pt r hr)).map PwLayer.forward := by rw [List.map_map]; rfl
      _ = _ := by rw [hFL]
  have eE : ∀ r hr, Fs.map (fun F => (F.F.ex (pt r hr)).forward) = Ls.map fun L => (L.exact R.val).forward := fun r hr => by
    calc Fs.map (fun F => (F.F.ex (pt r hr)).forward) = (Fs.map fun F => F.F.L (pt r hr)).map (fun L => (L.exact R.val).forward) := by rw [List.map_map]; rfl
      _ = _ := by rw [hFL]
  have hzero : ∀ i < I, R.fin (0 : K) ∧ |R.val (0 : K)| ≤ X := fun _ _ => ⟨R.zero.1, by rw [R.zero.2]; simpa using hX⟩
  obtain ⟨out, o1, o2, -⟩ := seqForward_rowK (pt (fun _ => 0) hzero) Fs hWd (x := x) hx hwf
  obtain ⟨ex, x1, x2, -⟩ := seqForward_rowE (pt (fun _ => 0) hzero) Fs hWd (x := x.map R.val) hx (Tensor.wf_map hwf _)
  rw [eK] at o1
  rw [eE] at x1
  refine ⟨out, ex, o1, x1, o2, x2, fun b hb o ho => ?_⟩
  obtain ⟨out', o1', -, o3⟩ := seqForward_rowK (pt (fun i => x.get [b, i]) (hfin b hb)) Fs hWd (x := x) hx hwf
  obtain ⟨ex', x1', -, x3⟩ := seqForward_rowE (pt (fun i => x.get [b, i]) (hfin b hb)) Fs hWd (x := x.map R.val) hx (Tensor.wf_map hwf _)
  rw [eK] at o1'
  rw [eE] at x1'
  have e1 : out' = out := Except.ok.inj (o1'.symm.trans o1)
  have e2 : ex' = ex := Except.ok.inj (x1'.symm.trans x1)
  rw [e1] at o3
  rw [e2] at x3
  have h3 := (hall o (List.mem_range.2 ho)).2 (pt (fun i => x.get [b, i]) (hfin b hb)) h1 h2
  rw [o3 b hb o ho, x3 b hb o ho]
  have e3 := rowE_congr (pt (fun i => x.get [b, i]) (hfin b hb)) Fs hWd (x := fun i => (x.map R.val).get [b, i]) (y := fun i => R.val (x.get [b, i]))
    (fun i hi => Tensor.get_map hwf (by rw [hx]; exact inShape2.2 ⟨hb, hi⟩)) o ho
  rw [e3]
  exact h3

/-- One layer of any class: the same bound, if the inputs of a discontinuous layer keep a distance of more than a constant times the rounding unit from every inner segment
boundary (`-1 + 2k/segments`, `0 < k < segments`). -/
theorem C86_layer (z : PwSize) (hz : 0 < z.segments) (W X : ℝ) (hW : 0 ≤ W) :
    ∃ C M0 e0 : ℝ, 0 < e0 ∧ ∀ (K : Type) [TorchScalar K] (ε M : ℝ) (R : Rounding K ε M), 0 ≤ ε → ε ≤ e0 → M0 ≤ M →
      ∀ L : PwLayer K, Bounded R W L z → ∀ (x : Tensor K) (B : ℕ), x.shape = [B, z.inF] → x.WF →
        (∀ b < B, ∀ i < z.inF, R.fin (x.get [b, i]) ∧ |R.val (x.get [b, i])| ≤ X) →
        (z.cls.shared = true ∨ ∀ b < B, ∀ i < z.inF, ∀ k, 0 < k → k < z.segments → C * ε < |R.val (x.get [b, i]) - segLeft z.segments k|) →
        ∃ out ex, L.forward x = .ok out ∧ (L.exact R.val).forward (x.map R.val) = .ok ex ∧
          out.shape = [B, z.outF] ∧ ex.shape = [B, z.outF] ∧
          ∀ b < B, ∀ o < z.outF, R.fin (out.get [b, o]) ∧ |R.val (out.get [b, o]) - ex.get [b, o]| ≤ C * ε := by
  have hz1 : ∀ z' ∈ [z], 0 < z'.segments := fun z' h => by rw [List.mem_singleton.1 h]; exact hz
  have hSr : (0 : ℝ) < z.segments := by exact_mod_cast hz
  -- one input, no condition
  let F1 : LayerFam (P := StackPt [z] W X 1) (fun p => p.A) z.cls z.n z.segments z.inF z.outF W := (StackPt.fam hz1 ⟨0, by simp⟩).F
  obtain ⟨C1, M1, e1, hC1, he1, hseg⟩ := F1.seg_close hz (x := fun p => p.x 0) (StackPt.x_tracks 0 (by omega))
  -- the points allowed
  let Q : Type 1 := { p : StackPt [z] W X z.inF // z.cls.shared = true ∨ ∀ i < z.inF, ∀ k, 0 < k → k < z.segments →
    C1 * p.A.eps < |p.A.R.val (p.x i) - segLeft z.segments k| }
  let F2 : LayerFam (P := Q) (fun p => p.1.A) z.cls z.n z.segments z.inF z.outF W :=
    LayerFam.comap (P := StackPt [z] W X z.inF) (fun q : Q => q.1) (StackPt.fam hz1 ⟨0, by simp⟩).F
  have htr : ∀ o < z.outF, Tracks (A := fun q : Q => q.1.A) (fun q => F2.outK q o q.1.x)
      (fun q => z.cls.combine z.inF fun i => (F2.ex q).linkFn o i (q.1.A.R.val (q.1.x i))) := fun o ho => by
    refine F2.out_tracks hz hW ho (x := fun q => q.1.x) (rx := fun q i => q.1.A.R.val (q.1.x i))
      (fun i hi => Tracks.comap (fun q : Q => q.1) (StackPt.x_tracks i hi)) fun i hi => ?_
    by_cases hc : z.cls.shared = true
    · exact Or.inl hc
    · right
      refine ⟨M1, min e1 (1 / (z.segments * (C1 + 1))), lt_min he1 (by positivity), fun q h1 h2 => ?_⟩
      obtain ⟨a, ha, hact⟩ := hseg (q.1.single i hi) (h1.trans (min_le_left _ _)) h2
      obtain ⟨t, ht⟩ := isActive_exists hz (q.1.A.R.val (q.1.x i))
      have hq := q.2.resolve_left hc i hi
      have hd : C1 * q.1.A.eps < 2 / z.segments := by
        have h3 : q.1.A.eps ≤ 1 / (z.segments * (C1 + 1)) := h1.trans (min_le_right _ _)
        have h4 : C1 * q.1.A.eps ≤ C1 * (1 / (z.segments * (C1 + 1))) := mul_le_mul_of_nonneg_left h3 hC1
        refine h4.trans_lt ?_
        rw [mul_one_div, div_lt_div_iff₀ (by positivity) hSr]
        nlinarith
      have hd' := hd
      rcases isActive_close hact ht ha hd with h | ⟨h, h'⟩ | ⟨h, h'⟩
      · rw [← h] at ht
        exact ht
      · exact absurd h' (not_le.2 (hq _ (by omega) hact.1))
      · exact absurd h' (not_le.2 (hq _ (by omega) ht.1))
  obtain ⟨C, B0, M0, e0, hC0, _, he, _, hall⟩ := Tracks.all (List.range z.outF) fun o ho => htr o (List.mem_range.1 ho)
  refine ⟨max C C1, M0, e0, he, ?_⟩
  intro K _ ε M R h0 h1 h2 L hL x B hx hwf hfin hsep
  let Ar : Arith := { K := K, inst := inferInstance, eps := ε, M := M, R := R, nonneg := h0 }
  let p0 : StackPt [z] W X 0 := { A := Ar, Ls := [L], hLs := List.Forall₂.cons hL List.Forall₂.nil, x := fun _ => 0, hx := fun i hi => absurd hi (Nat.not_lt_zero _) }
  let F0 : LayerFam (P := StackPt [z] W X 0) (fun p => p.A) z.cls z.n z.segments z.inF z.outF W := (StackPt.fam hz1 ⟨0, by simp⟩).F
  have o1 := F0.forward_outK p0 (x := x) hx hwf
  have x1 := F0.ex_forward p0 (x := x.map R.val) hx (Tensor.wf_map hwf _)
  refine ⟨_, _, o1, x1, rfl, rfl, fun b hb o ho => ?_⟩
  rw [Tensor.get_tab2 hb ho, Tensor.get_tab2 hb ho]
  let q : Q := ⟨{ A := Ar, Ls := [L], hLs := List.Forall₂.cons hL List.Forall₂.nil, x := fun i => x.get [b, i], hx := hfin b hb }, by
    rcases hsep with h | h
    · exact Or.inl h
    · exact Or.inr fun i hi k h3 h4 => lt_of_le_of_lt (mul_le_mul_of_nonneg_right (le_max_right _ _) h0) (h b hb i hi k h3 h4)⟩
  obtain ⟨h3, h4⟩ := (hall o (List.mem_range.2 ho)).2 q h1 h2
  have eo : F2.outK q o q.1.x = F0.outK p0 o fun i => x.get [b, i] := 
    eq_of_heq (LayerFam.outK_eq F2 F0 q p0 rfl HEq.rfl o _ _ HEq.rfl)
  rw [eo] at h3 h4
  refine ⟨h3, ?_⟩
  have e : (z.cls.combine z.inF fun i => (F0.ex p0).linkFn o i ((x.map R.val).get [b, i])) = z.cls.combine z.inF fun i => (F2.ex q).linkFn o i (R.val (x.get [b, i])) :=
    PwClass.combine_congr _ fun i hi => by
      rw [Tensor.get_map hwf (by rw [hx]; exact inShape2.2 ⟨hb, hi⟩)]
      rfl
  rw [e]
  exact h4.trans (mul_le_mul_of_nonneg_right (le_max_left _ _) h0)

/-- Rounding that only moves numbers within `ε` of 1 to 1. -/
noncomputable def snap (ε y : ℝ) : ℝ := if |y - 1| ≤ ε then 1 else y

theorem snap_err {ε : ℝ} (h0 : 0 ≤ ε) (y : ℝ) : |snap ε y - y| ≤ ε * (1 + |y|) := by
  have h1 : ε ≤ ε * (1 + |y|) := by nlinarith [abs_nonneg y]
  unfold snap
  split
  · rename_i h
    rw [abs_sub_comm]
    exact h.trans h1
  · simpa using h0.trans h1

/-- The layer of `C86_discontinuous_jump`: one point per segment, two segments, weights 0 and 1. -/
def jumpLayer (K : Type) [TorchScalar K] : PwLayer K :=
  { cls := .discontinuous, n := 1, segments := 2, inFeatures := 1, outFeatures := 1, length := ((2 : ℕ) : K), periodicity := none, w := ⟨[1, 1, 2], [0, 1]⟩ }

/-- The distance from the boundaries cannot be dropped for the discontinuous classes: for every `ε < 1/2` there is an arithmetic with rounding unit `ε` and a layer with weights
0 and 1 whose computed output is off by 1 at an input within `ε` of the boundary. -/
theorem C86_discontinuous_jump (ε M : ℝ) (h0 : 0 < ε) (h1 : ε < 1 / 2) :
    ∃ (K : Type) (_ : TorchScalar K) (R : Rounding K ε M) (L : PwLayer K) (x out : Tensor K) (ex : Tensor ℝ),
      Bounded R 1 L ⟨.discontinuous, 1, 2, 1, 1⟩ ∧ x.shape = [1, 1] ∧ x.WF ∧ R.fin (x.get [0, 0]) ∧ |R.val (x.get [0, 0]) - segLeft 2 1| ≤ ε ∧
        L.forward x = .ok out ∧ (L.exact R.val).forward (x.map R.val) = .ok ex ∧ R.val (out.get [0, 0]) = 1 ∧ ex.get [0, 0] = 0 := by
  let R := flRounding h0.le (snap_err h0.le) M
  have s2 : snap ε 2 = 2 := by unfold snap; rw [if_neg]; norm_num; linarith
  have s1 : snap ε 1 = 1 := by unfold snap; rw [if_pos]; simpa using h0.le
  have sh : snap ε (1 / 2) = 1 / 2 := by unfold snap; rw [if_neg]; rw [abs_sub_comm, abs_of_pos] <;> linarith
  have se : snap ε (-ε + 1) = 1 := by unfold snap; rw [if_pos]; simp [abs_of_pos h0]
  have hw : ∀ idx, InShape [1, 1, 2] idx → (jumpLayer (Fl (snap ε))).w.get idx = 0 ∨ (jumpLayer (Fl (snap ε))).w.get idx = 1 := fun idx h => by
    match idx, h with
    | [a, b, c], h =>
      obtain ⟨ha, hb, hc⟩ := inShape3.1 h
      obtain rfl : a = 0 := by omega
      obtain rfl : b = 0 := by omega
      obtain rfl | rfl : c = 0 ∨ c = 1 := by omega
      · exact Or.inl rfl
      · exact Or.inr rfl
  have hb : Bounded R 1 (jumpLayer (Fl (snap ε))) ⟨.discontinuous, 1, 2, 1, 1⟩ := by
    refine ⟨⟨by simp [jumpLayer], by simp [jumpLayer], by simp [jumpLayer], by simp [jumpLayer], rfl, rfl⟩, rfl, rfl, rfl, rfl, rfl, rfl, rfl, fun idx h => ⟨trivial, ?_⟩⟩
    rcases hw idx h with h | h <;> rw [h]
    · rw [R.zero.2]; norm_num
    · rw [R.one.2]; norm_num
  let Ar : Arith := { K := Fl (snap ε), inst := inferInstance, eps := ε, M := M, R := R, nonneg := h0.le }
  let z : PwSize := ⟨.discontinuous, 1, 2, 1, 1⟩
  let p0 : StackPt [z] 1 0 0 :=
    { A := Ar, Ls := [jumpLayer _], hLs := List.Forall₂.cons hb List.Forall₂.nil, x := fun _ => 0, hx := fun i hi => absurd hi (Nat.not_lt_zero _) }
  let F0 : LayerFam (P := StackPt [z] 1 0 0) (fun p => p.A) z.cls z.n z.segments z.inF z.outF 1 :=
    (StackPt.fam (fun z' h => by rw [List.mem_singleton.1 h]; exact Nat.zero_lt_two) ⟨0, by simp⟩).F
  have o1 := F0.forward_outK p0 (B := 1) (x := (⟨[1, 1], [⟨-ε⟩]⟩ : Tensor (Fl (snap ε)))) rfl rfl
  have x1 := F0.ex_forward p0 (B := 1) (x := (⟨[1, 1], [⟨-ε⟩]⟩ : Tensor (Fl (snap ε))).map R.val) rfl rfl
  refine ⟨Fl (snap ε), inferInstance, R, jumpLayer _, ⟨[1, 1], [⟨-ε⟩]⟩, _, _, hb, rfl, rfl, trivial, ?_, o1, x1, ?_, ?_⟩
  · have : R.val ((⟨[1, 1], [⟨-ε⟩]⟩ : Tensor (Fl (snap ε))).get [0, 0]) = -ε := rfl
    rw [this]
    unfold segLeft
    norm_num [abs_of_pos h0]
  · have hsegK : (jumpLayer (Fl (snap ε))).seg ⟨-ε⟩ = 1 := by
      have hpos : (((⟨-ε⟩ : Fl (snap ε)) + (jumpLayer (Fl (snap ε))).half) / ((2 : ℕ) : Fl (snap ε)) * ((2 : ℕ) : Fl (snap ε))) = ⟨1⟩ := by
        have h2 : ((2 : ℕ) : Fl (snap ε)) = ⟨2⟩ := congrArg Fl.mk (by push_cast; exact s2)
        unfold PwLayer.half
        show (((⟨-ε⟩ : Fl (snap ε)) + 1 / ((2 : ℕ) : Fl (snap ε)) * ((2 : ℕ) : Fl (snap ε))) / ((2 : ℕ) : Fl (snap ε)) * ((2 : ℕ) : Fl (snap ε))) = ⟨1⟩
        rw [h2]
        show (⟨snap ε (snap ε (snap ε (-ε + snap ε (snap ε (1 / 2) * 2)) / 2) * 2)⟩ : Fl (snap ε)) = ⟨1⟩
        rw [sh]
        norm_num
        rw [s1, se, sh]
        norm_num
        exact s1
      unfold PwLayer.seg PwLayer.whichSegment PwLayer.segIndex
      show (clampInt (toLong ((((⟨-ε⟩ : Fl (snap ε)) + (jumpLayer (Fl (snap ε))).half) / ((2 : ℕ) : Fl (snap ε)) * ((2 : ℕ) : Fl (snap ε))))) 0 ((2 : ℕ) - 1 : ℤ)).toNat = 1
      rw [hpos]
      show (clampInt (toLong (1 : ℝ)) 0 _).toNat = 1
      rw [toLong_real]
      norm_num [clampInt]
    rw [Tensor.get_tab2 (by omega) (by decide)]
    show R.val (sumL [1 * (jumpLayer (Fl (snap ε))).w.get [0, 0, (jumpLayer (Fl (snap ε))).seg ⟨-ε⟩ * 1 + 0]]) = 1
    rw [hsegK]
    show snap ε (0 + snap ε (1 * 1)) = 1
    norm_num [s1]
  · have hsegE : ((jumpLayer (Fl (snap ε))).exact R.val).seg (-ε) = 0 := by
      unfold PwLayer.seg PwLayer.whichSegment
      rw [PwLayer.segIndex_real]
      show (clampInt (toLong ((-ε + 2 / 2) / (2 : ℝ) * ((2 : ℕ) : ℝ))) 0 ((2 : ℕ) - 1 : ℤ)).toNat = 0
      have e : (-ε + 2 / 2) / (2 : ℝ) * ((2 : ℕ) : ℝ) = 1 - ε := by push_cast; ring
      have hf : ⌊1 - ε⌋ = 0 := Int.floor_eq_iff.2 ⟨by push_cast; linarith, by push_cast; linarith⟩
      rw [e, toLong_real, if_pos (by linarith), hf]
      norm_num [clampInt]
    rw [Tensor.get_tab2 (by omega) (by decide)]
    show ∑ i ∈ Finset.range 1, ((jumpLayer (Fl (snap ε))).exact R.val).linkFn 0 i (((⟨[1, 1], [⟨-ε⟩]⟩ : Tensor (Fl (snap ε))).map R.val).get [0, i]) = 0
    rw [Finset.sum_range_one]
    show ((jumpLayer (Fl (snap ε))).exact R.val).linkFn 0 0 (-ε) = 0
    unfold PwLayer.linkFn
    rw [← sum_basis_call_two, hsegE]
    show ∑ k ∈ Finset.range 1, _ = _
    rw [Finset.sum_range_one]
    show 1 * (0 : ℝ) = 0
    norm_num

/-- Non-vacuity: in real arithmetic followed by any rounding with errors at most `ε (1 + |y|)`, two layers in sequence (a sum layer and a product layer). -/
example : ∃ C e0 : ℝ, 0 < e0 ∧ ∀ (fl : ℝ → ℝ) (ε : ℝ), 0 ≤ ε → ε ≤ e0 → (∀ y, |fl y - y| ≤ ε * (1 + |y|)) → ∀ v : ℝ, |v| ≤ 1 →
    ∃ out ex, seqForward
        ([{ cls := .continuous, n := 2, segments := 2, inFeatures := 1, outFeatures := 1, length := ((2 : ℕ) : Fl fl), periodicity := none, w := ⟨[1, 1, 3], [0, 0, 1]⟩ },
          { cls := .continuousProd, n := 2, segments := 1, inFeatures := 1, outFeatures := 1, length := ((2 : ℕ) : Fl fl), periodicity := none, w := ⟨[1, 1, 2], [0, 1]⟩ }].map
          PwLayer.forward) ⟨[1, 1], [⟨v⟩]⟩ = .ok out ∧
      seqForward
        ([{ cls := .continuous, n := 2, segments := 2, inFeatures := 1, outFeatures := 1, length := 2, periodicity := none, w := ⟨[1, 1, 3], [0, 0, 1]⟩ },
          { cls := .continuousProd, n := 2, segments := 1, inFeatures := 1, outFeatures := 1, length := 2, periodicity := none, w := ⟨[1, 1, 2], [0, 1]⟩ }].map
          PwLayer.forward) ⟨[1, 1], [v]⟩ = .ok ex ∧ |(out.get [0, 0]).num - ex.get [0, 0]| ≤ C * ε := by
  obtain ⟨C, M0, e0, he, h⟩ := C86_continuous_stack [⟨.continuous, 2, 2, 1, 1⟩, ⟨.continuousProd, 2, 1, 1, 1⟩] 1 1 ⟨rfl, rfl, rfl⟩
    (by simp [PwClass.shared]) 1 1 (by norm_num) (by norm_num)
  refine ⟨C, e0, he, fun fl ε h0 h1 hfl v hv => ?_⟩
  have hbound : ∀ (l : List (Fl fl)) (s : List ℕ) (idx : List ℕ), (∀ a ∈ l, a = 0 ∨ a = 1) → |((⟨s, l⟩ : Tensor (Fl fl)).get idx).num| ≤ 1 := fun l s idx hl => by
    show |(l.getD (ravel s idx) 0).num| ≤ 1
    have h2 : ∀ a : Fl fl, a = 0 ∨ a = 1 → |a.num| ≤ 1 := by
      rintro a (rfl | rfl)
      · show |(0 : ℝ)| ≤ 1
        norm_num
      · show |(1 : ℝ)| ≤ 1
        norm_num
    rcases lt_or_ge (ravel s idx) l.length with hlt | hge
    · rw [List.getD_eq_getElem?_getD, List.getElem?_eq_getElem hlt]
      exact h2 _ (hl _ (List.getElem_mem _))
    · rw [List.getD_eq_getElem?_getD, List.getElem?_eq_none hge]
      exact h2 _ (Or.inl rfl)
  obtain ⟨out, ex, a1, a2, -, -, a3⟩ := h (Fl fl) ε M0 (flRounding h0 hfl M0) h0 h1 le_rfl
    [{ cls := .continuous, n := 2, segments := 2, inFeatures := 1, outFeatures := 1, length := ((2 : ℕ) : Fl fl), periodicity := none, w := ⟨[1, 1, 3], [0, 0, 1]⟩ },
      { cls := .continuousProd, n := 2, segments := 1, inFeatures := 1, outFeatures := 1, length := ((2 : ℕ) : Fl fl), periodicity := none, w := ⟨[1, 1, 2], [0, 1]⟩ }]
    (List.Forall₂.cons ⟨⟨by norm_num, by norm_num, by norm_num, by norm_num, rfl, rfl⟩, rfl, rfl, rfl, rfl, rfl, rfl, rfl, fun idx _ => ⟨trivial, hbound _ _ _ (by simp)⟩⟩
      (List.Forall₂.cons ⟨⟨by norm_num, by norm_num, by norm_num, by norm_num, rfl, rfl⟩, rfl, rfl, rfl, rfl, rfl, rfl, rfl, fun idx _ => ⟨trivial, hbound _ _ _ (by simp)⟩⟩ List.Forall₂.nil))
    ⟨[1, 1], [⟨v⟩]⟩ 1 rfl rfl (fun b hb i hi => by
      obtain rfl : b = 0 := by omega
      obtain rfl : i = 0 := by omega
      exact ⟨trivial, hv⟩)
  exact ⟨out, ex, a1, a2, (a3 0 (by omega) 0 (by omega)).2⟩

/-- Non-vacuity of the condition on the inputs: the discontinuous layer with a jump at 0, away from 0. -/
example : ∃ C e0 : ℝ, 0 < e0 ∧ ∀ (fl : ℝ → ℝ) (ε : ℝ), 0 ≤ ε → ε ≤ e0 → (∀ y, |fl y - y| ≤ ε * (1 + |y|)) → ∀ v : ℝ, |v| ≤ 1 → C * ε < |v| →
    ∃ out ex, (jumpLayer (Fl fl)).forward ⟨[1, 1], [⟨v⟩]⟩ = .ok out ∧ ((jumpLayer (Fl fl)).exact Fl.num).forward ⟨[1, 1], [v]⟩ = .ok ex ∧
      |(out.get [0, 0]).num - ex.get [0, 0]| ≤ C * ε := by
  obtain ⟨C, M0, e0, he, h⟩ := C86_layer ⟨.discontinuous, 1, 2, 1, 1⟩ (by norm_num) 1 1 (by norm_num)
  refine ⟨C, e0, he, fun fl ε h0 h1 hfl v hv hv0 => ?_⟩
  have hb : Bounded (flRounding h0 hfl M0) 1 (jumpLayer (Fl fl)) ⟨.discontinuous, 1, 2, 1, 1⟩ := by
    refine ⟨⟨by simp [jumpLayer], by simp [jumpLayer], by simp [jumpLayer], by simp [jumpLayer], rfl, rfl⟩, rfl, rfl, rfl, rfl, rfl, rfl, rfl, fun idx h => ⟨trivial, ?_⟩⟩
    match idx, h with
    | [a, b, c], h =>
      obtain ⟨ha, hb, hc⟩ := inShape3.1 h
      obtain rfl : a = 0 := by omega
      obtain rfl : b = 0 := by omega
      obtain rfl | rfl : c = 0 ∨ c = 1 := by omega
      · show |(0 : ℝ)| ≤ 1
        norm_num
      · show |(1 : ℝ)| ≤ 1
        norm_num
  obtain ⟨out, ex, a1, a2, -, -, a3⟩ := h (Fl fl) ε M0 (flRounding h0 hfl M0) h0 h1 le_rfl (jumpLayer (Fl fl)) hb ⟨[1, 1], [⟨v⟩]⟩ 1 rfl rfl
    (fun b hb i hi => by
      dsimp only at hi
      obtain rfl : b = 0 := by omega
      obtain rfl : i = 0 := by omega
      exact ⟨trivial, hv⟩)
    (Or.inr fun b hb i hi k hk hk2 => by
      dsimp only at hi hk2
      obtain rfl : b = 0 := by omega
      obtain rfl : i = 0 := by omega
      obtain rfl : k = 1 := by omega
      have e : segLeft 2 1 = 0 := by unfold segLeft; norm_num
      show C * ε < |v - segLeft 2 1|
      rw [e, sub_zero]
      exact hv0)
  exact ⟨out, ex, a1, a2, (a3 0 (by omega) 0 (by show 0 < 1; omega)).2⟩

end HOL
