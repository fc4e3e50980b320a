import Verif.Spec.Receptive
import Verif.Props.ConvNet
import Verif.Props.Norm
import Verif.Model.BatchNorm2d

/-! # C127: an output pixel of a convolutional network is a function of the window of the image it sees -/

namespace HOL
open TorchScalar Spec

set_option linter.unusedSectionVars false
variable {K : Type} [TorchScalar K]

/-! ## windows -/

theorem jump_pos {s : ℕ → ℕ} {t : ℕ} (h : ∀ i < t, 1 ≤ s i) : 1 ≤ jump s t := by
  induction t with
  | zero => exact le_rfl
  | succ t ih => exact Nat.mul_pos (ih fun i hi => h i (by omega)) (h t (by omega))

theorem reach_pos (k s : ℕ → ℕ) (t : ℕ) : 1 ≤ reach k s t := by
  induction t with
  | zero => exact le_rfl
  | succ t ih => exact le_trans ih (Nat.le_add_right _ _)

/-- The window of a pixel contains the windows of the pixels its layer looks at. -/
theorem Spec.Sees.inner {k s : ℕ → ℕ} {p H t i : ℕ} (h : Sees k s p H (t + 1) i) (hs : ∀ i < t, 1 ≤ s i) :
    p ≤ i * s t ∧ ∀ d < k t, Sees k s p H t (i * s t - p + d) ∧
      (i * s t - p + d) * jump s t - lead p s t = i * jump s (t + 1) - lead p s (t + 1) + d * jump s t := by
  obtain ⟨h1, h2⟩ := h
  simp only [lead, jump, reach] at h1 h2
  have hj := jump_pos hs
  have e : i * (jump s t * s t) = i * s t * jump s t := by ring
  rw [e] at h1 h2
  have hp : p ≤ i * s t := Nat.le_of_mul_le_mul_right (le_trans (Nat.le_add_left _ _) h1) hj
  refine ⟨hp, fun d hd => ?_⟩
  obtain ⟨q, hq⟩ := Nat.exists_eq_add_of_le hp
  have e2 : (i * s t - p + d) * jump s t = q * jump s t + d * jump s t := by rw [hq, Nat.add_sub_cancel_left]; ring
  have e3 : i * s t * jump s t = p * jump s t + q * jump s t := by rw [hq]; ring
  have e4 : d * jump s t ≤ (k t - 1) * jump s t := Nat.mul_le_mul_right _ (by omega)
  unfold Sees
  simp only [lead, jump]
  rw [e3] at h1 h2
  rw [e, e2, e3]
  refine ⟨⟨?_, ?_⟩, ?_⟩ <;> omega

theorem Spec.Sees.lt {a : ConvNetArgs K} {size p H t i : ℕ} (hp : a.padding = p) (h : Sees a.kern (a.step size) p H t i) (hs : ∀ i < t, 1 ≤ a.step size i)
    (hk : ∀ i < t, 1 ≤ a.kern i) : i < a.widthAt size H t := by
  induction t generalizing i with
  | zero =>
    obtain ⟨-, h2⟩ := h
    simp only [lead, jump, reach] at h2
    show i < H
    omega
  | succ t ih =>
    obtain ⟨h1, h2⟩ := h.inner fun i hi => hs i (by omega)
    have h3 := ih (h2 (a.kern t - 1) (by have := hk t (by omega); omega)).1 (fun i hi => hs i (by omega)) fun i hi => hk i (by omega)
    have hk1 := hk t (by omega)
    show i < convOut _ _ _ _
    unfold convOut
    rw [Nat.lt_succ_iff, Nat.le_div_iff_mul_le (hs t (by omega)), hp]
    omega

/-- Without padding all pixels see only the image. -/
theorem Spec.sees_all {a : ConvNetArgs K} {size H t i : ℕ} (hp : a.padding = 0) (hs : ∀ i < t, 1 ≤ a.step size i) (hk : ∀ i < t, 1 ≤ a.kern i)
    (hH : ∀ i < t, a.kern i ≤ a.widthAt size H i) (hi : i < a.widthAt size H t) : Sees a.kern (a.step size) 0 H t i := by
  have hl : ∀ t, lead 0 (a.step size) t = 0 := by
    intro t
    induction t with
    | zero => rfl
    | succ t ih => simp [lead, ih]
  unfold Sees
  rw [hl]
  refine ⟨Nat.zero_le _, ?_⟩
  induction t generalizing i with
  | zero =>
    simp only [jump, reach]
    have : i < H := hi
    omega
  | succ t ih =>
    have hi' : i < convOut (a.kern t) (a.step size t) a.padding (a.widthAt size H t) := hi
    unfold convOut at hi'
    rw [Nat.lt_succ_iff, Nat.le_div_iff_mul_le (hs t (by omega)), hp] at hi'
    have h1 := hk t (by omega)
    have h2 := hH t (by omega)
    have := ih (i := i * a.step size t + (a.kern t - 1)) (fun i hi => hs i (by omega)) (fun i hi => hk i (by omega)) (fun i hi => hH i (by omega)) (by omega)
    simp only [jump, reach]
    rw [Nat.add_mul] at this
    rw [show i * (jump (a.step size) t * a.step size t) = i * a.step size t * jump (a.step size) t by ring]
    omega

/-! ## one layer -/

theorem tap_window {k s p H i d : ℕ} (hd : d < k) (h1 : p ≤ i * s) (h2 : i * s - p + (k - 1) < H) : tap ⟨k, s, p, 1, 0⟩ H i d = some (i * s - p + d) := by
  unfold tap
  simp only [Nat.mul_one]
  rw [if_pos (by omega)]
  congr 1
  omega

theorem ConvLayer.Between.window2 {L : ConvLayer K} {C O k s p : ℕ} (h : L.Between .two C O k s p) (hk : 1 ≤ k) (hs : 1 ≤ s) :
    ∃ G : ℕ → (ℕ → ℕ → ℕ → K) → K, (∀ o v v', (∀ c < C, ∀ d < k, ∀ e < k, v c d e = v' c d e) → G o v = G o v') ∧
      ∀ (B H W : ℕ) (x y : Tensor K), x.WF → x.shape = [B, C, H, W] → k ≤ H + 2 * p → k ≤ W + 2 * p → L.forward x = .ok y →
        ∀ b < B, ∀ o < O, ∀ i j, p ≤ i * s → i * s - p + (k - 1) < H → p ≤ j * s → j * s - p + (k - 1) < W →
          y.get [b, o, i, j] = G o fun c d e => x.get [b, c, i * s - p + d, j * s - p + e] := by
  have hg := h.geometry
  have hv := h.expander.variables_pos
  refine ⟨fun o v => sumL ((List.range (C * L.expander.variables)).flatMap fun q => (List.range k).flatMap fun d => (List.range k).map fun e =>
      L.chan q (v (q / L.expander.variables) d e) * L.weight.get [o, q, d, e]) * L.rescale, ?_, ?_⟩
  · intro o v v' hvv
    dsimp only
    congr 2
    apply List.flatMap_congr
    intro q hq
    apply List.flatMap_congr
    intro d hd
    apply List.map_congr_left
    intro e he
    rw [hvv _ ((Nat.div_lt_iff_lt_mul hv).2 (List.mem_range.1 hq)) d (List.mem_range.1 hd) e (List.mem_range.1 he)]
  · intro B H W x y hx hxs hH hW hy b hb o ho i j i1 i2 j1 j2
    have hf := L.forward2_ok (by simpa using h.kind) h.expander hx hxs (by rw [hg]; simpa using h.weight)
      (by rw [hg]; exact convSize_plain hk hs hH) (by rw [hg]; exact convSize_plain hk hs hW)
    rw [hy] at hf
    have lt : ∀ {N u : ℕ}, p ≤ u * s → u * s - p + (k - 1) < N → u < convOut k s p N := by
      intro N u u1 u2
      unfold convOut
      rw [Nat.lt_succ_iff, Nat.le_div_iff_mul_le hs]
      omega
    rw [Except.ok.inj hf, Tensor.get_tab4 hb ho (lt i1 i2) (lt j1 j2), hg]
    congr 2
    apply List.flatMap_congr
    intro q hq
    apply List.flatMap_congr
    intro d hd
    apply List.map_congr_left
    intro e he
    rw [tap_window (List.mem_range.1 hd) i1 i2, tap_window (List.mem_range.1 he) j1 j2]
    rfl

theorem ConvLayer.Between.window1 {L : ConvLayer K} {C O k s p : ℕ} (h : L.Between .one C O k s p) (hk : 1 ≤ k) (hs : 1 ≤ s) :
    ∃ G : ℕ → (ℕ → ℕ → K) → K, (∀ o v v', (∀ c < C, ∀ d < k, v c d = v' c d) → G o v = G o v') ∧
      ∀ (B H : ℕ) (x y : Tensor K), x.WF → x.shape = [B, C, H] → k ≤ H + 2 * p → L.forward x = .ok y →
        ∀ b < B, ∀ o < O, ∀ i, p ≤ i * s → i * s - p + (k - 1) < H → y.get [b, o, i] = G o fun c d => x.get [b, c, i * s - p + d] := by
  have hg := h.geometry
  have hv := h.expander.variables_pos
  refine ⟨fun o v => sumL ((List.range (C * L.expander.variables)).flatMap fun q => (List.range k).map fun d =>
      L.chan q (v (q / L.expander.variables) d) * L.weight.get [o, q, d]) * L.rescale, ?_, ?_⟩
  · intro o v v' hvv
    dsimp only
    congr 2
    apply List.flatMap_congr
    intro q hq
    apply List.map_congr_left
    intro d hd
    rw [hvv _ ((Nat.div_lt_iff_lt_mul hv).2 (List.mem_range.1 hq)) d (List.mem_range.1 hd)]
  · intro B H x y hx hxs hH hy b hb o ho i i1 i2
    have hf := L.forward1_ok (by simpa using h.kind) h.expander hx hxs (by rw [hg]; simpa using h.weight) (by rw [hg]; exact convSize_plain hk hs hH)
    rw [hy] at hf
    have lt : i < convOut k s p H := by
      unfold convOut
      rw [Nat.lt_succ_iff, Nat.le_div_iff_mul_le hs]
      omega
    rw [Except.ok.inj hf, Tensor.get_tab3 hb ho lt, hg]
    congr 2
    apply List.flatMap_congr
    intro q hq
    apply List.map_congr_left
    intro d hd
    rw [tap_window (List.mem_range.1 hd) i1 i2]
    rfl

/-! ## all layers -/

theorem stages_window2 {a : ConvNetArgs K} {size : ℕ} {Ls : ℕ → ConvLayer K} {g : Option (ℕ → Fwd K)} {m : ℕ}
    (hL : ∀ i < m, (Ls i).Between .two (a.chan i) (a.chan (i + 1)) (a.kern i) (a.step size i) a.padding) (hk : ∀ i < m, 1 ≤ a.kern i)
    (hs : ∀ i < m, 1 ≤ a.step size i) (hg : ∀ f ∈ g, ∀ i < m, Pixelwise (f i) (a.chan (i + 1))) :
    ∃ F : ℕ → (ℕ → ℕ → ℕ → K) → K,
      (∀ o v v', (∀ c < a.chan 0, ∀ d < reach a.kern (a.step size) m, ∀ e < reach a.kern (a.step size) m, v c d e = v' c d e) → F o v = F o v') ∧
      ∀ (B H W : ℕ) (x : Tensor K), x.WF → x.shape = [B, a.chan 0, H, W] → (∀ i < m, a.kern i ≤ a.widthAt size H i + 2 * a.padding) →
        (∀ i < m, a.kern i ≤ a.widthAt size W i + 2 * a.padding) →
        ∃ y, runStages (stagesOf m Ls g) x = .ok y ∧ y.WF ∧ y.shape = [B, a.chan m, a.widthAt size H m, a.widthAt size W m] ∧
          ∀ b < B, ∀ o < a.chan m, ∀ i j, Sees a.kern (a.step size) a.padding H m i → Sees a.kern (a.step size) a.padding W m j →
            y.get [b, o, i, j] = F o fun c d e =>
              x.get [b, c, i * jump (a.step size) m - lead a.padding (a.step size) m + d, j * jump (a.step size) m - lead a.padding (a.step size) m + e] := by
  induction m with
  | zero =>
    refine ⟨fun o v => if o < a.chan 0 then v o 0 0 else 0, ?_, ?_⟩
    · intro o v v' hv
      dsimp only
      split
      · rename_i ho
        exact hv o ho 0 (by simp [reach]) 0 (by simp [reach])
      · rfl
    · intro B H W x hx hxs _ _
      refine ⟨x, rfl, hx, hxs, ?_⟩
      intro b hb o ho i j hi hj
      simp [jump, lead, ho]
  | succ m ih =>
    obtain ⟨F, hF1, hF2⟩ := ih (fun i hi => hL i (by omega)) (fun i hi => hk i (by omega)) (fun i hi => hs i (by omega)) (fun f hf i hi => hg f hf i (by omega))
    have hb := hL m (by omega)
    have k1 := hk m (by omega)
    have s1 := hs m (by omega)
    obtain ⟨G, hG1, hG2⟩ := hb.window2 k1 s1
    -- the convolution of the last layer on top of the windows below
    have key : ∃ F' : ℕ → (ℕ → ℕ → ℕ → K) → K,
      (∀ o v v', (∀ c < a.chan 0, ∀ d < reach a.kern (a.step size) (m + 1), ∀ e < reach a.kern (a.step size) (m + 1), v c d e = v' c d e) → F' o v = F' o v') ∧
      ∀ (B H W : ℕ) (x : Tensor K), x.WF → x.shape = [B, a.chan 0, H, W] → (∀ i < m + 1, a.kern i ≤ a.widthAt size H i + 2 * a.padding) →
        (∀ i < m + 1, a.kern i ≤ a.widthAt size W i + 2 * a.padding) →
        ∃ y z, runStages (stagesOf m Ls g) x = .ok y ∧ (Ls m).forward y = .ok z ∧ z.WF ∧
          z.shape = [B, a.chan (m + 1), a.widthAt size H (m + 1), a.widthAt size W (m + 1)] ∧
          ∀ b < B, ∀ o < a.chan (m + 1), ∀ i j, Sees a.kern (a.step size) a.padding H (m + 1) i → Sees a.kern (a.step size) a.padding W (m + 1) j →
            z.get [b, o, i, j] = F' o fun c d e =>
              x.get [b, c, i * jump (a.step size) (m + 1) - lead a.padding (a.step size) (m + 1) + d,
                j * jump (a.step size) (m + 1) - lead a.padding (a.step size) (m + 1) + e] := by
      refine ⟨fun o v => G o fun c d e => F c fun c' u w => v c' (d * jump (a.step size) m + u) (e * jump (a.step size) m + w), ?_, ?_⟩
      · intro o v v' hv
        have mul_le : ∀ d < a.kern m, d * jump (a.step size) m ≤ (a.kern m - 1) * jump (a.step size) m := fun d hd => Nat.mul_le_mul_right _ (by omega)
        refine hG1 o _ _ fun c _ d hd e he => hF1 c _ _ fun c' hc' u hu w hw => hv c' hc' _ ?_ _ ?_
        · have := mul_le d hd
          simp only [reach]
          omega
        · have := mul_le e he
          simp only [reach]
          omega
      · intro B H W x hx hxs hH hW
        obtain ⟨y, y1, y2, y3, y4⟩ := hF2 B H W x hx hxs (fun i hi => hH i (by omega)) (fun i hi => hW i (by omega))
        obtain ⟨z, z1, z2, z3⟩ := hb.mapsShape k1 s1 (hH m (by omega)) (fun _ => hW m (by omega)) B y y2 y3
        refine ⟨y, z, y1, z1, z2, z3, ?_⟩
        intro b hb o ho i j hi hj
        obtain ⟨i1, i2⟩ := hi.inner fun i h => hs i (by omega)
        obtain ⟨j1, j2⟩ := hj.inner fun i h => hs i (by omega)
        have sz : ∀ {N u : ℕ}, Sees a.kern (a.step size) a.padding N m u → u < a.widthAt size N m :=
          fun h => h.lt rfl (fun i hi => hs i (by omega)) fun i hi => hk i (by omega)
        rw [hG2 B _ _ y z y2 y3 (hH m (by omega)) (hW m (by omega)) z1 b hb o ho i j i1 (sz (i2 _ (by omega)).1) j1 (sz (j2 _ (by omega)).1)]
        refine hG1 o _ _ fun c hc d hd e he => ?_
        rw [y4 b hb c hc _ _ (i2 d hd).1 (j2 e he).1, (i2 d hd).2, (j2 e he).2]
        simp only [Nat.add_assoc]
    obtain ⟨F', hF'1, hF'2⟩ := key
    cases g with
    | none =>
      refine ⟨F', hF'1, ?_⟩
      intro B H W x hx hxs hH hW
      obtain ⟨y, z, y1, z1, z2, z3, z4⟩ := hF'2 B H W x hx hxs hH hW
      refine ⟨z, ?_, z2, z3, z4⟩
      rw [stagesOf_succ, runStages_append, y1]
      simp only [bind, Except.bind, Option.map_none, Option.toList_none, runStages, ConvStage.call, z1]
    | some f =>
      obtain ⟨φ, p1, p2⟩ := hg f rfl m (by omega)
      refine ⟨fun o v => φ o fun c => if c < a.chan (m + 1) then F' c v else 0, ?_, ?_⟩
      · intro o v v' hv
        refine p1 o _ _ fun c hc => ?_
        rw [if_pos hc, if_pos hc, hF'1 c v v' hv]
      · intro B H W x hx hxs hH hW
        obtain ⟨y, z, y1, z1, z2, z3, z4⟩ := hF'2 B H W x hx hxs hH hW
        obtain ⟨u, u1, u2, u3, u4⟩ := p2 B _ _ z z2 z3
        refine ⟨u, ?_, u2, u3, ?_⟩
        · rw [stagesOf_succ, runStages_append, y1]
          simp only [bind, Except.bind, Option.map_some, Option.toList_some, runStages, ConvStage.call, z1, u1]
        · intro b hb o ho i j hi hj
          rw [u4 b hb o ho i (hi.lt rfl hs hk) j (hj.lt rfl hs hk)]
          refine p1 o _ _ fun c hc => ?_
          rw [if_pos hc, z4 b hb c hc i j hi hj]

theorem stages_window1 {a : ConvNetArgs K} {size : ℕ} {Ls : ℕ → ConvLayer K} {g : Option (ℕ → Fwd K)} {m : ℕ}
    (hL : ∀ i < m, (Ls i).Between .one (a.chan i) (a.chan (i + 1)) (a.kern i) (a.step size i) a.padding) (hk : ∀ i < m, 1 ≤ a.kern i)
    (hs : ∀ i < m, 1 ≤ a.step size i) (hg : ∀ f ∈ g, ∀ i < m, Pointwise (f i) (a.chan (i + 1))) :
    ∃ F : ℕ → (ℕ → ℕ → K) → K,
      (∀ o v v', (∀ c < a.chan 0, ∀ d < reach a.kern (a.step size) m, v c d = v' c d) → F o v = F o v') ∧
      ∀ (B H : ℕ) (x : Tensor K), x.WF → x.shape = [B, a.chan 0, H] → (∀ i < m, a.kern i ≤ a.widthAt size H i + 2 * a.padding) →
        ∃ y, runStages (stagesOf m Ls g) x = .ok y ∧ y.WF ∧ y.shape = [B, a.chan m, a.widthAt size H m] ∧
          ∀ b < B, ∀ o < a.chan m, ∀ i, Sees a.kern (a.step size) a.padding H m i →
            y.get [b, o, i] = F o fun c d =>
              x.get [b, c, i * jump (a.step size) m - lead a.padding (a.step size) m + d] := by
  induction m with
  | zero =>
    refine ⟨fun o v => if o < a.chan 0 then v o 0 else 0, ?_, ?_⟩
    · intro o v v' hv
      dsimp only
      split
      · rename_i ho
        exact hv o ho 0 (by simp [reach])
      · rfl
    · intro B H x hx hxs _
      refine ⟨x, rfl, hx, hxs, ?_⟩
      intro b hb o ho i hi
      simp [jump, lead, ho]
  | succ m ih =>
    obtain ⟨F, hF1, hF2⟩ := ih (fun i hi => hL i (by omega)) (fun i hi => hk i (by omega)) (fun i hi => hs i (by omega)) (fun f hf i hi => hg f hf i (by omega))
    have hb := hL m (by omega)
    have k1 := hk m (by omega)
    have s1 := hs m (by omega)
    obtain ⟨G, hG1, hG2⟩ := hb.window1 k1 s1
    -- the convolution of the last layer on top of the windows below
    have key : ∃ F' : ℕ → (ℕ → ℕ → K) → K,
      (∀ o v v', (∀ c < a.chan 0, ∀ d < reach a.kern (a.step size) (m + 1), v c d = v' c d) → F' o v = F' o v') ∧
      ∀ (B H : ℕ) (x : Tensor K), x.WF → x.shape = [B, a.chan 0, H] → (∀ i < m + 1, a.kern i ≤ a.widthAt size H i + 2 * a.padding) →
        ∃ y z, runStages (stagesOf m Ls g) x = .ok y ∧ (Ls m).forward y = .ok z ∧ z.WF ∧
          z.shape = [B, a.chan (m + 1), a.widthAt size H (m + 1)] ∧
          ∀ b < B, ∀ o < a.chan (m + 1), ∀ i, Sees a.kern (a.step size) a.padding H (m + 1) i →
            z.get [b, o, i] = F' o fun c d =>
              x.get [b, c, i * jump (a.step size) (m + 1) - lead a.padding (a.step size) (m + 1) + d] := by
      refine ⟨fun o v => G o fun c d => F c fun c' u => v c' (d * jump (a.step size) m + u), ?_, ?_⟩
      · intro o v v' hv
        have mul_le : ∀ d < a.kern m, d * jump (a.step size) m ≤ (a.kern m - 1) * jump (a.step size) m := fun d hd => Nat.mul_le_mul_right _ (by omega)
        refine hG1 o _ _ fun c _ d hd => hF1 c _ _ fun c' hc' u hu => hv c' hc' _ ?_
        · have := mul_le d hd
          simp only [reach]
          omega
      · intro B H x hx hxs hH
        obtain ⟨y, y1, y2, y3, y4⟩ := hF2 B H x hx hxs (fun i hi => hH i (by omega))
        obtain ⟨z, z1, z2, z3⟩ := hb.mapsShape k1 s1 (hH m (by omega)) (W := 0) (fun h => by cases h) B y y2 y3
        refine ⟨y, z, y1, z1, z2, z3, ?_⟩
        intro b hb o ho i hi
        obtain ⟨i1, i2⟩ := hi.inner fun i h => hs i (by omega)
        have sz : ∀ {N u : ℕ}, Sees a.kern (a.step size) a.padding N m u → u < a.widthAt size N m :=
          fun h => h.lt rfl (fun i hi => hs i (by omega)) fun i hi => hk i (by omega)
        rw [hG2 B _ y z y2 y3 (hH m (by omega)) z1 b hb o ho i i1 (sz (i2 _ (by omega)).1)]
        refine hG1 o _ _ fun c hc d hd => ?_
        rw [y4 b hb c hc _ (i2 d hd).1, (i2 d hd).2]
        simp only [Nat.add_assoc]
    obtain ⟨F', hF'1, hF'2⟩ := key
    cases g with
    | none =>
      refine ⟨F', hF'1, ?_⟩
      intro B H x hx hxs hH
      obtain ⟨y, z, y1, z1, z2, z3, z4⟩ := hF'2 B H x hx hxs hH
      refine ⟨z, ?_, z2, z3, z4⟩
      rw [stagesOf_succ, runStages_append, y1]
      simp only [bind, Except.bind, Option.map_none, Option.toList_none, runStages, ConvStage.call, z1]
    | some f =>
      obtain ⟨φ, p1, p2⟩ := hg f rfl m (by omega)
      refine ⟨fun o v => φ o fun c => if c < a.chan (m + 1) then F' c v else 0, ?_, ?_⟩
      · intro o v v' hv
        refine p1 o _ _ fun c hc => ?_
        rw [if_pos hc, if_pos hc, hF'1 c v v' hv]
      · intro B H x hx hxs hH
        obtain ⟨y, z, y1, z1, z2, z3, z4⟩ := hF'2 B H x hx hxs hH
        obtain ⟨u, u1, u2, u3, u4⟩ := p2 B _ z z2 z3
        refine ⟨u, ?_, u2, u3, ?_⟩
        · rw [stagesOf_succ, runStages_append, y1]
          simp only [bind, Except.bind, Option.map_some, Option.toList_some, runStages, ConvStage.call, z1, u1]
        · intro b hb o ho i hi
          rw [u4 b hb o ho i (hi.lt rfl hs hk)]
          refine p1 o _ _ fun c hc => ?_
          rw [if_pos hc, z4 b hb c hc i hi]

/-! ## C127 -/

/-- **C127 (images).** In every arithmetic. Take a fully convolutional network of 2d layers with any weights, without normalizations or with normalizations that act on
each pixel separately. Let `S` be the product of the strides, `R` the reach `1 + ∑ (k t - 1) * s 0 ⋯ s (t-1)` and `P` the lead. There is one function `F` of the channels
of `R × R` pixels such that, for images of all sizes and batches of all sizes, channel `o` of the pixel `(i, j)` of the last layer is `F o` of the `R × R` pixels
starting at `(i * S - P, j * S - P)`, wherever they lie in the image. -/
theorem C127_images {a : ConvNetArgs K} {cls : ℕ → ConvClass} {m : ℕ} (h : a.Fine a.kernelSize.length .two cls m) (rand : ℕ → ConvRng K) :
    ∃ (N : FCN K) (Ls : ℕ → ConvLayer K), FCN.init a rand = .ok N ∧ N.stages = stagesOf m Ls (a.normalization.map fun f i => f i (a.chan (i + 1))) ∧
      let s := a.step a.kernelSize.length
      let S := jump s m
      let R := reach a.kern s m
      let P := lead a.padding s m
      ∀ (Ws : ℕ → Tensor K) (g : Option (ℕ → Fwd K)), (∀ i < m, (Ws i).shape = (Ls i).weight.shape) → (∀ f ∈ g, ∀ i < m, Pixelwise (f i) (a.chan (i + 1))) →
      ∃ F : ℕ → (ℕ → ℕ → ℕ → K) → K, (∀ o v v', (∀ c < a.chan 0, ∀ d < R, ∀ e < R, v c d e = v' c d e) → F o v = F o v') ∧
        ∀ (B H W : ℕ) (x : Tensor K), x.WF → x.shape = [B, a.chan 0, H, W] → (∀ i < m, a.kern i ≤ a.widthAt a.kernelSize.length H i + 2 * a.padding) →
          (∀ i < m, a.kern i ≤ a.widthAt a.kernelSize.length W i + 2 * a.padding) →
          ∃ y, runStages (stagesOf m (fun i => { Ls i with weight := Ws i }) g) x = .ok y ∧ y.WF ∧
            y.shape = [B, a.chan m, a.widthAt a.kernelSize.length H m, a.widthAt a.kernelSize.length W m] ∧
            ∀ b < B, ∀ o < a.chan m, ∀ i j, P ≤ i * S → i * S + R ≤ H + P → P ≤ j * S → j * S + R ≤ W + P →
              i < a.widthAt a.kernelSize.length H m ∧ j < a.widthAt a.kernelSize.length W m ∧
              y.get [b, o, i, j] = F o fun c d e => x.get [b, c, i * S - P + d, j * S - P + e] := by
  obtain ⟨Ls, h1, h2⟩ := convStages_ok h rand
  refine ⟨_, Ls, by unfold FCN.init; rw [h1]; rfl, rfl, ?_⟩
  intro s S R P Ws g hWs hg
  have hk : ∀ i < m, 1 ≤ a.kern i := fun i hi => (h.kernel i hi).2
  have hs : ∀ i < m, 1 ≤ a.step a.kernelSize.length i := fun i hi => (h.stride i hi).2
  obtain ⟨F, f1, f2⟩ := stages_window2 (fun i hi => (h2 i hi).withWeight (hWs i hi)) hk hs hg
  refine ⟨F, f1, ?_⟩
  intro B H W x hx hxs hH hW
  obtain ⟨y, y1, y2, y3, y4⟩ := f2 B H W x hx hxs hH hW
  refine ⟨y, y1, y2, y3, ?_⟩
  intro b hb o ho i j i1 i2 j1 j2
  have hi : Sees a.kern s a.padding H m i := ⟨i1, i2⟩
  have hj : Sees a.kern s a.padding W m j := ⟨j1, j2⟩
  exact ⟨hi.lt rfl hs hk, hj.lt rfl hs hk, y4 b hb o ho i j hi hj⟩

/-- **C127 (signals).** The same for networks of 1d layers. -/
theorem C127_signals {a : ConvNetArgs K} {cls : ℕ → ConvClass} {m : ℕ} (h : a.Fine a.kernelSize.length .one cls m) (rand : ℕ → ConvRng K) :
    ∃ (N : FCN K) (Ls : ℕ → ConvLayer K), FCN.init a rand = .ok N ∧ N.stages = stagesOf m Ls (a.normalization.map fun f i => f i (a.chan (i + 1))) ∧
      let s := a.step a.kernelSize.length
      let S := jump s m
      let R := reach a.kern s m
      let P := lead a.padding s m
      ∀ (Ws : ℕ → Tensor K) (g : Option (ℕ → Fwd K)), (∀ i < m, (Ws i).shape = (Ls i).weight.shape) → (∀ f ∈ g, ∀ i < m, Pointwise (f i) (a.chan (i + 1))) →
      ∃ F : ℕ → (ℕ → ℕ → K) → K, (∀ o v v', (∀ c < a.chan 0, ∀ d < R, v c d = v' c d) → F o v = F o v') ∧
        ∀ (B H : ℕ) (x : Tensor K), x.WF → x.shape = [B, a.chan 0, H] → (∀ i < m, a.kern i ≤ a.widthAt a.kernelSize.length H i + 2 * a.padding) →
          ∃ y, runStages (stagesOf m (fun i => { Ls i with weight := Ws i }) g) x = .ok y ∧ y.WF ∧
            y.shape = [B, a.chan m, a.widthAt a.kernelSize.length H m] ∧
            ∀ b < B, ∀ o < a.chan m, ∀ i, P ≤ i * S → i * S + R ≤ H + P →
              i < a.widthAt a.kernelSize.length H m ∧ y.get [b, o, i] = F o fun c d => x.get [b, c, i * S - P + d] := by
  obtain ⟨Ls, h1, h2⟩ := convStages_ok h rand
  refine ⟨_, Ls, by unfold FCN.init; rw [h1]; rfl, rfl, ?_⟩
  intro s S R P Ws g hWs hg
  have hk : ∀ i < m, 1 ≤ a.kern i := fun i hi => (h.kernel i hi).2
  have hs : ∀ i < m, 1 ≤ a.step a.kernelSize.length i := fun i hi => (h.stride i hi).2
  obtain ⟨F, f1, f2⟩ := stages_window1 (fun i hi => (h2 i hi).withWeight (hWs i hi)) hk hs hg
  refine ⟨F, f1, ?_⟩
  intro B H x hx hxs hH
  obtain ⟨y, y1, y2, y3, y4⟩ := f2 B H x hx hxs hH
  refine ⟨y, y1, y2, y3, ?_⟩
  intro b hb o ho i i1 i2
  have hi : Sees a.kern s a.padding H m i := ⟨i1, i2⟩
  exact ⟨hi.lt rfl hs hk, y4 b hb o ho i hi⟩

/-- **C127 (crops).** Without padding the network may be run on a part of an image: if `x'` is the part of `x` that starts `p` steps of `S` pixels down and `q` steps
to the right, then every pixel of its result is the pixel `p` further down and `q` further right of the result of `x`. -/
theorem C127_crops {a : ConvNetArgs K} {cls : ℕ → ConvClass} {m : ℕ} (h : a.Fine a.kernelSize.length .two cls m) (h0 : a.padding = 0) (rand : ℕ → ConvRng K) :
    ∃ (N : FCN K) (Ls : ℕ → ConvLayer K), FCN.init a rand = .ok N ∧ N.stages = stagesOf m Ls (a.normalization.map fun f i => f i (a.chan (i + 1))) ∧
      let S := jump (a.step a.kernelSize.length) m
      ∀ (Ws : ℕ → Tensor K) (g : Option (ℕ → Fwd K)), (∀ i < m, (Ws i).shape = (Ls i).weight.shape) → (∀ f ∈ g, ∀ i < m, Pixelwise (f i) (a.chan (i + 1))) →
      ∀ (B H W H' W' p q : ℕ) (x x' : Tensor K), x.WF → x.shape = [B, a.chan 0, H, W] → x'.WF → x'.shape = [B, a.chan 0, H', W'] →
        (∀ i < m, a.kern i ≤ a.widthAt a.kernelSize.length H' i) → (∀ i < m, a.kern i ≤ a.widthAt a.kernelSize.length W' i) →
        (∀ i < m, a.kern i ≤ a.widthAt a.kernelSize.length H i) → (∀ i < m, a.kern i ≤ a.widthAt a.kernelSize.length W i) →
        p * S + H' ≤ H → q * S + W' ≤ W →
        (∀ b < B, ∀ c < a.chan 0, ∀ i < H', ∀ j < W', x'.get [b, c, i, j] = x.get [b, c, p * S + i, q * S + j]) →
        ∃ y y', runStages (stagesOf m (fun i => { Ls i with weight := Ws i }) g) x = .ok y ∧
          runStages (stagesOf m (fun i => { Ls i with weight := Ws i }) g) x' = .ok y' ∧
          y.shape = [B, a.chan m, a.widthAt a.kernelSize.length H m, a.widthAt a.kernelSize.length W m] ∧
          y'.shape = [B, a.chan m, a.widthAt a.kernelSize.length H' m, a.widthAt a.kernelSize.length W' m] ∧
          ∀ b < B, ∀ o < a.chan m, ∀ i < a.widthAt a.kernelSize.length H' m, ∀ j < a.widthAt a.kernelSize.length W' m,
            p + i < a.widthAt a.kernelSize.length H m ∧ q + j < a.widthAt a.kernelSize.length W m ∧ y'.get [b, o, i, j] = y.get [b, o, p + i, q + j] := by
  obtain ⟨N, Ls, h1, h2, h3⟩ := C127_images h rand
  refine ⟨N, Ls, h1, h2, ?_⟩
  intro S Ws g hWs hg B H W H' W' p q x x' hx hxs hx' hxs' hH' hW' hH hW hp hq hc
  obtain ⟨F, f1, f2⟩ := h3 Ws g hWs hg
  have hk : ∀ i < m, 1 ≤ a.kern i := fun i hi => (h.kernel i hi).2
  have hs : ∀ i < m, 1 ≤ a.step a.kernelSize.length i := fun i hi => (h.stride i hi).2
  rw [h0] at f2
  obtain ⟨y, y1, -, y3, y4⟩ := f2 B H W x hx hxs (by simpa using hH) (by simpa using hW)
  obtain ⟨y', z1, -, z3, z4⟩ := f2 B H' W' x' hx' hxs' (by simpa using hH') (by simpa using hW')
  refine ⟨y, y', y1, z1, y3, z3, ?_⟩
  intro b hb o ho i hi j hj
  obtain ⟨i1, i2⟩ := sees_all h0 hs hk hH' hi
  obtain ⟨j1, j2⟩ := sees_all h0 hs hk hW' hj
  have l0 : lead 0 (a.step a.kernelSize.length) m = 0 := by
    clear * -
    induction m with
    | zero => rfl
    | succ t ih => simp [lead, ih]
  obtain ⟨-, -, e1⟩ := z4 b hb o ho i j i1 i2 j1 j2
  have ep : (p + i) * jump (a.step a.kernelSize.length) m = p * S + i * jump (a.step a.kernelSize.length) m := Nat.add_mul _ _ _
  have eq : (q + j) * jump (a.step a.kernelSize.length) m = q * S + j * jump (a.step a.kernelSize.length) m := Nat.add_mul _ _ _
  rw [l0] at i2 j2
  obtain ⟨p1, p2, e2⟩ := y4 b hb o ho (p + i) (q + j) (by rw [l0]; omega) (by rw [l0, ep]; omega) (by rw [l0]; omega) (by rw [l0, eq]; omega)
  refine ⟨p1, p2, ?_⟩
  rw [e1, e2]
  refine f1 o _ _ fun c hc' d hd e he => ?_
  rw [l0, ep, eq, hc b hb c hc' _ (by omega) _ (by omega)]
  simp only [Nat.sub_zero, Nat.add_assoc]

/-- **C127 (normalizations).** `BatchNorm2d` and `BatchNorm1d` in evaluation mode act on each pixel separately, whatever their statistics and weights. -/
theorem C127_batch_norm (N : BatchNorm K) (C : ℕ) : Pixelwise N.eval2 C ∧ Pointwise N.eval C := by
  constructor
  · refine ⟨fun o v => if o < C then N.entry o (N.runningMean o) (N.runningVar o) (v o) else 0, ?_, ?_⟩
    · intro o v v' hv
      dsimp only
      split
      · rename_i ho
        rw [hv o ho]
      · rfl
    · intro B H W x hx hs
      refine ⟨_, by unfold BatchNorm.eval2; rw [hs], Tensor.wf_tab4 _ _ _ _ _, rfl, ?_⟩
      intro b hb c hc i hi j hj
      rw [Tensor.get_tab4 hb hc hi hj]
      simp [hc]
  · refine ⟨fun o v => if o < C then N.entry o (N.runningMean o) (N.runningVar o) (v o) else 0, ?_, ?_⟩
    · intro o v v' hv
      dsimp only
      split
      · rename_i ho
        rw [hv o ho]
      · rfl
    · intro B H x hx hs
      refine ⟨_, by unfold BatchNorm.eval; rw [hs], Tensor.wf_tab3 _ _ _ _, rfl, ?_⟩
      intro b hb c hc i hi
      rw [Tensor.get_tab3 hb hc hi]
      simp [hc]

/-- **C127 (other normalizations).** The max-abs normalization of the library does not: it divides every pixel by the largest magnitude of the whole image, so an entry
far away changes every pixel. -/
theorem C127_max_abs {C : ℕ} (hC : 1 ≤ C) {eps : ℝ} (he : 0 ≤ eps) : ¬ Pixelwise (fun x : Tensor ℝ => maxAbsNormalizationND x eps) C := by
  rintro ⟨φ, p1, p2⟩
  have img : ∀ t : ℝ, 1 ≤ t → ∃ y, maxAbsNormalizationND (Tensor.tab4 1 C 1 2 fun _ _ _ j => if j = 0 then 1 else t) eps = .ok y ∧
      y.get [0, 0, 0, 0] = 1 / (t + eps) := by
    intro t ht
    obtain ⟨y, y1, -, y3⟩ := C39_max_abs_nd (Tensor.tab4 1 C 1 2 fun _ _ _ j => if j = 0 then 1 else t) eps 1 [C, 1, 2] rfl (Tensor.wf_tab4 _ _ _ _ _) one_pos
      (by simp [numel]; omega)
    obtain ⟨M, ⟨⟨rest, m1, m2⟩, m3⟩, m4⟩ := y3 0 one_pos
    have val : ∀ c < C, ∀ j < 2, (Tensor.tab4 1 C 1 2 fun _ _ _ j => if j = 0 then (1 : ℝ) else t).get [0, c, 0, j] = if j = 0 then 1 else t := by
      intro c hc j hj
      rw [Tensor.get_tab4 one_pos hc one_pos hj]
    have hM : M = t := by
      apply le_antisymm
      · match rest, m1 with
        | [c, i, j], ⟨hc, hi, hj, _⟩ =>
          obtain rfl : i = 0 := by omega
          rw [m2, val c hc j hj]
          split
          · rw [abs_one]; exact ht
          · rw [abs_of_nonneg (by linarith)]
      · have := m3 ⟨[0, 0, 1], ⟨hC, one_pos, by norm_num, trivial⟩, rfl⟩
        rw [val 0 hC 1 (by norm_num), if_neg one_ne_zero, abs_of_nonneg (by linarith)] at this
        exact this
    refine ⟨y, y1, ?_⟩
    rw [m4 [0, 0, 0] ⟨hC, one_pos, by norm_num, trivial⟩, val 0 hC 0 (by norm_num), if_pos rfl, hM]
  obtain ⟨y, y1, y2⟩ := img 1 le_rfl
  obtain ⟨z, z1, z2⟩ := img 2 one_le_two
  obtain ⟨y', a1, -, -, a4⟩ := p2 1 1 2 (Tensor.tab4 1 C 1 2 fun _ _ _ j => if j = 0 then (1 : ℝ) else 1) (Tensor.wf_tab4 _ _ _ _ _) rfl
  obtain ⟨z', b1, -, -, b4⟩ := p2 1 1 2 (Tensor.tab4 1 C 1 2 fun _ _ _ j => if j = 0 then (1 : ℝ) else 2) (Tensor.wf_tab4 _ _ _ _ _) rfl
  obtain rfl := Except.ok.inj (y1.symm.trans a1)
  obtain rfl := Except.ok.inj (z1.symm.trans b1)
  have e : y.get [0, 0, 0, 0] = z.get [0, 0, 0, 0] := by
    rw [a4 0 one_pos 0 hC 0 one_pos 0 (by norm_num), b4 0 one_pos 0 hC 0 one_pos 0 (by norm_num)]
    refine p1 0 _ _ fun c hc => ?_
    rw [Tensor.get_tab4 one_pos hc one_pos (by norm_num), Tensor.get_tab4 one_pos hc one_pos (by norm_num)]
    rfl
  rw [y2, z2, div_eq_div_iff (by positivity) (by positivity)] at e
  linarith

/-- A kernel of 3 with stride 2 and then a kernel of 2: the pixels of the result are 2 pixels of the image apart and see 5 × 5 pixels of it. So a 9 × 9 part of a larger
image can be classified on its own. -/
example (rand : ℕ → ConvRng ℝ) : jump (exFcn.step 2) 2 = 2 ∧ reach exFcn.kern (exFcn.step 2) 2 = 5 ∧
    ∃ N : FCN ℝ, FCN.init exFcn rand = .ok N ∧ ∀ x x' : Tensor ℝ, x.WF → x'.WF → x.shape = [1, 3, 17, 17] → x'.shape = [1, 3, 9, 9] →
      (∀ b < 1, ∀ c < 3, ∀ i < 9, ∀ j < 9, x'.get [b, c, i, j] = x.get [b, c, 2 * 2 + i, 3 * 2 + j]) →
      ∃ y y', runStages N.stages x = .ok y ∧ runStages N.stages x' = .ok y' ∧ y.shape = [1, 4, 7, 7] ∧ y'.shape = [1, 4, 3, 3] ∧
        y'.get [0, 1, 2, 0] = y.get [0, 1, 4, 3] := by
  refine ⟨by decide, by decide, ?_⟩
  obtain ⟨N, Ls, h1, h2, h3⟩ := C127_crops (a := exFcn) exFcn_fine rfl rand
  refine ⟨N, h1, fun x x' hx hx' hxs hxs' hc => ?_⟩
  have w : ∀ i < 2, exFcn.kern i ≤ exFcn.widthAt 2 9 i := by decide
  have w' : ∀ i < 2, exFcn.kern i ≤ exFcn.widthAt 2 17 i := by decide
  obtain ⟨y, y', y1, y2, y3, y4, y5⟩ := h3 (fun i => (Ls i).weight) none (fun _ _ => rfl) (by simp) 1 17 17 9 9 2 3 x x' hx hxs hx' hxs' w w w' w' (by decide) (by decide) hc
  rw [h2]
  exact ⟨y, y', y1, y2, y3, y4, (y5 0 (by norm_num) 1 (by decide) 2 (by decide) 0 (by decide)).2.2⟩

end HOL
