import Verif.Lemmas.ConvOptions
import Verif.Props.Conv

/-! # C96: convolutions with groups -/

set_option linter.unusedSectionVars false

namespace HOL
open TorchScalar Spec
variable {K : Type} [TorchScalar K]

/-! ## specification -/

/-- The image with channels `start, ..., start + count - 1` only. -/
def channels2 (start count : ℕ) (x : Tensor K) : Tensor K :=
  Tensor.tab4 (x.shape.getD 0 0) count (x.shape.getD 2 0) (x.shape.getD 3 0) fun b c y z => x.get [b, start + c, y, z]

/-- One dimensional version. -/
def channels1 (start count : ℕ) (x : Tensor K) : Tensor K :=
  Tensor.tab3 (x.shape.getD 0 0) count (x.shape.getD 2 0) fun b c y => x.get [b, start + c, y]

/-- Weights `start, ..., start + count - 1` along the first axis. -/
def rows4 (start count : ℕ) (w : Tensor K) : Tensor K :=
  Tensor.tab4 count (w.shape.getD 1 0) (w.shape.getD 2 0) (w.shape.getD 3 0) fun r q d e => w.get [start + r, q, d, e]

/-- For one dimensional kernels. -/
def rows3 (start count : ℕ) (w : Tensor K) : Tensor K :=
  Tensor.tab3 count (w.shape.getD 1 0) (w.shape.getD 2 0) fun r q d => w.get [start + r, q, d]

/-- Input channel `c` has basis functions among the expanded channels of group `g`: `V` functions per channel, `Cc` expanded channels per group. -/
def Reads (V Cc g c : ℕ) : Prop := g * Cc < (c + 1) * V ∧ c * V < (g + 1) * Cc

/-! ## helpers -/

theorem div_group {Og g r : ℕ} (hr : r < Og) : (g * Og + r) / Og = g ∧ (g * Og + r) % Og = r := by
  refine ⟨?_, ?_⟩
  · rw [Nat.mul_comm, Nat.mul_add_div (by omega), Nat.div_eq_of_lt hr]; rfl
  · rw [Nat.mul_comm, Nat.mul_add_mod, Nat.mod_eq_of_lt hr]

theorem groupRow_lt {G Og g r : ℕ} (hg : g < G) (hr : r < Og) : g * Og + r < G * Og := by
  have := Nat.mul_le_mul_right Og (show g + 1 ≤ G from hg)
  rw [Nat.add_mul] at this
  omega

/-- Expanded channel `q` of the group of an input block is channel `g * (Cg * V) + q`. -/
theorem chan_block {V g Cg q : ℕ} (hV : 0 < V) : (g * (Cg * V) + q) / V = g * Cg + q / V ∧ (g * (Cg * V) + q) % V = q % V := by
  have e : g * (Cg * V) + q = V * (g * Cg) + q := by ring
  rw [e, Nat.mul_add_div hV, Nat.mul_add_mod]
  exact ⟨rfl, rfl⟩

theorem channels2_get {start count B C H W : ℕ} {x : Tensor K} (hs : x.shape = [B, C, H, W]) {b c y z : ℕ} (hb : b < B) (hc : c < count) (hy : y < H)
    (hz : z < W) : (channels2 start count x).get [b, c, y, z] = x.get [b, start + c, y, z] := by
  unfold channels2
  simp only [hs, List.getD_cons_zero, List.getD_cons_succ]
  rw [Tensor.get_tab4 hb hc hy hz]

theorem channels2_shape {start count B C H W : ℕ} {x : Tensor K} (hs : x.shape = [B, C, H, W]) : (channels2 start count x).shape = [B, count, H, W] := by
  simp [channels2, hs, Tensor.tab4, Tensor.tabulate]

theorem channels1_get {start count B C H : ℕ} {x : Tensor K} (hs : x.shape = [B, C, H]) {b c y : ℕ} (hb : b < B) (hc : c < count) (hy : y < H) :
    (channels1 start count x).get [b, c, y] = x.get [b, start + c, y] := by
  unfold channels1
  simp only [hs, List.getD_cons_zero, List.getD_cons_succ]
  rw [Tensor.get_tab3 hb hc hy]

theorem channels1_shape {start count B C H : ℕ} {x : Tensor K} (hs : x.shape = [B, C, H]) : (channels1 start count x).shape = [B, count, H] := by
  simp [channels1, hs, Tensor.tab3, Tensor.tabulate]

theorem rows4_get {start count B C H W : ℕ} {w : Tensor K} (hs : w.shape = [B, C, H, W]) {b c y z : ℕ} (hb : b < count) (hc : c < C) (hy : y < H)
    (hz : z < W) : (rows4 start count w).get [b, c, y, z] = w.get [start + b, c, y, z] := by
  unfold rows4
  simp only [hs, List.getD_cons_zero, List.getD_cons_succ]
  rw [Tensor.get_tab4 hb hc hy hz]

theorem rows4_shape {start count B C H W : ℕ} {w : Tensor K} (hs : w.shape = [B, C, H, W]) : (rows4 start count w).shape = [count, C, H, W] := by
  simp [rows4, hs, Tensor.tab4, Tensor.tabulate]

theorem rows3_get {start count B C H : ℕ} {w : Tensor K} (hs : w.shape = [B, C, H]) {b c y : ℕ} (hb : b < count) (hc : c < C) (hy : y < H) :
    (rows3 start count w).get [b, c, y] = w.get [start + b, c, y] := by
  unfold rows3
  simp only [hs, List.getD_cons_zero, List.getD_cons_succ]
  rw [Tensor.get_tab3 hb hc hy]

theorem rows3_shape {start count B C H : ℕ} {w : Tensor K} (hs : w.shape = [B, C, H]) : (rows3 start count w).shape = [count, C, H] := by
  simp [rows3, hs, Tensor.tab3, Tensor.tabulate]

/-! ## C96 -/

/-- **C96 (groups = 1).** With one group and the padding mode `'zeros'` these are the convolutions of C52 - C54. -/
theorem C96_one_group (L : OptConvLayer K) (hg : L.groups = 1) (hm : L.mode = .zeros) {B C O H W : ℕ} {x : Tensor K} (hx : x.WF) :
    (L.base.kind = .conv2d → L.base.expander.Fits .two → x.shape = [B, C, H, W] →
      L.base.weight.shape = [O, C * L.base.expander.variables, L.base.geometry.kernel, L.base.geometry.kernel] → L.forward x = L.base.forward x) ∧
    (L.base.kind = .conv1d → L.base.expander.Fits .one → x.shape = [B, C, H] →
      L.base.weight.shape = [O, C * L.base.expander.variables, L.base.geometry.kernel] → L.forward x = L.base.forward x) ∧
    (L.base.kind = .convTranspose2d → L.base.expander.Fits .two → x.shape = [B, C, H, W] →
      L.base.weight.shape = [C * L.base.expander.variables, O, L.base.geometry.kernel, L.base.geometry.kernel] →
      L.forward x = L.base.forward x) := by
  refine ⟨?_, ?_, ?_⟩
  · intro hk he hs hw
    obtain ⟨T, t1, t2, t3⟩ := L.base.expanded2 he hx hs
    unfold OptConvLayer.forward OptConvLayer.conv ConvLayer.forward groupedConv2d conv2d
    rw [hk]
    simp only [bind, Except.bind, t1, t2, hw, hm, hg, if_true, ne_eq, Nat.one_ne_zero, not_false_eq_true, Nat.mod_one, one_mul, and_self,
      Nat.div_one]
    cases convSize L.base.geometry H with
    | error e => rfl
    | ok oh =>
      cases convSize L.base.geometry W with
      | error e => rfl
      | ok ow =>
        dsimp only
        rw [ConvLayer.map_tab4, ConvLayer.map_tab4]
        congr 1
        apply tab4_congr
        intro s _ r hr i _ j _
        rw [Nat.div_eq_of_lt hr]
        simp only [zero_mul, zero_add]
  · intro hk he hs hw
    obtain ⟨T, t1, t2, t3⟩ := L.base.expanded1 he hx hs
    unfold OptConvLayer.forward OptConvLayer.conv ConvLayer.forward groupedConv1d conv1d
    rw [hk]
    simp only [bind, Except.bind, t1, t2, hw, hm, hg, if_true, ne_eq, Nat.one_ne_zero, not_false_eq_true, Nat.mod_one, one_mul, and_self,
      Nat.div_one]
    cases convSize L.base.geometry H with
    | error e => rfl
    | ok oh =>
      dsimp only
      rw [ConvLayer.map_tab3, ConvLayer.map_tab3]
      congr 1
      apply tab3_congr
      intro s _ r hr i _
      rw [Nat.div_eq_of_lt hr]
      simp only [zero_mul, zero_add]
  · intro hk he hs hw
    obtain ⟨T, t1, t2, t3⟩ := L.base.expanded2 he hx hs
    unfold OptConvLayer.forward OptConvLayer.conv ConvLayer.forward groupedConvTranspose2d convTranspose2d
    rw [hk]
    simp only [bind, Except.bind, t1, t2, hw, hg, if_true, ne_eq, Nat.one_ne_zero, not_false_eq_true, Nat.mod_one, one_mul, and_self,
      Nat.div_one]
    cases convTransposeSize L.base.geometry H with
    | error e => rfl
    | ok oh =>
      cases convTransposeSize L.base.geometry W with
      | error e => rfl
      | ok ow =>
        dsimp only
        rw [ConvLayer.map_tab4, ConvLayer.map_tab4]
        congr 1
        apply tab4_congr
        intro s _ r hr i _ j _
        rw [Nat.div_eq_of_lt hr, Nat.mod_eq_of_lt hr]
        simp only [zero_mul, zero_add]

/-- **C96 (2d, separate layers).** If the number of groups divides the number of input channels (`G` groups of `Cg` channels), output channels
`g * Og, ..., (g + 1) * Og - 1` are, in every arithmetic, exactly the output of the convolution without groups that has the weights of these channels, applied to the
input channels `g * Cg, ..., (g + 1) * Cg - 1`. -/
theorem C96_separate_layers2d (L : OptConvLayer K) (hk : L.base.kind = .conv2d) (hm : L.mode = .zeros) (he : L.base.expander.Fits .two)
    {B G Og Cg H W oh ow : ℕ} {x : Tensor K} (hG : L.groups = G) (hG0 : 0 < G) (hx : x.WF) (hs : x.shape = [B, G * Cg, H, W])
    (hw : L.base.weight.shape = [G * Og, Cg * L.base.expander.variables, L.base.geometry.kernel, L.base.geometry.kernel])
    (h1 : convSize L.base.geometry H = .ok oh) (h2 : convSize L.base.geometry W = .ok ow) :
    ∃ out, L.forward x = .ok out ∧ out.WF ∧ out.shape = [B, G * Og, oh, ow] ∧ ∀ g < G, ∃ part,
      ({ L.base with weight := rows4 (g * Og) Og L.base.weight } : ConvLayer K).forward (channels2 (g * Cg) Cg x) = .ok part ∧
      part.shape = [B, Og, oh, ow] ∧ ∀ b < B, ∀ r < Og, ∀ i < oh, ∀ j < ow, out.get [b, g * Og + r, i, j] = part.get [b, r, i, j] := by
  have hV := he.variables_pos
  have hf := L.forward2_ok hk hm he hG hG0 hx hs (Cc := Cg * L.base.expander.variables) (by ring) hw h1 h2
  refine ⟨_, hf, Tensor.wf_tabulate _ _, rfl, ?_⟩
  clear hf
  intro g hg
  have hp := ConvLayer.forward2_ok { L.base with weight := rows4 (g * Og) Og L.base.weight } (x := channels2 (g * Cg) Cg x) hk he (B := B) (C := Cg) (O := Og) (H := H) (W := W) (Tensor.wf_tabulate _ _) (channels2_shape hs)
    (rows4_shape hw) h1 h2
  refine ⟨_, hp, rfl, ?_⟩
  clear hp
  intro b hb r hr i hi j hj
  obtain ⟨d1, d2⟩ := div_group (g := g) hr
  rw [Tensor.get_tab4 hb (groupRow_lt hg hr) hi hj, Tensor.get_tab4 hb hr hi hj, d1]
  refine congrArg (fun t => sumL t * L.base.rescale) ?_
  apply List.flatMap_congr
  intro q hq
  apply List.flatMap_congr
  intro d hd
  apply List.map_congr_left
  intro e he'
  rw [List.mem_range] at hq hd he'
  obtain ⟨c1, c2⟩ := chan_block (g := g) (Cg := Cg) (q := q) hV
  have hq' : q / L.base.expander.variables < Cg := (Nat.div_lt_iff_lt_mul hV).2 hq
  congr 1
  · apply elim_congr
    intro y hy
    apply elim_congr
    intro z hz
    rw [channels2_get hs hb hq' (tap_lt hy) (tap_lt hz), c1]
    simp only [ConvLayer.chan, c2]
  · rw [rows4_get hw hr hq hd he']

/-- **C96 (1d, separate layers).** -/
theorem C96_separate_layers1d (L : OptConvLayer K) (hk : L.base.kind = .conv1d) (hm : L.mode = .zeros) (he : L.base.expander.Fits .one)
    {B G Og Cg H oh : ℕ} {x : Tensor K} (hG : L.groups = G) (hG0 : 0 < G) (hx : x.WF) (hs : x.shape = [B, G * Cg, H])
    (hw : L.base.weight.shape = [G * Og, Cg * L.base.expander.variables, L.base.geometry.kernel])
    (h1 : convSize L.base.geometry H = .ok oh) :
    ∃ out, L.forward x = .ok out ∧ out.WF ∧ out.shape = [B, G * Og, oh] ∧ ∀ g < G, ∃ part,
      ({ L.base with weight := rows3 (g * Og) Og L.base.weight } : ConvLayer K).forward (channels1 (g * Cg) Cg x) = .ok part ∧
      part.shape = [B, Og, oh] ∧ ∀ b < B, ∀ r < Og, ∀ i < oh, out.get [b, g * Og + r, i] = part.get [b, r, i] := by
  have hV := he.variables_pos
  refine ⟨_, L.forward1_ok hk hm he hG hG0 hx hs (Cc := Cg * L.base.expander.variables) (by ring) hw h1, Tensor.wf_tabulate _ _, rfl, ?_⟩
  intro g hg
  refine ⟨_, ConvLayer.forward1_ok { L.base with weight := rows3 (g * Og) Og L.base.weight } (x := channels1 (g * Cg) Cg x) hk he (B := B) (C := Cg) (O := Og) (H := H) (Tensor.wf_tabulate _ _) (channels1_shape hs)
    (rows3_shape hw) h1, rfl, ?_⟩
  intro b hb r hr i hi
  obtain ⟨d1, d2⟩ := div_group (g := g) hr
  rw [Tensor.get_tab3 hb (groupRow_lt hg hr) hi, Tensor.get_tab3 hb hr hi, d1]
  refine congrArg (fun t => sumL t * L.base.rescale) ?_
  apply List.flatMap_congr
  intro q hq
  apply List.map_congr_left
  intro d hd
  rw [List.mem_range] at hq hd
  obtain ⟨c1, c2⟩ := chan_block (g := g) (Cg := Cg) (q := q) hV
  have hq' : q / L.base.expander.variables < Cg := (Nat.div_lt_iff_lt_mul hV).2 hq
  congr 1
  · apply elim_congr
    intro y hy
    rw [channels1_get hs hb hq' (tap_lt hy), c1]
    simp only [ConvLayer.chan, c2]
  · rw [rows3_get hw hr hq hd]

/-- **C96 (transposed, separate layers).** Here the weights of a group are rows `g * (Cg * V), ...` of the weight tensor. -/
theorem C96_separate_layers_transpose (L : OptConvLayer K) (hk : L.base.kind = .convTranspose2d) (he : L.base.expander.Fits .two)
    {B G Og Cg H W oh ow : ℕ} {x : Tensor K} (hG : L.groups = G) (hG0 : 0 < G) (hx : x.WF) (hs : x.shape = [B, G * Cg, H, W])
    (hw : L.base.weight.shape = [G * (Cg * L.base.expander.variables), Og, L.base.geometry.kernel, L.base.geometry.kernel])
    (h1 : convTransposeSize L.base.geometry H = .ok oh) (h2 : convTransposeSize L.base.geometry W = .ok ow) :
    ∃ out, L.forward x = .ok out ∧ out.WF ∧ out.shape = [B, G * Og, oh, ow] ∧ ∀ g < G, ∃ part,
      ({ L.base with weight := rows4 (g * (Cg * L.base.expander.variables)) (Cg * L.base.expander.variables) L.base.weight } : ConvLayer K).forward
        (channels2 (g * Cg) Cg x) = .ok part ∧
      part.shape = [B, Og, oh, ow] ∧ ∀ b < B, ∀ r < Og, ∀ i < oh, ∀ j < ow, out.get [b, g * Og + r, i, j] = part.get [b, r, i, j] := by
  have hV := he.variables_pos
  have hf := L.forwardT_ok hk he hG hG0 hx hs (Cc := Cg * L.base.expander.variables) (by ring) hw h1 h2
  refine ⟨_, hf, Tensor.wf_tabulate _ _, rfl, ?_⟩
  clear hf
  intro g hg
  have hp := ConvLayer.forwardT_ok { L.base with weight := rows4 (g * (Cg * L.base.expander.variables)) (Cg * L.base.expander.variables) L.base.weight }
      (x := channels2 (g * Cg) Cg x) hk he (B := B) (C := Cg) (O := Og) (H := H) (W := W) (Tensor.wf_tabulate _ _) (channels2_shape hs)
    (rows4_shape hw) h1 h2
  refine ⟨_, hp, rfl, ?_⟩
  clear hp
  intro b hb r hr i hi j hj
  obtain ⟨d1, d2⟩ := div_group (g := g) hr
  rw [Tensor.get_tab4 hb (groupRow_lt hg hr) hi hj, Tensor.get_tab4 hb hr hi hj, d1, d2]
  refine congrArg (fun t => sumL t * L.base.rescale) ?_
  apply List.flatMap_congr
  intro q hq
  apply List.flatMap_congr
  intro d hd
  apply List.map_congr_left
  intro e he'
  rw [List.mem_range] at hq hd he'
  obtain ⟨c1, c2⟩ := chan_block (g := g) (Cg := Cg) (q := q) hV
  have hq' : q / L.base.expander.variables < Cg := (Nat.div_lt_iff_lt_mul hV).2 hq
  congr 1
  · apply elim_congr
    intro y hy
    apply elim_congr
    intro z hz
    rw [channels2_get hs hb hq' (tapTranspose_lt hy) (tapTranspose_lt hz), c1]
    simp only [ConvLayer.chan, c2]
  · rw [rows4_get hw hq hr hd he']

/-- **C96 (which channels a group reads).** For any number of groups that divides the number of expanded channels: the output channels of group `g` do not
change when input channels change none of whose basis functions lie in the group. -/
theorem C96_reads1d (L : OptConvLayer K) (hk : L.base.kind = .conv1d) (hm : L.mode = .zeros) (he : L.base.expander.Fits .one)
    {B C G Og Cc H oh : ℕ} {x x' : Tensor K} (hG : L.groups = G) (hG0 : 0 < G)
    (hx : x.WF) (hs : x.shape = [B, C, H]) (hx' : x'.WF) (hs' : x'.shape = [B, C, H]) (hc : C * L.base.expander.variables = G * Cc)
    (hw : L.base.weight.shape = [G * Og, Cc, L.base.geometry.kernel]) (h1 : convSize L.base.geometry H = .ok oh)
    {g : ℕ} (hg : g < G) (hsame : ∀ b < B, ∀ c < C, Reads L.base.expander.variables Cc g c → ∀ y < H, x.get [b, c, y] = x'.get [b, c, y]) :
    ∃ out out', L.forward x = .ok out ∧ L.forward x' = .ok out' ∧
      ∀ b < B, ∀ r < Og, ∀ i < oh, out.get [b, g * Og + r, i] = out'.get [b, g * Og + r, i] := by
  have hV := he.variables_pos
  refine ⟨_, _, L.forward1_ok hk hm he hG hG0 hx hs hc hw h1, L.forward1_ok hk hm he hG hG0 hx' hs' hc hw h1, ?_⟩
  intro b hb r hr i hi
  rw [Tensor.get_tab3 hb (groupRow_lt hg hr) hi, Tensor.get_tab3 hb (groupRow_lt hg hr) hi, (div_group (g := g) hr).1]
  refine congrArg (fun t => sumL t * L.base.rescale) ?_
  apply List.flatMap_congr
  intro q hq
  apply List.map_congr_left
  intro d hd
  rw [List.mem_range] at hq hd
  congr 1
  apply elim_congr
  intro y hy
  congr 1
  set V := L.base.expander.variables with hVdef
  have hlt : g * Cc + q < C * V := by
    rw [hc]; exact groupRow_lt hg hq
  have hdm := Nat.div_add_mod (g * Cc + q) V
  have hmod := Nat.mod_lt (g * Cc + q) hV
  refine hsame b hb _ ((Nat.div_lt_iff_lt_mul hV).2 hlt) ⟨?_, ?_⟩ y (tap_lt hy)
  · rw [Nat.add_mul, Nat.one_mul, Nat.mul_comm _ V]; omega
  · rw [Nat.mul_comm _ V, Nat.add_mul, Nat.one_mul]; omega

/-! ## constructors -/

/-- **C96 (defaults).** Without the two options the constructors build the convolutions of C52 - C54. -/
theorem C96_defaults (cls : ConvClass) (a : ConvArgs K) (rand : ConvRng K) :
    convInitOpt cls a {} rand = (convInit cls a rand).map (fun L => { base := L, groups := 1, mode := .zeros }) ∧
    convTransposeInitOpt a {} rand = (convTransposeInit a rand).map (fun L => { base := L, groups := 1, mode := .zeros }) := by
  constructor
  · match cls with
    | .fourier .one => rfl
    | .fourier .two | .polynomial .one | .polynomial .two | .piecewise _ .one | .piecewise _ .two =>
      simp only [convInitOpt, convInit, padMode, bind, Except.bind, Nat.one_ne_zero, Nat.mod_one, Nat.div_one, ne_eq, not_true, or_self,
        if_false, if_true]
      split <;> rfl
  · simp only [convTransposeInitOpt, convTransposeInit, Nat.one_ne_zero, Nat.mod_one, Nat.div_one, ne_eq, not_true, or_self, if_false]
    split <;> rfl

/-- **C96 (2d polynomials).** The polynomial and piecewise polynomial 2d convolutions cannot be built with more than one group: whatever the sizes, the
constructor raises. -/
theorem C96_no_groups_2d (cls : ConvClass) (hr : cls.rank = .two) (hf : cls.linkKind ≠ .fourier) (a : ConvArgs K) (o : ConvOptions) (ho : o.groups ≠ 1)
    (rand : ConvRng K) : ∃ e, convInitOpt cls a o rand = .error e := by
  match cls, hr, hf with
  | .polynomial .two, _, _ | .piecewise true .two, _, _ | .piecewise false .two, _, _ =>
    simp only [convInitOpt]
    split
    · exact ⟨_, rfl⟩
    · rename_i hv
      cases hm : padMode o.paddingMode with
      | error e => exact ⟨e, rfl⟩
      | ok m =>
        simp only [bind, Except.bind]
        split
        · exact ⟨_, rfl⟩
        · rename_i hz
          rw [if_neg]
          · exact ⟨_, rfl⟩
          · intro hd
            have h0 : 0 < ConvClass.channels _ a := Nat.pos_of_ne_zero fun h => hz (by rw [h]; simp)
            have := Nat.div_lt_self h0 (show 1 < o.groups by omega)
            omega

/-- **C96 (2d polynomials, which error).** For groups that divide the numbers of expanded channels and of output channels the error is the `RuntimeError` of
`copy_`. -/
theorem C96_no_groups_2d_error (cls : ConvClass) (hr : cls.rank = .two) (hf : cls.linkKind ≠ .fourier) (a : ConvArgs K) (o : ConvOptions) (ho : 2 ≤ o.groups)
    (h1 : cls.channels a % o.groups = 0) (h2 : a.outChannels % o.groups = 0) (h3 : cls.channels a * a.geometry.kernel * a.geometry.kernel ≠ 0)
    {m : PadMode} (hm : padMode o.paddingMode = .ok m) (rand : ConvRng K) : convInitOpt cls a o rand = .error .runtimeError := by
  match cls, hr, hf with
  | .polynomial .two, _, _ | .piecewise true .two, _, _ | .piecewise false .two, _, _ =>
    simp only [convInitOpt]
    rw [if_neg (by omega)]
    simp only [hm, bind, Except.bind]
    rw [if_neg h3, if_neg]
    intro hd
    have h0 : 0 < ConvClass.channels _ a := Nat.pos_of_ne_zero fun h => h3 (by rw [h]; simp)
    have := Nat.div_lt_self h0 (show 1 < o.groups by omega)
    omega

/-- **C96 (divisibility).** Every constructor that gets as far as the convolution raises `ValueError` unless the number of groups is positive and divides the
number of expanded channels and the number of output channels. -/
theorem C96_divisibility (cls : ConvClass) (hf : cls ≠ .fourier .one) (a : ConvArgs K) (o : ConvOptions) (rand : ConvRng K) :
    (o.groups = 0 ∨ cls.channels a % o.groups ≠ 0 ∨ a.outChannels % o.groups ≠ 0 → convInitOpt cls a o rand = .error .valueError) ∧
    (o.groups = 0 ∨ (ConvClass.piecewise true .two).channels a % o.groups ≠ 0 ∨ a.outChannels % o.groups ≠ 0 →
      convTransposeInitOpt a o rand = .error .valueError) := by
  constructor
  · intro h
    match cls, hf with
    | .fourier .one, hf => exact absurd rfl hf
    | .fourier .two, _ | .polynomial .one, _ | .polynomial .two, _ | .piecewise _ .one, _ | .piecewise _ .two, _ =>
      simp only [convInitOpt]
      rw [if_pos h]
  · intro h
    simp only [convTransposeInitOpt, if_pos h]
    split <;> rfl

/-- What the constructors leave behind, apart from the weights. -/
structure OptConvLayer.BuiltFrom (L : OptConvLayer K) (cls : ConvClass) (a : ConvArgs K) (groups : ℕ) (m : PadMode) : Prop where
  groups : L.groups = groups
  mode : L.mode = m
  expander : L.base.expander = cls.expander a
  geometry : L.base.geometry = a.geometry
  periodicity : L.base.periodicity = if cls.linkKind = .fourier then none else a.periodicity
  rescale : L.base.rescale = if a.rescaleOutput then 1 / ((a.inChannels * a.geometry.kernel * a.geometry.kernel : ℕ) : K) else 1

/-- **C96 (who accepts groups).** The 1d classes, `FourierConvolution2d` and the transposed class accept all groups that divide the number of *expanded* channels and
the number of output channels, and divide the second axis of the weights by the number of groups. -/
theorem C96_accepts (cls : ConvClass) (hf : cls ≠ .fourier .one) (a : ConvArgs K) (o : ConvOptions) (hg : 0 < o.groups)
    (h1 : cls.channels a % o.groups = 0) (h2 : a.outChannels % o.groups = 0) (h3 : cls.channels a * a.geometry.kernel * a.geometry.kernel ≠ 0)
    {m : PadMode} (hm : padMode o.paddingMode = .ok m) (rand : ConvRng K) :
    (cls.rank = .one → ∃ L, convInitOpt cls a o rand = .ok L ∧ L.BuiltFrom cls a o.groups m ∧ L.base.kind = .conv1d ∧
      L.base.weight.shape = [a.outChannels, cls.channels a / o.groups, a.geometry.kernel]) ∧
    (cls = .fourier .two → ∃ L, convInitOpt cls a o rand = .ok L ∧ L.BuiltFrom cls a o.groups m ∧ L.base.kind = .conv2d ∧
      L.base.weight.shape = [a.outChannels, cls.channels a / o.groups, a.geometry.kernel, a.geometry.kernel]) ∧
    (cls = .piecewise true .two → o.paddingMode = "zeros" → ∃ L, convTransposeInitOpt a o rand = .ok L ∧ L.BuiltFrom cls a o.groups .zeros ∧
      L.base.kind = .convTranspose2d ∧
      L.base.weight.shape = [cls.channels a, a.outChannels / o.groups, a.geometry.kernel, a.geometry.kernel]) := by
  have hng : ¬ (o.groups = 0 ∨ cls.channels a % o.groups ≠ 0 ∨ a.outChannels % o.groups ≠ 0) := by omega
  refine ⟨?_, ?_, ?_⟩
  · intro hr
    match cls, hr, hf, h3, hng with
    | .fourier .one, _, hf, _, _ => exact absurd rfl hf
    | .polynomial .one, _, _, h3, hng | .piecewise true .one, _, _, h3, hng | .piecewise false .one, _, _, h3, hng =>
      simp only [convInitOpt]
      rw [if_neg hng]
      simp only [hm, bind, Except.bind]
      rw [if_neg h3]
      exact ⟨_, rfl, ⟨rfl, rfl, rfl, rfl, rfl, rfl⟩, rfl, rfl⟩
  · rintro rfl
    simp only [convInitOpt]
    rw [if_neg hng]
    simp only [hm, bind, Except.bind]
    rw [if_neg h3]
    exact ⟨_, rfl, ⟨rfl, rfl, rfl, rfl, rfl, rfl⟩, rfl, rfl⟩
  · rintro rfl hz
    simp only [convTransposeInitOpt]
    rw [if_neg (by simp [hz]), if_neg hng, if_neg h3]
    exact ⟨_, rfl, ⟨rfl, rfl, rfl, rfl, rfl, rfl⟩, rfl, rfl⟩

/-! ## link functions of groups -/

/-- **C96 (link functions, 1d).** A 1d convolution with `G` groups of `Cg` input and `Og` output channels: output channel `g * Og + r` is the sum over the
`Cg` channels of group `g` of link functions of the documented family. With `rescale_output` it is divided by `in_channels * kernel_size²`, that is by
`G * Cg * kernel_size²`, although only `Cg * kernel_size` inputs are summed. -/
theorem C96_link_functions1d (cls : ConvClass) (hr : cls.rank = .one) (hf : cls ≠ .fourier .one) {a : ConvArgs ℝ} (h : a.Good cls.linkKind) (rand : ConvRng ℝ)
    {G Cg Og : ℕ} (hG : 0 < G) (hC : a.inChannels = G * Cg) (hO : a.outChannels = G * Og) :
    ∃ L N, N = cls.linkKind.size a.n a.segments ∧ convInitOpt cls a { groups := G } rand = .ok L ∧
      L.base.weight.shape = [G * Og, Cg * N, a.geometry.kernel] ∧
      ∀ w : Tensor ℝ, w.shape = L.base.weight.shape → ∃ f : ℕ → ℕ → ℕ → ℝ → ℝ,
        (∀ o c d, IsLink a.n a.segments a.length (fun v => w.get [o, c * N + v, d]) (f o c d) cls.linkKind) ∧
        ∀ (B H : ℕ) (x : Tensor ℝ), x.shape = [B, a.inChannels, H] → x.WF →
          a.geometry.dilation * (a.geometry.kernel - 1) + 1 ≤ H + 2 * a.geometry.padding →
          ∃ out, ({ L with base := { L.base with weight := w } } : OptConvLayer ℝ).forward x = .ok out ∧ out.WF ∧
            out.shape = [B, G * Og,
              (H + 2 * a.geometry.padding - (a.geometry.dilation * (a.geometry.kernel - 1) + 1)) / a.geometry.stride + 1] ∧
            ∀ b g r i, g < G → r < Og → InShape out.shape [b, g * Og + r, i] → out.get [b, g * Og + r, i] = rescaled a
              (convSum1 Cg a.geometry.kernel a.geometry.stride a.geometry.padding a.geometry.dilation H (f (g * Og + r))
                (fun c y => periodize a.periodicity (x.get [b, g * Cg + c, y])) i) := by
  have hch := cls.channels_eq a
  have hch' : cls.channels a = G * (Cg * cls.linkKind.size a.n a.segments) := by rw [hch, hC]; ring
  obtain ⟨L, h1, hb, hk, hw0⟩ := (C96_accepts cls hf a { groups := G } hG (by rw [hch']; exact Nat.mul_mod_right _ _)
    (by rw [hO]; exact Nat.mul_mod_right _ _) h.channels_pos (m := .zeros) rfl rand).1 hr
  have hw1 : L.base.weight.shape = [G * Og, Cg * cls.linkKind.size a.n a.segments, a.geometry.kernel] := by
    rw [hw0, hO, hch', Nat.mul_div_cancel_left _ hG]
  have hnf : cls.linkKind ≠ .fourier := by
    match cls, hr, hf with
    | .fourier .one, _, hf => exact absurd rfl hf
    | .polynomial _, _, _ | .piecewise true _, _, _ | .piecewise false _, _, _ => simp [ConvClass.linkKind]
  refine ⟨L, _, rfl, h1, hw1, ?_⟩
  intro w hw
  rw [hw1] at hw
  refine ⟨fun o c d => (cls.expander a).link fun v => w.get [o, c * cls.linkKind.size a.n a.segments + v, d], fun o c d => cls.isLink h _, ?_⟩
  intro B H x hx hwf hH
  have hfit : (cls.expander a).Fits .one := by rw [← hr]; exact cls.fits h
  have hg := hb.geometry
  have s1 : convSize L.base.geometry H
      = .ok ((H + 2 * a.geometry.padding - (a.geometry.dilation * (a.geometry.kernel - 1) + 1)) / a.geometry.stride + 1) := by
    rw [hg, Nat.mul_comm a.geometry.dilation]
    rw [Nat.mul_comm a.geometry.dilation] at hH
    exact convSize_ok h.stride h.kernel h.dilation hH
  have hfit' : L.base.expander.Fits .one := by rw [hb.expander]; exact hfit
  have hV : L.base.expander.variables = cls.linkKind.size a.n a.segments := by rw [hb.expander, cls.variables_eq]
  obtain ⟨out, o1, o2, o3, o4⟩ := C96_separate_layers1d ({ L with base := { L.base with weight := w } } : OptConvLayer ℝ) (B := B) (G := G) (Og := Og) (Cg := Cg)
    (H := H) (x := x) hk hb.mode hfit' hb.groups hG hwf (by rw [hx, hC])
    (by show w.shape = [G * Og, Cg * L.base.expander.variables, L.base.geometry.kernel]; rw [hw, hV, hg]) s1
  refine ⟨out, o1, o2, o3, ?_⟩
  intro b g r i hgG hr' hin
  rw [o3] at hin
  obtain ⟨hb', _, hi⟩ := inShape3.1 hin
  obtain ⟨part, p1, p2, p3⟩ := o4 g hgG
  have hxs : x.shape = [B, G * Cg, H] := by rw [hx, hC]
  have hreal := ({ L.base with weight := rows3 (g * Og) Og w } : ConvLayer ℝ).forward1_real (B := B) (C := Cg) (O := Og) (H := H)
    (x := channels1 (g * Cg) Cg x) hk hfit' (Tensor.wf_tabulate _ _) (channels1_shape hxs)
    (by show (rows3 (g * Og) Og w).shape = [Og, Cg * L.base.expander.variables, L.base.geometry.kernel]; rw [rows3_shape hw, hV, hg]) s1
  rw [p3 b hb' r hr' i hi, Except.ok.inj (p1.symm.trans hreal), Tensor.get_tab3 hb' hr' hi, ← rescaled_eq]
  dsimp only
  rw [hb.rescale, hb.expander, hb.geometry, hb.periodicity, if_neg hnf, cls.variables_eq]
  refine congrArg (fun t : ℝ => t * _) ?_
  unfold convSum1
  apply Finset.sum_congr rfl
  intro c hc
  apply Finset.sum_congr rfl
  intro d hd
  rw [Finset.mem_range] at hc hd
  unfold inside
  split
  · rename_i hq
    beta_reduce
    rw [channels1_get hxs hb' hc (by omega)]
    unfold Expander.link
    apply Finset.sum_congr rfl
    intro v hv
    rw [Finset.mem_range, cls.variables_eq] at hv
    beta_reduce
    rw [rows3_get hw hr' (groupRow_lt hc hv) hd]
  · rfl

/-- **C96 (link functions, 2d).** A 2d Fourier convolution with `G` groups of `Cg` input and `Og` output channels: output channel `g * Og + r` is the sum over the
`Cg` channels of group `g` of link functions of the documented family. With `rescale_output` it is divided by `in_channels * kernel_size²`, that is by
`G * Cg * kernel_size²`, although only `Cg * kernel_size²` inputs are summed. -/
theorem C96_link_functions2d {a : ConvArgs ℝ} (h : a.Good .fourier) (rand : ConvRng ℝ)
    {G Cg Og : ℕ} (hG : 0 < G) (hC : a.inChannels = G * Cg) (hO : a.outChannels = G * Og) :
    ∃ L N, N = a.n ∧ convInitOpt (.fourier .two) a { groups := G } rand = .ok L ∧
      L.base.weight.shape = [G * Og, Cg * N, a.geometry.kernel, a.geometry.kernel] ∧
      ∀ w : Tensor ℝ, w.shape = L.base.weight.shape → ∃ f : ℕ → ℕ → ℕ → ℕ → ℝ → ℝ,
        (∀ o c d e x, f o c d e x = fourierSum a.n a.length (fun v => w.get [o, c * N + v, d, e]) x) ∧
        ∀ (B H W : ℕ) (x : Tensor ℝ), x.shape = [B, a.inChannels, H, W] → x.WF →
          a.geometry.dilation * (a.geometry.kernel - 1) + 1 ≤ H + 2 * a.geometry.padding →
          a.geometry.dilation * (a.geometry.kernel - 1) + 1 ≤ W + 2 * a.geometry.padding →
          ∃ out, ({ L with base := { L.base with weight := w } } : OptConvLayer ℝ).forward x = .ok out ∧ out.WF ∧
            out.shape = [B, G * Og,
              (H + 2 * a.geometry.padding - (a.geometry.dilation * (a.geometry.kernel - 1) + 1)) / a.geometry.stride + 1,
              (W + 2 * a.geometry.padding - (a.geometry.dilation * (a.geometry.kernel - 1) + 1)) / a.geometry.stride + 1] ∧
            ∀ b g r i j, g < G → r < Og → InShape out.shape [b, g * Og + r, i, j] → out.get [b, g * Og + r, i, j] = rescaled a
              (convSum2 Cg a.geometry.kernel a.geometry.stride a.geometry.padding a.geometry.dilation H W (f (g * Og + r))
                (fun c y z => x.get [b, g * Cg + c, y, z]) i j) := by
  set cls : ConvClass := .fourier .two with hcls
  have h : a.Good cls.linkKind := h
  have hch := cls.channels_eq a
  have hch' : cls.channels a = G * (Cg * cls.linkKind.size a.n a.segments) := by rw [hch, hC]; ring
  obtain ⟨L, h1, hb, hk, hw0⟩ := (C96_accepts cls (by simp [hcls]) a { groups := G } hG (by rw [hch']; exact Nat.mul_mod_right _ _)
    (by rw [hO]; exact Nat.mul_mod_right _ _) h.channels_pos (m := .zeros) rfl rand).2.1 rfl
  have hw1 : L.base.weight.shape = [G * Og, Cg * cls.linkKind.size a.n a.segments, a.geometry.kernel, a.geometry.kernel] := by
    rw [hw0, hO, hch', Nat.mul_div_cancel_left _ hG]
  refine ⟨L, _, rfl, h1, hw1, ?_⟩
  intro w hw
  rw [hw1] at hw
  refine ⟨fun o c d e => (cls.expander a).link fun v => w.get [o, c * a.n + v, d, e], fun o c d e => cls.isLink h _, ?_⟩
  intro B H W x hx hwf hH hW
  have hfit : (cls.expander a).Fits .two := by exact cls.fits h
  have hg := hb.geometry
  have s1 : ∀ H, a.geometry.dilation * (a.geometry.kernel - 1) + 1 ≤ H + 2 * a.geometry.padding → convSize L.base.geometry H
      = .ok ((H + 2 * a.geometry.padding - (a.geometry.dilation * (a.geometry.kernel - 1) + 1)) / a.geometry.stride + 1) := by
    intro H hH
    rw [hg, Nat.mul_comm a.geometry.dilation]
    rw [Nat.mul_comm a.geometry.dilation] at hH
    exact convSize_ok h.stride h.kernel h.dilation hH
  have hfit' : L.base.expander.Fits .two := by rw [hb.expander]; exact hfit
  have hV : L.base.expander.variables = cls.linkKind.size a.n a.segments := by rw [hb.expander, cls.variables_eq]
  obtain ⟨out, o1, o2, o3, o4⟩ := C96_separate_layers2d ({ L with base := { L.base with weight := w } } : OptConvLayer ℝ) (B := B) (G := G) (Og := Og) (Cg := Cg)
    (H := H) (W := W) (x := x) hk hb.mode hfit' hb.groups hG hwf (by rw [hx, hC])
    (by show w.shape = [G * Og, Cg * L.base.expander.variables, L.base.geometry.kernel, L.base.geometry.kernel]; rw [hw, hV, hg]) (s1 H hH) (s1 W hW)
  refine ⟨out, o1, o2, o3, ?_⟩
  intro b g r i j hgG hr' hin
  rw [o3] at hin
  obtain ⟨hb', _, hi, hj⟩ := inShape4.1 hin
  obtain ⟨part, p1, p2, p3⟩ := o4 g hgG
  have hxs : x.shape = [B, G * Cg, H, W] := by rw [hx, hC]
  have hreal := ({ L.base with weight := rows4 (g * Og) Og w } : ConvLayer ℝ).forward2_real (B := B) (C := Cg) (O := Og) (H := H) (W := W)
    (x := channels2 (g * Cg) Cg x) hk hfit' (Tensor.wf_tabulate _ _) (channels2_shape hxs)
    (by show (rows4 (g * Og) Og w).shape = [Og, Cg * L.base.expander.variables, L.base.geometry.kernel, L.base.geometry.kernel]; rw [rows4_shape hw, hV, hg]) (s1 H hH) (s1 W hW)
  rw [p3 b hb' r hr' i hi j hj, Except.ok.inj (p1.symm.trans hreal), Tensor.get_tab4 hb' hr' hi hj, ← rescaled_eq]
  dsimp only
  rw [hb.rescale, hb.expander, hb.geometry, hb.periodicity, cls.variables_eq]
  refine congrArg (fun t : ℝ => t * _) ?_
  unfold convSum2
  apply Finset.sum_congr rfl
  intro c hc
  apply Finset.sum_congr rfl
  intro d hd
  apply Finset.sum_congr rfl
  intro e he
  rw [Finset.mem_range] at hc hd he
  unfold inside
  split
  · rename_i hq
    split
    · rename_i hq2
      beta_reduce
      rw [channels2_get hxs hb' hc (by omega) (by omega), if_pos (by rfl)]
      unfold Expander.link
      apply Finset.sum_congr rfl
      intro v hv
      rw [Finset.mem_range, cls.variables_eq] at hv
      beta_reduce
      rw [rows4_get hw hr' (groupRow_lt hc hv) hd he]
      rfl
    · rfl
  · rfl

/-! ## groups that cut through a channel -/

/-- The two linear basis functions on `[-1, 1]`. -/
theorem linear_basis (t : ℝ) : (getLagrangeBasis 2 2).call t 0 = (1 - t) / 2 ∧ (getLagrangeBasis 2 2).call t 1 = (1 + t) / 2 := by
  have n0 : node 2 0 = -1 := node_zero le_rfl
  have n1 : node 2 1 = 1 := node_last le_rfl
  have r : Finset.range 2 = {0, 1} := rfl
  constructor
  · rw [basis_call_eq (by norm_num), r, Lagrange.basis_pair_left (by norm_num)]
    simp only [Lagrange.basisDivisor, n0, n1]
    simp
    ring
  · rw [basis_call_eq (by norm_num), r, Lagrange.basis_pair_right (by norm_num)]
    simp only [Lagrange.basisDivisor, n0, n1]
    simp
    ring

/-- Linear functions on three channels, two output channels, kernel size 1. -/
noncomputable def exSplit : ConvArgs ℝ :=
  { n := 2, segments := 1, inChannels := 3, outChannels := 2, length := 2, rescaleOutput := false, periodicity := none, weightMagnitude := 1
    geometry := ⟨1, 1, 0, 1, 0⟩ }

/-- **C96 (groups need not respect channels).** Two groups of three channels are refused by `nn.Conv1d`, but not by the 1d polynomial convolution with
`n = 2`: it has six expanded channels. The middle input channel is shared, group 0 gets its first basis function and group 1 its
second one; so no weights make output 0 depend on the middle channel other than through `1 - x`, nor output 1 other than through `1 + x`. -/
theorem C96_split_channel (rand : ConvRng ℝ) :
    exSplit.inChannels % 2 ≠ 0 ∧
    ∃ L, convInitOpt (.polynomial .one) exSplit { groups := 2 } rand = .ok L ∧ L.base.weight.shape = [2, 3, 1] ∧
      ∀ w x : Tensor ℝ, w.shape = [2, 3, 1] → x.WF → x.shape = [1, 3, 1] →
        ∃ out, ({ L with base := { L.base with weight := w } } : OptConvLayer ℝ).forward x = .ok out ∧ out.shape = [1, 2, 1] ∧
          out.get [0, 0, 0] = w.get [0, 0, 0] * (1 - x.get [0, 0, 0]) / 2 + w.get [0, 1, 0] * (1 + x.get [0, 0, 0]) / 2
            + w.get [0, 2, 0] * (1 - x.get [0, 1, 0]) / 2 ∧
          out.get [0, 1, 0] = w.get [1, 0, 0] * (1 + x.get [0, 1, 0]) / 2
            + w.get [1, 1, 0] * (1 - x.get [0, 2, 0]) / 2 + w.get [1, 2, 0] * (1 + x.get [0, 2, 0]) / 2 := by
  refine ⟨by norm_num [exSplit], ?_⟩
  obtain ⟨L, h1, hb, hk, hw0⟩ := (C96_accepts (.polynomial .one) (by simp) exSplit { groups := 2 } (by norm_num) rfl rfl (by norm_num [exSplit, ConvClass.channels])
    (m := .zeros) rfl rand).1 rfl
  refine ⟨L, h1, hw0, ?_⟩
  intro w x hw hx hs
  have hV : L.base.expander.variables = 2 := by rw [hb.expander]; rfl
  have hsz : convSize L.base.geometry 1 = .ok 1 := by rw [hb.geometry]; rfl
  have hf := ({ L with base := { L.base with weight := w } } : OptConvLayer ℝ).forward1_ok (G := 2) (Og := 1) (Cc := 3) hk hb.mode
    (by show L.base.expander.Fits .one; rw [hb.expander]; exact (by norm_num [exSplit] : 0 < exSplit.n)) hb.groups (by norm_num) hx hs
    (by show 3 * L.base.expander.variables = _; rw [hV])
    (by show w.shape = [2 * 1, 3, L.base.geometry.kernel]; rw [hw, hb.geometry]; rfl) hsz
  have htap : tap L.base.geometry 1 0 0 = some 0 := by rw [hb.geometry]; rfl
  have hker : L.base.geometry.kernel = 1 := by rw [hb.geometry]; rfl
  have hch : ∀ r q t, ({ L.base with weight := w, rescale := r } : ConvLayer ℝ).chan q t = (getLagrangeBasis 2 2).call t (q % 2) := by
    intro r q t
    show L.base.expander.val (q % L.base.expander.variables) (periodize L.base.periodicity t) = _
    rw [hV, hb.expander, hb.periodicity]
    rfl
  have hres : L.base.rescale = 1 := by rw [hb.rescale]; rfl
  refine ⟨_, hf, rfl, ?_, ?_⟩
  · rw [Tensor.get_tab3 (by norm_num) (by norm_num) (by norm_num)]
    dsimp only
    rw [sumL_flatMap_range, hker, hres, hV]
    simp only [Finset.sum_range_succ, Finset.sum_range_zero, htap, Option.elim_some, hch]
    norm_num [(linear_basis _).1, (linear_basis _).2]
    ring
  · rw [Tensor.get_tab3 (by norm_num) (by norm_num) (by norm_num)]
    dsimp only
    rw [sumL_flatMap_range, hker, hres, hV]
    simp only [Finset.sum_range_succ, Finset.sum_range_zero, htap, Option.elim_some, hch]
    norm_num [(linear_basis _).1, (linear_basis _).2]
    ring

/-- A depthwise 1d convolution of quadratics on two channels: two groups, so each output channel is a function of its own input channel. -/
example (x : Tensor ℝ) (hx : x.shape = [1, 2, 5]) (hwf : x.WF) :
    ∃ L out, convInitOpt (.piecewise true .one) { exConv with outChannels := 2 } { groups := 2 } (fun _ _ _ _ => 1 / 2) = .ok L ∧
      L.base.weight.shape = [2, 5, 3] ∧ L.forward x = .ok out ∧ out.shape = [1, 2, 3] := by
  obtain ⟨L, N, hN, h1, h2, h3⟩ := C96_link_functions1d (.piecewise true .one) rfl (by simp) (a := { exConv with outChannels := 2 })
    ⟨(exConv_good .continuous).1, (exConv_good .continuous).2, (exConv_good .continuous).3, (exConv_good .continuous).4, (exConv_good .continuous).5,
      (exConv_good .continuous).6, (exConv_good .continuous).7⟩ (fun _ _ _ _ => 1 / 2) (G := 2) (Cg := 1) (Og := 1) (by norm_num) rfl rfl
  obtain ⟨f, _, h4⟩ := h3 L.base.weight rfl
  obtain ⟨out, h5, _, h6, _⟩ := h4 1 5 x hx hwf (by norm_num [exConv])
  exact ⟨L, out, h1, by rw [h2, hN]; rfl, h5, h6⟩

/-- The same arguments in two dimensions: the constructor raises. -/
example : convInitOpt (.piecewise true .two) { exConv with outChannels := 2 } { groups := 2 } (fun _ _ _ _ => 1 / 2) = .error .runtimeError :=
  C96_no_groups_2d_error _ rfl (by simp [ConvClass.linkKind]) _ _ le_rfl rfl rfl (by norm_num [exConv, ConvClass.channels]) (m := .zeros) rfl _

end HOL
