import Verif.Lemmas.Xor
import Verif.Lemmas.LowMLP
import Verif.Props.ND
import Verif.Props.Autoencoder

/-! # C105: the exclusive or example, examples/xor.py -/

namespace HOL
open Polynomial Spec TorchScalar

/-- The network after training: the same object with other weights. -/
def XorNet.with {K : Type} (N : XorNet K) (h : Heap K) : XorNet K := { N with heap := h }

/-- **C105 (what the network can compute).** With layers `polynomial`, `continuous` or `discontinuous` the constructor succeeds. After any
training the network maps `[batch, 2]` to `[batch, 1]`, row by row, by two layers of links of that family; and every such function is reached
by some weights. -/
theorem C105_functions (k : LinkFamily) {n S : ℕ} (hn : 0 < n) (hS : 0 < S) (rng : Rng ℝ) :
    ∃ N, xorInit rng k.name n S = .ok N ∧
      (∀ h, N.heap.Later h → h.Ordered → ∃ (f : ℕ → ℕ → ℝ → ℝ) (g : ℕ → ℝ → ℝ), (∀ o i, InFamily k n S (f o i)) ∧ (∀ i, InFamily k n S (g i)) ∧
        Computes (N.with h).forward 2 1 fun _ r => twoLayers f g (r 0) (r 1)) ∧
      ∀ (f : ℕ → ℕ → ℝ → ℝ) (g : ℕ → ℝ → ℝ), (∀ o i, InFamily k n S (f o i)) → (∀ i, InFamily k n S (g i)) →
        ∃ h, N.heap.Later h ∧ h.Ordered ∧ Computes (N.with h).forward 2 1 fun _ r => twoLayers f g (r 0) (r 1) := by
  obtain ⟨m1, a1, a2, a3, a4⟩ := layer_links k hn hS (I := 2) (O := 2) (by norm_num) (by norm_num) rng 0
  obtain ⟨m2, b1, b2, b3, b4⟩ := layer_links k hn hS (I := 2) (O := 1) (by norm_num) (by norm_num) rng 1
  have e1 : fcLayer rng k.name (xorArgs n S 2 2) [] = .ok (0, [m1]) := by
    simp only [fcLayer, linkLeaf_lookup, List.length_nil, a1, bind, Except.bind, List.nil_append, List.length_cons]
  have e2 : fcLayer rng k.name (xorArgs n S 2 1) [m1] = .ok (1, [m1, m2]) := by
    simp only [fcLayer, linkLeaf_lookup, List.length_cons, List.length_nil, Nat.zero_add, b1, bind, Except.bind, List.cons_append, List.nil_append]
  have ne1 : k.name ≠ "polynomial_2d" := by cases k <;> decide
  have ne2 : k.name ≠ "continuous_nd" := by cases k <;> decide
  -- two layers one after the other
  have comp : ∀ (h : Heap ℝ), h.Ordered → ∀ m1' m2', h[0]? = some m1' → h[1]? = some m2' → h[2]? = some (.seq [0, 1]) → ∀ f g,
      SumsLinks m1' 2 2 f → SumsLinks m2' 2 1 g →
      Computes (fun x => h.forward 2 x) 2 1 fun _ r => twoLayers f (g 0) (r 0) (r 1) := by
    intro h ho m1' m2' h0 h1 h2 f g hf hg B x hx hwf
    obtain ⟨y, y1, y2, y3, y4⟩ := hf h.forward B x hx hwf
    obtain ⟨z, z1, z2, z3, z4⟩ := hg h.forward B y y2 y3
    refine ⟨z, ?_, z2, z3, fun b hb o hobd => ?_⟩
    · rw [Heap.forward_eq ho h2]
      show (h.forward 0 x >>= fun a => h.forward 1 a >>= fun b => .ok b) = .ok z
      rw [Heap.forward_eq ho h0, Heap.forward_eq ho h1, y1]
      show (m2'.forward h.forward y >>= fun b => .ok b) = .ok z
      rw [z1]
      rfl
    · obtain rfl : o = 0 := by omega
      rw [z4 b hb 0 (by norm_num)]
      simp only [Finset.sum_range_succ, Finset.sum_range_zero, zero_add, twoLayers]
      rw [y4 b hb 0 (by norm_num), y4 b hb 1 (by norm_num)]
      simp only [Finset.sum_range_succ, Finset.sum_range_zero, zero_add]
  refine ⟨{ heap := [m1, m2, .seq [0, 1]], model := 2, nd := false }, ?_, ?_, ?_⟩
  · simp only [xorInit, ne1, ne2, if_false, e1, e2, bind, Except.bind]
    rfl
  · intro h hl ho
    obtain ⟨m1', p1, p2⟩ := hl 0 m1 rfl
    obtain ⟨m2', q1, q2⟩ := hl 1 m2 rfl
    have r1 : h[2]? = some (.seq [0, 1]) := by
      obtain ⟨m', e, t⟩ := hl 2 _ rfl
      cases t
      exact e
    obtain ⟨f, f1, f2⟩ := a3 m1' p2
    obtain ⟨g, g1, g2⟩ := b3 m2' q2
    exact ⟨f, g 0, f1, g1 0, comp h ho m1' m2' p1 q1 r1 f g f2 g2⟩
  · intro f g hf hg
    obtain ⟨m1', p1, p2, p3⟩ := a4 f hf
    obtain ⟨m2', q1, q2, q3⟩ := b4 (fun _ => g) fun _ => hg
    have ho : Heap.Ordered [m1', m2', .seq [0, 1]] := by
      intro i m hi j hj
      rcases i with _ | _ | _ | i
      · cases hi; rw [p2] at hj; cases hj
      · cases hi; rw [q2] at hj; cases hj
      · cases hi
        simp [Mod.refs, Mod.hidden, Mod.children] at hj
        omega
      · simp at hi
    refine ⟨[m1', m2', .seq [0, 1]], ?_, ho, comp _ ho m1' m2' rfl rfl rfl f (fun _ => g) p3 q3⟩
    intro i m hi
    rcases i with _ | _ | _ | i
    · cases hi; exact ⟨m1', rfl, p1⟩
    · cases hi; exact ⟨m2', rfl, q1⟩
    · cases hi; exact ⟨_, rfl, .refl _⟩
    · simp at hi

/-! ## which families solve the problem -/

theorem links_solve {k : LinkFamily} {n S : ℕ} (hS : 0 < S) (hc : XorCapable k n S) : ∃ (f : ℕ → ℕ → ℝ → ℝ) (g : ℕ → ℝ → ℝ),
    (∀ o i, InFamily k n S (f o i)) ∧ (∀ i, InFamily k n S (g i)) ∧ ∀ x y, RightSign (twoLayers f g) x y := by
  have square : 3 ≤ n → ∃ (f : ℕ → ℕ → ℝ → ℝ) (g : ℕ → ℝ → ℝ),
      (∀ o i, InFamily k n S (f o i)) ∧ (∀ i, InFamily k n S (g i)) ∧ ∀ x y, RightSign (twoLayers f g) x y := fun h3 => by
    refine ⟨fun o i x => (if o = 1 ∧ i = 1 then -1 else 1) * x + 0, fun i x => (if i = 0 then -1 else 1) * x ^ 2,
      fun o i => link_affine k (by omega) hS _ _, fun i => link_square k h3 hS _, fun x y => ?_⟩
    have : ∀ x y : ℝ, twoLayers (fun o i x => (if o = 1 ∧ i = 1 then -1 else 1) * x + 0) (fun i x => (if i = 0 then -1 else 1) * x ^ 2) x y
        = -4 * (x * y) := fun x y => by simp [twoLayers]; ring
    simp only [RightSign, this]
    constructor <;> intro h <;> linarith
  have tent : k ≠ .polynomial → 2 ≤ n → 2 ≤ S → ∃ (f : ℕ → ℕ → ℝ → ℝ) (g : ℕ → ℝ → ℝ),
      (∀ o i, InFamily k n S (f o i)) ∧ (∀ i, InFamily k n S (g i)) ∧ ∀ x y, RightSign (twoLayers f g) x y := fun hk h2 hS2 => by
    refine ⟨fun o i x => (if o = 1 ∧ i = 1 then -1 else 1) * x + (if i = 0 then segLeft S 1 else 0), fun i x => (if i = 0 then -1 else 1) * |x - segLeft S 1|,
      fun o i => link_affine k h2 hS _ _, fun i => link_abs hk h2 hS2 _, fun x y => ?_⟩
    have : ∀ x y : ℝ, twoLayers (fun o i x => (if o = 1 ∧ i = 1 then -1 else 1) * x + (if i = 0 then segLeft S 1 else 0))
        (fun i x => (if i = 0 then -1 else 1) * |x - segLeft S 1|) x y = -|x + y| + |x - y| := fun x y => by
      have e1 : x + segLeft S 1 + y - segLeft S 1 = x + y := by ring
      have e2 : x + segLeft S 1 + -y - segLeft S 1 = x - y := by ring
      simp [twoLayers, e1, e2]
    simp only [RightSign, this]
    constructor
    · intro h
      have : |x - y| < |x + y| := sq_lt_sq.1 (by nlinarith)
      linarith
    · intro h
      have : |x + y| < |x - y| := sq_lt_sq.1 (by nlinarith)
      linarith
  have step : k = .discontinuous → n = 1 → Even S → ∃ (f : ℕ → ℕ → ℝ → ℝ) (g : ℕ → ℝ → ℝ),
      (∀ o i, InFamily k n S (f o i)) ∧ (∀ i, InFamily k n S (g i)) ∧ ∀ x y, RightSign (twoLayers f g) x y := by
    rintro rfl rfl he
    refine ⟨fun o i x => if x < 0 then (if i = 0 then (if o = 0 then -2 else 0) else -1) else (if i = 0 then (if o = 0 then 0 else 2) else 1),
      fun i x => if x < 0 then (if i = 0 then 0 else -1 / 2) else (if i = 0 then -1 else 1 / 2),
      fun o i => link_step one_pos hS he _ _, fun i => link_step one_pos hS he _ _, fun x y => ?_⟩
    constructor
    · intro h
      rcases pos_and_pos_or_neg_and_neg_of_mul_pos h with ⟨h1, h2⟩ | ⟨h1, h2⟩
      · norm_num [twoLayers, h1.not_gt, h2.not_gt]
      · norm_num [twoLayers, h1, h2]
    · intro h
      rcases mul_neg_iff.1 h with ⟨h1, h2⟩ | ⟨h1, h2⟩
      · norm_num [twoLayers, h1.not_gt, h2]
      · norm_num [twoLayers, h1, h2.not_gt]
  cases k with
  | polynomial => exact square hc
  | continuous =>
    rcases hc with h | ⟨h, h'⟩
    · exact square h
    · exact tent (by decide) h.ge h'
  | discontinuous =>
    rcases hc with h | ⟨h, h'⟩ | ⟨h, h'⟩
    · exact square h
    · exact tent (by decide) h.ge h'
    · exact step rfl h h'

/-- **C105 (solvable).** The families for which some weights give the right sign at every point: `polynomial` from three nodes on,
`continuous` from three nodes on or with two nodes and at least two segments, `discontinuous` moreover with one node and an even number of
segments. -/
theorem C105_solvable (k : LinkFamily) {n S : ℕ} (hn : 0 < n) (hS : 0 < S) (hc : XorCapable k n S) (rng : Rng ℝ) :
    ∃ N, xorInit rng k.name n S = .ok N ∧ ∃ h F, N.heap.Later h ∧ h.Ordered ∧
      Computes (N.with h).forward 2 1 (fun _ r => F (r 0) (r 1)) ∧ ∀ x y, RightSign F x y := by
  obtain ⟨N, e, -, h2⟩ := C105_functions k hn hS rng
  obtain ⟨f, g, hf, hg, hs⟩ := links_solve hS hc
  obtain ⟨h, h3, h4, h5⟩ := h2 f g hf hg
  exact ⟨N, e, h, twoLayers f g, h3, h4, h5, hs⟩

/-- In the families left out every link is affine, or constant around zero. -/
theorem not_capable {k : LinkFamily} {n S : ℕ} (hn : 0 < n) (hS : 0 < S) (hc : ¬ XorCapable k n S) :
    (∀ f, InFamily k n S f → ∃ a b : ℝ, ∀ x, f x = a * x + b) ∨ (k = .discontinuous ∧ n = 1 ∧ ¬ Even S) := by
  cases k with
  | polynomial => exact Or.inl fun f hf => affine_of_link hS (by simp only [XorCapable] at hc; show n ≤ 2; omega) hf
  | continuous =>
    refine Or.inl fun f hf => affine_of_link hS ?_ hf
    simp only [XorCapable] at hc
    show n = 1 ∨ (n = 2 ∧ S = 1)
    omega
  | discontinuous =>
    simp only [XorCapable] at hc
    by_cases h1 : n = 1
    · exact Or.inr ⟨rfl, h1, fun he => hc (Or.inr (Or.inr ⟨h1, he⟩))⟩
    · refine Or.inl fun f hf => affine_of_link hS ?_ hf
      show n ≤ 2 ∧ S = 1
      omega

/-- Two affine layers give an affine function: the values at opposite points of a rectangle around the origin have the same sum. -/
theorem twoLayers_affine {f : ℕ → ℕ → ℝ → ℝ} {g : ℕ → ℝ → ℝ} (hf : ∀ o i, ∃ a b : ℝ, ∀ x, f o i x = a * x + b)
    (hg : ∀ i, ∃ a b : ℝ, ∀ x, g i x = a * x + b) (x y : ℝ) :
    twoLayers f g x y + twoLayers f g (-x) (-y) = twoLayers f g x (-y) + twoLayers f g (-x) y := by
  choose a b hab using hf
  choose c d hcd using hg
  simp only [twoLayers, hab, hcd]
  ring

/-- **C105 (not solvable).** For all other numbers of nodes and segments the network has, whatever the training, the wrong sign at some point of
the open square from which the samples are drawn. -/
theorem C105_not_solvable (k : LinkFamily) {n S : ℕ} (hn : 0 < n) (hS : 0 < S) (hc : ¬ XorCapable k n S) (rng : Rng ℝ) :
    ∃ N, xorInit rng k.name n S = .ok N ∧ ∀ h, N.heap.Later h → h.Ordered → ∃ F,
      Computes (N.with h).forward 2 1 (fun _ r => F (r 0) (r 1)) ∧
      ∃ x y, |x| < 1 ∧ |y| < 1 ∧ x * y ≠ 0 ∧ ¬ RightSign F x y := by
  obtain ⟨N, e, h1, -⟩ := C105_functions k hn hS rng
  refine ⟨N, e, fun h hl ho => ?_⟩
  obtain ⟨f, g, hf, hg, hF⟩ := h1 h hl ho
  refine ⟨twoLayers f g, hF, ?_⟩
  by_contra hcon
  push Not at hcon
  rcases not_capable hn hS hc with haff | ⟨rfl, rfl, hodd⟩
  · have key := twoLayers_affine (fun o i => haff _ (hf o i)) (fun i => haff _ (hg i)) (1 / 2) (1 / 2)
    have p1 := (hcon (1 / 2) (1 / 2) (by norm_num [abs_of_pos]) (by norm_num [abs_of_pos]) (by norm_num)).1 (by norm_num)
    have p2 := (hcon (-(1 / 2)) (-(1 / 2)) (by norm_num [abs_of_pos]) (by norm_num [abs_of_pos]) (by norm_num)).1 (by norm_num)
    have p3 := (hcon (1 / 2) (-(1 / 2)) (by norm_num [abs_of_pos]) (by norm_num [abs_of_pos]) (by norm_num)).2 (by norm_num)
    have p4 := (hcon (-(1 / 2)) (1 / 2) (by norm_num [abs_of_pos]) (by norm_num [abs_of_pos]) (by norm_num)).2 (by norm_num)
    linarith
  · have hp : (0 : ℝ) < S := by positivity
    have hS1 : (1 : ℝ) ≤ S := by exact_mod_cast hS
    set t : ℝ := 1 / (2 * S) with ht
    have t0 : 0 < t := by positivity
    have t1 : t < 1 / S := by rw [ht, div_lt_div_iff₀ (by positivity) hp]; linarith
    have t2 : t < 1 := lt_of_lt_of_le t1 (by rw [div_le_one hp]; exact hS1)
    have habs : |t| < 1 / S := by rwa [abs_of_pos t0]
    have ev : twoLayers f g (-t) t = twoLayers f g t t := by
      simp only [twoLayers, even_of_link hodd (hf 0 0) habs, even_of_link hodd (hf 1 0) habs]
    have p1 := (hcon t t (by rwa [abs_of_pos t0]) (by rwa [abs_of_pos t0]) (by positivity)).1 (by positivity)
    have p2 := (hcon (-t) t (by rwa [abs_neg, abs_of_pos t0]) (by rwa [abs_of_pos t0]) (by nlinarith)).2 (by nlinarith)
    linarith

/-! ## the loss -/

/-- The rows come in groups of four reflections of a point off the axes. -/
def Reflected (x : Tensor ℝ) (m : ℕ) : Prop :=
  ∀ q < m, ∃ a b : ℝ, a * b ≠ 0 ∧ x.get [4 * q, 0] = a ∧ x.get [4 * q, 1] = b ∧ x.get [4 * q + 1, 0] = -a ∧ x.get [4 * q + 1, 1] = -b ∧
    x.get [4 * q + 2, 0] = a ∧ x.get [4 * q + 2, 1] = -b ∧ x.get [4 * q + 3, 0] = -a ∧ x.get [4 * q + 3, 1] = b

theorem xorTarget_pos {x y : ℝ} (h : 0 < x * y) : xorTarget x y = -(1 / 2) := by
  have : ltB (0 : ℝ) (x * y) = true := by simp [ltB, h]
  simp [xorTarget, this]

theorem xorTarget_neg {x y : ℝ} (h : ¬ 0 < x * y) : xorTarget x y = 1 / 2 := by
  have : ltB (0 : ℝ) (x * y) = false := by simpa [ltB] using h
  simp [xorTarget, this]

/-- The loss of a network that computes a function of the row. -/
theorem XorNet.loss_eq {N : XorNet ℝ} {F : ℝ → ℝ → ℝ} (hF : Computes N.forward 2 1 fun _ r => F (r 0) (r 1)) {B : ℕ} {x : Tensor ℝ}
    (hx : x.shape = [B, 2]) (hwf : x.WF) :
    N.loss x = .ok ((∑ b ∈ Finset.range B, (F (x.get [b, 0]) (x.get [b, 1]) - xorTarget (x.get [b, 0]) (x.get [b, 1])) ^ 2) / B) := by
  obtain ⟨y, y1, y2, y3, y4⟩ := hF B x hx hwf
  have hl : (xorLabels x).shape = [B, 1] := by simp [xorLabels, hx, Tensor.tab2, Tensor.tabulate]
  have num : numel [B, 1] = B := by simp [numel]
  simp only [XorNet.loss, y1, bind, Except.bind]
  rw [mseLoss_eq y2 hl, num]
  refine congrArg (fun s : ℝ => Except.ok (s / B)) (Finset.sum_congr rfl fun b hb => ?_)
  have hb := Finset.mem_range.1 hb
  have e1 : y.data.getD b 0 = y.get [b, 0] := by simp [Tensor.get, y2, ravel, numel]
  have e2 : (xorLabels x).data.getD b 0 = (xorLabels x).get [b, 0] := by simp [Tensor.get, hl, ravel, numel]
  rw [e1, e2, y4 b hb 0 one_pos]
  unfold xorLabels
  rw [hx]
  show (_ - (Tensor.tab2 B 1 _).get [b, 0]) ^ 2 = _
  rw [Tensor.get_tab2 hb one_pos]

/-- **C105 (no better than always answering zero).** Where every link is affine (`polynomial` with at most two nodes, as in the first entry of
`model_set_p`, `continuous` with one node or with two nodes and one segment, `discontinuous` with at most two nodes and one segment), the
training loss is at least one quarter on every batch of reflected samples, whatever the training; one quarter is the loss of a network
answering zero everywhere. -/
theorem C105_affine_loss (k : LinkFamily) {n S : ℕ} (hn : 0 < n) (hS : 0 < S) (hc : ¬ XorCapable k n S) (hd : ¬ (k = .discontinuous ∧ n = 1 ∧ S ≠ 1))
    (rng : Rng ℝ) : ∃ N, xorInit rng k.name n S = .ok N ∧ ∀ h, N.heap.Later h → h.Ordered → ∀ (m : ℕ) (x : Tensor ℝ), 0 < m →
      x.shape = [4 * m, 2] → x.WF → Reflected x m → ∃ l, (N.with h).loss x = .ok l ∧ 1 / 4 ≤ l := by
  obtain ⟨N, e, h1, -⟩ := C105_functions k hn hS rng
  refine ⟨N, e, fun h hl ho m x hm hx hwf hr => ?_⟩
  obtain ⟨f, g, hf, hg, hF⟩ := h1 h hl ho
  have haff : ∀ f, InFamily k n S f → ∃ a b : ℝ, ∀ x, f x = a * x + b := by
    rcases not_capable hn hS hc with h | ⟨rfl, rfl, h⟩
    · exact h
    · intro f hf
      exact affine_of_link hS (show 1 ≤ 2 ∧ S = 1 from ⟨by norm_num, by by_contra hs; exact hd ⟨rfl, rfl, hs⟩⟩) hf
  refine ⟨_, XorNet.loss_eq hF hx hwf, ?_⟩
  have hm' : (0 : ℝ) < (4 * m : ℕ) := by positivity
  rw [le_div_iff₀ hm']
  have key : ∀ q ≤ m, (q : ℝ) ≤ ∑ b ∈ Finset.range (4 * q), (twoLayers f g (x.get [b, 0]) (x.get [b, 1]) - xorTarget (x.get [b, 0]) (x.get [b, 1])) ^ 2 := by
    intro q
    induction q with
    | zero => intro _; simp
    | succ q ih =>
      intro hq
      have := ih (by omega)
      obtain ⟨a, b, hab, r1, r2, r3, r4, r5, r6, r7, r8⟩ := hr q (by omega)
      have aff := twoLayers_affine (fun o i => haff _ (hf o i)) (fun i => haff _ (hg i)) a b
      rw [show 4 * (q + 1) = 4 * q + 1 + 1 + 1 + 1 by ring, Finset.sum_range_succ, Finset.sum_range_succ, Finset.sum_range_succ, Finset.sum_range_succ]
      rw [r1, r2, r3, r4, show 4 * q + 1 + 1 = 4 * q + 2 by ring, r5, r6, show 4 * q + 2 + 1 = 4 * q + 3 by ring, r7, r8]
      push_cast
      rcases lt_or_gt_of_ne hab with hneg | hpos
      · rw [xorTarget_neg (x := a) (y := b) (by linarith), xorTarget_neg (x := -a) (y := -b) (by nlinarith),
          xorTarget_pos (x := a) (y := -b) (by linarith), xorTarget_pos (x := -a) (y := b) (by linarith)]
        nlinarith [sq_nonneg (twoLayers f g a b), sq_nonneg (twoLayers f g (-a) (-b)), sq_nonneg (twoLayers f g a (-b)), sq_nonneg (twoLayers f g (-a) b)]
      · rw [xorTarget_pos (x := a) (y := b) (by linarith), xorTarget_pos (x := -a) (y := -b) (by nlinarith),
          xorTarget_neg (x := a) (y := -b) (by linarith), xorTarget_neg (x := -a) (y := b) (by linarith)]
        nlinarith [sq_nonneg (twoLayers f g a b), sq_nonneg (twoLayers f g (-a) (-b)), sq_nonneg (twoLayers f g a (-b)), sq_nonneg (twoLayers f g (-a) b)]
  have := key m le_rfl
  push_cast
  linarith

/-- **C105 (exact).** With `discontinuous` layers and an even number of segments (the default is two) some weights give the labels exactly off
the axes: the training loss is zero on every batch. -/
theorem C105_exact {n S : ℕ} (hn : 0 < n) (hS : 0 < S) (he : Even S) (rng : Rng ℝ) :
    ∃ N, xorInit rng "discontinuous" n S = .ok N ∧ ∃ h, N.heap.Later h ∧ h.Ordered ∧ ∀ (B : ℕ) (x : Tensor ℝ), x.shape = [B, 2] → x.WF →
      (∀ b < B, x.get [b, 0] * x.get [b, 1] ≠ 0) → (N.with h).loss x = .ok 0 ∧
        ∃ out, (N.with h).forward x = .ok out ∧ out.shape = [B, 1] ∧ ∀ b < B, out.get [b, 0] = xorTarget (x.get [b, 0]) (x.get [b, 1]) := by
  obtain ⟨N, e, -, h2⟩ := C105_functions .discontinuous hn hS rng
  obtain ⟨h, h3, h4, h5⟩ := h2
    (fun o i x => if x < 0 then (if i = 0 then (if o = 0 then -2 else 0) else -1) else (if i = 0 then (if o = 0 then 0 else 2) else 1))
    (fun i x => if x < 0 then (if i = 0 then 0 else -1 / 2) else (if i = 0 then -1 else 1 / 2))
    (fun o i => link_step hn hS he _ _) (fun i => link_step hn hS he _ _)
  generalize hG : twoLayers _ _ = G at h5
  have val : ∀ a b : ℝ, a * b ≠ 0 → G a b = xorTarget a b := by
    intro a b hab
    rw [← hG]
    rcases lt_or_gt_of_ne hab with hneg | hpos
    · rw [xorTarget_neg (by linarith)]
      rcases mul_neg_iff.1 hneg with ⟨h1, h2⟩ | ⟨h1, h2⟩
      · norm_num [twoLayers, h1.not_gt, h2]
      · norm_num [twoLayers, h1, h2.not_gt]
    · rw [xorTarget_pos hpos]
      rcases pos_and_pos_or_neg_and_neg_of_mul_pos hpos with ⟨h1, h2⟩ | ⟨h1, h2⟩
      · norm_num [twoLayers, h1.not_gt, h2.not_gt]
      · norm_num [twoLayers, h1, h2]
  refine ⟨N, e, h, h3, h4, fun B x hx hwf h0 => ⟨?_, ?_⟩⟩
  · rw [XorNet.loss_eq h5 hx hwf, Finset.sum_eq_zero fun b hb => ?_, zero_div]
    have hb := Finset.mem_range.1 hb
    rw [val _ _ (h0 b hb), sub_self]
    norm_num
  · obtain ⟨out, o1, o2, o3, o4⟩ := h5 B x hx hwf
    exact ⟨out, o1, o2, fun b hb => (o4 b hb 0 one_pos).trans (val _ _ (h0 b hb))⟩

/-! ## the layers of two variables -/

/-- The network of one `continuous_nd` layer with weights `w`. -/
def ndNet (L : PwNDLayer ℝ) (w : Tensor ℝ) : XorNet ℝ := { heap := [.pwND { L with w := w }, .seq [0]], model := 1, nd := true }

theorem ndSign_twice (n : ℕ) : ndSign [n, n] = 1 := by
  have : ([n, n].map fun n => n - 1).sum = 2 * (n - 1) := by simp; ring
  rw [ndSign, this, pow_mul]
  norm_num

/-- **C105 (`continuous_nd`).** The constructor succeeds with one layer whose weight has `segments^2 * n^2` entries; whatever these are, the network
maps a non-empty batch `[batch, 2]` to `[batch, 1]` by one tensor product piecewise polynomial on the `segments x segments` boxes of the square. -/
theorem C105_nd {n S : ℕ} (hS : 0 < S) (rng : Rng ℝ) :
    ∃ L, xorInit rng "continuous_nd" n S = .ok (ndNet L L.w) ∧ L.w.shape = [numel [S, S] * numel [n, n]] ∧
      ∀ w : Tensor ℝ, w.shape = L.w.shape → ∃ g, IsPiecewiseND [n, n] [S, S] (fun q => w.get [q]) g ∧
        ∀ (B : ℕ) (x : Tensor ℝ), 0 < B → x.shape = [B, 2] → x.WF →
          ∃ out, (ndNet L w).forward x = .ok out ∧ out.shape = [B, 1] ∧ ∀ b < B, out.get [b, 0] = g fun d => x.get [b, d] := by
  obtain ⟨L, e, hs, hw⟩ := C63_value [n, n] [S, S] (by simp) rfl (by intro d hd; rcases d with _ | _ | d <;> simp_all) 1 1 one_pos one_pos (rng 0) 1
  simp only [Nat.mul_one, Nat.one_mul] at hs hw
  refine ⟨L, ?_, hs, fun w hws => ?_⟩
  · have e' : PwNDLayer.init (.list [n, n]) 1 1 (.int S) (some 2) ((2 : ℕ) : ℝ) (rng 0) 1 = .ok L := by
      rw [← e, show ((2 : ℕ) : ℝ) = 2 by norm_num]; rfl
    simp only [xorInit, e', bind, Except.bind]
    rfl
  · obtain ⟨g, g1, g2⟩ := hw w (hws.trans hs)
    refine ⟨g, g1, fun B x hB hx hwf => ?_⟩
    obtain ⟨out, o1, o2, o3, o4⟩ := g2 B (x.reshape [B, 1, 2]) hB rfl
    refine ⟨out, ?_, o2, fun b hb => ?_⟩
    · have hu : unsqueeze1 x = .ok (x.reshape [B, 1, 2]) := by simp [unsqueeze1, hx]
      have ho : Heap.Ordered (ndNet L w).heap := by
        intro i m hi j hj
        rcases i with _ | _ | i
        · cases hi; simp [Mod.refs, Mod.hidden, Mod.children] at hj
        · cases hi
          simp [Mod.refs, Mod.hidden, Mod.children] at hj
          omega
        · simp [ndNet] at hi
      show (unsqueeze1 x >>= fun y => (ndNet L w).heap.forward 1 y) = _
      rw [hu]
      show (ndNet L w).heap.forward 1 (x.reshape [B, 1, 2]) = _
      rw [Heap.forward_eq ho (show (ndNet L w).heap[1]? = some (.seq [0]) from rfl)]
      show ((ndNet L w).heap.forward 0 (x.reshape [B, 1, 2]) >>= fun b => .ok b) = .ok out
      rw [Heap.forward_eq ho (show (ndNet L w).heap[0]? = some (.pwND { L with w := w }) from rfl)]
      show (({ L with w := w } : PwNDLayer ℝ).forward (x.reshape [B, 1, 2]) >>= fun b => .ok b) = .ok out
      rw [o1]
      rfl
    · rw [o4 b hb 0 one_pos, ndSign_twice]
      simp only [one_mul, Finset.sum_range_one]
      congr 1
      funext d
      simp [Tensor.get, Tensor.reshape, hx, ravel, numel]

/-- Weights for which the function is a given product of two polynomials on every box. -/
theorem nd_choose {n S : ℕ} (hn : 0 < n) (P : ℕ → ℕ → ℕ → ℝ[X]) (hP : ∀ s t d, (P s t d).degree < n) :
    ∃ w : Tensor ℝ, w.shape = [numel [S, S] * numel [n, n]] ∧ w.WF ∧ ∀ g, IsPiecewiseND [n, n] [S, S] (fun q => w.get [q]) g →
      ∀ s t (y : ℕ → ℝ), IsActive S s (y 0) → IsActive S t (y 1) →
        g y = (P s t 0).eval (localCoord S s (y 0)) * (P s t 1).eval (localCoord S t (y 1)) := by
  have hnn : numel [n, n] = n * n := by simp [numel]
  have hpos : 0 < n * n := Nat.mul_pos hn hn
  set W : ℕ → ℝ := fun q => ∏ d ∈ Finset.range 2, (P (q / (n * n) / S) (q / (n * n) % S) d).eval
    (2 / 2 * node n ((unravel [n, n] (q % (n * n))).getD d 0)) with hW
  refine ⟨Tensor.tab1 (numel [S, S] * numel [n, n]) W, rfl, Tensor.wf_tabulate _ _, fun g hg s t y hs ht => ?_⟩
  have hSS : numel [S, S] = S * S := by simp [numel]
  have hr : ravel [S, S] [s, t] = s * S + t := by simp [ravel, numel]
  have hlt : s * S + t < S * S := by
    have h1 := hs.1
    have h2 := ht.1
    calc s * S + t < s * S + S := by omega
      _ = (s + 1) * S := by ring
      _ ≤ S * S := Nat.mul_le_mul_right _ h1
  rw [hg [s, t] (by simp [InShape, hs.1, ht.1]) y (by intro d hd; rcases d with _ | _ | d <;> simp_all)]
  have key := C62_reproduces_products [n, n] 2 (by norm_num) (fun d => P s t d) (by intro d hd; rcases d with _ | _ | d <;> simp_all)
    fun d => localCoord ([S, S].getD d 0) ([s, t].getD d 0) (y d)
  have rhs : ∏ d ∈ Finset.range [n, n].length, (P s t d).eval (localCoord ([S, S].getD d 0) ([s, t].getD d 0) (y d))
      = (P s t 0).eval (localCoord S s (y 0)) * (P s t 1).eval (localCoord S t (y 1)) := by
    simp [Finset.prod_range_succ]
  rw [← rhs, ← key]
  refine Finset.sum_congr rfl fun q hq => ?_
  have hq' : q < n * n := by rw [← hnn]; exact Finset.mem_range.1 hq
  congr 1
  have hidx : (s * S + t) * (n * n) + q < numel [S, S] * numel [n, n] := by
    rw [hSS, hnn]
    calc (s * S + t) * (n * n) + q < (s * S + t) * (n * n) + n * n := by omega
      _ = (s * S + t + 1) * (n * n) := by ring
      _ ≤ S * S * (n * n) := Nat.mul_le_mul_right _ hlt
  show (Tensor.tab1 (numel [S, S] * numel [n, n]) W).get [ravel [S, S] [s, t] * numel [n, n] + q] = _
  rw [hr, show numel [n, n] = n * n from hnn] at *
  rw [Tensor.get_tab1 hidx, hW]
  have d1 : ((s * S + t) * (n * n) + q) / (n * n) = s * S + t := by
    rw [Nat.mul_comm, Nat.mul_add_div hpos, Nat.div_eq_of_lt hq', Nat.add_zero]
  have d2 : ((s * S + t) * (n * n) + q) % (n * n) = q := by
    rw [Nat.mul_comm, Nat.mul_add_mod, Nat.mod_eq_of_lt hq']
  have hSp : 0 < S := by have := ht.1; omega
  have d3 : (s * S + t) / S = s := by rw [Nat.mul_comm, Nat.mul_add_div hSp, Nat.div_eq_of_lt ht.1, Nat.add_zero]
  have d4 : (s * S + t) % S = t := by rw [Nat.mul_comm, Nat.mul_add_mod, Nat.mod_eq_of_lt ht.1]
  simp only [d1, d2, d3, d4]
  refine Finset.prod_congr rfl fun d hd => ?_
  have : d < 2 := Finset.mem_range.1 hd
  rcases d with _ | _ | d
  · rfl
  · rfl
  · omega

/-- A segment of an even number of segments lies on one side of zero. -/
theorem active_side {S m s : ℕ} (hm : S = 2 * m) (hm0 : 0 < m) {x : ℝ} (hs : IsActive S s x) : x < 0 ↔ s < m := by
  obtain ⟨v, hv⟩ := link_step (n := 1) one_pos (by omega) ⟨m, by omega⟩ (S := S) (-1) 1
  obtain ⟨h1, h2, h3⟩ := hs
  have hp : (0 : ℝ) < S := by rw [hm]; positivity
  have cast : (S : ℝ) = 2 * m := by rw [hm]; push_cast; ring
  have seg : ∀ t : ℕ, segLeft S t = (2 * t - S) / S := fun t => by unfold segLeft; field_simp; ring
  constructor
  · intro hx
    by_contra hc
    rcases h2 with h2 | h2
    · omega
    · have : 0 ≤ segLeft S s := by
        rw [seg]
        apply div_nonneg _ hp.le
        have : (m : ℝ) ≤ s := by exact_mod_cast (by omega : m ≤ s)
        rw [cast]; linarith
      linarith
  · intro h
    rcases h3 with h3 | h3
    · omega
    · refine lt_of_lt_of_le h3 ?_
      rw [seg]
      apply div_nonpos_of_nonpos_of_nonneg _ hp.le
      have : ((s + 1 : ℕ) : ℝ) ≤ m := by exact_mod_cast h
      rw [cast]; linarith

/-- **C105 (`continuous_nd`, what it can represent).** With two nodes or more some weights give `-x * y`, hence the right sign everywhere. With an even
number of segments some weights give the labels exactly off the axes. With one node and an odd number of segments the sign is wrong
somewhere in the square, whatever the weights. -/
theorem C105_nd_represents {n S : ℕ} (hn : 0 < n) (hS : 0 < S) :
    (2 ≤ n → ∃ w : Tensor ℝ, w.shape = [numel [S, S] * numel [n, n]] ∧ w.WF ∧ ∀ g, IsPiecewiseND [n, n] [S, S] (fun q => w.get [q]) g →
      ∀ y : ℕ → ℝ, g y = -(y 0 * y 1)) ∧
    (Even S → ∃ w : Tensor ℝ, w.shape = [numel [S, S] * numel [n, n]] ∧ w.WF ∧ ∀ g, IsPiecewiseND [n, n] [S, S] (fun q => w.get [q]) g →
      ∀ y : ℕ → ℝ, y 0 * y 1 ≠ 0 → g y = xorTarget (y 0) (y 1)) ∧
    (n = 1 → ¬ Even S → ∀ v g, IsPiecewiseND [n, n] [S, S] v g →
      ∃ x y : ℝ, |x| < 1 ∧ |y| < 1 ∧ x * y ≠ 0 ∧ ¬ RightSign (fun x y => g fun d => if d = 0 then x else y) x y) := by
  refine ⟨fun h2 => ?_, fun he => ?_, fun h1 ho v g hg => ?_⟩
  · obtain ⟨w, w1, w2, w3⟩ := nd_choose (S := S) hn (fun s t d => if d = 0 then -globalPoly S s else globalPoly S t) (by
      intro s t d
      have : ∀ Q : ℝ[X], Q.natDegree ≤ 1 → Q.degree < n := fun Q hQ => lt_of_le_of_lt degree_le_natDegree (Nat.cast_lt.2 (by omega))
      split
      · exact this _ (by rw [natDegree_neg]; exact globalPoly_degree S s)
      · exact this _ (globalPoly_degree S t))
    refine ⟨w, w1, w2, fun g hg y => ?_⟩
    obtain ⟨s, hs⟩ := isActive_exists hS (y 0)
    obtain ⟨t, ht⟩ := isActive_exists hS (y 1)
    rw [w3 g hg s t y hs ht]
    simp only [if_true, one_ne_zero, if_false, eval_neg, globalPoly_eval hS]
    ring
  · obtain ⟨m, hm⟩ := he
    have hm' : S = 2 * m := by omega
    obtain ⟨w, w1, w2, w3⟩ := nd_choose (S := S) hn (fun s t d => if d = 0 then C (if (s < m ↔ t < m) then -(1 / 2 : ℝ) else 1 / 2) else 1) (by
      intro s t d
      split
      · exact lt_of_le_of_lt degree_C_le (by exact_mod_cast hn)
      · exact lt_of_le_of_lt degree_one_le (by exact_mod_cast hn))
    refine ⟨w, w1, w2, fun g hg y h0 => ?_⟩
    obtain ⟨s, hs⟩ := isActive_exists hS (y 0)
    obtain ⟨t, ht⟩ := isActive_exists hS (y 1)
    rw [w3 g hg s t y hs ht]
    simp only [if_true, one_ne_zero, if_false, eval_C, eval_one, mul_one, ← active_side hm' (by omega) hs, ← active_side hm' (by omega) ht]
    rcases lt_or_gt_of_ne h0 with hneg | hpos
    · rw [xorTarget_neg (by linarith)]
      rcases mul_neg_iff.1 hneg with ⟨h1, h2⟩ | ⟨h1, h2⟩
      · simp [h1.not_gt, h2]
      · simp [h1, h2.not_gt]
    · rw [xorTarget_pos hpos]
      rcases pos_and_pos_or_neg_and_neg_of_mul_pos hpos with ⟨h1, h2⟩ | ⟨h1, h2⟩
      · simp [h1.not_gt, h2.not_gt]
      · simp [h1, h2]
  · subst h1
    obtain ⟨m, hm⟩ := Nat.not_even_iff_odd.1 ho
    have hp : (0 : ℝ) < S := by positivity
    have hS1 : (1 : ℝ) ≤ S := by exact_mod_cast hS
    have cast : (S : ℝ) = 2 * m + 1 := by rw [hm]; push_cast; ring
    have act : ∀ y : ℝ, |y| < 1 / S → IsActive S m y := fun y hy => by
      obtain ⟨h1, h2⟩ := abs_lt.1 hy
      have e1 : segLeft S m = -(1 / S) := by unfold segLeft; field_simp; rw [cast]; ring
      have e2 : segLeft S (m + 1) = 1 / S := by unfold segLeft; push_cast; field_simp; rw [cast]; ring
      exact ⟨by omega, Or.inr (by rw [e1]; exact h1.le), Or.inr (by rw [e2]; exact h2)⟩
    set t : ℝ := 1 / (2 * S) with ht
    have t0 : 0 < t := by positivity
    have t1 : t < 1 / S := by rw [ht, div_lt_div_iff₀ (by positivity) hp]; linarith
    have t2 : t < 1 := lt_of_lt_of_le t1 (by rw [div_le_one hp]; exact hS1)
    have habs : |t| < 1 / S := by rwa [abs_of_pos t0]
    have habs' : |(-t)| < 1 / S := by rwa [abs_neg]
    by_contra hcon
    push Not at hcon
    have val : ∀ a b : ℝ, |a| < 1 / S → |b| < 1 / S → g (fun d => if d = 0 then a else b) = v (ravel [S, S] [m, m]) := by
      intro a b ha hb
      have hmS : m < S := by omega
      rw [hg [m, m] (by simp [InShape, hmS]) _ (by intro d hd; rcases d with _ | _ | d <;> simp_all)]
      have : numel [1, 1] = 1 := rfl
      have u : unravel [1, 1] 0 = [0, 0] := rfl
      rw [this, Finset.sum_range_one, u]
      simp [tensorCardinal, cardinal, Finset.prod_range_succ]
    have p1 := (hcon t t (by rwa [abs_of_pos t0]) (by rwa [abs_of_pos t0]) (by positivity)).1 (by positivity)
    have p2 := (hcon (-t) t (by rwa [abs_neg, abs_of_pos t0]) (by rwa [abs_of_pos t0]) (by nlinarith)).2 (by nlinarith)
    beta_reduce at p1 p2
    rw [val _ _ habs habs] at p1
    rw [val _ _ habs' habs] at p2
    linarith

/-- **C105 (`polynomial_2d`).** The branch for layers of two variables passes `dimensions` twice: `layer_type="polynomial_2d"` always raises
`TypeError`, in every arithmetic. A name that is not in the table raises `ValueError`. -/
theorem C105_errors {K : Type} [TorchScalar K] (rng : Rng K) (n S : ℕ) :
    xorInit rng "polynomial_2d" n S = .error .typeError ∧
    ∀ name, fcTable.lookup name = none → xorInit rng name n S = .error .valueError := by
  refine ⟨rfl, fun name hname => ?_⟩
  have n1 : name ≠ "polynomial_2d" := by rintro rfl; exact absurd hname (by decide)
  have n2 : name ≠ "continuous_nd" := by rintro rfl; exact absurd hname (by decide)
  simp only [xorInit, n1, n2, if_false, fcLayer, hname, bind, Except.bind]

/-! ## examples -/

example : ¬ XorCapable .polynomial 2 2 ∧ XorCapable .continuous 2 2 ∧ XorCapable .discontinuous 1 2 ∧ ¬ XorCapable .discontinuous 1 3 ∧
    ¬ XorCapable .continuous 1 5 := by
  simp [XorCapable]
  decide

/-- The first entry of `model_set_p` on the four corners of a square. -/
example : ∃ N, xorInit (fun _ _ _ => (0 : ℝ)) "polynomial" 2 2 = .ok N ∧
    ∃ l, N.loss ⟨[4, 2], [1 / 2, 1 / 2, -(1 / 2), -(1 / 2), 1 / 2, -(1 / 2), -(1 / 2), 1 / 2]⟩ = .ok l ∧ 1 / 4 ≤ l := by
  obtain ⟨N, e, h⟩ := C105_affine_loss .polynomial (n := 2) (S := 2) (by norm_num) (by norm_num) (by simp [XorCapable]) (by simp) (fun _ _ _ => 0)
  refine ⟨N, e, h N.heap (Heap.Later.refl _) ?_ 1 _ one_pos rfl rfl ?_⟩
  · have e2 : xorInit (fun _ _ _ => (0 : ℝ)) "polynomial" 2 2 = .ok N := e
    intro i m hi j hj
    simp only [xorInit, fcLayer, fcTable] at e2
    cases e2
    rcases i with _ | _ | _ | i
    · cases hi; simp [Mod.refs, Mod.hidden, Mod.children] at hj
    · cases hi; simp [Mod.refs, Mod.hidden, Mod.children] at hj
    · cases hi
      simp [Mod.refs, Mod.hidden, Mod.children] at hj
      omega
    · simp at hi
  · intro q hq
    obtain rfl : q = 0 := by omega
    refine ⟨1 / 2, 1 / 2, by norm_num, ?_⟩
    simp [Tensor.get, ravel, numel]

/-- `Discontinuous 2` (one node) with two segments answers one sample of each sign without error for some weights. -/
example : ∃ N, xorInit (fun _ _ _ => (0 : ℝ)) "discontinuous" 1 2 = .ok N ∧ ∃ h, N.heap.Later h ∧ ∃ out,
    (N.with h).forward ⟨[2, 2], [1 / 2, 1 / 3, 1 / 2, -(1 / 3)]⟩ = .ok out ∧ out.get [0, 0] = -(1 / 2) ∧ out.get [1, 0] = 1 / 2 := by
  obtain ⟨N, e, h, h1, -, h2⟩ := C105_exact (n := 1) (S := 2) one_pos two_pos even_two (fun _ _ _ => (0 : ℝ))
  obtain ⟨-, out, o1, -, o3⟩ := h2 2 ⟨[2, 2], [1 / 2, 1 / 3, 1 / 2, -(1 / 3)]⟩ rfl rfl (by
    intro b hb
    rcases b with _ | _ | b
    · norm_num [Tensor.get, ravel, numel]
    · norm_num [Tensor.get, ravel, numel]
    · omega)
  refine ⟨N, e, h, h1, out, o1, ?_, ?_⟩
  · rw [o3 0 two_pos, xorTarget_pos (by norm_num [Tensor.get, ravel, numel])]
  · rw [o3 1 one_lt_two, xorTarget_neg (by norm_num [Tensor.get, ravel, numel])]

end HOL
