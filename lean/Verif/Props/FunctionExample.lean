import Verif.Model.FunctionExample
import Verif.Spec.FunctionExample
import Verif.Lemmas.Alternation
import Verif.Lemmas.Norm
import Verif.Props.Pieces
import Verif.Props.Fourier
import Verif.Props.Sensitivity
import Mathlib.Analysis.Real.Pi.Bounds

/-! # C111: the function example, examples/function_example.py -/

namespace HOL
open Polynomial Spec TorchScalar

/-! ## the function -/

theorem simpleFunc_eq (x : ℝ) : simpleFunc x = wave x := by
  show 1 / ((2 : ℕ) : ℝ) * Real.cos (((3 : ℕ) : ℝ) / ((2 : ℕ) : ℝ) * (((314159 : ℕ) : ℝ) / ((100000 : ℕ) : ℝ)) * 1 / (|x| + 1 / ((4 : ℕ) : ℝ))) = wave x
  unfold wave
  norm_num

theorem wave_neg (x : ℝ) : wave (-x) = wave x := by unfold wave; rw [abs_neg]

/-- Half a wave is at least 2/5 high where the phase is within `d` of a multiple of `π`. -/
theorem wave_sign {x : ℝ} {m : ℕ} {d : ℝ} (h : |1.5 * 3.14159 / (|x| + 0.25) - m * Real.pi| ≤ d) (hd : d ≤ 0.635) : 2 / 5 ≤ (-1) ^ m * wave x := by
  unfold wave
  set u := 1.5 * 3.14159 / (|x| + 0.25) - m * Real.pi with hu
  have hc : Real.cos u = (-1) ^ m * Real.cos (1.5 * 3.14159 / (|x| + 0.25)) := by rw [hu, Real.cos_sub_nat_mul_pi]
  have h2 : Real.cos u = 2 * Real.cos (u / 2) ^ 2 - 1 := by rw [← Real.cos_two_mul]; congr 1; ring
  have h3 := Real.one_sub_sq_div_two_le_cos (x := u / 2)
  have h4 : u ^ 2 ≤ 0.635 ^ 2 := by rw [← sq_abs]; exact pow_le_pow_left₀ (abs_nonneg _) (h.trans hd) 2
  have h5 : (0.94 : ℝ) ≤ Real.cos (u / 2) := by nlinarith
  have h6 : (0.9495 : ℝ) ≤ Real.cos (u / 2) := by nlinarith
  have h7 : 0.8 ≤ Real.cos u := by rw [h2]; nlinarith
  rw [hc] at h7
  linarith

theorem wave_sign_at {x q : ℝ} {m : ℕ} (hx : 0 ≤ x) (hq : 1.5 * 3.14159 / (x + 0.25) = q) (h1 : m * Real.pi - 0.635 ≤ q) (h2 : q ≤ m * Real.pi + 0.635) :
    2 / 5 ≤ (-1) ^ m * wave x := by
  refine wave_sign (d := 0.635) ?_ le_rfl
  rw [abs_of_nonneg hx, hq, abs_le]
  constructor <;> linarith

/-- Eleven of the points of `xTest`. -/
def peaks : ℕ → ℕ
  | 0 => 1 | 1 => 250 | 2 => 375 | 3 => 438 | 4 => 475 | 5 => 500 | 6 => 525 | 7 => 562 | 8 => 625 | 9 => 750 | _ => 999

/-- The position of a point of `xTest`. -/
noncomputable def gridPoint (k : ℕ) : ℝ := (k : ℝ) / 500 - 1

theorem peaks_lt (j : ℕ) : peaks j < 1000 := by
  rcases j with _ | _ | _ | _ | _ | _ | _ | _ | _ | _ | j <;> simp [peaks]

theorem peaks_mono : ∀ j < 10, gridPoint (peaks j) < gridPoint (peaks (j + 1)) := by
  intro j hj
  interval_cases j <;> norm_num [peaks, gridPoint]

theorem wave_peaks : ∀ j ≤ 10, 2 / 5 ≤ (-1) ^ (j + 1) * wave (gridPoint (peaks j)) := by
  have p1 := Real.pi_gt_d6
  have p2 := Real.pi_lt_d6
  have n1 : 2 / 5 ≤ (-1) ^ 1 * wave (gridPoint 999) := wave_sign_at (by norm_num [gridPoint]) (by rw [gridPoint]) (by norm_num; linarith) (by norm_num; linarith)
  have n2 : 2 / 5 ≤ (-1) ^ 2 * wave (gridPoint 750) := wave_sign_at (by norm_num [gridPoint]) (by rw [gridPoint]) (by norm_num; linarith) (by norm_num; linarith)
  have n3 : 2 / 5 ≤ (-1) ^ 3 * wave (gridPoint 625) := wave_sign_at (by norm_num [gridPoint]) (by rw [gridPoint]) (by norm_num; linarith) (by norm_num; linarith)
  have n4 : 2 / 5 ≤ (-1) ^ 4 * wave (gridPoint 562) := wave_sign_at (by norm_num [gridPoint]) (by rw [gridPoint]) (by norm_num; linarith) (by norm_num; linarith)
  have n5 : 2 / 5 ≤ (-1) ^ 5 * wave (gridPoint 525) := wave_sign_at (by norm_num [gridPoint]) (by rw [gridPoint]) (by norm_num; linarith) (by norm_num; linarith)
  have n6 : 2 / 5 ≤ (-1) ^ 6 * wave (gridPoint 500) := wave_sign_at (by norm_num [gridPoint]) (by rw [gridPoint]) (by norm_num; linarith) (by norm_num; linarith)
  have g : ∀ a b : ℕ, a + b = 1000 → gridPoint a = -gridPoint b := fun a b h => by
    have : (a : ℝ) + b = 1000 := by exact_mod_cast h
    unfold gridPoint
    linarith
  have e1 : wave (gridPoint 1) = wave (gridPoint 999) := by rw [g 1 999 rfl, wave_neg]
  have e2 : wave (gridPoint 250) = wave (gridPoint 750) := by rw [g 250 750 rfl, wave_neg]
  have e3 : wave (gridPoint 375) = wave (gridPoint 625) := by rw [g 375 625 rfl, wave_neg]
  have e4 : wave (gridPoint 438) = wave (gridPoint 562) := by rw [g 438 562 rfl, wave_neg]
  have e5 : wave (gridPoint 475) = wave (gridPoint 525) := by rw [g 475 525 rfl, wave_neg]
  intro j hj
  interval_cases j <;> simp only [peaks, e1, e2, e3, e4, e5] <;> norm_num at * <;> assumption

/-- A function close to the wave at all points of `xTest` changes sign ten times. -/
theorem follows_alternates {φ : ℝ → ℝ} (h : ∀ k < 1000, |φ (gridPoint k) - wave (gridPoint k)| < 2 / 5) :
    ∀ j ≤ 10, 0 < (-1) ^ (j + 1) * φ (gridPoint (peaks j)) := by
  intro j hj
  have h1 := wave_peaks j hj
  have h2 := abs_lt.1 (h (peaks j) (peaks_lt j))
  rcases neg_one_pow_eq_or ℝ (j + 1) with e | e <;> rw [e] at h1 ⊢ <;> linarith [h2.1, h2.2]

theorem alternates_mul {a : ℕ → ℝ} {j : ℕ} (h0 : 0 < (-1) ^ (j + 1) * a j) (h1 : 0 < (-1) ^ (j + 1 + 1) * a (j + 1)) : a j * a (j + 1) < 0 := by
  rw [pow_succ _ (j + 1)] at h1
  rcases neg_one_pow_eq_or ℝ (j + 1) with e | e <;> rw [e] at h0 h1 <;> nlinarith

/-- A function with fewer than ten changes of sign misses the wave. -/
theorem misses_of_alternations {φ : ℝ → ℝ} {A : ℕ} (hA : A < 10)
    (h : ∀ (K : ℕ) (t : ℕ → ℝ), (∀ k < K, t k < t (k + 1)) → (∀ k < K, φ (t k) * φ (t (k + 1)) < 0) → K ≤ A) :
    ∃ k < 1000, 2 / 5 ≤ |φ (gridPoint k) - wave (gridPoint k)| := by
  by_contra hc
  push Not at hc
  have hf := follows_alternates hc
  have := h 10 (fun j => gridPoint (peaks j)) peaks_mono fun j hj =>
    alternates_mul (a := fun j => φ (gridPoint (peaks j))) (hf j hj.le) (hf (j + 1) hj)
  omega

/-- A Fourier series of at most ten terms misses the wave: the wave is even, and the even part of the series is a polynomial of degree at most four in `cos πx`. -/
theorem misses_fourier {n : ℕ} (hn : n ≤ 10) (c : ℕ → ℝ) : ∃ k < 1000, 2 / 5 ≤ |fourierSum n 2 c (gridPoint k) - wave (gridPoint k)| := by
  by_contra hc
  push Not at hc
  obtain ⟨P, hP, he⟩ := fourier_even (d := 4) (by omega : n ≤ 2 * 4 + 2) c
  have hf := follows_alternates hc
  have g : ∀ j ≤ 10, gridPoint (peaks j) = -gridPoint (peaks (10 - j)) := by
    intro j hj
    interval_cases j <;> norm_num [peaks, gridPoint]
  have hs : ∀ j ≤ 10, 0 < (-1) ^ (j + 1) * P.eval (Real.cos (Real.pi * gridPoint (peaks j))) := by
    intro j hj
    rw [← he, mul_add]
    refine add_pos (hf j hj) ?_
    have h1 := hf (10 - j) (by omega)
    have h2 := g (10 - j) (by omega)
    rw [show 10 - (10 - j) = j by omega] at h2
    rw [h2] at h1
    have e : ((-1 : ℝ)) ^ (10 - j + 1) = (-1) ^ (j + 1) := by
      interval_cases j <;> norm_num
    rwa [e] at h1
  have ht : ∀ j < 5, Real.cos (Real.pi * gridPoint (peaks j)) < Real.cos (Real.pi * gridPoint (peaks (j + 1))) := by
    intro j hj
    have hpi := Real.pi_pos
    rw [g j (by omega), g (j + 1) (by omega), mul_neg, mul_neg, Real.cos_neg, Real.cos_neg]
    have b : ∀ i ≤ 5, 0 ≤ gridPoint (peaks (10 - i)) ∧ gridPoint (peaks (10 - i)) ≤ 1 := by
      intro i hi
      interval_cases i <;> norm_num [peaks, gridPoint]
    have hlt : gridPoint (peaks (10 - (j + 1))) < gridPoint (peaks (10 - j)) := by
      have := peaks_mono (10 - (j + 1)) (by omega)
      rwa [show 10 - (j + 1) + 1 = 10 - j by omega] at this
    refine Real.cos_lt_cos_of_nonneg_of_le_pi (mul_nonneg hpi.le (b (j + 1) (by omega)).1) ?_ (mul_lt_mul_of_pos_left hlt hpi)
    have := mul_le_mul_of_nonneg_left (b j (by omega)).2 hpi.le
    linarith
  have := alternations_poly hP (K := 5) (t := fun j => Real.cos (Real.pi * gridPoint (peaks j))) ht fun j hj =>
    alternates_mul (a := fun j => P.eval (Real.cos (Real.pi * gridPoint (peaks j)))) (hs j (by omega)) (hs (j + 1) (by omega))
  omega

/-! ## the networks -/

/-- The network after training: the same object with other weights. -/
def FuncNet.with {K : Type} (N : FuncNet K) (h : Heap K) : FuncNet K := { N with heap := h }

/-- `forward` on matrices with one column. -/
theorem FuncNet.forward_column (N : FuncNet ℝ) {B : ℕ} (hB : 0 < B) {x : Tensor ℝ} (hx : x.shape = [B, 1]) : N.forward x = N.heap.forward N.layer x := by
  unfold FuncNet.forward
  rw [flattenRows_ok x hx hB]
  have : x.reshape [B, numel [1]] = x := by
    have e : [B, numel [1]] = x.shape := by rw [hx]; rfl
    rw [e]
    rfl
  rw [this]
  rfl

/-- What training can make of a network of one of the three kinds: exactly the links. -/
theorem func_links (k : LinkFamily) {n S : ℕ} (hn : 0 < n) (hS : 0 < S) (rng : Rng ℝ) (opt : String) :
    ∃ N, funcInit rng n S k.name none opt = .ok N ∧
      (∀ h, N.heap.Later h → h.Ordered → ∃ φ, InFamily k n S φ ∧ Computes (h.forward N.layer) 1 1 fun _ r => φ (r 0)) ∧
      ∀ φ, InFamily k n S φ → ∃ h, N.heap.Later h ∧ h.Ordered ∧ Computes (h.forward N.layer) 1 1 fun _ r => φ (r 0) := by
  obtain ⟨m, a1, a2, a3, a4⟩ := layer_links k hn hS (I := 1) (O := 1) one_pos one_pos rng 0
  have e1 : fcLayer rng k.name (funcArgs n S none 1 1) [] = .ok (0, [m]) := by
    have : (funcArgs n S none 1 1 : FcArgs ℝ) = xorArgs n S 1 1 := rfl
    simp only [this, fcLayer, linkLeaf_lookup, List.length_nil, a1, bind, Except.bind, List.nil_append, List.length_cons]
  have ne1 : k.name ≠ "standard" := by cases k <;> decide
  have ne2 : k.name ≠ "product" := by cases k <;> decide
  have fwd : ∀ (h : Heap ℝ), h.Ordered → ∀ m', h[0]? = some m' → ∀ f, SumsLinks m' 1 1 f → Computes (h.forward 0) 1 1 fun _ r => f 0 0 (r 0) := by
    intro h ho m' h0 f hf
    rw [Heap.forward_eq ho h0]
    refine (hf h.forward).congr fun o ho r => ?_
    obtain rfl : o = 0 := by omega
    rw [Finset.sum_range_one]
  refine ⟨{ heap := [m], layer := 0, optimizer := opt }, ?_, ?_, ?_⟩
  · simp only [funcInit, ne1, ne2, if_false, e1, bind, Except.bind]
  · intro h hl ho
    obtain ⟨m', p1, p2⟩ := hl 0 m rfl
    obtain ⟨f, f1, f2⟩ := a3 m' p2
    exact ⟨f 0 0, f1 0 0, fwd h ho m' p1 f f2⟩
  · intro φ hφ
    obtain ⟨m', p1, p2, p3⟩ := a4 (fun _ _ => φ) fun _ _ => hφ
    have ho : Heap.Ordered [m'] := by
      intro i m hi j hj
      rcases i with _ | i
      · cases hi; rw [p2] at hj; cases hj
      · simp at hi
    refine ⟨[m'], ?_, ho, fwd _ ho m' rfl _ p3⟩
    intro i m hi
    rcases i with _ | i
    · cases hi; exact ⟨m', rfl, p1⟩
    · simp at hi

theorem func_fourier {n S : ℕ} (hn : 0 < n) (rng : Rng ℝ) (opt : String) :
    ∃ N, funcInit rng n S "fourier" none opt = .ok N ∧
      ∀ h, N.heap.Later h → h.Ordered → ∃ c, Computes (h.forward N.layer) 1 1 fun _ r => fourierSum n 2 c (r 0) := by
  obtain ⟨L, l1, l2, l3⟩ := C43_fourier_layer n 1 1 hn ((2 : ℕ) : ℝ) (rng 0) 1 none
  have e1 : fcLayer rng "fourier" (funcArgs n S none 1 1) [] = .ok (0, [.fn L]) := by
    have hlk : fcTable.lookup "fourier" = some (.leaf .fourier) := rfl
    simp only [fcLayer, hlk, fcMods, leafMods, funcArgs, List.length_nil, l1, bind, Except.bind, List.nil_append, List.length_cons]
  refine ⟨{ heap := [.fn L], layer := 0, optimizer := opt }, ?_, ?_⟩
  · simp only [funcInit, e1, bind, Except.bind]
    rfl
  · intro h hl ho
    obtain ⟨m', p1, p2⟩ := hl 0 _ rfl
    have key : ∃ w : Tensor ℝ, w.shape = [1, 1, n] ∧ m' = .fn { L with w := w } := by
      cases p2 with
      | refl => exact ⟨L.w, l2, rfl⟩
      | fn _ w hs hw => exact ⟨w, hs.trans l2, rfl⟩
    obtain ⟨w, w1, rfl⟩ := key
    refine ⟨fun j => w.get [0, 0, j], ?_⟩
    rw [Heap.forward_eq ho p1]
    refine (l3 w w1).congr fun o ho r => ?_
    obtain rfl : o = 0 := by omega
    rw [Finset.sum_range_one]
    norm_num

/-- Functions of one variable from paths. -/
theorem path_of_pieces {fwd : Fwd ℝ} {bs : List (ℕ × ℕ)} (h : ComputesPieces fwd 1 1 bs) :
    ∃ φ : ℝ → ℝ, (Computes fwd 1 1 fun _ r => φ (r 0)) ∧ PolyPath (fun t (_ : Fin 1) => φ t) (pathBound bs (1, 1)).1 (pathBound bs (1, 1)).2 := by
  obtain ⟨F, h1, h2⟩ := h
  refine ⟨fun t => F 0 fun _ => t, h1.congr fun o ho r => ?_, ?_⟩
  · obtain rfl : o = 0 := by omega
    congr 1
    funext i
    rw [Fin.fin_one_eq_zero i]
    rfl
  · have hl : PolyPath (fun (t : ℝ) (_ : Fin 1) => t) 1 1 := ⟨∅, by simp, fun U _ _ _ => ⟨X, natDegree_X_le, fun t _ => by simp⟩⟩
    have e : (fun (t : ℝ) (o : Fin 1) => F o fun (_ : Fin 1) => t) = fun t _ => F 0 fun _ => t := by
      funext t o
      rw [Fin.fin_one_eq_zero o]
      rfl
    have := h2 _ 1 1 hl
    rwa [e] at this

theorem func_product {n S : ℕ} (rng : Rng ℝ) (opt : String) :
    ∃ N, funcInit rng n S "product" none opt = .ok N ∧
      ∀ h, N.heap.Later h → h.Ordered → ∃ P : ℝ[X], P.natDegree ≤ n ∧ Computes (h.forward N.layer) 1 1 fun _ r => P.eval (r 0) := by
  set L : ℕ → ℕ → ℕ → ProductLayer ℝ := fun base I O =>
    { inFeatures := I, outFeatures := O, alpha := 1, periodicity := none, weight := Tensor.tab2 O I (rng base)
      bias := some (Tensor.tab1 O fun o => rng base o I) } with hL
  refine ⟨{ heap := [.product (L 0 1 n), .product (L 1 n 1), .seq [0, 1]], layer := 2, optimizer := opt }, rfl, fun h hl ho => ?_⟩
  have tr : ∀ i base I O, ({ heap := [.product (L 0 1 n), .product (L 1 n 1), .seq [0, 1]], layer := 2, optimizer := opt } : FuncNet ℝ).heap[i]? = some (.product (L base I O)) →
      ComputesPieces (h.forward i) I O [(0, I)] := by
    intro i base I O hi
    obtain ⟨m', p1, p2⟩ := hl i _ hi
    rw [Heap.forward_eq ho p1]
    cases p2 with
    | refl => exact pieces_product (L := L base I O) rfl rfl rfl
    | product _ w b hs hb => exact pieces_product (L := { L base I O with weight := w, bias := some b }) rfl (hs.trans rfl) rfl
  have h2 : h[2]? = some (.seq [0, 1]) := by
    obtain ⟨m', e, t⟩ := hl 2 _ rfl
    cases t
    exact e
  have hseq : ComputesPieces (seqForward [h.forward 0, h.forward 1]) 1 1 ([(0, 1)] ++ ([(0, n)] ++ [])) :=
    .cons (tr 0 0 1 n rfl) (.cons (tr 1 1 n 1 rfl) (.nil 1))
  obtain ⟨φ, f1, f2⟩ := path_of_pieces hseq
  have hb : pathBound ([(0, 1)] ++ ([(0, n)] ++ [])) (1, 1) = (1, n) := by simp [pathBound]
  rw [hb] at f2
  obtain ⟨T, hT, hp⟩ := f2
  have hT0 : T = ∅ := Finset.card_eq_zero.1 (by simpa using hT)
  obtain ⟨P, P1, P2⟩ := hp Set.univ Set.ordConnected_univ (fun t _ => by rw [hT0]; exact Finset.notMem_empty t) 0
  refine ⟨P, P1, ?_⟩
  rw [Heap.forward_eq ho h2]
  exact f1.congr fun o _ r => P2 (r 0) trivial

/-- Lipschitz functions from chains. -/
theorem steady_continuous {fwd : Fwd ℝ} {C : ℝ} (h : Steady fwd 1 1 C) {φ : ℝ → ℝ} (hφ : Computes fwd 1 1 fun _ r => φ (r 0)) : Continuous φ := by
  have key : ∀ a b : ℝ, |φ b - φ a| ≤ C * |b - a| := by
    intro a b
    obtain ⟨u, v, e1, e2, _, _, h3⟩ := h 1 (Tensor.tab2 1 1 fun _ _ => a) (Tensor.tab2 1 1 fun _ _ => b) rfl (Tensor.wf_tabulate _ _) rfl (Tensor.wf_tabulate _ _)
    obtain ⟨u', f1, _, _, f4⟩ := hφ 1 (Tensor.tab2 1 1 fun _ _ => a) rfl (Tensor.wf_tabulate _ _)
    obtain ⟨v', g1, _, _, g4⟩ := hφ 1 (Tensor.tab2 1 1 fun _ _ => b) rfl (Tensor.wf_tabulate _ _)
    rw [e1] at f1; cases f1
    rw [e2] at g1; cases g1
    have := h3 0 one_pos |b - a| (fun i hi => by rw [Tensor.get_tab2 one_pos hi, Tensor.get_tab2 one_pos hi]) 0 one_pos
    rw [f4 0 one_pos 0 one_pos, g4 0 one_pos 0 one_pos] at this
    beta_reduce at this
    rw [Tensor.get_tab2 one_pos one_pos, Tensor.get_tab2 one_pos one_pos] at this
    exact this
  have hC : 0 ≤ C := by
    have := (abs_nonneg _).trans (key 0 1)
    simpa using this
  exact (LipschitzWith.of_dist_le_mul (K := C.toNNReal) fun a b => by
    rw [Real.dist_eq, Real.dist_eq, Real.coe_toNNReal C hC]; exact key b a).continuous

theorem func_standard {n S : ℕ} (rng : Rng ℝ) (opt : String) :
    ∃ N, funcInit rng n S "standard" none opt = .ok N ∧
      ∀ h, N.heap.Later h → h.Ordered → ∃ φ : ℝ → ℝ, (Computes (h.forward N.layer) 1 1 fun _ r => φ (r 0)) ∧ Continuous φ ∧
        PolyPath (fun t (_ : Fin 1) => φ t) ((1 + n) * (1 + n)) 1 := by
  refine ⟨_, rfl, fun h hl ho => ?_⟩
  have lin : ∀ {i base I O : ℕ}, [linearMod rng 0 1 n, .other fun x => .ok (reluT x), linearMod rng 2 n n, .other fun x => .ok (reluT x), linearMod rng 4 n 1,
      .seq [0, 1, 2, 3, 4]][i]? = some (linearMod rng base I O) → ComputesPieces (h.forward i) I O [(0, 1)] ∧ ∃ C, Steady (h.forward i) I O C := by
    intro i base I O hi
    obtain ⟨m', p1, p2⟩ := hl i _ hi
    rw [Heap.forward_eq ho p1]
    have st : ∀ w b : Tensor ℝ, w.shape = [O, I] → ∃ C, Steady (linearForward w b) I O C := fun w b hw => by
      refine ⟨_, steady_linear hw (W := ∑ o ∈ Finset.range O, ∑ i ∈ Finset.range I, |w.get [o, i]|) fun o ho i hi => ?_⟩
      refine (Finset.single_le_sum (f := fun i => |w.get [o, i]|) (fun _ _ => abs_nonneg _) (Finset.mem_range.2 hi)).trans ?_
      exact Finset.single_le_sum (f := fun o => ∑ i ∈ Finset.range I, |w.get [o, i]|) (fun _ _ => Finset.sum_nonneg fun _ _ => abs_nonneg _) (Finset.mem_range.2 ho)
    cases p2 with
    | refl => exact ⟨pieces_linear rfl, st _ _ rfl⟩
    | linear _ _ w' b' hs hb => exact ⟨pieces_linear (hs.trans rfl), st _ _ (hs.trans rfl)⟩
  have rel : ∀ {i : ℕ}, [linearMod rng 0 1 n, .other fun x => .ok (reluT x), linearMod rng 2 n n, .other fun x => .ok (reluT x), linearMod rng 4 n 1,
      .seq [0, 1, 2, 3, 4]][i]? = some (.other fun x : Tensor ℝ => .ok (reluT x)) → h.forward i = fun x => .ok (reluT x) := by
    intro i hi
    obtain ⟨m', p1, p2⟩ := hl i _ hi
    cases p2
    rw [Heap.forward_eq ho p1]
    rfl
  have h5 : h[5]? = some (.seq [0, 1, 2, 3, 4]) := by
    obtain ⟨m', e, t⟩ := hl 5 _ rfl
    cases t
    exact e
  obtain ⟨l0, C0, s0⟩ := lin (i := 0) rfl
  obtain ⟨l2, C2, s2⟩ := lin (i := 2) rfl
  obtain ⟨l4, C4, s4⟩ := lin (i := 4) rfl
  have r1 := rel (i := 1) rfl
  have r3 := rel (i := 3) rfl
  have hseq : ComputesPieces (seqForward [h.forward 0, h.forward 1, h.forward 2, h.forward 3, h.forward 4]) 1 1
      ([(0, 1)] ++ ([(n, 1)] ++ ([(0, 1)] ++ ([(n, 1)] ++ ([(0, 1)] ++ []))))) := by
    rw [r1, r3]
    exact .cons l0 (.cons (pieces_relu n) (.cons l2 (.cons (pieces_relu n) (.cons l4 (.nil 1)))))
  have hst := C110_sequential (.cons s0 (.cons (steady_relu n) (.cons s2 (.cons (steady_relu n) (.cons s4 (.nil 1))))))
  obtain ⟨φ, f1, f2⟩ := path_of_pieces hseq
  have hb : pathBound ([(0, 1)] ++ ([(n, 1)] ++ ([(0, 1)] ++ ([(n, 1)] ++ ([(0, 1)] ++ []))))) (1, 1) = ((1 + n) * (1 + n), 1) := by simp [pathBound]
  rw [hb] at f2
  have hc : Continuous φ := steady_continuous hst (by rw [r1, r3] at f1; exact f1)
  refine ⟨φ, ?_, hc, f2⟩
  show Computes (h.forward 5) 1 1 _
  rw [Heap.forward_eq ho h5]
  exact f1

theorem funcTest_shape : (funcTest : Tensor ℝ).shape = [1000, 1] := by
  unfold funcTest Tensor.tab2
  rfl

theorem funcTest_wf : (funcTest : Tensor ℝ).WF := by
  unfold funcTest Tensor.tab2
  exact Tensor.wf_tabulate _ _

theorem funcTest_get {k : ℕ} (hk : k < 1000) : (funcTest : Tensor ℝ).get [k, 0] = gridPoint k := by
  unfold funcTest
  rw [Tensor.get_tab2 hk one_pos]
  rfl

theorem funcTestValues_get {k : ℕ} (hk : k < 1000) : (funcTestValues : Tensor ℝ).get [k, 0] = wave (gridPoint k) := by
  unfold funcTestValues
  rw [Tensor.get_map (t := funcTest) funcTest_wf (by rw [funcTest_shape]; exact inShape2.2 ⟨hk, one_pos⟩), funcTest_get hk, simpleFunc_eq]

/-- **C111 (networks that cannot follow).** For the sizes listed in `TooSimple` the constructor succeeds, and whatever the weights, the predictions at the
test points are defined and at some test point off the function by at least 2/5, most of its amplitude 1/2. -/
theorem C111_cannot_follow (rng : Rng ℝ) {function : String} {n S : ℕ} (hs : TooSimple function n S) (opt : String) :
    ∃ N, funcInit rng n S function none opt = .ok N ∧ ∀ h, N.heap.Later h → h.Ordered →
      ∃ out, (N.with h).forward funcTest = .ok out ∧ out.shape = [1000, 1] ∧
        ∃ k < 1000, 2 / 5 ≤ |out.get [k, 0] - funcTestValues.get [k, 0]| := by
  obtain ⟨hn, hS, hcase⟩ := hs
  have fin : ∀ (N : FuncNet ℝ) (h : Heap ℝ) (φ : ℝ → ℝ), (Computes (h.forward N.layer) 1 1 fun _ r => φ (r 0)) →
      (∃ k < 1000, 2 / 5 ≤ |φ (gridPoint k) - wave (gridPoint k)|) → ∃ out, (N.with h).forward funcTest = .ok out ∧ out.shape = [1000, 1] ∧
        ∃ k < 1000, 2 / 5 ≤ |out.get [k, 0] - funcTestValues.get [k, 0]| := by
    intro N h φ hφ ⟨k, hk, hle⟩
    obtain ⟨out, o1, o2, _, o4⟩ := hφ 1000 funcTest funcTest_shape funcTest_wf
    refine ⟨out, ((N.with h).forward_column (B := 1000) (by norm_num) funcTest_shape).trans o1, o2, k, hk, ?_⟩
    rw [o4 k hk 0 one_pos]
    beta_reduce
    rw [funcTest_get hk, funcTestValues_get hk]
    exact hle
  have links : ∀ k : LinkFamily, function = k.name → linkAlternations k n S < 10 → ∃ N, funcInit rng n S function none opt = .ok N ∧ ∀ h, N.heap.Later h → h.Ordered →
      ∃ out, (N.with h).forward funcTest = .ok out ∧ out.shape = [1000, 1] ∧ ∃ k < 1000, 2 / 5 ≤ |out.get [k, 0] - funcTestValues.get [k, 0]| := by
    intro k hk hlt
    obtain ⟨N, e, a, _⟩ := func_links k hn hS rng opt
    refine ⟨N, by rw [hk]; exact e, fun h hl ho => ?_⟩
    obtain ⟨φ, f1, f2⟩ := a h hl ho
    exact fin N h φ f2 (misses_of_alternations hlt fun K t ht hs => alternations_link k hn hS f1 ht hs)
  rcases hcase with ⟨e, hb⟩ | ⟨e, hb⟩ | ⟨e, hb⟩ | ⟨e, hb⟩ | ⟨e, hb⟩ | ⟨e, hb⟩
  · exact links .continuous e hb
  · exact links .discontinuous e (show S * n - 1 < 10 by omega)
  · exact links .polynomial e (show n - 1 < 10 by omega)
  · obtain ⟨N, e1, a⟩ := func_fourier (S := S) hn rng opt
    refine ⟨N, by rw [e]; exact e1, fun h hl ho => ?_⟩
    obtain ⟨c, hc⟩ := a h hl ho
    exact fin N h _ hc (misses_fourier hb c)
  · obtain ⟨N, e1, a⟩ := func_product (n := n) (S := S) rng opt
    refine ⟨N, by rw [e]; exact e1, fun h hl ho => ?_⟩
    obtain ⟨P, p1, p2⟩ := a h hl ho
    exact fin N h (fun t => P.eval t) p2 (misses_of_alternations (φ := fun t => P.eval t) hb fun K t ht hs => alternations_poly (P := P) p1 ht hs)
  · obtain ⟨N, e1, a⟩ := func_standard (n := n) (S := S) rng opt
    refine ⟨N, by rw [e]; exact e1, fun h hl ho => ?_⟩
    obtain ⟨φ, f1, f2, f3⟩ := a h hl ho
    refine fin N h φ f1 (misses_of_alternations (A := 9) (by norm_num) fun K t ht hs => ?_)
    have := alternations_path f3 0 f2 ht hs
    have hm : (1 + n) * (1 + n) ≤ 3 * 3 := Nat.mul_le_mul (by omega) (by omega)
    omega

/-! ## the other way: enough segments suffice -/

theorem wave_lipschitz (x y : ℝ) : |wave x - wave y| ≤ 38 * |x - y| := by
  unfold wave
  have a0 := abs_nonneg x
  have b0 := abs_nonneg y
  have h1 := Real.abs_cos_sub_cos_le (1.5 * 3.14159 / (|x| + 0.25)) (1.5 * 3.14159 / (|y| + 0.25))
  have h2 : |1.5 * 3.14159 / (|x| + 0.25) - 1.5 * 3.14159 / (|y| + 0.25)| ≤ 76 * |x - y| := by
    have e : (1.5 : ℝ) * 3.14159 / (|x| + 0.25) - 1.5 * 3.14159 / (|y| + 0.25) = 1.5 * 3.14159 * (|y| - |x|) / ((|x| + 0.25) * (|y| + 0.25)) := by
      field_simp
      ring
    rw [e, abs_div, abs_mul, abs_of_pos (by positivity : (0 : ℝ) < (|x| + 0.25) * (|y| + 0.25)), abs_of_pos (by norm_num : (0 : ℝ) < 1.5 * 3.14159), div_le_iff₀ (by positivity)]
    have h3 : |(|y| - |x|)| ≤ |x - y| := by rw [abs_sub_comm x y]; exact abs_abs_sub_abs_le y x
    have h4 : (0.0625 : ℝ) ≤ (|x| + 0.25) * (|y| + 0.25) := by nlinarith
    have h5 := abs_nonneg (x - y)
    nlinarith [mul_le_mul_of_nonneg_left h4 h5]
  rw [← mul_sub, abs_mul, abs_of_pos (by norm_num : (0 : ℝ) < 0.5)]
  linarith

/-- Sampling a function with constant `M` at the nodes gives a link that differs by at most `√(2n) M 2 / S`. -/
theorem link_samples {k : LinkFamily} (hk : k ≠ .polynomial) {n S : ℕ} (hn : 0 < n) (hc : k = .continuous → 2 ≤ n) (hS : 0 < S) {g : ℝ → ℝ} {M : ℝ} (hM : 0 ≤ M)
    (hg : ∀ x y, |g x - g y| ≤ M * |x - y|) : ∃ φ, InFamily k n S φ ∧ ∀ x, -1 ≤ x → x ≤ 1 → |φ x - g x| ≤ √(2 * n) * (M * (2 / S)) := by
  have key : ∀ (stride : ℕ) (V : ℕ → ℝ), (∀ s j, j < n → V (s * stride + j) = g (nodePos n S s j)) →
      ∃ φ, IsPiecewisePoly n S stride V φ ∧ ∀ x, -1 ≤ x → x ≤ 1 → |φ x - g x| ≤ √(2 * n) * (M * (2 / S)) := by
    intro stride V hV
    choose r hr using fun x => isActive_exists hS x
    refine ⟨fun x => (linkPoly n fun j => V (r x * stride + j)).eval (localCoord S (r x) x), fun s x hs => ?_, fun x h1 h2 => ?_⟩
    · beta_reduce
      rw [isActive_unique (hr x) hs]
    · obtain ⟨b1, b2, b3, b4⟩ := isActive_bounds (hr x) h1 h2
      beta_reduce
      set u := localCoord S (r x) x with hu
      have hone : ∑ j ∈ Finset.range n, cardinal n j u = 1 := by
        have e := linkPoly_cardinal n (fun _ => 1) u
        have e2 : linkPoly n (fun _ => (1 : ℝ)) = C 1 := by
          have := linkPoly_eq_of_degree_lt (n := n) (P := C (1 : ℝ)) (lt_of_le_of_lt degree_C_le (by exact_mod_cast hn))
          rw [← this]
          exact linkPoly_congr fun j _ => by rw [eval_C]
        rw [e2, eval_C] at e
        rw [e]
        exact Finset.sum_congr rfl fun j _ => (one_mul _).symm
      have e : (linkPoly n fun j => V (r x * stride + j)).eval u - g x = ∑ j ∈ Finset.range n, (g (nodePos n S (r x) j) - g x) * cardinal n j u := by
        rw [linkPoly_cardinal]
        simp only [sub_mul]
        rw [Finset.sum_sub_distrib, ← Finset.mul_sum, hone, mul_one]
        congr 1
        exact Finset.sum_congr rfl fun j hj => by rw [hV _ j (Finset.mem_range.1 hj)]
      rw [e]
      refine (Finset.abs_sum_le_sum_abs _ _).trans ?_
      have hd : ∀ j, |g (nodePos n S (r x) j) - g x| ≤ M * (2 / S) := by
        intro j
        refine (hg _ _).trans (mul_le_mul_of_nonneg_left ?_ hM)
        have hq : Spec.nodePos n S (r x) j = nodePos n S (r x) j := rfl
        obtain ⟨c1, c2⟩ := nodePos_bounds (n := n) (k := j) (s := r x) hS
        have e3 : segLeft S (r x + 1) = segLeft S (r x) + 2 / S := by unfold segLeft; push_cast; ring
        rw [e3] at b2 c2
        rw [hq] at c1 c2
        rw [abs_le]
        constructor <;> linarith
      calc ∑ j ∈ Finset.range n, |(g (nodePos n S (r x) j) - g x) * cardinal n j u| ≤ ∑ j ∈ Finset.range n, M * (2 / S) * |cardinal n j u| :=
            Finset.sum_le_sum fun j _ => by rw [abs_mul]; exact mul_le_mul_of_nonneg_right (hd j) (abs_nonneg _)
        _ = M * (2 / S) * ∑ j ∈ Finset.range n, |cardinal n j u| := by rw [Finset.mul_sum]
        _ ≤ M * (2 / S) * √(2 * n) := mul_le_mul_of_nonneg_left (cardinal_sum_abs n (abs_le.2 ⟨b3, b4⟩)) (by positivity)
        _ = _ := mul_comm _ _
  cases k with
  | polynomial => exact absurd rfl hk
  | continuous =>
    have h2 := hc rfl
    obtain ⟨V, hV⟩ := lift_nodes hn true (fun s j => g (nodePos n S s j)) (by
      intro _ s
      beta_reduce
      congr 1
      unfold nodePos segLeft
      rw [node_last h2, node_zero h2]
      push_cast
      ring)
    obtain ⟨φ, f1, f2⟩ := key (n - 1) V hV
    exact ⟨φ, ⟨V, f1⟩, f2⟩
  | discontinuous =>
    obtain ⟨V, hV⟩ := lift_nodes hn false (fun s j => g (nodePos n S s j)) (by simp)
    obtain ⟨φ, f1, f2⟩ := key n V hV
    exact ⟨φ, ⟨V, f1⟩, f2⟩

/-- **C111 (enough segments).** Continuous networks with at least two nodes and discontinuous networks have weights for which every prediction for inputs in
`[-1, 1]` is within `76 √(2n) / segments` of the function. -/
theorem C111_enough_segments (rng : Rng ℝ) {k : LinkFamily} (hk : k ≠ .polynomial) {n S : ℕ} (hn : 0 < n) (hc : k = .continuous → 2 ≤ n) (hS : 0 < S) (opt : String) :
    ∃ N, funcInit rng n S k.name none opt = .ok N ∧ ∃ h, N.heap.Later h ∧ h.Ordered ∧ ∀ (B : ℕ) (x : Tensor ℝ), 0 < B → x.shape = [B, 1] → x.WF →
      (∀ b < B, -1 ≤ x.get [b, 0] ∧ x.get [b, 0] ≤ 1) →
      ∃ out, (N.with h).forward x = .ok out ∧ out.shape = [B, 1] ∧ ∀ b < B, |out.get [b, 0] - simpleFunc (x.get [b, 0])| ≤ 76 * √(2 * n) / S := by
  obtain ⟨N, e, _, a⟩ := func_links k hn hS rng opt
  obtain ⟨φ, f1, f2⟩ := link_samples hk hn hc hS (by norm_num : (0 : ℝ) ≤ 38) wave_lipschitz
  obtain ⟨h, h1, h2, h3⟩ := a φ f1
  refine ⟨N, e, h, h1, h2, fun B x hB hx hwf hr => ?_⟩
  obtain ⟨out, o1, o2, _, o4⟩ := h3 B x hx hwf
  refine ⟨out, ((N.with h).forward_column hB hx).trans o1, o2, fun b hb => ?_⟩
  rw [o4 b hb 0 one_pos, simpleFunc_eq]
  refine (f2 _ (hr b hb).1 (hr b hb).2).trans_eq ?_
  ring

/-! ## what the script trains -/

/-- **C111 (what is trained).** Whatever optimizer is configured, `plot_results` trains with `sophia`, which the class knows; and with the configured five segments
these six of the fourteen networks are too simple, by `C111_cannot_follow`. -/
theorem C111_runs (optimizer : String) :
    (plotResults 5 false optimizer none).length = 14 ∧ (∀ r ∈ plotResults 5 false optimizer none, r.opt = "sophia" ∧ r.segments = 5) ∧
      ((plotResults 5 false optimizer none).filter fun r => TooSimple r.function r.n r.segments).map (fun r => (r.function, r.n)) =
        [("discontinuous", 1), ("discontinuous", 2), ("continuous", 1), ("continuous", 2), ("polynomial", 10), ("fourier", 10)] := by
  refine ⟨rfl, ?_, ?_⟩
  · intro r hr
    have : plotResults 5 false optimizer none = plotResults 5 false "" none := rfl
    rw [this] at hr
    revert r
    decide
  · show ((plotResults 5 false "" none).filter fun r => TooSimple r.function r.n r.segments).map (fun r => (r.function, r.n)) = _
    decide

/-- **C111 (optimizer argument).** The argument `optimizer` changes nothing, for any segments, periodicity and with or without `first_only`; with `first_only` one
network of each kind is trained. -/
theorem C111_optimizer_ignored (segments : ℕ) (firstOnly : Bool) (optimizer optimizer' : String) (periodicity : Option ℕ) :
    plotResults segments firstOnly optimizer periodicity = plotResults segments firstOnly optimizer' periodicity ∧
      (plotResults segments true optimizer periodicity).map (fun r => (r.function, r.n)) = [("discontinuous", 1), ("continuous", 1), ("polynomial", 10), ("fourier", 10)] :=
  ⟨rfl, rfl⟩

/-- **C111 (errors).** A kind of layer that is not in the table raises `ValueError`, and so does an unknown optimizer when training starts; in particular `adahessian`,
the only one for which `training_step` would keep the graph. -/
theorem C111_errors {K : Type} [TorchScalar K] (rng : Rng K) (n S : ℕ) (p : Option K) (opt : String) :
    (∀ function, function ≠ "standard" → fcTable.lookup function = none → funcInit rng n S function p opt = .error .valueError) ∧
      ∀ N : FuncNet K, (N.optimizer ∉ ["adam", "lion", "sophia", "sparse_lion", "lbfgs"] → N.configureOptimizers = .error .valueError) ∧
        (N.optimizer ∈ ["adam", "lion", "sophia", "sparse_lion", "lbfgs"] → ∃ o, N.configureOptimizers = .ok o) ∧
        (N.createGraph = true → N.configureOptimizers = .error .valueError) := by
  refine ⟨fun function h1 h2 => ?_, fun N => ?_⟩
  · have h3 : function ≠ "product" := by rintro rfl; exact absurd h2 (by decide)
    simp only [funcInit, h1, h3, if_false, fcLayer, h2, bind, Except.bind]
  · have key : N.optimizer ∉ ["adam", "lion", "sophia", "sparse_lion", "lbfgs"] → N.configureOptimizers = .error .valueError := by
      intro h
      simp only [List.mem_cons, List.not_mem_nil, or_false, not_or] at h
      obtain ⟨a1, a2, a3, a4, a5⟩ := h
      simp only [FuncNet.configureOptimizers, a1, a2, a3, a4, a5, if_false]
    refine ⟨key, fun h => ?_, fun h => key ?_⟩
    · simp only [List.mem_cons, List.not_mem_nil, or_false] at h
      rcases h with h | h | h | h | h <;> simp [FuncNet.configureOptimizers, h]
    · simp only [FuncNet.createGraph, List.mem_cons, List.not_mem_nil, or_false, decide_eq_true_eq] at h
      rw [h]
      decide

/-! ## examples -/

/-- Ten coefficients of a Fourier series are too few, eleven are not excluded. -/
example : TooSimple "fourier" 10 5 ∧ ¬ TooSimple "fourier" 11 5 := by decide

/-- A continuous layer with one node is a constant, for any number of segments. -/
example : TooSimple "continuous" 1 1000 := by decide

/-- One hundred times as many segments: within a tenth and a half. -/
example (rng : Rng ℝ) : ∃ N, funcInit rng 2 1000 "continuous" none "adam" = .ok N ∧ ∃ h, N.heap.Later h ∧ h.Ordered ∧
    ∃ out, (N.with h).forward (Tensor.tab2 1 1 fun _ _ => 0) = .ok out ∧ |out.get [0, 0] - simpleFunc 0| ≤ 0.152 := by
  obtain ⟨N, e, h, h1, h2, h3⟩ := C111_enough_segments rng (k := .continuous) (by decide) (n := 2) (S := 1000) (by norm_num) (fun _ => le_rfl) (by norm_num) "adam"
  obtain ⟨out, o1, _, o3⟩ := h3 1 (Tensor.tab2 1 1 fun _ _ => 0) one_pos rfl (Tensor.wf_tabulate _ _) (fun b hb => by rw [Tensor.get_tab2 hb one_pos]; norm_num)
  refine ⟨N, e, h, h1, h2, out, o1, ?_⟩
  have := o3 0 one_pos
  rw [Tensor.get_tab2 one_pos one_pos] at this
  refine this.trans ?_
  have : √(2 * ((2 : ℕ) : ℝ)) = 2 := by
    rw [show (2 * ((2 : ℕ) : ℝ)) = 2 ^ 2 by norm_num]
    exact Real.sqrt_sq (by norm_num)
  rw [this]
  norm_num

end HOL
