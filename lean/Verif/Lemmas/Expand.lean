import Verif.Model.Conv
import Verif.Lemmas.Structural
import Mathlib.Data.List.GetD

/-! # Entries of the expansions -/

set_option linter.unusedSectionVars false

namespace HOL
open TorchScalar
variable {K : Type} [TorchScalar K]

/-! ## scatter -/

theorem foldl_scatter (P n cols : ℕ) (hn : 0 < n) (base : ℕ → ℕ) (val : ℕ → K) (hb : ∀ p < P, base p + n ≤ cols)
    (mat : Tensor K) (hs : mat.shape = [P, cols]) (hwf : mat.WF) :
    ∀ M ≤ P * n,
      let r := (List.range M).foldl (fun m q => m.set [q / n, base (q / n) + q % n] (val q)) mat
      r.shape = [P, cols] ∧ r.WF ∧ ∀ p < P, ∀ v < cols, r.get [p, v]
        = if base p ≤ v ∧ v < base p + n ∧ p * n + (v - base p) < M then val (p * n + (v - base p)) else mat.get [p, v]
  | 0, _ => by simp [hs, hwf]
  | M + 1, hM => by
    obtain ⟨h1, h2, h3⟩ := foldl_scatter P n cols hn base val hb mat hs hwf M (by omega)
    dsimp only at h1 h2 h3 ⊢
    rw [List.range_succ, List.foldl_append]
    simp only [List.foldl_cons, List.foldl_nil]
    generalize (List.range M).foldl (fun m q => m.set [q / n, base (q / n) + q % n] (val q)) mat = r at h1 h2 h3
    refine ⟨h1, Tensor.wf_set h2 _ _, ?_⟩
    intro p hp v hv
    have hMp : M / n < P := (Nat.div_lt_iff_lt_mul hn).2 (by omega)
    have hmod : M % n < n := Nat.mod_lt _ hn
    have hin : InShape r.shape [M / n, base (M / n) + M % n] := by
      rw [h1]; exact inShape2.2 ⟨hMp, by have := hb _ hMp; omega⟩
    have hdm := Nat.div_add_mod' M n
    by_cases he : [M / n, base (M / n) + M % n] = [p, v]
    · obtain ⟨rfl, he2⟩ : M / n = p ∧ base (M / n) + M % n = v := by simpa using he
      rw [he, Tensor.get_set_self h2 (by rw [← he]; exact hin)]
      have e : M / n * n + (v - base (M / n)) = M := by omega
      rw [e, if_pos ⟨by omega, by omega, by omega⟩]
    · rw [Tensor.get_set_ne hin (by rw [h1]; exact inShape2.2 ⟨hp, hv⟩) he, h3 p hp v hv]
      have hiff : (base p ≤ v ∧ v < base p + n ∧ p * n + (v - base p) < M)
          ↔ (base p ≤ v ∧ v < base p + n ∧ p * n + (v - base p) < M + 1) := by
        refine ⟨fun h => ⟨h.1, h.2.1, by omega⟩, fun h => ⟨h.1, h.2.1, ?_⟩⟩
        rcases Nat.lt_or_ge (p * n + (v - base p)) M with h' | h'
        · exact h'
        · exfalso
          apply he
          have e : M = p * n + (v - base p) := by omega
          have hlt : v - base p < n := by omega
          have e1 : M / n = p := by
            rw [e, Nat.add_comm, Nat.add_mul_div_right _ _ hn, Nat.div_eq_of_lt hlt]; simp
          have e2 : M % n = v - base p := by
            rw [e, Nat.add_comm, Nat.add_mul_mod_self_right, Nat.mod_eq_of_lt hlt]
          rw [e1, e2]
          have : base p + (v - base p) = v := by omega
          rw [this]
      simp only [hiff]

theorem scatter_ok (P n cols : ℕ) (hn : 0 < n) (base : ℕ → ℕ) (hb : ∀ p < P, base p + n ≤ cols)
    (wid : ℕ → ℤ) (hw : ∀ p < P, wid p = (base p : ℤ)) (mat : Tensor K) (hs : mat.shape = [P, cols]) (hwf : mat.WF)
    (values : List K) (hv : values.length = P * n) :
    ∃ r, scatter mat ((List.range (P * n)).map fun q => q / n)
        ((List.range (P * n)).map fun q => wid (q / n) + ((q % n : ℕ) : ℤ)) values = .ok r ∧
      r.shape = [P, cols] ∧ r.WF ∧ ∀ p < P, ∀ v < cols, r.get [p, v]
        = if base p ≤ v ∧ v < base p + n then values.getD (p * n + (v - base p)) 0 else mat.get [p, v] := by
  have hq : ∀ q < P * n, q / n < P := fun q h => (Nat.div_lt_iff_lt_mul hn).2 h
  have hnorm : ∀ q < P * n, PwLayer.normIndex cols (wid (q / n) + ((q % n : ℕ) : ℤ)) = some (base (q / n) + q % n) := by
    intro q h
    have hm : q % n < n := Nat.mod_lt _ hn
    have hb' := hb _ (hq q h)
    rw [hw _ (hq q h)]
    have : ((base (q / n) : ℤ) + ((q % n : ℕ) : ℤ)) = ((base (q / n) + q % n : ℕ) : ℤ) := by push_cast; rfl
    rw [this]
    exact PwLayer.normIndex_of_lt (by omega)
  have hvals : values = (List.range (P * n)).map fun q => values.getD q 0 := by
    apply List.ext_getElem (by simp [hv])
    intro q h1 h2
    simp [List.getD_eq_getElem?_getD, List.getElem?_eq_getElem h1]
  have hzip : ((List.range (P * n)).map fun q => q / n).zip
      (((List.range (P * n)).map fun q => wid (q / n) + ((q % n : ℕ) : ℤ)).zip values)
      = (List.range (P * n)).map fun q => (q / n, wid (q / n) + ((q % n : ℕ) : ℤ), values.getD q 0) := by
    conv_lhs => rw [hvals]
    rw [List.zip_map', List.zip_map']
  obtain ⟨h1, h2, h3⟩ := foldl_scatter P n cols hn base (fun q => values.getD q 0) hb mat hs hwf (P * n) le_rfl
  refine ⟨(List.range (P * n)).foldl (fun m q => m.set [q / n, base (q / n) + q % n] (values.getD q 0)) mat, ?_, h1, h2, ?_⟩
  · unfold scatter
    rw [hs]
    dsimp only
    rw [if_pos, hzip, List.foldl_map]
    · congr 1
      apply List.foldl_ext
      intro m q hmem
      have := hnorm q (List.mem_range.1 hmem)
      simp only [this, Option.getD_some]
    · constructor
      · intro r hr
        obtain ⟨q, hq', rfl⟩ := List.mem_map.1 hr
        exact hq q (List.mem_range.1 hq')
      · intro c hc
        obtain ⟨q, hq', rfl⟩ := List.mem_map.1 hc
        rw [hnorm q (List.mem_range.1 hq')]; rfl
  · intro p hp v hv'
    rw [h3 p hp v hv']
    by_cases h : base p ≤ v ∧ v < base p + n
    · rw [if_pos h, if_pos]
      refine ⟨h.1, h.2, ?_⟩
      have : p * n + n ≤ P * n := by
        have := Nat.mul_le_mul_right n (show p + 1 ≤ P from hp)
        rwa [Nat.add_mul, Nat.one_mul] at this
      omega
    · rw [if_neg h, if_neg]
      exact fun h' => h ⟨h'.1, h'.2.1⟩

/-! ## index arithmetic -/

theorem numel_append (s t : List ℕ) : numel (s ++ t) = numel s * numel t := by
  induction s with
  | nil => simp [numel]
  | cons a s ih => simp only [List.cons_append, numel, ih]; ring

theorem inShape_append {s idx t jdx : List ℕ} (h : InShape s idx) (h' : InShape t jdx) : InShape (s ++ t) (idx ++ jdx) := by
  induction s generalizing idx with
  | nil =>
    match idx, h with
    | [], _ => simpa using h'
  | cons a s ih =>
    match idx, h with
    | i :: is, h => exact ⟨h.1, ih h.2⟩

theorem ravel_append {s idx : List ℕ} (h : InShape s idx) (t jdx : List ℕ) :
    ravel (s ++ t) (idx ++ jdx) = ravel s idx * numel t + ravel t jdx := by
  induction s generalizing idx with
  | nil =>
    match idx, h with
    | [], _ => simp [ravel]
  | cons a s ih =>
    match idx, h with
    | i :: is, h =>
      simp only [List.cons_append, ravel, numel_append, ih h.2]; ring

theorem unravel_append (s t : List ℕ) (q r : ℕ) (hr : r < numel t) (hq : q < numel s) :
    unravel (s ++ t) (q * numel t + r) = unravel s q ++ unravel t r := by
  have h1 := inShape_unravel hq
  have h2 := inShape_unravel hr
  have := unravel_ravel (inShape_append h1 h2)
  rw [ravel_append h1, ravel_unravel hq, ravel_unravel hr] at this
  exact this

/-! ## the values of an expansion -/

/-- First variable of the active segment of `t`. -/
def expandBase (shared : Bool) (rank : Rank) (n segments : ℕ) (length t : K) : ℕ :=
  (expandSegment shared rank segments length t).toNat * (if shared then n - 1 else n)

/-- Value of variable `v` of the expansion of one entry. -/
def Expander.val (e : Expander K) (v : ℕ) (t : K) : K :=
  match e with
  | .plain _ basis => basis.call t v
  | .piecewise shared rank n segments length =>
    let base := expandBase shared rank n segments length t
    if base ≤ v ∧ v < base + n then
      (getLagrangeBasis n length).call (expandLocal segments length t (expandSegment shared rank segments length t)) (v - base)
    else 0

/-- The expansion accepts images of rank `r` and is not degenerate. -/
def Expander.Fits (e : Expander K) (r : Rank) : Prop :=
  match e with
  | .plain n _ => 0 < n
  | .piecewise _ rank n segments _ => rank = r ∧ 0 < n ∧ 0 < segments

theorem limitSegment_bounds (shared : Bool) (rank : Rank) {segments : ℕ} (h : 0 < segments) (v : ℤ) :
    0 ≤ limitSegment shared rank segments v ∧ limitSegment shared rank segments v ≤ (segments : ℤ) - 1 := by
  unfold limitSegment clampInt
  split
  · omega
  · dsimp only
    split <;> split <;> omega

/-- With at least one segment both ways to limit the segment agree. -/
theorem limitSegment_eq (shared : Bool) (rank : Rank) {segments : ℕ} (h : 0 < segments) (v : ℤ) :
    limitSegment shared rank segments v = clampInt v 0 ((segments : ℤ) - 1) := by
  unfold limitSegment clampInt
  split
  · rfl
  · dsimp only
    split <;> split <;> omega

theorem expandSegment_nonneg (shared : Bool) (rank : Rank) {segments : ℕ} (h : 0 < segments) (length t : K) :
    0 ≤ expandSegment shared rank segments length t := (limitSegment_bounds shared rank h _).1

theorem expandSegment_toNat_lt (shared : Bool) (rank : Rank) {segments : ℕ} (h : 0 < segments) (length t : K) :
    (expandSegment shared rank segments length t).toNat < segments := by
  have := limitSegment_bounds shared rank h
    (toLong (((t + 1 / ((2 : ℕ) : K) * length) / length) * ((segments : ℕ) : K)))
  unfold expandSegment
  omega

theorem expandBase_le (shared : Bool) (rank : Rank) {n segments : ℕ} (hn : 0 < n) (h : 0 < segments) (length t : K) :
    expandBase shared rank n segments length t + n ≤ Expander.variables (.piecewise shared rank n segments length) := by
  have hlt := expandSegment_toNat_lt shared rank h length t
  unfold expandBase
  generalize (expandSegment shared rank segments length t).toNat = s at hlt
  cases shared
  · simp only [Expander.variables, Bool.false_eq_true, if_false]
    have := Nat.mul_le_mul_left n (show s + 1 ≤ segments from hlt)
    rw [Nat.mul_add, Nat.mul_one, Nat.mul_comm n s] at this
    exact this
  · simp only [Expander.variables, if_true]
    have := Nat.mul_le_mul_left (n - 1) (show s + 1 ≤ segments from hlt)
    rw [Nat.mul_add, Nat.mul_one, Nat.mul_comm (n - 1) s] at this
    omega

theorem Expander.Fits.variables_pos {e : Expander K} {r : Rank} (h : e.Fits r) : 0 < e.variables := by
  match e, h with
  | .plain n b, h => exact h
  | .piecewise shared rank n segments length, ⟨_, hn, hs⟩ =>
    have := expandBase_le shared rank hn hs length 0
    omega

theorem data_tabulate_getD' {α : Type} [Zero α] (x : Tensor α) {p : ℕ} (hp : p < numel x.shape) :
    x.data.getD p 0 = x.get (unravel x.shape p) := by
  unfold Tensor.get
  rw [ravel_unravel hp]

theorem piecewiseExpand_ok (shared : Bool) (rank : Rank) {n segments : ℕ} (hn : 0 < n) (hseg : 0 < segments) (length : K)
    {x : Tensor K} (hx : x.WF) (hr : x.shape.length = rank.dims) :
    let vars := Expander.variables (.piecewise shared rank n segments length)
    ∃ T, piecewiseExpand shared rank n segments length x = .ok T ∧ T.shape = vars :: x.shape ∧ T.WF ∧
      ∀ v < vars, ∀ idx, InShape x.shape idx →
        T.get (v :: idx) = (Expander.piecewise shared rank n segments length).val v (x.get idx) := by
  intro vars
  set S := x.shape with hS
  set P := numel S with hP
  set basis := getLagrangeBasis n length with hbasis
  set seg := fun idx => expandSegment shared rank segments length (x.get idx) with hseg'
  set base := fun p => expandBase shared rank n segments length (x.get (unravel S p)) with hbase
  have hvars : 0 < vars := by
    have := expandBase_le shared rank hn hseg length (0 : K)
    omega
  -- the scattered tensor
  set xIn := Tensor.tabulate S fun idx => expandLocal segments length (x.get idx)
    ((x.map (expandSegment shared rank segments length)).get idx) with hxIn
  set out := Tensor.tabulate (n :: xIn.shape) fun idx =>
    match idx with
    | [] => 0
    | j :: rest => basis.call (xIn.get rest) j with hout
  set perm := Tensor.tabulate (S ++ [n]) fun idx => out.get (idx.getLastD 0 :: idx.dropLast) with hperm
  set mat : Tensor K := Tensor.tab2 P vars fun _ _ => 0 with hmat
  set wid : ℕ → ℤ := fun p => (((x.map (expandSegment shared rank segments length)).map
    (· * ((if shared then n - 1 else n : ℕ) : ℤ)) : Tensor ℤ)).data.getD p 0 with hwid
  have hxlen : x.data.length = P := hx
  have hidget : ∀ idx, InShape S idx → (x.map (expandSegment shared rank segments length)).get idx = seg idx :=
    fun idx h => Tensor.get_map hx h
  have hw : ∀ p < P, wid p = (base p : ℤ) := by
    intro p hp
    have hq : InShape S (unravel S p) := inShape_unravel hp
    have hm : (x.map (expandSegment shared rank segments length)).WF := Tensor.wf_map hx _
    have e1 := data_tabulate_getD' (x := ((x.map (expandSegment shared rank segments length)).map
      (· * ((if shared then n - 1 else n : ℕ) : ℤ)) : Tensor ℤ)) hp
    simp only [hwid]
    rw [e1]
    simp only [Tensor.shape_map]
    rw [Tensor.get_map hm hq, Tensor.get_map hx hq]
    simp only [hbase, expandBase]
    push_cast
    rw [Int.toNat_of_nonneg (expandSegment_nonneg shared rank hseg length _)]
  have hvlen : perm.data.length = P * n := by
    simp [hperm, numel_append, numel, hP]
  obtain ⟨r, hr1, hr2, hr3, hr4⟩ := scatter_ok P n vars hn base (fun p _ => expandBase_le shared rank hn hseg length _)
    wid hw mat rfl (Tensor.wf_tab2 _ _ _) perm.data hvlen
  refine ⟨Tensor.tabulate (vars :: S) fun idx => (r.reshape (S ++ [vars])).get (idx.tail ++ [idx.headD 0]), ?_, rfl,
    Tensor.wf_tabulate _ _, ?_⟩
  · unfold piecewiseExpand
    have hst : stackBasis n basis xIn = .ok out := by
      unfold stackBasis
      rw [if_neg (by omega)]
      rfl
    simp only [bind, Except.bind]
    rw [← hS, ← hxIn, ← hbasis, hst]
    simp only []
    rw [if_neg (by omega), if_neg (by omega), if_neg (by show ¬ vars = 0; omega)]
    generalize hg : scatter _ _ _ _ = g
    have hgr : g = .ok r := by rw [← hg]; exact hr1
    rw [hgr]
  · intro v hv idx hidx
    have hin : InShape (vars :: S) (v :: idx) := ⟨hv, hidx⟩
    rw [Tensor.get_tabulate hin]
    simp only [List.tail_cons, List.headD_cons]
    have hp : ravel S idx < P := ravel_lt hidx
    have e1 : (r.reshape (S ++ [vars])).get (idx ++ [v]) = r.get [ravel S idx, v] := by
      apply Tensor.get_reshape
      rw [ravel_append hidx, hr2]
      simp [ravel, numel]
    rw [e1, hr4 _ hp v hv]
    have hb : base (ravel S idx) = expandBase shared rank n segments length (x.get idx) := by
      simp only [hbase]; rw [unravel_ravel hidx]
    rw [hb]
    simp only [Expander.val]
    split
    · rename_i hc
      set k := v - expandBase shared rank n segments length (x.get idx) with hk
      have hkn : k < n := by omega
      have hlt : ravel S idx * n + k < numel (S ++ [n]) := by
        rw [numel_append]; simp only [numel, Nat.mul_one]
        have := Nat.mul_le_mul_right n (show ravel S idx + 1 ≤ P from hp)
        rw [Nat.add_mul, Nat.one_mul] at this
        rw [← hP]
        omega
      rw [hperm, Tensor.data_tabulate_getD hlt]
      have hun : unravel (S ++ [n]) (ravel S idx * n + k) = idx ++ [k] := by
        have := unravel_append S [n] (ravel S idx) k (by simpa [numel] using hkn) hp
        simp only [numel, Nat.mul_one] at this
        rw [this, unravel_ravel hidx]
        simp [unravel, numel]
      rw [hun]
      simp only [List.getLastD_concat, List.dropLast_concat]
      have hin2 : InShape (n :: xIn.shape) (k :: idx) := ⟨hkn, hidx⟩
      rw [hout, Tensor.get_tabulate hin2]
      dsimp only
      rw [hxIn, Tensor.get_tabulate hidx, hidget idx hidx]
    · rw [hmat, Tensor.get_tab2 hp hv]

theorem Expander.call_ok {e : Expander K} {r : Rank} (he : e.Fits r) {x : Tensor K} (hx : x.WF) (hr : x.shape.length = r.dims) :
    ∃ T, e.call x = .ok T ∧ T.shape = e.variables :: x.shape ∧ T.WF ∧
      ∀ v < e.variables, ∀ idx, InShape x.shape idx → T.get (v :: idx) = e.val v (x.get idx) := by
  match e, he with
  | .plain n basis, he =>
    have he' : n ≠ 0 := Nat.pos_iff_ne_zero.1 he
    simp only [Expander.call, stackBasis, if_neg he']
    refine ⟨_, rfl, rfl, Tensor.wf_tabulate _ _, ?_⟩
    intro v hv idx hidx
    have hin : InShape (n :: x.shape) (v :: idx) := ⟨hv, hidx⟩
    rw [Tensor.get_tabulate hin]
    rfl
  | .piecewise shared rank n segments length, ⟨h1, h2, h3⟩ =>
    subst h1
    exact piecewiseExpand_ok shared rank h2 h3 length hx hr

/-! ## layout -/

theorem ravel4 (a b c d i j k l : ℕ) : ravel [a, b, c, d] [i, j, k, l] = ((i * b + j) * c + k) * d + l := by
  simp [ravel, numel]; ring

theorem ravel5 (a b c d e i j k l m : ℕ) : ravel [a, b, c, d, e] [i, j, k, l, m] = (((i * b + j) * c + k) * d + l) * e + m := by
  simp [ravel, numel]; ring

theorem ravel3 (a b c i j k : ℕ) : ravel [a, b, c] [i, j, k] = (i * b + j) * c + k := by
  simp [ravel, numel]; ring

theorem expansion2d_ok {e : Expander K} (he : e.Fits .two) {x : Tensor K} (hx : x.WF) {B C H W : ℕ}
    (hs : x.shape = [B, C, H, W]) :
    ∃ E T, e.call x = .ok E ∧ E.shape = [e.variables, B, C, H, W] ∧ E.WF ∧ expansion2d e x = .ok T ∧
      T.shape = [B, C * e.variables, H, W] ∧ T.WF ∧
      ∀ b < B, ∀ c < C, ∀ v < e.variables, ∀ i < H, ∀ j < W,
        T.get [b, c * e.variables + v, i, j] = E.get [v, b, c, i, j] ∧ E.get [v, b, c, i, j] = e.val v (x.get [b, c, i, j]) := by
  obtain ⟨E, h1, h2, h3, h4⟩ := Expander.call_ok he hx (by rw [hs]; rfl)
  rw [hs] at h2 h4
  refine ⟨E, Tensor.tab4 B (C * e.variables) H W fun b c h w => ((Tensor.tab5 B H W C e.variables fun b h w c v =>
    E.get [v, b, c, h, w]).reshape [B, H, W, C * e.variables]).get [b, h, w, c], h1, h2, h3, ?_, rfl, Tensor.wf_tab4 _ _ _ _ _, ?_⟩
  · unfold expansion2d
    simp only [bind, Except.bind, h1, h2]
  · intro b hb c hc v hv i hi j hj
    have hcv : c * e.variables + v < C * e.variables := by
      have := Nat.mul_le_mul_right e.variables (show c + 1 ≤ C from hc)
      rw [Nat.add_mul, Nat.one_mul] at this
      omega
    refine ⟨?_, h4 v hv _ (inShape4.2 ⟨hb, hc, hi, hj⟩)⟩
    rw [Tensor.get_tab4 hb hcv hi hj]
    have : ((Tensor.tab5 B H W C e.variables fun b h w c v => E.get [v, b, c, h, w]).reshape [B, H, W, C * e.variables]).get
        [b, i, j, c * e.variables + v] = (Tensor.tab5 B H W C e.variables fun b h w c v => E.get [v, b, c, h, w]).get [b, i, j, c, v] := by
      apply Tensor.get_reshape
      simp only [Tensor.shape_tab5]
      rw [ravel4, ravel5]; ring
    rw [this, Tensor.get_tab5 hb hi hj hc hv]

theorem expansion1d_ok {e : Expander K} (he : e.Fits .one) {x : Tensor K} (hx : x.WF) {B C H : ℕ}
    (hs : x.shape = [B, C, H]) :
    ∃ E T, e.call x = .ok E ∧ E.shape = [e.variables, B, C, H] ∧ E.WF ∧ expansion1d e x = .ok T ∧
      T.shape = [B, C * e.variables, H] ∧ T.WF ∧
      ∀ b < B, ∀ c < C, ∀ v < e.variables, ∀ i < H,
        T.get [b, c * e.variables + v, i] = E.get [v, b, c, i] ∧ E.get [v, b, c, i] = e.val v (x.get [b, c, i]) := by
  obtain ⟨E, h1, h2, h3, h4⟩ := Expander.call_ok he hx (by rw [hs]; rfl)
  rw [hs] at h2 h4
  refine ⟨E, Tensor.tab3 B (C * e.variables) H fun b c h => ((Tensor.tab4 B H C e.variables fun b h c v =>
    E.get [v, b, c, h]).reshape [B, H, C * e.variables]).get [b, h, c], h1, h2, h3, ?_, rfl, Tensor.wf_tab3 _ _ _ _, ?_⟩
  · unfold expansion1d
    simp only [bind, Except.bind, h1, h2]
  · intro b hb c hc v hv i hi
    have hcv : c * e.variables + v < C * e.variables := by
      have := Nat.mul_le_mul_right e.variables (show c + 1 ≤ C from hc)
      rw [Nat.add_mul, Nat.one_mul] at this
      omega
    refine ⟨?_, h4 v hv _ (inShape3.2 ⟨hb, hc, hi⟩)⟩
    rw [Tensor.get_tab3 hb hcv hi]
    have : ((Tensor.tab4 B H C e.variables fun b h c v => E.get [v, b, c, h]).reshape [B, H, C * e.variables]).get
        [b, i, c * e.variables + v] = (Tensor.tab4 B H C e.variables fun b h c v => E.get [v, b, c, h]).get [b, i, c, v] := by
      apply Tensor.get_reshape
      simp only [Tensor.shape_tab4]
      rw [ravel3, ravel4]; ring
    rw [this, Tensor.get_tab4 hb hi hc hv]

end HOL
