import Verif.Model.DataSplit
import Verif.Lemmas.PiecewiseReal

/-! # C114: which images the examples train and validate on -/

namespace HOL
open TorchScalar

/-- The permutation drawn is one. -/
def Spec.IsShuffle (size : ℕ) (randperm : ℕ → List ℕ) : Prop := (randperm size).Perm (List.range size)

theorem Spec.IsShuffle.nodup {size : ℕ} {rp : ℕ → List ℕ} (h : Spec.IsShuffle size rp) : (rp size).Nodup := h.nodup_iff.2 List.nodup_range

theorem Spec.IsShuffle.length {size : ℕ} {rp : ℕ → List ℕ} (h : Spec.IsShuffle size rp) : (rp size).length = size := by
  rw [List.Perm.length_eq h, List.length_range]

theorem sliceBound_of_nonneg {len : ℕ} {i : ℤ} (h : 0 ≤ i) : sliceBound len i = min i.toNat len := by
  unfold sliceBound
  rw [if_neg (not_lt.2 h)]
  omega

theorem sliceBound_le (len : ℕ) (i : ℤ) : sliceBound len i ≤ len := by
  unfold sliceBound
  omega

theorem setupSplit_eq {base size : ℕ} (hs : size = base + 10000) (rp : ℕ → List ℕ) (f : ℝ) :
    setupSplit base size rp f = .ok (pySlice (rp size) 0 (toLong (f * (base : ℝ))), pySlice (rp size) (toLong (f * (base : ℝ))) (toLong (f * (base : ℝ)) + 10000)) := by
  unfold setupSplit randomSplit
  have e : ([toLong (f * (base : ℝ)), 10000, (base : ℤ) - toLong (f * (base : ℝ))] : List ℤ).sum = size := by
    simp only [List.sum_cons, List.sum_nil]
    omega
  dsimp only
  rw [if_neg (not_not.2 e)]
  simp only [splitFrom, zero_add]
  rfl

theorem pySlice_disjoint {l : List ℕ} (h : l.Nodup) (a b c : ℤ) : ∀ i ∈ pySlice l a b, i ∉ pySlice l b c := by
  intro i hi hj
  unfold pySlice at hi hj
  have h1 := List.mem_of_mem_drop hi
  rw [List.drop_take] at hj
  have h2 := List.mem_of_mem_take hj
  have := List.disjoint_take_drop h (le_refl (sliceBound l.length b))
  exact this h1 h2

theorem length_pySlice (l : List ℕ) (a b : ℤ) : (pySlice l a b).length = sliceBound l.length b - sliceBound l.length a := by
  unfold pySlice
  rw [List.length_drop, List.length_take, min_eq_left (sliceBound_le _ _)]

/-- **C114 (no overlap).** Whatever the fraction and the permutation drawn, the split succeeds, the training and the validation subset contain no image twice and have no image in common. -/
theorem C114_disjoint {base size : ℕ} (hs : size = base + 10000) {rp : ℕ → List ℕ} (hp : Spec.IsShuffle size rp) (f : ℝ) :
    ∃ train val, setupSplit base size rp f = .ok (train, val) ∧ train.Nodup ∧ val.Nodup ∧ (∀ i ∈ train, i < size) ∧ (∀ i ∈ val, i < size) ∧ ∀ i ∈ train, i ∉ val := by
  have sub : ∀ a b : ℤ, (pySlice (rp size) a b).Sublist (rp size) := fun a b => (List.drop_sublist _ _).trans (List.take_sublist _ _)
  have lt : ∀ a b : ℤ, ∀ i ∈ pySlice (rp size) a b, i < size := fun a b i hi => List.mem_range.1 (hp.subset ((sub a b).subset hi))
  exact ⟨_, _, setupSplit_eq hs rp f, hp.nodup.sublist (sub _ _), hp.nodup.sublist (sub _ _), lt _ _, lt _ _, pySlice_disjoint hp.nodup _ _ _⟩

/-- **C114 (sizes).** For a fraction between 0 and 1 of the `base` images: `⌊fraction * base⌋` training images, 10000 validation images. -/
theorem C114_sizes {base size : ℕ} (hs : size = base + 10000) {rp : ℕ → List ℕ} (hp : Spec.IsShuffle size rp) {f : ℝ} (h0 : 0 ≤ f) (h1 : f ≤ 1) :
    ∃ train val, setupSplit base size rp f = .ok (train, val) ∧ train.length = ⌊f * base⌋₊ ∧ val.length = 10000 := by
  refine ⟨_, _, setupSplit_eq hs rp f, ?_, ?_⟩
  all_goals
    have hb : (0 : ℝ) ≤ f * base := by positivity
    have ht : toLong (f * (base : ℝ)) = ((⌊f * (base : ℝ)⌋₊ : ℕ) : ℤ) := by rw [toLong_real, if_pos hb, Int.natCast_floor_eq_floor hb]
    have hle : ⌊f * (base : ℝ)⌋₊ ≤ base := by
      refine Nat.floor_le_of_le ?_
      nlinarith [(Nat.cast_nonneg base : (0 : ℝ) ≤ base)]
    rw [length_pySlice, hp.length, ht]
    generalize ⌊f * (base : ℝ)⌋₊ = k at hle ⊢
    rw [sliceBound_of_nonneg (by omega), sliceBound_of_nonneg (by omega)]
    omega

/-- **C114 (all images).** With the fraction 1 every image is in exactly one of the two subsets. -/
theorem C114_all {base size : ℕ} (hs : size = base + 10000) {rp : ℕ → List ℕ} (hp : Spec.IsShuffle size rp) :
    ∃ train val, setupSplit base size rp (1 : ℝ) = .ok (train, val) ∧ (train ++ val).Perm (List.range size) := by
  refine ⟨_, _, setupSplit_eq hs rp 1, ?_⟩
  have ht : toLong (1 * (base : ℝ)) = ((base : ℕ) : ℤ) := by
    rw [one_mul, toLong_real, if_pos (Nat.cast_nonneg _), Int.floor_natCast]
  rw [ht]
  have e : pySlice (rp size) 0 ((base : ℕ) : ℤ) ++ pySlice (rp size) ((base : ℕ) : ℤ) (((base : ℕ) : ℤ) + 10000) = rp size := by
    unfold pySlice
    rw [sliceBound_of_nonneg (show (0 : ℤ) ≤ 0 by omega), sliceBound_of_nonneg (show (0 : ℤ) ≤ ((base : ℕ) : ℤ) by omega), sliceBound_of_nonneg (show (0 : ℤ) ≤ ((base : ℕ) : ℤ) + 10000 by omega), hp.length]
    have a : min ((base : ℕ) : ℤ).toNat size = base := by omega
    have b : min (((base : ℕ) : ℤ) + 10000).toNat size = size := by omega
    rw [a, b, List.take_of_length_le (le_of_eq hp.length)]
    simp
  rw [e]
  exact hp

/-- **C114 (fractions above 1).** They are accepted; the additional training images are taken from the validation images, down to none. -/
theorem C114_above_one {base size : ℕ} (hs : size = base + 10000) {rp : ℕ → List ℕ} (hp : Spec.IsShuffle size rp) {f : ℝ} (h1 : 1 ≤ f) :
    ∃ train val, setupSplit base size rp f = .ok (train, val) ∧ train.length = min ⌊f * base⌋₊ size ∧ val.length = size - ⌊f * base⌋₊ := by
  refine ⟨_, _, setupSplit_eq hs rp f, ?_, ?_⟩
  all_goals
    have hb : (0 : ℝ) ≤ f * base := by positivity
    have ht : toLong (f * (base : ℝ)) = ((⌊f * (base : ℝ)⌋₊ : ℕ) : ℤ) := by rw [toLong_real, if_pos hb, Int.natCast_floor_eq_floor hb]
    have hle : base ≤ ⌊f * (base : ℝ)⌋₊ := by
      refine Nat.le_floor ?_
      nlinarith [(Nat.cast_nonneg base : (0 : ℝ) ≤ base)]
    rw [length_pySlice, hp.length, ht]
    generalize ⌊f * (base : ℝ)⌋₊ = k at hle ⊢
    rw [sliceBound_of_nonneg (by omega), sliceBound_of_nonneg (by omega)]
    omega

/-- **C114 (negative fractions).** They are accepted too: with `k = ⌊-fraction * base⌋ > 0` the examples train on all but `k` images. -/
theorem C114_negative {base size : ℕ} (hs : size = base + 10000) {rp : ℕ → List ℕ} (hp : Spec.IsShuffle size rp) {f : ℝ} (h1 : f < 0) (hk : 0 < ⌊-f * base⌋₊) :
    ∃ train val, setupSplit base size rp f = .ok (train, val) ∧ train.length = size - ⌊-f * base⌋₊ := by
  refine ⟨_, _, setupSplit_eq hs rp f, ?_⟩
  have hb : (0 : ℝ) ≤ -f * base := by
    have : (0 : ℝ) ≤ -f := by linarith
    positivity
  have hn : ¬ (0 : ℝ) ≤ f * base := by
    intro h
    have : -f * (base : ℝ) = 0 := by
      have : -f * (base : ℝ) = -(f * base) := by ring
      linarith
    rw [this] at hk
    simp at hk
  have ht : toLong (f * (base : ℝ)) = -((⌊-f * (base : ℝ)⌋₊ : ℕ) : ℤ) := by
    rw [toLong_real, if_neg hn, Int.natCast_floor_eq_floor hb, neg_mul, Int.floor_neg, neg_neg]
  rw [length_pySlice, hp.length, ht]
  generalize ⌊-f * (base : ℝ)⌋₊ = k at hk ⊢
  unfold sliceBound
  rw [if_pos (by omega), if_neg (by omega)]
  omega

theorem segment_split {l : List ℕ} {a b c : ℕ} (h : l.Nodup) (hab : a ≤ b) (hac : a ≤ c) (hb : b ≤ l.length) :
    ((l.take b).drop a).filter (· ∈ l.take c) = (l.take (min b c)).drop a ∧ ∀ i ∈ (l.take b).drop a, i ∈ l.take c ∨ i ∈ (l.take b).drop c := by
  have e : (l.take b).drop a = (l.take (min b c)).drop a ++ (l.take b).drop (min b c) := by
    conv_lhs => rw [← List.take_append_drop (min b c) (l.take b)]
    rw [List.take_take, min_eq_left (min_le_left _ _), List.drop_append_of_le_length]
    rw [List.length_take]
    omega
  have hP : ∀ i ∈ (l.take (min b c)).drop a, i ∈ l.take c := by
    intro i hi
    have := List.mem_of_mem_drop hi
    rw [min_comm, ← List.take_take] at this
    rw [List.take_take, min_comm, ← List.take_take] at this
    exact List.mem_of_mem_take this
  have hQ : ∀ i ∈ (l.take b).drop (min b c), i ∉ l.take c ∧ i ∈ (l.take b).drop c := by
    intro i hi
    rcases Nat.le_total b c with hbc | hbc
    · rw [min_eq_left hbc, List.drop_eq_nil_of_le (by rw [List.length_take]; omega)] at hi
      simp at hi
    · rw [min_eq_right hbc] at hi
      refine ⟨fun hc => ?_, hi⟩
      rw [List.drop_take] at hi
      exact List.disjoint_take_drop h (le_refl c) hc (List.mem_of_mem_take hi)
  constructor
  · rw [e, List.filter_append, List.filter_eq_self.2 fun i hi => by simpa using hP i hi, List.filter_eq_nil_iff.2 fun i hi => by simpa using (hQ i hi).1, List.append_nil]
  · intro i hi
    rw [e, List.mem_append] at hi
    exact hi.imp (hP i) fun h => (hQ i h).2

/-- **C114 (validation images depend on the fraction).** Two runs with the same seed and different fractions `f ≤ g ≤ 1`: a validation image of the first run is a training image of the second, or a validation
image of both; if `g` gives at least 10000 training images more than `f`, all of the validation images of the first run are training images of the second. -/
theorem C114_other_fraction {base size : ℕ} (hs : size = base + 10000) {rp : ℕ → List ℕ} (hp : Spec.IsShuffle size rp) {f g : ℝ} (h0 : 0 ≤ f) (hfg : f ≤ g) (h1 : g ≤ 1) :
    ∃ train val train' val', setupSplit base size rp f = .ok (train, val) ∧ setupSplit base size rp g = .ok (train', val') ∧
      (∀ i ∈ train, i ∈ train') ∧ (∀ i ∈ val, i ∈ train' ∨ i ∈ val') ∧ (⌊f * base⌋₊ + 10000 ≤ ⌊g * base⌋₊ → ∀ i ∈ val, i ∈ train') ∧
      (val.filter (· ∈ train')).length = min 10000 (⌊g * base⌋₊ - ⌊f * base⌋₊) := by
  have hb : (0 : ℝ) ≤ f * base := by positivity
  have hg : (0 : ℝ) ≤ g * base := by
    have : 0 ≤ g := h0.trans hfg
    positivity
  have ht : toLong (f * (base : ℝ)) = ((⌊f * (base : ℝ)⌋₊ : ℕ) : ℤ) := by rw [toLong_real, if_pos hb, Int.natCast_floor_eq_floor hb]
  have ht' : toLong (g * (base : ℝ)) = ((⌊g * (base : ℝ)⌋₊ : ℕ) : ℤ) := by rw [toLong_real, if_pos hg, Int.natCast_floor_eq_floor hg]
  have hle : ⌊g * (base : ℝ)⌋₊ ≤ base := by
    refine Nat.floor_le_of_le ?_
    nlinarith [(Nat.cast_nonneg base : (0 : ℝ) ≤ base)]
  have hac : ⌊f * (base : ℝ)⌋₊ ≤ ⌊g * (base : ℝ)⌋₊ := Nat.floor_le_floor (mul_le_mul_of_nonneg_right hfg (Nat.cast_nonneg _))
  have e1 := setupSplit_eq hs rp f
  have e2 := setupSplit_eq hs rp g
  rw [ht] at e1
  rw [ht'] at e2
  generalize ⌊f * (base : ℝ)⌋₊ = a at e1 hac ⊢
  generalize ⌊g * (base : ℝ)⌋₊ = c at e2 hac hle ⊢
  have sl : ∀ u v : ℕ, u ≤ size → v ≤ size → pySlice (rp size) (u : ℤ) (v : ℤ) = ((rp size).take v).drop u := by
    intro u v hu hv
    unfold pySlice
    rw [sliceBound_of_nonneg (by omega), sliceBound_of_nonneg (by omega), hp.length, Int.toNat_natCast, Int.toNat_natCast, min_eq_left hu, min_eq_left hv]
  have s1 := sl 0 a (by omega) (by omega)
  have s2 := sl a (a + 10000) (by omega) (by omega)
  have s3 := sl 0 c (by omega) (by omega)
  have s4 := sl c (c + 10000) (by omega) (by omega)
  push_cast at s1 s2 s3 s4
  rw [List.drop_zero] at s1 s3
  rw [s1, s2] at e1
  rw [s3, s4] at e2
  obtain ⟨hf, hm⟩ := segment_split (a := a) (b := a + 10000) (c := c) hp.nodup (by omega) hac (by rw [hp.length]; omega)
  refine ⟨_, _, _, _, e1, e2, ?_, ?_, ?_, ?_⟩
  · intro i hi
    rw [← min_eq_left hac, ← List.take_take] at hi
    exact List.mem_of_mem_take hi
  · intro i hi
    refine (hm i hi).imp id fun h => ?_
    rw [List.drop_take] at h ⊢
    exact (List.take_sublist_take_left (by omega)).subset h
  · intro hk i hi
    have hi' := List.mem_of_mem_drop hi
    rw [← min_eq_left hk, ← List.take_take] at hi'
    exact List.mem_of_mem_take hi'
  · rw [hf, List.length_drop, List.length_take, hp.length]
    omega

/-- **C114 (CIFAR100).** There the validation images are all images that are not trained on. -/
theorem C114_cifar100 {rp : ℕ → List ℕ} (hp : Spec.IsShuffle 50000 rp) {f : ℝ} (h0 : 0 ≤ f) (h1 : f ≤ 1) :
    ∃ train val, cifar100Split rp f = .ok (train, val) ∧ train.length = ⌊f * 50000⌋₊ ∧ (train ++ val).Perm (List.range 50000) := by
  have hb : (0 : ℝ) ≤ f * ((50000 : ℕ) : ℝ) := by positivity
  have ht : toLong (f * ((50000 : ℕ) : ℝ)) = ((⌊f * ((50000 : ℕ) : ℝ)⌋₊ : ℕ) : ℤ) := by rw [toLong_real, if_pos hb, Int.natCast_floor_eq_floor hb]
  have hle : ⌊f * ((50000 : ℕ) : ℝ)⌋₊ ≤ 50000 := by
    refine Nat.floor_le_of_le ?_
    push_cast
    linarith
  have e : cifar100Split rp f = .ok (pySlice (rp 50000) 0 (⌊f * ((50000 : ℕ) : ℝ)⌋₊ : ℤ), pySlice (rp 50000) (⌊f * ((50000 : ℕ) : ℝ)⌋₊ : ℤ) 50000) := by
    unfold cifar100Split randomSplit
    rw [ht]
    have e : ([((⌊f * ((50000 : ℕ) : ℝ)⌋₊ : ℕ) : ℤ), 50000 - ((⌊f * ((50000 : ℕ) : ℝ)⌋₊ : ℕ) : ℤ), 0] : List ℤ).sum = ((50000 : ℕ) : ℤ) := by
      simp only [List.sum_cons, List.sum_nil]
      omega
    dsimp only
    rw [if_neg (not_not.2 e)]
    simp only [splitFrom, zero_add, add_sub_cancel]
    rfl
  have hk : ⌊f * ((50000 : ℕ) : ℝ)⌋₊ = ⌊f * 50000⌋₊ := by norm_num
  rw [hk] at e hle
  have a : sliceBound (rp 50000).length 0 = 0 := by rw [sliceBound_of_nonneg (le_refl 0)]; simp
  have b : sliceBound (rp 50000).length (⌊f * 50000⌋₊ : ℤ) = ⌊f * 50000⌋₊ := by
    rw [sliceBound_of_nonneg (by omega), hp.length]
    omega
  have c : sliceBound (rp 50000).length 50000 = 50000 := by
    rw [sliceBound_of_nonneg (by omega), hp.length]
    rfl
  refine ⟨_, _, e, ?_, ?_⟩
  · rw [length_pySlice, a, b, Nat.sub_zero]
  · unfold pySlice
    rw [a, b, c, List.drop_zero, List.take_of_length_le (i := 50000) (le_of_eq hp.length), List.take_append_drop]
    exact hp

/-- A permutation of the 60000 images: backwards. -/
def exShuffle (n : ℕ) : List ℕ := (List.range n).reverse

theorem exShuffle_ok (n : ℕ) : Spec.IsShuffle n exShuffle := List.reverse_perm _

/-- MNIST with a tenth of the data: 5000 training images. With the fraction 1.1 there are 55000 training and 5000 validation images, with -0.1 again 55000 training images. All 10000 validation images of the run with
a tenth of the data are training images of the run with half of it. -/
example : (∃ train val, setupSplit 50000 60000 exShuffle ((1 : ℝ) / 10) = .ok (train, val) ∧ train.length = 5000 ∧ val.length = 10000) ∧
    (∃ train val, setupSplit 50000 60000 exShuffle ((11 : ℝ) / 10) = .ok (train, val) ∧ train.length = 55000 ∧ val.length = 5000) ∧
    (∃ train val, setupSplit 50000 60000 exShuffle (-(1 : ℝ) / 10) = .ok (train, val) ∧ train.length = 55000) ∧
    ∃ train val train' val', setupSplit 50000 60000 exShuffle ((1 : ℝ) / 10) = .ok (train, val) ∧ setupSplit 50000 60000 exShuffle ((1 : ℝ) / 2) = .ok (train', val') ∧ ∀ i ∈ val, i ∈ train' := by
  have f1 : ⌊(1 : ℝ) / 10 * (50000 : ℕ)⌋₊ = 5000 := by norm_num
  have f2 : ⌊(11 : ℝ) / 10 * (50000 : ℕ)⌋₊ = 55000 := by norm_num
  have f3 : ⌊-(-(1 : ℝ) / 10) * (50000 : ℕ)⌋₊ = 5000 := by norm_num
  have f4 : ⌊(1 : ℝ) / 2 * (50000 : ℕ)⌋₊ = 25000 := by norm_num
  refine ⟨?_, ?_, ?_, ?_⟩
  · obtain ⟨t, v, e, h1, h2⟩ := C114_sizes (base := 50000) rfl (exShuffle_ok 60000) (f := 1 / 10) (by norm_num) (by norm_num)
    exact ⟨t, v, e, h1.trans f1, h2⟩
  · obtain ⟨t, v, e, h1, h2⟩ := C114_above_one (base := 50000) rfl (exShuffle_ok 60000) (f := 11 / 10) (by norm_num)
    rw [f2] at h1 h2
    exact ⟨t, v, e, h1, h2⟩
  · obtain ⟨t, v, e, h1⟩ := C114_negative (base := 50000) rfl (exShuffle_ok 60000) (f := -1 / 10) (by norm_num) (by rw [f3]; norm_num)
    rw [f3] at h1
    exact ⟨t, v, e, h1⟩
  · obtain ⟨t, v, t', v', e, e', -, -, h, -⟩ := C114_other_fraction (base := 50000) rfl (exShuffle_ok 60000) (f := 1 / 10) (g := 1 / 2) (by norm_num) (by norm_num) (by norm_num)
    exact ⟨t, v, t', v', e, e', h (by rw [f1, f4]; norm_num)⟩

end HOL
