import Verif.Lemmas.Accumulation

/-! # C116: gradients of a batch are sums over its samples

Gradient accumulation (several backward passes before one optimizer step) and data parallel training rely on the gradient of a batch being the sum of the gradients of its parts. -/

namespace HOL
open TorchScalar Spec

/-- The gradient of parameter `j` of layer `k`. -/
def Spec.gradOfParam (gs : List (List (Tensor ℝ))) (k j : ℕ) : Option (Tensor ℝ) := gs[k]? >>= fun g => g[j]?

/-- For every parameter of the network, every entry of its gradient `total` is the sum of the same entries of the gradients `parts a`, weighted with `c a`; all of them have the shape of the parameter. -/
def Spec.WeightedSum (ls : List (GLayer ℝ)) {ι : Type} [Fintype ι] (c : ι → ℝ) (total : List (List (Tensor ℝ))) (parts : ι → List (List (Tensor ℝ))) : Prop :=
  ∀ k l j p, ls[k]? = some l → l.params[j]? = some p →
    ∃ (t : Tensor ℝ) (ts : ι → Tensor ℝ), gradOfParam total k j = some t ∧ t.shape = p.shape ∧ (∀ a, gradOfParam (parts a) k j = some (ts a) ∧ (ts a).shape = p.shape) ∧
      ∀ idx, InShape p.shape idx → t.get idx = ∑ a, c a * (ts a).get idx

/-- **C116 (samples).** Sequential networks of piecewise (sums and products), polynomial, Fourier, product and linear layers and `relu`, any parameters, any batch (kinks included), any gradient `G` of the outputs
and any weights `c` of the samples: the backward pass of the weighted batch gives for every parameter the weighted sum of what the backward passes of the single samples give, and for the input of each sample
`c b` times the gradient of the input in the pass of that sample alone. -/
theorem C116_samples (ls : List (GLayer ℝ)) {I O : ℕ} (h : NetFits ls I O) {B : ℕ} (X : Fin B → Fin I → ℝ) (G : Fin B → Fin O → ℝ) (c : Fin B → ℝ) :
    ∃ (GX : Fin B → Fin I → ℝ) (total : List (List (Tensor ℝ))) (parts : Fin B → List (List (Tensor ℝ))),
      backward ls (ofMat X) (ofMat fun b o => c b * G b o) = .ok (ofMat fun b i => c b * GX b i, total) ∧
      (∀ b, backward ls (oneRow (X b)) (oneRow (G b)) = .ok (oneRow (GX b), parts b)) ∧ WeightedSum ls c total parts := by
  induction ls generalizing I with
  | nil =>
    obtain rfl : I = O := h
    exact ⟨G, [], fun _ => [], rfl, fun _ => rfl, fun k l j p hk => by simp at hk⟩
  | cons l ls ih =>
    obtain ⟨M, h1, h2⟩ := h
    have hr := h1.rowWise
    obtain ⟨Y, hY, hY1⟩ := hr.forward X
    obtain ⟨GY, total, parts, e1, e2, e3⟩ := ih h2 Y
    obtain ⟨GX, g1, g2⟩ := hr.input X GY c
    refine ⟨GX, l.paramGrads (ofMat X) (ofMat fun b o => c b * GY b o) :: total, fun b => l.paramGrads (oneRow (X b)) (oneRow (GY b)) :: parts b, ?_, fun b => ?_, ?_⟩
    · show (l.forward (ofMat X) >>= _) = _
      rw [hY]
      show (backward ls (ofMat Y) _ >>= _) = _
      rw [e1]
      show Except.ok (l.inputGrad (ofMat X) _, _) = _
      rw [g1]
    · show (l.forward (oneRow (X b)) >>= _) = _
      rw [hY1]
      show (backward ls (oneRow (Y b)) _ >>= _) = _
      rw [e2]
      show Except.ok (l.inputGrad (oneRow (X b)) _, _) = _
      rw [g2]
    · intro k l' j p hk hj
      match k with
      | 0 =>
        obtain rfl := Option.some.inj hk
        exact hr.params X GY c j p hj
      | k + 1 => exact e3 k l' j p hk hj

/-- **C116 (parts of a batch).** Any division of the samples into parts, in any order: the gradients of the batch are the sums of the gradients of the parts, and the gradients of the inputs are those computed
with the part. Taking one part: the order of the samples does not matter. -/
theorem C116_accumulation (ls : List (GLayer ℝ)) {I O : ℕ} (h : NetFits ls I O) {B : ℕ} (X : Fin B → Fin I → ℝ) (G : Fin B → Fin O → ℝ)
    {ι : Type} [Fintype ι] {n : ι → ℕ} (e : (Σ a, Fin (n a)) ≃ Fin B) :
    ∃ (GX : Fin B → Fin I → ℝ) (total : List (List (Tensor ℝ))) (parts : ι → List (List (Tensor ℝ))),
      backward ls (ofMat X) (ofMat G) = .ok (ofMat GX, total) ∧
      (∀ a, backward ls (ofMat fun i => X (e ⟨a, i⟩)) (ofMat fun i => G (e ⟨a, i⟩)) = .ok (ofMat fun i => GX (e ⟨a, i⟩), parts a)) ∧ WeightedSum ls (fun _ => 1) total parts := by
  obtain ⟨GX, total, one, e1, e2, e3⟩ := C116_samples ls h X G fun _ => 1
  have part : ∀ a, ∃ pt, backward ls (ofMat fun i => X (e ⟨a, i⟩)) (ofMat fun i => G (e ⟨a, i⟩)) = .ok (ofMat fun i => GX (e ⟨a, i⟩), pt) ∧
      WeightedSum ls (fun _ => 1) pt fun i : Fin (n a) => one (e ⟨a, i⟩) := by
    intro a
    obtain ⟨GX', total', one', d1, d2, d3⟩ := C116_samples ls h (fun i => X (e ⟨a, i⟩)) (fun i => G (e ⟨a, i⟩)) fun _ => 1
    have q : ∀ i, GX' i = GX (e ⟨a, i⟩) ∧ one' i = one (e ⟨a, i⟩) := by
      intro i
      have := Except.ok.inj ((d2 i).symm.trans (e2 (e ⟨a, i⟩)))
      have h1 := ofMat_inj (Prod.mk.inj this).1
      exact ⟨congrFun h1 0, (Prod.mk.inj this).2⟩
    refine ⟨total', ?_, ?_⟩
    · simp only [one_mul] at d1
      rw [d1]
      congr 3
      funext i
      exact (q i).1
    · have : one' = fun i => one (e ⟨a, i⟩) := funext fun i => (q i).2
      rw [← this]
      exact d3
  choose parts p1 p2 using part
  refine ⟨GX, total, parts, ?_, p1, ?_⟩
  · simp only [one_mul] at e1
    exact e1
  · intro k l j p hk hj
    obtain ⟨t, ts, t1, t2, t3, t4⟩ := e3 k l j p hk hj
    have sub : ∀ a, ∃ s : Tensor ℝ, gradOfParam (parts a) k j = some s ∧ s.shape = p.shape ∧ ∀ idx, InShape p.shape idx → s.get idx = ∑ i : Fin (n a), (ts (e ⟨a, i⟩)).get idx := by
      intro a
      obtain ⟨s, ss, s1, s2, s3, s4⟩ := p2 a k l j p hk hj
      refine ⟨s, s1, s2, fun idx hi => ?_⟩
      rw [s4 idx hi]
      refine Finset.sum_congr rfl fun i _ => ?_
      have : ss i = ts (e ⟨a, i⟩) := Option.some.inj ((s3 i).1.symm.trans (t3 (e ⟨a, i⟩)).1)
      rw [this, one_mul]
    choose s s1 s2 s3 using sub
    refine ⟨t, s, t1, t2, fun a => ⟨s1 a, s2 a⟩, fun idx hi => ?_⟩
    rw [t4 idx hi]
    simp only [one_mul]
    rw [Finset.sum_congr rfl fun a _ => s3 a idx hi, ← Equiv.sum_comp e, Fintype.sum_sigma]

/-- **C116 (mean losses).** With losses averaged over the batch (`G b` is the gradient of the loss of sample `b` alone): the gradient of the batch is the average of the gradients of its parts, weighted with
their sizes. So dividing the loss by the number of parts gives the gradient of the batch when all parts have the same size. -/
theorem C116_mean (ls : List (GLayer ℝ)) {I O : ℕ} (h : NetFits ls I O) {B : ℕ} (X : Fin B → Fin I → ℝ) (G : Fin B → Fin O → ℝ)
    {ι : Type} [Fintype ι] {n : ι → ℕ} (hn : ∀ a, 0 < n a) (e : (Σ a, Fin (n a)) ≃ Fin B) :
    ∃ (gx : Tensor ℝ) (total : List (List (Tensor ℝ))) (gxs : ι → Tensor ℝ) (parts : ι → List (List (Tensor ℝ))),
      backward ls (ofMat X) (ofMat fun b o => 1 / (B : ℝ) * G b o) = .ok (gx, total) ∧
      (∀ a, backward ls (ofMat fun i => X (e ⟨a, i⟩)) (ofMat fun i o => 1 / (n a : ℝ) * G (e ⟨a, i⟩) o) = .ok (gxs a, parts a)) ∧
      WeightedSum ls (fun a => (n a : ℝ) / B) total parts ∧
      ∀ m, 0 < m → (∀ a, n a = m) → WeightedSum ls (fun _ => 1 / (Fintype.card ι : ℝ)) total parts := by
  obtain ⟨GX, total, one, e1, e2, e3⟩ := C116_samples ls h X G fun _ => 1 / (B : ℝ)
  have part : ∀ a, ∃ gx pt, backward ls (ofMat fun i => X (e ⟨a, i⟩)) (ofMat fun i o => 1 / (n a : ℝ) * G (e ⟨a, i⟩) o) = .ok (gx, pt) ∧
      WeightedSum ls (fun _ => 1 / (n a : ℝ)) pt fun i : Fin (n a) => one (e ⟨a, i⟩) := by
    intro a
    obtain ⟨GX', total', one', d1, d2, d3⟩ := C116_samples ls h (fun i => X (e ⟨a, i⟩)) (fun i => G (e ⟨a, i⟩)) fun _ => 1 / (n a : ℝ)
    refine ⟨_, total', d1, ?_⟩
    have : one' = fun i => one (e ⟨a, i⟩) := funext fun i => (Prod.mk.inj (Except.ok.inj ((d2 i).symm.trans (e2 (e ⟨a, i⟩))))).2
    rw [← this]
    exact d3
  choose gxs parts p1 p2 using part
  have main : WeightedSum ls (fun a => (n a : ℝ) / B) total parts := by
    intro k l j p hk hj
    obtain ⟨t, ts, t1, t2, t3, t4⟩ := e3 k l j p hk hj
    have sub : ∀ a, ∃ s : Tensor ℝ, gradOfParam (parts a) k j = some s ∧ s.shape = p.shape ∧
        ∀ idx, InShape p.shape idx → s.get idx = ∑ i : Fin (n a), 1 / (n a : ℝ) * (ts (e ⟨a, i⟩)).get idx := by
      intro a
      obtain ⟨s, ss, s1, s2, s3, s4⟩ := p2 a k l j p hk hj
      refine ⟨s, s1, s2, fun idx hi => ?_⟩
      rw [s4 idx hi]
      refine Finset.sum_congr rfl fun i _ => ?_
      have : ss i = ts (e ⟨a, i⟩) := Option.some.inj ((s3 i).1.symm.trans (t3 (e ⟨a, i⟩)).1)
      rw [this]
    choose s s1 s2 s3 using sub
    refine ⟨t, s, t1, t2, fun a => ⟨s1 a, s2 a⟩, fun idx hi => ?_⟩
    rw [t4 idx hi, ← Equiv.sum_comp e, Fintype.sum_sigma]
    refine Finset.sum_congr rfl fun a _ => ?_
    rw [s3 a idx hi, Finset.mul_sum]
    refine Finset.sum_congr rfl fun i _ => ?_
    have : (n a : ℝ) ≠ 0 := by
      have := hn a
      positivity
    rw [← mul_assoc]
    congr 1
    field_simp
  refine ⟨_, total, gxs, parts, e1, p1, main, fun m hm hall => ?_⟩
  have hB : (B : ℝ) = Fintype.card ι * m := by
    have h1 := Fintype.card_congr e
    rw [Fintype.card_sigma, Fintype.card_fin] at h1
    simp only [Fintype.card_fin, hall, Finset.sum_const, Finset.card_univ, smul_eq_mul] at h1
    exact_mod_cast h1.symm
  have : (fun a => (n a : ℝ) / B) = fun _ : ι => 1 / (Fintype.card ι : ℝ) := by
    funext a
    have hm' : (m : ℝ) ≠ 0 := by positivity
    rw [hall, hB, mul_comm, div_mul_eq_div_div, div_self hm']
  rw [← this]
  exact main

/-- **C116 (parts of different sizes).** The plain average of the gradients of parts with different sizes is another gradient: one linear layer, the samples `1, 0, 0` in parts of one and two samples, all with
gradient 1 of their own loss. The batch gives the weight the gradient 1/3, the parts give 1 and 0. -/
theorem C116_unequal (w b : ℝ) :
    let ls : List (GLayer ℝ) := [.linear (Tensor.tab2 1 1 fun _ _ => w) (Tensor.tab1 1 fun _ => b)]
    let grad (B : ℕ) (X : Fin B → Fin 1 → ℝ) (v : ℝ) : Prop :=
      ∃ gx gs t, backward ls (ofMat X) (ofMat fun (_ : Fin B) (_ : Fin 1) => 1 / (B : ℝ) * 1) = .ok (gx, gs) ∧ gradOfParam gs 0 0 = some t ∧ t.get [0, 0] = v
    grad 3 (fun q _ => if q = 0 then 1 else 0) (1 / 3) ∧ grad 1 (fun _ _ => 1) 1 ∧ grad 2 (fun _ _ => 0) 0 := by
  intro ls grad
  have key : ∀ (B : ℕ) (X : Fin B → Fin 1 → ℝ), grad B X (∑ q, 1 / (B : ℝ) * X q 0) := by
    intro B X
    refine ⟨linearInputGrad (Tensor.tab2 1 1 fun _ _ => w) (ofMat X) (ofMat fun (_ : Fin B) (_ : Fin 1) => 1 / (B : ℝ) * 1), [(GLayer.linear (Tensor.tab2 1 1 fun _ _ => w) (Tensor.tab1 1 fun _ => b)).paramGrads (ofMat X) (ofMat fun (_ : Fin B) (_ : Fin 1) => 1 / (B : ℝ) * 1)],
      linearWeightGrad (Tensor.tab2 1 1 fun _ _ => w) (ofMat X) (ofMat fun (_ : Fin B) (_ : Fin 1) => 1 / (B : ℝ) * 1), ?_, rfl, ?_⟩
    · show ((GLayer.linear (Tensor.tab2 1 1 fun _ _ => w) (Tensor.tab1 1 fun _ => b)).forward (ofMat X) >>= _) = _
      unfold GLayer.forward
      dsimp only
      rw [linear_mat (w := Tensor.tab2 1 1 fun _ _ => w) (b := Tensor.tab1 1 fun _ => b) (I := 1) (O := 1) rfl X]
      rfl
    · have e := Tensor.get_tab2 (f := fun r q => sumL ((List.range B).map fun b => (ofMat fun (_ : Fin B) (_ : Fin 1) => 1 / (B : ℝ) * 1).get [b, r] * (ofMat X).get [b, q]))
        (show 0 < 1 by omega) (show 0 < 1 by omega)
      refine e.trans ?_
      rw [sumL_range]
      refine sum_rows fun q => ?_
      have h1 := ofMat_get (fun (_ : Fin B) (_ : Fin 1) => 1 / (B : ℝ) * 1) q 0
      have h2 := ofMat_get X q 0
      rw [Fin.val_zero] at h1 h2
      rw [h1, h2, mul_one]
  refine ⟨?_, ?_, ?_⟩
  · have := key 3 fun q _ => if q = 0 then 1 else 0
    have e : ∑ q : Fin 3, 1 / ((3 : ℕ) : ℝ) * (if q = 0 then 1 else 0) = 1 / 3 := by
      rw [Fin.sum_univ_three, if_pos rfl, if_neg (by decide), if_neg (by decide)]
      norm_num
    rw [e] at this
    exact this
  · have := key 1 fun _ _ => 1
    have e : ∑ _q : Fin 1, 1 / ((1 : ℕ) : ℝ) * 1 = 1 := by norm_num
    rw [e] at this
    exact this
  · have := key 2 fun _ _ => 0
    have e : ∑ _q : Fin 2, 1 / ((2 : ℕ) : ℝ) * 0 = 0 := by norm_num
    rw [e] at this
    exact this

/-- A network of a polynomial layer, `relu` and a piecewise layer, a batch of six samples in three parts of two. -/
example (X : Fin 6 → Fin 2 → ℝ) (G : Fin 6 → Fin 1 → ℝ) (v : ℕ → ℝ) :
    ∃ total gx, backward [.fn exQuad, .relu, .pw (lineLayer 5 v)] (ofMat X) (ofMat fun b o => 1 / ((6 : ℕ) : ℝ) * G b o) = .ok (gx, total) ∧
      ∃ parts : Fin 3 → List (List (Tensor ℝ)), WeightedSum [.fn exQuad, .relu, .pw (lineLayer 5 v)] (fun _ : Fin 3 => 1 / 3) total parts ∧
        ∀ a, ∃ gxa, backward [.fn exQuad, .relu, .pw (lineLayer 5 v)] (ofMat fun i : Fin 2 => X (finProdFinEquiv (a, i))) (ofMat fun (i : Fin 2) o => 1 / ((2 : ℕ) : ℝ) * G (finProdFinEquiv (a, (i : Fin 2))) o) = .ok (gxa, parts a) := by
  have hfit : NetFits [.fn exQuad, .relu, .pw (lineLayer 5 v)] 2 1 :=
    ⟨1, exQuad_fits, 1, rfl, 1, ⟨lineLayer_wf (by norm_num) v, by show (0 : ℝ) < 2; norm_num, (by intro p hp; cases hp), rfl, rfl⟩, rfl⟩
  obtain ⟨gx, total, gxs, parts, e1, e2, -, e4⟩ := C116_mean _ hfit X G (n := fun _ : Fin 3 => 2) (fun _ => by norm_num) ((Equiv.sigmaEquivProd (Fin 3) (Fin 2)).trans finProdFinEquiv)
  refine ⟨total, gx, e1, parts, ?_, fun a => ⟨_, e2 a⟩⟩
  have := e4 2 (by norm_num) fun _ => rfl
  rw [Fintype.card_fin] at this
  norm_num at this ⊢
  exact this

end HOL
