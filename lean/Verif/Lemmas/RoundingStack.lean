import Verif.Lemmas.RoundingLayer
import Verif.Lemmas.RoundingFl
import Verif.Model.Network

/-! # Rounding errors of several layers in sequence -/

namespace HOL
open Spec TorchScalar

variable {P : Type 1} {A : P → Arith}

/-- A family of layers of some size. -/
structure AnyFam (A : P → Arith) (W : ℝ) where
  z : PwSize
  hS : 0 < z.segments
  F : LayerFam A z.cls z.n z.segments z.inF z.outF W

/-- Computed features after the layers. -/
def rowK {W : ℝ} (p : P) : List (AnyFam A W) → (ℕ → (A p).K) → ℕ → (A p).K
  | [], r => r
  | F :: Fs, r => rowK p Fs fun o => F.F.outK p o r

/-- Exact features after the layers. -/
noncomputable def rowE {W : ℝ} (p : P) : List (AnyFam A W) → (ℕ → ℝ) → ℕ → ℝ
  | [], r => r
  | F :: Fs, r => rowE p Fs fun o => F.z.cls.combine F.z.inF fun i => (F.F.ex p).linkFn o i (r i)

theorem row_tracks {W : ℝ} (hW : 0 ≤ W) (Fs : List (AnyFam A W)) (hsh : ∀ F ∈ Fs, F.z.cls.shared = true) {I O : ℕ} (h : Widths I (Fs.map AnyFam.z) O)
    {x : ∀ p, ℕ → (A p).K} {rx : P → ℕ → ℝ} (hx : ∀ i < I, Tracks (fun p => x p i) (fun p => rx p i)) :
    ∀ o < O, Tracks (fun p => rowK p Fs (x p) o) (fun p => rowE p Fs (rx p) o) := by
  induction Fs generalizing I x rx with
  | nil =>
    have e : I = O := h
    rw [← e]
    exact hx
  | cons F Fs ih =>
    obtain ⟨h1, h2⟩ := h
    refine ih (fun F' hF' => hsh F' (List.mem_cons_of_mem _ hF')) h2 (x := fun p o => F.F.outK p o (x p))
      (rx := fun p o => F.z.cls.combine F.z.inF fun i => (F.F.ex p).linkFn o i (rx p i)) fun o ho => ?_
    exact F.F.out_tracks F.hS hW ho (fun i hi => hx i (h1 ▸ hi)) fun i _ => Or.inl (hsh F List.mem_cons_self)

theorem LayerFam.outK_congr {cls : PwClass} {n S I O : ℕ} {W : ℝ} (F : LayerFam A cls n S I O W) (p : P) (o : ℕ) {x y : ℕ → (A p).K} (h : ∀ i < I, x i = y i) :
    F.outK p o x = F.outK p o y := by
  have e1 : ∀ k, (List.range I).map (fun i => (getLagrangeBasis n ((2 : ℕ) : (A p).K)).call ((F.L p).xIn (x i)) k * (F.L p).w.get [o, i, (F.L p).seg (x i) * (F.L p).stride + k])
      = (List.range I).map (fun i => (getLagrangeBasis n ((2 : ℕ) : (A p).K)).call ((F.L p).xIn (y i)) k * (F.L p).w.get [o, i, (F.L p).seg (y i) * (F.L p).stride + k]) := by
    intro k
    apply List.map_congr_left
    intro i hi
    rw [h i (List.mem_range.1 hi)]
  have e2 : ∀ g : (A p).K → (A p).K, (List.range I).map (fun i => g (sumL ((List.range n).map fun k =>
        (getLagrangeBasis n ((2 : ℕ) : (A p).K)).call ((F.L p).xIn (x i)) k * (F.L p).w.get [o, i, (F.L p).seg (x i) * (F.L p).stride + k])))
      = (List.range I).map (fun i => g (sumL ((List.range n).map fun k =>
        (getLagrangeBasis n ((2 : ℕ) : (A p).K)).call ((F.L p).xIn (y i)) k * (F.L p).w.get [o, i, (F.L p).seg (y i) * (F.L p).stride + k]))) := by
    intro g
    apply List.map_congr_left
    intro i hi
    rw [h i (List.mem_range.1 hi)]
  unfold LayerFam.outK
  cases cls
  · simp only [e1]
  · have a := e2 fun t => 1 + t
    have b := e2 fun t => t
    simp only [a, b]
  · simp only [e1]
  · have a := e2 fun t => 1 + t
    have b := e2 fun t => t
    simp only [a, b]

theorem rowK_congr {W : ℝ} (p : P) (Fs : List (AnyFam A W)) {I O : ℕ} (h : Widths I (Fs.map AnyFam.z) O) {x y : ℕ → (A p).K} (hxy : ∀ i < I, x i = y i) :
    ∀ o < O, rowK p Fs x o = rowK p Fs y o := by
  induction Fs generalizing I x y with
  | nil =>
    have e : I = O := h
    rw [← e]
    exact hxy
  | cons F Fs ih =>
    obtain ⟨h1, h2⟩ := h
    exact ih h2 fun o _ => F.F.outK_congr p o fun i hi => hxy i (h1 ▸ hi)

theorem rowE_congr {W : ℝ} (p : P) (Fs : List (AnyFam A W)) {I O : ℕ} (h : Widths I (Fs.map AnyFam.z) O) {x y : ℕ → ℝ} (hxy : ∀ i < I, x i = y i) :
    ∀ o < O, rowE p Fs x o = rowE p Fs y o := by
  induction Fs generalizing I x y with
  | nil =>
    have e : I = O := h
    rw [← e]
    exact hxy
  | cons F Fs ih =>
    obtain ⟨h1, h2⟩ := h
    refine ih h2 fun o _ => ?_
    exact PwClass.combine_congr _ fun i hi => by rw [hxy i (h1 ▸ hi)]

theorem seqForward_rowK {W : ℝ} (p : P) (Fs : List (AnyFam A W)) {I O B : ℕ} (h : Widths I (Fs.map AnyFam.z) O) {x : Tensor (A p).K} (hx : x.shape = [B, I]) (hwf : x.WF) :
    ∃ out, seqForward (Fs.map fun F => (F.F.L p).forward) x = .ok out ∧ out.shape = [B, O] ∧
      ∀ b < B, ∀ o < O, out.get [b, o] = rowK p Fs (fun i => x.get [b, i]) o := by
  induction Fs generalizing I x with
  | nil =>
    have e : I = O := h
    exact ⟨x, rfl, e ▸ hx, fun b _ o _ => rfl⟩
  | cons F Fs ih =>
    obtain ⟨h1, h2⟩ := h
    have hf := F.F.forward_outK p (B := B) (x := x) (by rw [hx, h1]) hwf
    obtain ⟨out, o1, o2, o3⟩ := ih h2 (x := Tensor.tab2 B F.z.outF fun b o => F.F.outK p o fun i => x.get [b, i]) rfl (Tensor.wf_tabulate _ _)
    refine ⟨out, ?_, o2, fun b hb o ho => ?_⟩
    · simp only [List.map_cons, seqForward, hf, bind, Except.bind]
      exact o1
    · rw [o3 b hb o ho]
      refine rowK_congr p Fs h2 (fun i hi => ?_) o ho
      rw [Tensor.get_tab2 hb hi]

theorem seqForward_rowE {W : ℝ} (p : P) (Fs : List (AnyFam A W)) {I O B : ℕ} (h : Widths I (Fs.map AnyFam.z) O) {x : Tensor ℝ} (hx : x.shape = [B, I]) (hwf : x.WF) :
    ∃ out, seqForward (Fs.map fun F => (F.F.ex p).forward) x = .ok out ∧ out.shape = [B, O] ∧
      ∀ b < B, ∀ o < O, out.get [b, o] = rowE p Fs (fun i => x.get [b, i]) o := by
  induction Fs generalizing I x with
  | nil =>
    have e : I = O := h
    exact ⟨x, rfl, e ▸ hx, fun b _ o _ => rfl⟩
  | cons F Fs ih =>
    obtain ⟨h1, h2⟩ := h
    have hf := F.F.ex_forward p (B := B) (x := x) (by rw [hx, h1]) hwf
    obtain ⟨out, o1, o2, o3⟩ := ih h2 (x := Tensor.tab2 B F.z.outF fun b o => F.z.cls.combine F.z.inF fun i => (F.F.ex p).linkFn o i (x.get [b, i])) rfl (Tensor.wf_tabulate _ _)
    refine ⟨out, ?_, o2, fun b hb o ho => ?_⟩
    · simp only [List.map_cons, seqForward, hf, bind, Except.bind]
      exact o1
    · rw [o3 b hb o ho]
      refine rowE_congr p Fs h2 (fun i hi => ?_) o ho
      rw [Tensor.get_tab2 hb hi]

/-- An arithmetic, layers of the given sizes and the inputs of one sample. -/
structure StackPt (zs : List PwSize) (W X : ℝ) (I : ℕ) : Type 1 where
  A : Arith
  Ls : List (PwLayer A.K)
  hLs : List.Forall₂ (Bounded A.R W) Ls zs
  x : ℕ → A.K
  hx : ∀ i < I, A.R.fin (x i) ∧ |A.R.val (x i)| ≤ X

namespace StackPt
variable {zs : List PwSize} {W X : ℝ} {I : ℕ}

theorem len (p : StackPt zs W X I) : p.Ls.length = zs.length := p.hLs.length_eq

theorem bounded (p : StackPt zs W X I) (k : Fin zs.length) : Bounded p.A.R W (p.Ls.get ⟨k, by rw [p.len]; exact k.2⟩) (zs.get k) :=
  List.forall₂_iff_get.1 p.hLs |>.2 k _ k.2

/-- The layer at position `k`. -/
def fam (hz : ∀ z ∈ zs, 0 < z.segments) (k : Fin zs.length) : AnyFam (P := StackPt zs W X I) (fun p => p.A) W where
  z := zs.get k
  hS := hz _ (List.get_mem _ _)
  F :=
    { L := fun p => p.Ls.get ⟨k, by rw [p.len]; exact k.2⟩
      wf := fun p => (p.bounded k).wf
      hcls := fun p => (p.bounded k).cls
      hn := fun p => (p.bounded k).n
      hS := fun p => (p.bounded k).segments
      hI := fun p => (p.bounded k).inF
      hO := fun p => (p.bounded k).outF
      hlen := fun p => (p.bounded k).length
      hper := fun p => (p.bounded k).periodicity
      hw := fun p => (p.bounded k).weights }

theorem fams_z (hz : ∀ z ∈ zs, 0 < z.segments) : ((List.finRange zs.length).map (fam (W := W) (X := X) (I := I) hz)).map AnyFam.z = zs := by
  apply List.ext_get
  · simp
  · intro i h1 h2
    simp [fam]

theorem fams_L (hz : ∀ z ∈ zs, 0 < z.segments) (p : StackPt zs W X I) :
    ((List.finRange zs.length).map (fam (W := W) (X := X) (I := I) hz)).map (fun F => F.F.L p) = p.Ls := by
  apply List.ext_get
  · simp [p.len]
  · intro i h1 h2
    simp [fam]

/-- One input of the sample. -/
def single {J : ℕ} (p : StackPt zs W X J) (i : ℕ) (hi : i < J) : StackPt zs W X 1 where
  A := p.A
  Ls := p.Ls
  hLs := p.hLs
  x := fun _ => p.x i
  hx := fun _ _ => p.hx i hi

theorem x_tracks (i : ℕ) (hi : i < I) : Tracks (P := StackPt zs W X I) (A := fun p => p.A) (fun p => p.x i) (fun p => p.A.R.val (p.x i)) :=
  Tracks.const_exact _ _ (fun p => (p.hx i hi).2) fun p => ⟨(p.hx i hi).1, rfl⟩

end StackPt

theorem LayerFam.outK_eq {Q : Type 1} {A' : Q → Arith} {cls : PwClass} {n S I O : ℕ} {W W' : ℝ} (F : LayerFam A cls n S I O W) (G : LayerFam A' cls n S I O W') (p : P) (q : Q)
    (hA : A p = A' q) (hL : HEq (F.L p) (G.L q)) (o : ℕ) (x : ℕ → (A p).K) (y : ℕ → (A' q).K) (hxy : HEq x y) : HEq (F.outK p o x) (G.outK q o y) := by
  cases cls <;>
  · unfold LayerFam.outK
    dsimp only
    revert x y hL
    generalize F.L p = L
    generalize G.L q = L'
    revert L L'
    rw [hA]
    intro L L' x y hxy h
    cases h
    cases hxy
    rfl

/-- The layers at some of the points. -/
def LayerFam.comap {Q : Type 1} (f : Q → P) {cls : PwClass} {n S I O : ℕ} {W : ℝ} (F : LayerFam A cls n S I O W) : LayerFam (fun q => A (f q)) cls n S I O W where
  L := fun q => F.L (f q)
  wf := fun _ => F.wf _
  hcls := fun _ => F.hcls _
  hn := fun _ => F.hn _
  hS := fun _ => F.hS _
  hI := fun _ => F.hI _
  hO := fun _ => F.hO _
  hlen := fun _ => F.hlen _
  hper := fun _ => F.hper _
  hw := fun _ => F.hw _

theorem Tracks.comap {Q : Type 1} (f : Q → P) {x : ∀ p, (A p).K} {r : P → ℝ} (h : Tracks x r) : Tracks (A := fun q => A (f q)) (fun q => x (f q)) (fun q => r (f q)) := by
  obtain ⟨C, B, M0, e0, hC, hB, he, he1, hr, h⟩ := h
  exact ⟨C, B, M0, e0, hC, hB, he, he1, fun q => hr _, fun q => h _⟩

end HOL
