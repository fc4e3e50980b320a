import Verif.Model.TensorOps

/-!
# Model: attention modules

attentions.py. Boolean masks are tensors of natural numbers, `0` is `False`. Parameters are given (their random initialization is PyTorch's); `init` fixes their shapes.
`int(a / b)` is the integer quotient (exact below `2 ^ 53`). Tensors are values here: that `masked_fill_` works in place on a tensor nobody else refers to cannot be observed.
-/

namespace HOL
open TorchScalar

variable {K : Type} [TorchScalar K]

/-- Weights of an `nn.Linear(inF, outF, bias)` with the given initial values. -/
def Linear.init (inF outF : ℕ) (bias : Bool) (w : ℕ → ℕ → K) (b : ℕ → K) : Linear K :=
  { weight := Tensor.tab2 outF inF w, bias := if bias then some (Tensor.tab1 outF b) else none }

/-- `ScaledDotProductAttention.forward`, attentions.py:33-43; `dim` is the constructor argument (attentions.py:29-31). -/
def scaledDot (dim : ℕ) (query key value : Tensor K) (mask : Option (Tensor ℕ)) : Py (Tensor K × Tensor K) := do
  let kt ← transpose12 key
  let dots ← bmm query kt
  let score := dots.map fun v => v / TorchScalar.sqrt ((dim : ℕ) : K)
  let attn ← match mask with
    | none => .ok (softmaxLast score)
    | some m => do
      let m ← viewAs score.shape m
      .ok (maskedSoftmax score m)
  let context ← bmm attn value
  .ok (context, attn)

/-- The sizes `query.size(0)`, `query.size(2)` and `value.size(1)`; too few axes raise an IndexError. -/
def attentionSizes (query value : Tensor K) : Py (ℕ × ℕ × ℕ) :=
  match query.shape, value.shape with
  | b :: _ :: h :: _, _ :: t :: _ => .ok (b, h, t)
  | _, _ => .error .indexError

/-- `DotProductAttention.forward`, attentions.py:54-63; the constructor (attentions.py:51-52) ignores its argument. -/
def dotProduct (query value : Tensor K) : Py (Tensor K × Tensor K) := do
  let s ← attentionSizes query value
  let vt ← transpose12 value
  let score ← bmm query vt
  let rows ← viewFirst [s.2.2] score
  let attn ← viewSecond s.1 [s.2.2] (softmaxLast rows)
  let context ← bmm attn value
  .ok (context, attn)

/-- Attributes of `AdditiveAttention`. -/
structure AdditiveAttn (K : Type) where
  queryProj : Linear K
  keyProj : Linear K
  bias : Tensor K
  scoreProj : Linear K

/-- `AdditiveAttention.__init__`, attentions.py:82-87: random initial values `wq`, `wk`, `ws`, `bs` of the linear layers and draws `r` in `[0, 1)` for the bias, which is
uniform in `[-1/10, 1/10)`. -/
def AdditiveAttn.init (hidden : ℕ) (wq wk ws : ℕ → ℕ → K) (bs r : ℕ → K) : AdditiveAttn K :=
  { queryProj := Linear.init hidden hidden false wq fun _ => 0
    keyProj := Linear.init hidden hidden false wk fun _ => 0
    bias := Tensor.tab1 hidden fun h => -(1 / ((10 : ℕ) : K)) + (1 / ((10 : ℕ) : K) - -(1 / ((10 : ℕ) : K))) * r h
    scoreProj := Linear.init hidden 1 true ws bs }

/-- `AdditiveAttention.forward`, attentions.py:89-97. -/
def AdditiveAttn.forward (A : AdditiveAttn K) (query key value : Tensor K) : Py (Tensor K × Tensor K) := do
  let k ← A.keyProj.forward key
  let q ← A.queryProj.forward query
  let s ← zipB (· + ·) k q
  let s ← zipB (· + ·) s A.bias
  let e ← A.scoreProj.forward (s.map TorchScalar.tanh)
  let attn := softmaxLast (squeezeLast e)
  let a1 ← unsqueeze1 attn
  let context ← bmm a1 value
  .ok (context, attn)

/-- Attributes of `LocationAwareAttention`, attentions.py:122-133. -/
structure LocationAttn (K : Type) where
  convWeight : Tensor K
  convBias : Tensor K
  queryProj : Linear K
  valueProj : Linear K
  scoreProj : Linear K
  bias : Tensor K
  smoothing : Bool

/-- `torch.div(score, score.sum(-1).unsqueeze(-1))` -/
def normalizeLast (t : Tensor K) : Tensor K :=
  let c := t.shape.getLastD 1
  Tensor.tabulate t.shape fun idx => t.get idx / sumL ((List.range c).map fun j => t.get (idx.dropLast ++ [j]))

/-- `proj(x.reshape(-1, hidden_dim)).view(batch_size, -1, hidden_dim)` -/
def projRows (P : Linear K) (b h : ℕ) (x : Tensor K) : Py (Tensor K) := do
  let r ← viewFirst [h] x
  let r ← P.forward r
  viewSecond b [h] r

/-- `LocationAwareAttention.forward`, attentions.py:135-166. -/
def LocationAttn.forward (A : LocationAttn K) (query value : Tensor K) (last : Option (Tensor K)) : Py (Tensor K × Tensor K) := do
  let s ← attentionSizes query value
  let last := last.getD (Tensor.tab2 s.1 s.2.2 fun _ _ => 0)
  let l1 ← unsqueeze1 last
  let conv ← convThree A.convWeight A.convBias l1
  let conv ← transpose12 conv
  let q ← projRows A.queryProj s.1 s.2.1 query
  let v ← projRows A.valueProj s.1 s.2.1 value
  let t ← zipB (· + ·) q v
  let t ← zipB (· + ·) t conv
  let t ← zipB (· + ·) t A.bias
  let e ← A.scoreProj.forward (t.map TorchScalar.tanh)
  let score := squeezeLast e
  let attn := if A.smoothing then normalizeLast (score.map sigmoid) else softmaxLast score
  let a1 ← unsqueeze1 attn
  let c ← bmm a1 value
  let context ← squeeze1 c
  .ok (context, attn)

/-- Attributes of `MultiHeadLocationAwareAttention`, attentions.py:192-204. -/
structure MultiLocationAttn (K : Type) where
  numHeads : ℕ
  dim : ℕ
  convWeight : Tensor K
  convBias : Tensor K
  locProj : Linear K
  queryProj : Linear K
  valueProj : Linear K
  scoreProj : Linear K
  bias : Tensor K

/-- `value.size(0)`, `value.size(1)` -/
def firstSizes (value : Tensor K) : Py (ℕ × ℕ) :=
  match value.shape with
  | b :: t :: _ => .ok (b, t)
  | _ => .error .indexError

/-- `loc_energy.unsqueeze(1).repeat(1, num_heads, 1, 1)` of a tensor with three axes, attentions.py:215-218. -/
def repeatHeads {α : Type} [Zero α] (num : ℕ) (t : Tensor α) : Py (Tensor α) :=
  match t.shape with
  | [b, q, k] => .ok (Tensor.tab4 b num q k fun s _ i j => t.get [s, i, j])
  | [b, k] => .ok (Tensor.tab4 1 (num * b) 1 k fun _ r _ j => t.get [r % b, j])
  | _ => .error .runtimeError

/-- `proj(x).view(batch_size, -1, num_heads, dim)` -/
def splitHeads (P : Linear K) (b num dim : ℕ) (x : Tensor K) : Py (Tensor K) := do
  let r ← P.forward x
  viewSecond b [num, dim] r

/-- `MultiHeadLocationAwareAttention.forward`, attentions.py:206-248. -/
def MultiLocationAttn.forward (A : MultiLocationAttn K) (query value : Tensor K) (last : Option (Tensor K)) : Py (Tensor K × Tensor K) := do
  let s ← firstSizes value
  let last := last.getD (Tensor.tab3 s.1 A.numHeads s.2 fun _ _ _ => 0)
  let conv ← convThree A.convWeight A.convBias last
  let conv ← transpose12 conv
  let loc ← A.locProj.forward conv
  let loc ← repeatHeads A.numHeads (loc.map TorchScalar.tanh)
  let loc ← viewFirst [s.2, A.dim] loc
  let q ← splitHeads A.queryProj s.1 A.numHeads A.dim query
  let q ← permute [0, 2, 1, 3] q
  let v ← splitHeads A.valueProj s.1 A.numHeads A.dim value
  let v ← permute [0, 2, 1, 3] v
  let q ← viewFirst [1, A.dim] q
  let v ← viewFirst [s.2, A.dim] v
  let t ← zipB (· + ·) v q
  let t ← zipB (· + ·) t loc
  let t ← zipB (· + ·) t A.bias
  let e ← A.scoreProj.forward (t.map TorchScalar.tanh)
  let attn := softmaxLast (squeezeLast e)
  let v ← viewAs [s.1, s.2, A.numHeads, A.dim] v
  let v ← permute [0, 2, 1, 3] v
  let v ← viewFirst [s.2, A.dim] v
  let a1 ← unsqueeze1 attn
  let c ← bmm a1 v
  let context ← viewSecond s.1 [A.numHeads * A.dim] c
  let attn ← viewAs [s.1, A.numHeads, numel attn.shape / (s.1 * A.numHeads)] attn
  .ok (context, attn)

/-- Attributes of `MultiHeadAttention`. -/
structure MultiHead (K : Type) where
  dHead : ℕ
  numHeads : ℕ
  queryProj : Linear K
  keyProj : Linear K
  valueProj : Linear K

/-- Initial values of an `nn.Linear`. -/
structure Draw (K : Type) where
  weight : ℕ → ℕ → K
  bias : ℕ → K

/-- `assert d_model % num_heads == 0`: a remainder is an AssertionError, no heads a ZeroDivisionError. -/
def assertDivides (dModel numHeads : ℕ) : Py Unit :=
  if numHeads = 0 then .error .zeroDivisionError else if dModel % numHeads = 0 then .ok () else .error .assertionError

/-- `MultiHeadAttention.__init__`, attentions.py:281-291. -/
def MultiHead.init (dModel numHeads : ℕ) (q k v : Draw K) : Py (MultiHead K) := do
  assertDivides dModel numHeads
  let d := dModel / numHeads
  .ok { dHead := d, numHeads := numHeads
        queryProj := .init dModel (d * numHeads) true q.weight q.bias
        keyProj := .init dModel (d * numHeads) true k.weight k.bias
        valueProj := .init dModel (d * numHeads) true v.weight v.bias }

/-- `x.permute(2, 0, 1, 3).contiguous().view(batch_size * num_heads, -1, d_head)`, attentions.py:308-322. -/
def headRows (b num dim : ℕ) (x : Tensor K) : Py (Tensor K) := do
  let r ← permute [2, 0, 1, 3] x
  viewSecond (b * num) [dim] r

/-- `mask.unsqueeze(1).repeat(1, num_heads, 1, 1)`, attentions.py:324-325. -/
def headMask (num : ℕ) (mask : Option (Tensor ℕ)) : Py (Option (Tensor ℕ)) :=
  match mask with
  | none => .ok none
  | some m => do
    let r ← repeatHeads num m
    .ok (some r)

/-- `value.size(0)` -/
def sizeZero (t : Tensor K) : Py ℕ :=
  match t.shape with
  | b :: _ => .ok b
  | [] => .error .indexError

/-- `t.view(num, b, -1, d)` -/
def viewThird (a b d : ℕ) (t : Tensor K) : Py (Tensor K) :=
  if a * b * d = 0 then .error .runtimeError
  else if numel t.shape % (a * b * d) = 0 then .ok (t.reshape [a, b, numel t.shape / (a * b * d), d])
  else .error .runtimeError

/-- `MultiHeadAttention.forward`, attentions.py:293-338. -/
def MultiHead.forward (M : MultiHead K) (query key value : Tensor K) (mask : Option (Tensor ℕ)) : Py (Tensor K × Tensor K) := do
  let b ← sizeZero value
  let q ← splitHeads M.queryProj b M.numHeads M.dHead query
  let k ← splitHeads M.keyProj b M.numHeads M.dHead key
  let v ← splitHeads M.valueProj b M.numHeads M.dHead value
  let q ← headRows b M.numHeads M.dHead q
  let k ← headRows b M.numHeads M.dHead k
  let v ← headRows b M.numHeads M.dHead v
  let m ← headMask M.numHeads mask
  let r ← scaledDot M.dHead q k v m
  let c ← viewThird M.numHeads b M.dHead r.1
  let c ← permute [1, 2, 0, 3] c
  let c ← viewSecond b [M.numHeads * M.dHead] c
  .ok (c, r.2)

/-- Attributes of `RelativeMultiHeadAttention`; `drop` is what the dropout module does (the identity when evaluating). -/
structure RelativeAttn (K : Type) where
  dModel : ℕ
  dHead : ℕ
  numHeads : ℕ
  queryProj : Linear K
  keyProj : Linear K
  valueProj : Linear K
  posProj : Linear K
  drop : Fwd K
  uBias : Tensor K
  vBias : Tensor K
  outProj : Linear K

/-- `RelativeMultiHeadAttention.__init__`, attentions.py:358-383. -/
def RelativeAttn.init (dModel numHeads : ℕ) (q k v p o : Draw K) (u w : ℕ → ℕ → K) (drop : Fwd K) : Py (RelativeAttn K) := do
  assertDivides dModel numHeads
  let d := dModel / numHeads
  .ok { dModel := dModel, dHead := d, numHeads := numHeads
        queryProj := .init dModel dModel true q.weight q.bias
        keyProj := .init dModel dModel true k.weight k.bias
        valueProj := .init dModel dModel true v.weight v.bias
        posProj := .init dModel dModel false p.weight p.bias
        drop := drop, uBias := Tensor.tab2 numHeads d u, vBias := Tensor.tab2 numHeads d w
        outProj := .init dModel dModel true o.weight o.bias }

/-- `_compute_relative_positional_encoding`, attentions.py:432-442: a column of zeros is put in front, the memory of every head is read with rows of length `seq_length1`, and the
first such row is dropped. -/
def relShift (t : Tensor K) : Py (Tensor K) :=
  match t.shape with
  | [b, n, t1, t2] =>
    let padded := Tensor.tab4 b n t1 (t2 + 1) fun s h i j => if j = 0 then 0 else t.get [s, h, i, j - 1]
    let viewed := padded.reshape [b, n, t2 + 1, t1]
    let sliced := Tensor.tab4 b n t2 t1 fun s h i j => viewed.get [s, h, i + 1, j]
    .ok (sliced.reshape [b, n, t1, t2])
  | _ => .error .valueError

/-- `score.masked_fill_(mask.unsqueeze(1), -1e9)`, attentions.py:421-423: the mask is broadcast to the score. Masks without three axes are not modelled (RuntimeError). -/
def fillMask (score : Tensor K) (mask : Option (Tensor ℕ)) : Py (Tensor K) :=
  match mask with
  | none => .ok score
  | some m => match score.shape, m.shape with
    | [b, n, t1, t2], [b', q, k] =>
      if (b' = b ∨ b' = 1) ∧ (q = t1 ∨ q = 1) ∧ (k = t2 ∨ k = 1) then
        .ok (Tensor.tab4 b n t1 t2 fun s h i j =>
          if m.get [bidx b' s, bidx q i, bidx k j] ≠ 0 then -((1000000000 : ℕ) : K) else score.get [s, h, i, j])
      else .error .runtimeError
    | _, _ => .error .runtimeError

/-- `RelativeMultiHeadAttention.forward`, attentions.py:385-430. -/
def RelativeAttn.forward (A : RelativeAttn K) (query key value pos : Tensor K) (mask : Option (Tensor ℕ)) : Py (Tensor K) := do
  let b ← sizeZero value
  let q ← splitHeads A.queryProj b A.numHeads A.dHead query
  let k ← splitHeads A.keyProj b A.numHeads A.dHead key
  let k ← permute [0, 2, 1, 3] k
  let v ← splitHeads A.valueProj b A.numHeads A.dHead value
  let v ← permute [0, 2, 1, 3] v
  let p ← splitHeads A.posProj b A.numHeads A.dHead pos
  let qu ← zipB (· + ·) q A.uBias
  let qu ← permute [0, 2, 1, 3] qu
  let kt ← permute [0, 1, 3, 2] k
  let content ← matmul4 qu kt
  let qv ← zipB (· + ·) q A.vBias
  let qv ← permute [0, 2, 1, 3] qv
  let pt ← permute [0, 2, 3, 1] p
  let ps ← matmul4 qv pt
  let ps ← relShift ps
  let s ← zipB (· + ·) content ps
  let score := s.map fun x => x / TorchScalar.sqrt ((A.dModel : ℕ) : K)
  let score ← fillMask score mask
  let attn ← A.drop (softmaxLast score)
  let c ← matmul4 attn v
  let c ← permute [0, 2, 1, 3] c
  let c ← viewSecond b [A.dModel] c
  A.outProj.forward c

/-- Attributes of `CustomizingAttention`, attentions.py:466-479. -/
structure CustomAttn (K : Type) where
  numHeads : ℕ
  dim : ℕ
  convWeight : Tensor K
  convBias : Tensor K
  queryProj : Linear K
  valueProj : Linear K
  locProj : Linear K
  bias : Tensor K

/-- `get_loc_energy`, attentions.py:522-535. -/
def CustomAttn.locEnergy (A : CustomAttn K) (last : Tensor K) (b t : ℕ) : Py (Tensor K) := do
  let l1 ← unsqueeze1 last
  let c ← convThree A.convWeight A.convBias l1
  let c ← viewThird b A.numHeads t c
  let c ← permute [0, 1, 3, 2] c
  let e ← A.locProj.forward c
  let e ← viewAs [b, A.numHeads, t, A.dim] e
  let e ← permute [0, 2, 1, 3] e
  viewAs [b, t, A.numHeads * A.dim] e

/-- `query.size(1)` -/
def sizeOne (t : Tensor K) : Py ℕ :=
  match t.shape with
  | _ :: q :: _ => .ok q
  | _ => .error .indexError

/-- `CustomizingAttention.forward`, attentions.py:481-520. `ScaledDotProductAttention.forward` takes three tensors, but the call in line 512 passes two: a TypeError. -/
def CustomAttn.forward (A : CustomAttn K) (query value : Tensor K) (last : Option (Tensor K)) : Py (Tensor K × Tensor K) := do
  let s ← firstSizes value
  let qLen ← sizeOne query
  let last := last.getD (Tensor.tab2 (s.1 * A.numHeads) s.2 fun _ _ => 0)
  let loc ← A.locEnergy last s.1 s.2
  let q ← A.queryProj.forward query
  let q ← viewAs [s.1, qLen, A.numHeads * A.dim] q
  let v ← A.valueProj.forward value
  let v ← viewAs [s.1, s.2, A.numHeads * A.dim] v
  let v ← zipB (· + ·) v loc
  let v ← zipB (· + ·) v A.bias
  let q ← viewAs [s.1, qLen, A.numHeads, A.dim] q
  let q ← permute [2, 0, 1, 3] q
  let v ← viewAs [s.1, s.2, A.numHeads, A.dim] v
  let v ← permute [2, 0, 1, 3] v
  let _ ← viewFirst [qLen, A.dim] q
  let _ ← viewFirst [s.2, A.dim] v
  .error .typeError

end HOL
