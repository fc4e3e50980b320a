# Formal model of high-order-layers-torch: design

The properties are in `properties.jsonl` (C01, C02, ...), the status of each and the exact
theorem names in `MANIFEST.json`, the mutation tests in `seeded/LOG.jsonl`.

## 1. Approach

The package is a numerical library. Its code is modelled by *shallow* Lean
definitions, function by function, each with a comment that cites the file and
lines. Python exceptions are values (`Py α = Except PyErr α`), and every branch
that raises is a branch of the model.

Scalars. Definitions are written over an arbitrary scalar type `K` with
operations only (`+ - * / < == .long() remainder cos sin exp sqrt log tanh`, and the
reductions `sum`, `prod`, `max`, `min`), collected in the class `TorchScalar`
(`Verif/Prelude.lean`). No law is attached to these operations.

* *Structural* properties (index safety, batch independence, locality, tensor
  layout, constructors and their errors, shapes, sharing of parameters, optimizer entries that
  are not touched) are proved for every such `K`. They therefore hold for float32 with
  rounding, overflow and NaN.
* *Algebraic* and *analytic* properties are proved for the instance `K = ℝ`. These
  theorems say what the code computes in exact arithmetic.
* *Rounding errors* (C86): the same definitions are evaluated in every arithmetic `K` that
  satisfies the laws `Spec.Rounding K ε M` (each operation errs by at most `ε (1 + |y|)` as long
  as the exact result `y` is at most `M`), and compared with the instance `K = ℝ`. That float32 or
  float64 satisfy these laws is assumed, not proved; `flRounding` proves them of real arithmetic
  followed by any rounding function of that accuracy.

Tensors. `Tensor α` is a shape and a row-major data list. `reshape`/`view` keeps
the data, `permute` and fancy indexing are written out with indices, and the
flatten/gather/view sequences in the piecewise layers are modelled with the
same flat index arithmetic as in the code, so that a wrong `view` is visible. A tensor is
well formed (`Tensor.WF`) when the data has as many entries as the shape says; theorems about
values assume it of the inputs, and theorems about shapes prove it of the results.

Layers are records holding their weight tensor; in-place updates return the new record.

Networks (`Model/Network.lean`). A network lives in a *heap*: a list of modules, where a
module refers to its registered submodules by position and to unregistered ones (Python lists
of layers) separately. `Heap.forward` runs a module, `Heap.parameters` is
`module.parameters()`, which sees registered submodules only. A heap is *ordered* when modules
refer to older ones; `h1.Later h` says that `h` has the modules of `h1`, with weights possibly
changed (training) and further modules added. Theorems about networks say "for every later heap", that is,
at any time of training. Refinement, initialization and smoothing of networks walk
through the heap as the code walks through `model.modules()`.

Randomness. Random draws (`torch.rand`, `uniform_`, `randn`) are function arguments
constrained only by the range of the generator; theorems quantify over all draws. The law of
the VAE samples is a statement about the push-forward of the Gaussian measure.

Configurations (`Model/Modules.lean`). A hydra configuration is a tree of values (`Cfg`); a missing
attribute is `AttributeError`, a value of the wrong kind `TypeError`.

Specification. `Verif/Spec/*` states what is expected using Mathlib objects
(`Polynomial`, `Lagrange.interpolate`, `Continuous`, integrals, `Finset` sums) without using
the definitions of the model. `Verif/Props/*` holds the property theorems and
next to each a concrete instance meeting its hypotheses. `Verif/Lemmas/*` holds helpers.

Where the code does not do what its documentation or its names say, the property states precisely what it does,
including the failing case, and the failing case is proved with a concrete witness or for all
inputs. They are collected in section 5. No claim is left partial.

## 2. Trusted base

* the Lean 4.33.0 kernel and the axioms `propext`, `Classical.choice`,
  `Quot.sound` (no others, checked with `#print axioms` on every property theorem);
* the Mathlib definitions used in the statements (`Real.cos`, `Polynomial`, `Lagrange.interpolate`, `Continuous`,
  `gaussianReal`, ...);
* the reading of Python and PyTorch semantics made in the model: `.long()`
  truncates toward zero, `torch.remainder` is floored, einsum is the sum of
  products over the contracted indices (size-1 axes broadcast), `view` is row-major,
  boolean mask indexing on the right of an in-place method acts on a copy, `nn.Module.modules()`
  visits registered submodules once in pre-order and does not see plain Python lists,
  `nn.Conv*` is cross-correlation with zero padding and `nn.ConvTranspose2d` its adjoint, batch
  normalization uses the biased variance, `Optimizer.__init__` rejects an empty parameter list,
  the backward pass of indexing adds the gradients of the copies to zeros;
* the model itself, i.e. that each definition transcribes the lines it cites.

## 3. What is modelled and what is not

| source | model |
|--------|-------|
| `LagrangePolynomial.py`, `Basis.py` | `Model/Lagrange.lean` (one dimension), `Model/ND.lean` |
| `PolynomialLayers.py` | `Model/Piecewise.lean`, `Model/Product.lean`, `Model/ND.lean`; refinement, smoothing, initialization in `Model/Refine.lean` |
| `utils.py` | `Model/Utils.lean`, `Model/Norm.lean`, `Model/Rotation.lean` |
| `ProductLayer.py` | `Model/Product.lean` |
| `positional_embeddings.py` | `Model/Embedding.lean` |
| `sparse_optimizers/sparse_lion.py` | `Model/SparseLion.lean` |
| backward pass of `self.w[:, windex, wrange]` | `Model/Gradient.lean` |
| backward pass of convolutions, batch normalization, pooling | `Model/ConvGradient.lean`, `Model/ConvBackward.lean` |
| `layers.py` (factories, switch and sum layers, fixed rotation, normalization) | `Model/Network.lean`, `Model/Transform.lean`, `Model/Conv.lean`, `Model/NormLayers.lean` |
| `FunctionalConvolution.py`, `FunctionalConvolutionTranspose.py` | `Model/Conv.lean`; `groups` and `padding_mode` in `Model/ConvOptions.lean` |
| `networks.py` | `Model/Network.lean` (MLPs, refinement of networks), `Model/ConvNet.lean` (convolutional, deconvolutional and tail focus networks), `Model/Transform.lean`, `Model/Autoencoder.lean` (VAE) |
| `attentions.py` | `Model/Attention.lean` on top of `Model/TensorOps.lean` |
| `modules.py` | `Model/Modules.lean` (`select_network`, `configure_optimizers`, batch normalization), `Model/Autoencoder.lean` (evaluation steps, accuracy), `Model/Classification.lean` (`ClassificationNet`, `RegressionNet`, cross entropy) |

Not modelled:

* autograd (except the gradients of C83, C91–C93, C116 and C120–C123) and training loops (other than the plain gradient descent of C107 and C123 and the SparseLion step of C128), PyTorch Lightning glue, logging (only the names of logged values) and
  `verbose` printing, devices and dtypes (integer overflow of int64 included), performance and memory, the `examples/` directory except for the networks of `examples/mnist.py`, `examples/cifar10.py` and `examples/block_mnist.py` (C99–C101) the network of `examples/xor.py` (C105), the schedule of `examples/invariant_mnist.py` (C104) the network of `examples/variational_autoencoder.py` (C109) the networks of `examples/function_example.py` (C111) and the data splits of the image examples (C114);
* strides and contiguity of tensors (a `.view` of a non-contiguous tensor raises in PyTorch), convolutions with string paddings (`'same'`, `'valid'`) or with different sizes in the two directions,
  `math.ceil` of quotients of integers above 2^53;
* masks of the relative attention without three axes, broadcasting in `matmul`;
* the state of lazy modules other than the number of inputs of `LazyLinear`: a batch normalization is a record with
  any running statistics, and their update is not followed;
* parameters of normalization modules passed by the caller (the module is an arbitrary function), dropout other than
  as an arbitrary function;
* versions of PyTorch in which `ReduceLROnPlateau` has no argument `verbose` (there `configure_optimizers` raises).

## 4. Properties and how they are proved

| id | modelled | method |
|----|----------|--------|
| C01 | `chebyshevLobatto` over ℝ | strict antitonicity of cos on [0, π], cos(π−x) = −cos x |
| C02–C05 | `LagrangeBasis`, `LagrangeBasis1`, `get_lagrange_basis`, denominators explicit | identification with Mathlib's `Lagrange.basis` on distinct nodes |
| C06 | `BasisFlat.interpolate` (einsum), `Function.forward` | refinement to a sum of `Lagrange.interpolate` evaluations |
| C07 | `which_segment` with truncation and clamps | case analysis, floor lemmas |
| C08 | index tensors of `forward`, any scalars | bounds from the integer clamps only |
| C09, C16 | whole `forward` with flatten/gather/view | ravel/unravel lemmas, refinement to the specified piecewise function; one-sided limits at the knots |
| C10–C12 | same | cardinality at the global nodes; gluing of continuous pieces along a closed cover; segment clamp |
| C13, C14 | `forward`, any scalars (all layer families) | congruence of the gathers |
| C15 | same over ℝ | linearity of sums |
| C17, C18 | `make_periodic` and the layers using it | floor arithmetic, closed form as a distance |
| C19 | `constant_random_initialization` | partition of unity |
| C20–C25 | `interpolate_polynomial_layer`, `refine_polynomial_layer`, `refine_discontinuous_polynomial_layer` as folds of tensor writes | loop invariant "entries written so far are the sampled function", then uniqueness of interpolation; counterexamples for one node and for small periodicity |
| C26, C27 | `interpolate_high_order_mlp`, `hp_refine_high_order_mlp` on heaps | simulation between the two heaps layer by layer, using C20/C23 |
| C28, C29 | `smooth_discontinuous_layer` | loop invariant; closed form of k calls, geometric convergence |
| C30 | `initialize_polynomial_layer` | loop invariant, reproduction of degree ≤ 1 |
| C31 | `initialize_network_polynomial_layers` on heaps | which layers are reached; composition of affine maps |
| C32, C33 | product einsums, `Product`, `SwitchLayer` | algebra of products of sums |
| C34 | `Heap.parameters` against the modules that `forward` reads | reachability in the heap; concrete counterexamples for switch and resnet layers |
| C35 | resnet composition in `HighOrderMLP.forward` | induction on the module list |
| C36–C39 | normalization functions | max/min lemmas, scaling lemmas |
| C40, C41 | fixed rotation rows, meshes | trigonometry, counting of loops |
| C42–C44 | embeddings, Fourier basis | trigonometry, integrals over a period |
| C45–C48 | `update_fn` and the step loop, histories as lists of gradients | induction on histories; C45 for any scalars |
| C49–C51 | expansions of convolutions | layout lemmas; comparison with the fully connected layers |
| C52 | initial weights of the convolutions | partition of unity under the layout; bounds of the uniform draw |
| C53, C54, C73 | convolution formula, transposes | reindexing of sums; continuity of finite sums of link functions |
| C55, C56, C74 | the three convolutional network constructors and forward passes | induction on layers over a predicate "maps shape to shape"; the normalizations only have to keep the shape of batches of the given size, so batch normalization in training mode is covered |
| C57, C61 | `HighOrderMLP.__init__` as heap construction | invariant of the construction loop; forward pass as composition |
| C58–C60 | `HighOrderMLPList`, `HighOrderMultiMLP`, factories | symbolic execution of the constructors |
| C62, C63 | `LagrangeBasisND`, `PiecewiseND` | product over dimensions, mixed radix digits |
| C64–C67 | attention modules, softmax, masks, relative shift | softmax algebra, index arithmetic of `view`/`repeat` |
| C68, C75 | VAE loss, reparameterization, shapes | integral of the Gaussian divergence; push-forward of measures |
| C69 | `eval_step` of the mixins | counting; argmax ties covered by quantifying over the choice |
| C70 | the argument `length` of the piecewise layers | closed form of the function, equivalence for continuity |
| C71, C72 | `smooth_discontinuous_network`; continuity of networks | induction over the heap |
| C76 | `LowOrderMLP` | invariant of the construction loop |
| C77 | `transform_mlp`, `transform_low_mlp`, `fixed_rotation_layer` | C57/C76 behind a frozen linear layer |
| C78 | `select_network`, fully connected | symbolic execution, then C57/C76 |
| C79 | `configure_optimizers` | symbolic execution |
| C80 | `select_network`, convolutional; `BatchNorm1d` | symbolic execution, then C55/C56; algebra of mean and variance |
| C81 | `LazyLayerNormLastDim`, `normalization_layers` | induction over the leading axes, algebra of mean and variance |
| C82 | `ClassificationNet`, `RegressionNet`, cross entropy | softmax algebra; every wrong row has probability at most 1/2, so costs at least log 2 |
| C83 | weight gradients (`gatherBackward`, `weightGrad`), training with `SparseLion` | chain rule against Mathlib derivatives; unused positions receive an empty sum, so they are zero in every arithmetic, then the untouched entries of `SparseLion` (C45) |
| C84 | piecewise layers with weights sampled at the nodes | iterated Rolle theorem and Cauchy's error formula; the product of the distances to the nodes is a Chebyshev polynomial of the second kind times x²−1; uniform continuity and a Lebesgue bound for continuous functions |
| C85 | piecewise layers with n = 2 | a link is a sum of ramps weighted with the increments of the weights, and the ramps add up to a line |
| C86 | piecewise layers and stacks over every arithmetic satisfying the laws of Spec/Rounding (the model is generic in the scalars; nothing is re-modelled) | a calculus of error bounds (`Tracks`) follows the operations of `forward`; the truncation selects a segment that is active at a nearby point, and for continuous classes the polynomials of neighbouring segments agree at the boundary and are Lipschitz; counterexample with a rounding that moves numbers near 1 to 1 |
| C87 | HighOrderMLP heaps with trained weights; single sum layers | sums of exponentials of linear functions are dense (Stone-Weierstrass); input layer computes the linear functions exactly, hidden layers the identity, the output layer samples the exponentials (C84); conversely a sum layer is a sum of functions of one feature, so its mixed differences vanish |
| C88 | `interpolate` and `refine` between three layers | every written weight is the value of the old link at the node, and the intermediate layer has the same link polynomials, so the second pass writes the old node values; the coarsening loss is a concrete layer |
| C89 | pairs of sum layers, pairs of product layers | equal sums of functions of one variable differ by constants; polynomials that agree between the ends of a segment have equal node values; conversely affine changes of node values are affine changes of the link polynomial |
| C90 | pairs of sum layers, pairs of product layers | a Lebesgue constant of the nodes bounds every link on its segment (the link polynomial is linear in its node values); products of close bounded factors are close; the converse evaluates at the nodes; extrapolation computed explicitly |
| C91 | backward pass of bases, `make_periodic` and piecewise layers with respect to the input (the segment index carries no gradient) | the backward pass of a basis function is its derivative; segments are locally constant off the boundaries and always to the right; product and chain rule for Frechet derivatives on the whole batch |
| C92 | backward pass of `Polynomial`, `FourierSeries`, `Product`, `torch.nn.Linear` and `relu` by inputs and parameters; piecewise layers as in C83 and C91 | entries of the output as sums or products of functions of one input each; parameters enter affinely, so that the loss is differentiated along a line |
| C93 | backward pass of `nn.Sequential` over layers of all these kinds; `HighOrderMLP` as such a sequence | induction over the layers, the loss of the tail of the network being the loss for the layer; C57 for the structure of `HighOrderMLP` |
| C94 | forward and backward pass of single layers as in C92 | outputs of sum layers are linear in the parameters, so the change of the output paired with the gradient of the loss is the change of the parameters paired with their gradients; tangent inequality of convex functions; for the converse the derivative by one entry vanishes at a minimum. Counterexamples: `continuous_prod` with all weights -1, two linear layers with zero parameters |
| C95 | forward pass of piecewise layers, `length = 2` | Lagrange interpolation per segment; shared nodes from the last segment to the first, each with the value at its right end prescribed; impossibility by counting roots and by dimension; C94 for the claim on training |
| C96 | Model/ConvOptions.lean: grouped convolutions of PyTorch, constructors with `groups` and `padding_mode` | Lemmas/ConvOptions.lean gives the entries of the outputs; comparison with the layers without groups entry by entry in every arithmetic; link functions by C53; split channel by computing the six terms |
| C97 | the same model: `F.pad` on the expanded channels | the expansion works pixel by pixel, so padding the expansion is expanding the padded image; rolling by modular arithmetic on the tap positions |
| C98 | `HighOrderMLP` after any training, on lines | paths of polynomial pieces are closed under the layers: break points are cut at the preimages of the knots (roots of polynomials, intermediate values); induction over the layers; root counting for oscillations; iterated tent map for depth |
| C99 | `Net` of `examples/mnist.py`: constructor with all its branches, attributes that may be missing, forward pass; pooling, plain convolutions with bias | every stage is shown to treat samples separately (`SampleMap`) or to reject every batch; composition; sizes by linear arithmetic for all kernel sizes |
| C100 | `Net` of `examples/cifar10.py`; `reshape(-1, 400)` | as C99; number of rows by divisibility |
| C101 | `collate_fn` and `Net` of `examples/block_mnist.py` | values of the layer (C62), one row of the normalization (C39) and the reshape give a sum over pixels; corollaries from the sum |
| C102 | `forward` of the piecewise, flat and product layers on tables of any width: `view` with an inferred axis, einsum with broadcasting | the gather/view/permute sequence is evaluated for any width (entries are dealt to features in turn), then a case analysis of broadcasting; counterexample with a step layer of two features |
| C103 | normalization functions, the module list of `HighOrderMLP`, piecewise layers with any periodicity | bounds of C36–C38 carried through the composition of C57 layer by layer; the link polynomial is bounded by the Lebesgue constant of its nodes (C90); counterexample network with trained weights -1, 1 |
| C104 | `Net.__init__` and `invariant_mnist` of examples/invariant_mnist.py (Model/RefineExample): the loop over orders, trainers as numbers of epochs, `fit` an arbitrary function that only changes weights, runs recorded with all modules before and after | induction over the orders; the step is C26 for two networks of a program; `Heap.Later` through interpolation from a lemma that interpolation only replaces weights by tensors of the same shape; C26_unsupported_types for the layers without the method; C20_product_classes_raise at the first pair of layers |
| C105 | `NDFunctionApproximation` and the labels of examples/xor.py (Model/XorExample): both branches of the constructor, both forward functions, the training loss; the repeated `dimensions` of `polynomial_2d` as `TypeError` | a factory layer computes exactly the sums of links of its family (weights chosen by `lift_nodes` and uniqueness of interpolation); squares, distances to the first boundary and steps are links; families left out have affine links or links constant around zero, and affine functions have equal sums at opposite corners; boxes of `continuous_nd` by C62 and C63 |
| C106 | Basis functions, sum layers and polynomial layers inside and outside the interval of their nodes | Chebyshev expansion: T_k is its own interpolant, so the discrete orthogonality of the cosines at the node angles turns the sum of squares of the basis into a weighted mean of T_k^2; outside, the signs of the basis functions alternate like T_{n-1} at the nodes (Lemmas/Chebyshev, Lemmas/Extrapolation, Props/Extrapolation) |
| C107 | `mseGrad`, `PwLayer.mse`, `gdStep`, `gdRun` (Model/GradientDescent): forward, `F.mse_loss`, `weightGrad` of C83, a step of SGD without momentum (PyTorch, not repository code), k passes over one batch | the layer is a linear map of its weights whose squared norm is at most q·in·B (squares of the cardinal functions, C106, and Cauchy-Schwarz); the rest is gradient descent on a least squares problem (Lemmas/LeastSquares): descent lemma, tangent inequality and the telescoping distance argument; the limit of the learning rate by an explicit batch on which a pass multiplies the loss by a known factor |
| C108 | `BatchNorm.train2`, `eval2` (Model/BatchNorm2d): `nn.BatchNorm2d` without the update of the running statistics; `FCN`, `Deconv` (Model/ConvNet), `VAE` (Model/Autoencoder) | the sum of a normalized channel is the bias times the number of values; pooling and the linear layers commute with the mean over the batch; shapes along a chain of layers for one fixed batch size (training mode rejects single values); the loss bound is Cauchy-Schwarz per channel |
| C109 | `vaeEncoderArgs`, `vaeDecoderArgs`, `vaeNet`, `vaeEvalStep`, `vaeNormalize`, `vaeShown` (Model/VaeExample): constructor, evaluation step and display of the example; data loading, optimizers and Lightning are not modelled | C108 and C56, C74, C75, C68 instantiated with the configuration (sizes 32, 16, 8, 4 and 1, 3, 7, 15, 32); broadcasting of the loss by cases; the display is an affine map of slope below 14/25 |
| C110 | Continuous and discontinuous layers at two inputs, periodic layers, sequences of layers and `HighOrderMLP` (Model/Piecewise, Model/Network) | derivative of the Chebyshev expansion: the squares of the derivatives of the basis functions add up to at most 2 (n-1)^4, because |T_k'| is at most k^2 (Lemmas/Slope); mean value inequality per segment, segments chained at their common nodes; T_{n-1}'(1) = (n-1)^2 for the lower bound; constants multiply along a sequence, with the structure of networks from C57 |
| C111 | Function example: target function, test grid, the constructor with its three branches, forward, optimizers, the list of trained networks (`Model/FunctionExample.lean`). | Eleven grid points with alternating values of size at least 2/5 (bounds of π); a network within 2/5 at all of them changes its sign ten times; sign changes of polynomials, of continuous and discontinuous piecewise polynomials and of ReLU paths are counted by roots (`Lemmas/Alternation.lean`); Fourier sums by their even part, a polynomial in cos(πx). Converse: sampling at the nodes, Lipschitz constant of the function and the bound √(2n) on the sum of the cardinal functions. |
| C112 | The SparseLion model over training histories (C45, C46) with the forward pass of piecewise layers. | Every step adds `lr`, `0` or `-lr` (induction over the history); outputs at nodes are sums of weights (C10); speed by the stability of links in their weights (C90). |
| C113 | Model/ParamCount.lean: shapes of the parameters every module registers itself (including `result`), summed over the modules `parameters()` enumerates. | C113_mlp, C113_low_order: the enumerated modules are the disjoint union of those of the registered entries of layer_list (positions in the heap); C113_several_variables from the constructors; C113_comparison is arithmetic on the formulas. |
| C114 | Model/DataSplit.lean: Python slices, `torch.utils.data.random_split` with a given permutation, and the `setup` methods; the permutation is an arbitrary shuffle of the indices. | The two subsets are consecutive slices of one duplicate free list; sizes by case analysis on the sign and size of the truncated product; the overlap between two fractions is the length of a slice of the same list. |
| C115 | Nothing new: `select_network` (Model/Modules.lean), convolution stages and batch normalization (C80), layers of C57/C78. `TailFocus` slices of tensors with four axes raise at once in the model; in PyTorch they would be convolved and rejected by the batch normalization. | C115_conv inverts the whole configuration path: success means at least two channels, so the stages begin with a convolution and a `LazyBatchNorm1d`; ranks of the results are followed through both. C115_high_order(_input): the first layer of the structure theorems rejects the rank. Layers made of `torch.nn.Linear` only (baseline, product) are excluded: they accept further axes. |
| C116 | backward pass of sequential networks (Model/Backward), batch against single samples and parts | row-wise lemma per layer (Lemmas/Accumulation: forward, input gradient and parameter gradients act sample by sample), induction over the layers; parts by regrouping the sum over samples; concrete counterexample for plain averages of unequal parts |
| C117 | `state_dict` and `load_state_dict` on the heap of modules (Model/StateDict: keys, registered submodules, copying, errors) | two networks of one configuration mirror each other module by module (`Mirrors`, Lemmas/StateDict, StateDictNet); what loading does to each module by induction over the keys (`loadFold_spec`); negative cases from the unregistered modules of C34; concrete resnet |
| C118 | `interpolateLayer`, `refineLayer` (Model/Refine.lean) as before, with target layers of any width and class; exceptions keep the partly changed target | Loops over links that write or raise (Lemmas/RefineSizes.lean, `loops_any`) describe every weight after the call for any widths; slices that do not fit raise at the first such segment; counterexample for continuous into discontinuous by evaluation at 1 |
| C119 | the three convolutional networks, `BatchNorm.eval2`/`train2`, `VanillaVAE`, the VAE example (existing models) | `SampleMap` (Spec/Samples.lean) of every layer, pooling, normalization and linear map from its entry formula, composed along the stages (Lemmas/ConvSamples.lean); mean of the losses by splitting the sums; training mode refuted by a concrete batch |
| C120 | `Model/ConvGradient.lean`: backward pass of the expansion and of the convolutions as lists of products; `Model/ConvBackward.lean`: batch normalization, pooling, flattening, `imageBackward` | `Backprop` (Spec/Flat.lean): derivative along the flattened input; every module by the derivative of its entries, the chain rule as composition; the statistics of batch normalization differentiated as functions of the whole batch; constructors linked to the lists of modules |
| C121 | `Model/NormBackward.lean`: backward pass of the normalizations, with the indices returned by `torch.max`/`torch.min` left open | every normalization acts on lines along an axis (Lemmas/Fibers.lean); derivative of a line as a matrix, near a point with one maximum the maximum is that entry; the network by the induction of C120; two equal entries computed explicitly |
| C122 | `Model/SharedBackward.lean`: expressions of sums, products and compositions of numbered modules, backward pass with one contribution per use, accumulation | derivative of the output by the input and the changing entry together (the output of a module is affine in one entry of a parameter), by induction on the expression; every `HighOrderMLP` is such an expression of modules of the heap (C57), and changing an entry in the heap changes the module in all its uses |
| C123 | `Model/StepNetwork.lean`: one step of plain gradient descent on the modules of a heap | a layer is affine in each single entry of its parameters, so by induction on the entries it is differentiable along every line of parameters, with the sum over the entries as derivative (`Lemmas/Lines.lean`); with the input this gives the derivative of an expression with all modules moving (lemmas of C122), and sorting the contributions by module gives minus the squared length |
| C124 | `transferNetwork` (Model/Network.lean) as before, with networks of different depth and different further modules | the list of modules of the less deep network is an initial part of the other (Lemmas/NetDepth.lean), the loop of C26 over the common part, a frame argument for the rest; the first pair of modules that do not correspond raises (Lemmas/NetMismatch.lean); counterexample and shifted pairing on concrete modules |
| C125 | Two states of a network of periodic continuous layers; SparseLion runs on its parameters | `Spec.Drift` describes how far two functions are apart on inputs that are apart; it composes (`C125_sequential`). A layer adds the constant of C90 (through the folded input) to that of C110 (`C125_layer`); the network follows with `C57_structure` by induction on the hidden layers. SparseLion by `C112_grid`. Discontinuous layers: explicit pair. |
| C126 | `HighOrderMLP`, convolutional, deconvolutional and tail focus networks with a periodicity | every layer that has a periodicity applies `make_periodic` before anything else (`IsLayer.forward_folded`, by the kinds of layers), so the first module of the network gives the same result; C57 for MLPs (with and without resnet), inversion of the constructor for convolutional networks (`convStages_head`), C55 for the blocks of tail focus networks; C17 for mirror images |
| C127 | `runStages` of `FCN.init` networks, `ConvLayer.forward`, `BatchNorm.eval/eval2`, `maxAbsNormalizationND`; spec `jump`, `reach`, `lead`, `Pixelwise` | Induction over the layers: the window function of layer t+1 is the convolution of the shifted window functions of layer t (`Sees.inner`); crops because without padding every pixel sees only the image (`sees_all`); max-abs refuted with two 1 x 2 images; any arithmetic |
| C128 | Model/LionNetwork (sparse_lion.py:61-92 applied to the parameters of the modules of a network), on top of the backward pass of C122; Spec/LionStep has the rate | The step is shown to be a move along a line of parameters with direction minus the sign of the average (`lionStep_along`, from `stepParam_eq` of C46); gradients have the shape of their parameters (`AllSound`); `loss_along` is the derivative of the loss along any line (from the joint derivative of C123). `C128_momentum` is a network where the first step lowers and a step with opposing momentum raises the loss. |
| C129 | positional_embeddings.py:14-32 (the model of C42) | From the closed form of C42: equal sines and cosines mean angles equal up to 2π (`sin_cos_eq_iff`); over all frequencies this leaves only zero, or the multiples of 20000π if the frequencies are powers of ten (`sinFreq_same`, using that 10000^(-1/m) is irrational unless m divides 4); integer positions by irrationality of π; the squared distance is a sum of 4 sin² of half angles, bounded with Jordan's inequality. |
| C130 | One step of gradient descent (`torch.optim.SGD` without momentum) on lists of modules: convolutions, batch normalization, pooling, flatten, dense layers, the normalizations of the library; the fully convolutional and deconvolutional networks (Model/StepStages.lean). | The outputs of convolutions, batch and layer normalization are sums of entries of their parameters times functions of the input, so the joint derivative in all entries is read off from the derivatives by single entries (Lemmas/StageLines.lean). Induction over the modules gives the derivative along every direction (C130_directions). A step is a move against the gradient (C130_step), and the stages of the constructed networks after the step are the stages of the network with the new parameters (C130_fully_convolutional, C130_fully_deconvolutional). |
| C131 | Fully connected layers and networks of them with units renumbered (Spec/Renumber.lean: what renumbering means for inputs, weights, biases; no code of the library). | Every layer is a sum or product over its inputs of functions of one input and the numbers of one link, so a bijection of the inputs only reorders it (`layer_follows`, Lemmas/Renumber.lean); the same for the slices over which the normalizations reduce. Induction over the expression of the network (C131_expression), and the expression of a constructed `HighOrderMLP` (C131_mlp). C131_mlp_weights builds the renumbered state from the distinct module ids; C131_hidden_units is the case of hidden units only; C131_layer_norm is the counterexample with a layer normalization. |
| C132 | The training loop of examples/function_example.py:112-125 with `torch.optim.SGD` (Model/Training.lean: forward, backward, step on the chosen modules), for networks and their renumbered versions (Spec/RenumberTraining.lean). The loss enters by its gradient at the outputs. | The backward pass of each layer commutes with renumbering (Lemmas/RenumberGradients.lean: sums over outputs and batch of products of factors; the factor of the other links of a product layer by a bijection of the other links); induction over the expression (C132_gradients), the accumulated gradients and the step (C132_step), induction over the batches (C132_training). C132_equal_units takes a state that is its own renumbering. C132_mlp for a constructed `HighOrderMLP` and its heap. The step of `SparseLion` is a step with the pull sign(β m + (1-β) g) where g ≠ 0, entry by entry, so it commutes as well (Props/RenumberLion.lean: C132_lion_step, C132_lion_training with the states of the optimizer, C132_lion_equal_units). Normalizations are excluded: the gradient of a maximum at a tie depends on which of the equal entries autograd picks, and that choice goes by position. Examples: the mean squared error; two hidden units that start equal. |
| C133 | The training loop of C132, for any expression of modules (Model/SharedBackward.lean, Model/Training.lean) including normalizations, shared and switch layers; levels of links in Spec/LinkLevels.lean. | The gradient of the level of a link is the sum over the batch of output gradient times link factor, from the partition of unity (C133_piecewise, C133_polynomial; C133_fourier for the constant function); the backward pass gives each leaf only such gradients (`backward_uses`, on the shapes `Takes` demands), so a step keeps the differences (C133_step) and so does training (C133_training, induction over the batches). C133_mlp for a constructed `HighOrderMLP` on its heap, normalization allowed. C133_determined combines the levels with C89 to recover the weights from the function; C133_two_runs. C133_product and C133_lion are the counterexamples (two links, one segment). Example: a layer with two links trained on any data for any number of steps keeps the difference -9. The theorems are about runs that succeed; success is C132_training and C123. |
| C134 | The training loop over lists of modules (Model/StageTraining.lean on Model/ConvBackward.lean, Model/NormBackward.lean, Model/StepStages.lean); links and levels of convolutions in Spec/TapLevels.lean (where a weight is stored, which variables sum to a constant). | `ConvLayer.picked`: a weight enters at most one product of an output, with the pixel its kernel position reads (`reach`, none for the padding). With the partition of unity the gradient of a level is the sum of the output gradients over the outputs for which the position reads a pixel (`tap_gradient`), which does not depend on the input channel, and without padding not on the position (C134_gradient). C134_step, C134_training by induction over the batches; C134_runs: the loop does not fail for convolutions, batch normalizations, pooling, flattening and fully connected layers. C134_fully_convolutional and C134_fully_deconvolutional for constructed networks. C134_same_function: the moves that change no output. C134_padding: the counterexample for different positions. Examples: two channels whose levels differ by 9 for ever. For lists with the normalizations of the library the theorems are about runs that succeed. |
| C135 | `GLayer.forward` of layers with weights in the opposite order or with other signs (Spec/Signs.lean), `GExpr.forward`, `HighOrderMLP` heaps | The Lagrange basis is symmetric because the nodes are (`basis_reflect`); the segment of `-x` is the mirrored one except at common ends, where continuous layers have one value for both (`piecewise_reflect`); `make_periodic` is odd (`makePeriodic_neg`). Sums over inputs, then induction on the expression of the network. Counterexamples: `C135_common_end` (discontinuous layers at a common end), `C135_relu`. |
| C136 | backward pass, SGD and SparseLion steps of networks with changed signs of units; piecewise layers and periodicity at the inputs | the functions of a basis at -x are those at x in the opposite order (Lagrange) or with signs (Fourier), hence also their derivatives (uniqueness of derivatives); how much an entry of a piecewise link counts is the link with one entry 1, so that C135 gives the gradients; induction over the network; changes of signs commute with sums, steps, and the update of `SparseLion` (odd in gradient and momentum together, and zero gradients stay zero); `C136_kink` shows why piecewise layers behind others are excluded; for `HighOrderMLP` the expression of the network (C122) is such a network and training of the heap is training of its parameters |
| C137 | backward pass and training on batches with samples in another order; SGD and SparseLion on batches with mirror images | layers treat samples separately and gradients of parameters are sums over samples (C116), so a permutation of the samples leaves them (sums over permutations), by induction over the network; for a symmetric network and batch the mirrored pass of C136 is the pass with permuted samples, so gradients equal their mirror images and so do steps; `C137_asymmetric` computes one step on data that are not symmetric; for `HighOrderMLP` as in C136 |
| C138 | training (SGD and SparseLion) of networks that are the same after renumbering units, on batches closed under the renumbering | the renumbered pass of C132 is for such networks and batches the pass with samples in another order (C137), so the gradients equal the renumbered gradients and the step keeps the symmetry; induction over the batches; for `HighOrderMLP` as in C132 |
| C139 | training (SGD and SparseLion) on copies of samples with weights adding up to 1 and padding of weight 0 | every layer treats rows separately (C116), so outputs of copies are copies, input gradients of copies are weighted copies, and parameter gradients, summed over the copies of each sample, are those of the samples; induction over the network and over the batches; a counterexample when weights do not add up to 1 |
| C140 | training (SGD and SparseLion) with the loss multiplied by a factor | backward passes are linear in the gradient of the outputs, so all accumulated gradients are multiplied by the factor; the factor cancels against the learning rate, or in the sign and the mask of SparseLion, whose momentum is multiplied by it; induction over the batches |
| C141 | training (SGD and SparseLion, with any state) on batches whose loss has derivative zero at the outputs | backward passes are linear (C140 with factor 0), so all gradients are zero; the mask of SparseLion then leaves every entry and its momentum alone; induction over the batches |

## 5. Disagreements between code and documentation

All of these are proved (the property is named); nothing in `/repo` was changed.

Layers and bases
* The interpolating product layer (`alpha`) with `alpha = 0` doubles the linear part instead of giving the sum (C32).
* `PolynomialProd` raises `AttributeError`, `Product(bias=False)` `TypeError` in every call (C32).
* `interpolate` of product layers raises `UnboundLocalError` (C20).
* Coarsening a continuous layer to one node is not sampling (C21).
* `refine_polynomial_layer` is wrong for layers with periodicity less than 2 (C23), and refinement of discontinuous layers always raises `ValueError` (C25).
* Smoothing of discontinuous layers with one node per segment fails with four or more segments (C28).
* Automatic differentiation of `max_center_normalization` at a line of two equal entries gives 0 when `torch.max` and `torch.min` return the same index, the derivative is ±1/(2 eps) (C121).
* Initialization skips product layers silently (C30, C31); smoothing skips layers inside switch layers (C71).
* `length` other than 2 makes the piecewise "continuous" layers discontinuous and changes their domain (C70); the convolution expansions treat it inconsistently (C51).
* `LagrangeBasisND` has the sign (−1)^Σ(n_d−1) wrong, and an integer `n` is a `TypeError` (C62).
* `PiecewiseND` gives identical outputs for all output features, uses the first block of weights only, and fails in one dimension (C63).
* `ClassicSinusoidalEmbedding` of dimension 2 is a `ZeroDivisionError`; `FourierSeriesEmbedding.forward` returns `None`; `FourierSeries` ignores `weight_magnitude` and `periodicity` (C42, C43).
* `positions_from_mesh` never varies y, has another range than its docstring, and raises `ZeroDivisionError` for a single point (C41).

Convolutions
* Pixels of the padding contribute 0, not f(0); the 1d rescaling and the 1d initial weights divide by the square of the kernel size (C52, C53).
* `fourier1d` and the table entries `None` are a `TypeError`; the digit in `polynomial_2d` to `polynomial_5d` is ignored (C60).
* The checks of list lengths never raise (`is False` against an integer comparison): missing entries are an `IndexError`, further ones are ignored; the default pooling is wrong for 1d layers (C56).
* `groups` above 1: the 2d polynomial convolutions raise, in the others the groups split the expanded channels, so that the coefficients of one input channel can go to different output channels; the rescaling divides by all input channels (C96). With padding modes other than `zeros` the 1d and 2d layers extend the image before the expansion is convolved, the transposed one raises (C97).
* `HighOrderTailFocusNetwork`: without normalization only the first tail is used; `compute_sizes` ignores padding and raises for `stride=None` (C55).

Networks
* Layers inside switch and sum layers are not registered, so they are not trained (C34).
* The resnet variant adds the output of the previous module instead of the input of the block, and the layers after the first are not registered/refined (C34, C35, C26).
* Checkpoints do not hold the weights of switch layers, nor those of the hidden layers of a resnet after the first; loading them reports no error (C117).
* `interpolate` and `refine` accept layers of other widths and classes: larger targets keep weights in between, smaller ones are left half changed by an `IndexError`, and a continuous layer is written into a discontinuous one in the wrong layout without an error (C118).
* `HighOrderMLPList` builds only its first layer (C58), `HighOrderMultiMLP` cannot be constructed (C59).
* `scale`, `rescale_output`, `initialization` have no effect in `HighOrderMLP`, switch layers ignore `periodicity` (C61).
* Network refinement does nothing, silently, for layer types without the methods (C26).
* Network refinement stops silently at the shorter list of modules: a deeper target computes the source followed by its own old layers, a less deep one the source without its last layers; a nonlinearity in one of the networks only shifts the pairs or raises `AttributeError` halfway (C124).
* Results of `transform_mlp` cannot be refined or smoothed: no attribute `model` (C77).
* `periodicity` has no effect for linear, Fourier, switch and n-dimensional layers, and a tail focus network returns the tail of its input without folding it (C126).
* Max-abs normalization between convolutions makes every output depend on the whole image, so such networks are neither local nor translation invariant (C127).
* Inputs of the wrong width are not always rejected: piecewise layers mix the samples of a batch of `in_features` samples of width 1 (C102).

Example programs
* The MNIST example builds its output layer for kernel sizes 3, 4 (and 5) only; with other sizes it is built and fails on every batch; `standard` with `double` is an `AttributeError` (C99).
* The CIFAR10 example mixes images when their size is not 32 to 35, silently if the entries fit; an unknown layer type is noticed only by `forward` (C100).
* The block MNIST example cannot represent interactions between pixels (C101).
* With `p_refine` the invariant MNIST example tests a network of order `target_n` that was never trained; for the layer type of its config file the weights are random (C104).
* The XOR example: `polynomial_2d` never constructs, and the first polynomial of its table (`n = 2`) cannot do better than answering zero (C105).
* The function example ignores its configured optimizer (always `sophia`), and six of its fourteen networks cannot follow the function whatever the training (C111).
* The variational autoencoder example shows its samples with the constants of another data set, and in training mode (also when it draws samples for display) the batch statistics fix the mean of every channel (C109).
* The image examples accept training fractions above 1 and below 0, and the validation images of a run with few data are training images of a run with more (C114).
* The CIFAR100 example cannot process its images, whatever the configuration of the network (C115).

Optimizer, attention, autoencoder
* The weight decay of `SparseLion` has no effect (C47); it differs from Lion on zero gradients (C48).
* A step of `SparseLion` whose momentum opposes the gradient raises the loss however small the learning rate; parameters with zero gradient never move, whatever their momentum (C128).
* `ClassicSinusoidalEmbedding` of dimension 4, 6 or 10 gives positions 20000π apart the same vector (C129).
* `MultiHeadAttention`: for batch and head number ≥ 2 the masks of other batch elements are used (C65); masked keys of the relative attention keep positive weight (C66); `MultiHeadLocationAwareAttention` mixes heads, `CustomizingAttention` always raises (C67).
* The value `KLD` returned by the VAE loss is the negative divergence; encoders without pooling do not fit the latent layers (C68, C75).
* With batch normalization after the last layer the mean output of a pooled network over a training batch is a constant, and single samples are all mapped to the same output (C108).

Configured networks
* `select_network`: hidden order is `n_in`; `n_hidden` and `periodicity` are not used for `high_order`; `high_order_input` reads `cfg.output.width`; the error message of unknown types itself raises `AttributeError` (C78).
* The shipped configurations `sophia` and `adahessian` are rejected; networks of switch layers cannot get an optimizer (C79).
* The convolutional networks hand the number of channels to `LazyBatchNorm1d` as `eps`, and cannot work with 2d layers (C80).
* `LazyLayerNormLastDim` has no parameters before its first call, so an optimizer made before never trains them (C81).
* Rows with target -100 do not count in the loss of a `ClassificationNet`, but the logged accuracy counts them as wrong; `data.classes` is not compared with the width of the network (C82).
* Training a continuous layer in one segment changes its values in the neighbouring segments, which share a weight (C83).

## 6. Reading the mutation log

Each line of `seeded/LOG.jsonl` is one wrong program: `theorems_failed` are the theorems whose proofs broke, `property_theorems_lost` the property theorems that
depend on a broken one (the broken proofs are replaced by `sorry` and the dependencies traced). A broken proof is evidence and not a proof that the theorem is false of the wrong
program; `tightened` names theorems changed because they still held. Two lines of the seventh round were first recorded with an empty `property_theorems_lost`, because the tracing missed a
lemma declared with `_root_`; they were run again and say so in their `note`.
