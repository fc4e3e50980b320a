{"id": "C01", "title": "Chebyshev-Lobatto nodes are well placed", "statement": "chebyshevLobatto(n) returns n strictly increasing points in [-1,1], symmetric about 0, whose first is -1 and last is +1 when n>=2, and the single point 0 when n==1.", "quantifier": "every n >= 1", "why_tests_cant": "A test samples a few n; that the nodes are distinct for every n is what keeps the denominators of the basis nonzero, and one coincidence would divide by zero.", "anchors": ["high_order_layers_torch/LagrangePolynomial.py:chebyshevLobatto"]}
{"id": "C02", "title": "Lagrange basis is cardinal", "statement": "For the basis returned by get_lagrange_basis(n, length) the j-th function is 1 at node j and 0 at every other node.", "quantifier": "every n >= 1, every nonzero length, every pair of node indices", "why_tests_cant": "Tests check a few n and nodes; the claim is about every order and every pair of indices, and a wrong factor may cancel for small n.", "anchors": ["high_order_layers_torch/LagrangePolynomial.py:get_lagrange_basis", "high_order_layers_torch/LagrangePolynomial.py:LagrangeBasis", "high_order_layers_torch/LagrangePolynomial.py:LagrangeBasis1"]}
{"id": "C03", "title": "Lagrange basis sums to one", "statement": "At every real x (also far outside the node range) the n basis values returned by the basis sum to 1.", "quantifier": "every n >= 1, nonzero length, every real x", "why_tests_cant": "x ranges over a continuum, including points outside the nodes where tests do not look.", "anchors": ["high_order_layers_torch/LagrangePolynomial.py:LagrangeBasis.__call__", "high_order_layers_torch/LagrangePolynomial.py:LagrangeExpand"]}
{"id": "C04", "title": "Interpolation reproduces polynomials", "statement": "If the weights of a link are the values of a polynomial of degree < n at the nodes then interpolate returns the value of this polynomial at every x; for any weights the interpolant is the unique polynomial of degree < n through the (node, weight) pairs.", "quantifier": "every n, every polynomial of degree < n, every x", "why_tests_cant": "Polynomials and evaluation points form infinite sets, and uniqueness cannot be observed by evaluating examples at all.", "anchors": ["high_order_layers_torch/LagrangePolynomial.py:LagrangePoly", "high_order_layers_torch/Basis.py:Basis.interpolate", "high_order_layers_torch/Basis.py:BasisFlat.interpolate"]}
{"id": "C05", "title": "Basis scales with length", "statement": "The basis built with length L evaluated at (L/2)*x equals the basis built with length 2 evaluated at x.", "quantifier": "every n, every nonzero L, every j and x", "why_tests_cant": "The lengths and points form a continuum; tests use the default length.", "anchors": ["high_order_layers_torch/LagrangePolynomial.py:LagrangeBasis.__init__"]}
{"id": "C06", "title": "Polynomial layer is a sum of link polynomials", "statement": "Polynomial(n,in,out) maps a batch x to out[b,l] = sum over inputs k of P_{l,k}(x[b,k]) where P_{l,k} is the polynomial of degree < n through the weights of link (l,k) at the nodes.", "quantifier": "every n, widths, batch, weights, inputs", "why_tests_cant": "The claim covers every shape, weight tensor and input; a transposed contraction is invisible when widths are equal or weights symmetric.", "anchors": ["high_order_layers_torch/PolynomialLayers.py:Polynomial", "high_order_layers_torch/PolynomialLayers.py:Function.forward", "high_order_layers_torch/Basis.py:BasisFlat.interpolate"]}
{"id": "C07", "title": "Segment lookup is total and correct", "statement": "which_segment(x) is always in [0, segments-1]; for x in [-1,1) it is the unique segment whose half open interval contains x, x=1 is in the last one, and values left/right of [-1,1] are sent to the first/last segment.", "quantifier": "every segments >= 1 and every real x, length = 2", "why_tests_cant": "Errors sit at segment boundaries and outside the range, sets that random inputs almost never hit.", "anchors": ["high_order_layers_torch/PolynomialLayers.py:Piecewise.which_segment", "high_order_layers_torch/PolynomialLayers.py:PiecewiseDiscontinuous.which_segment"]}
{"id": "C08", "title": "Forward never indexes outside the weight tensor", "statement": "In the forward pass of piecewise layers every gathered weight index is inside the weight tensor, for every input value, in any arithmetic (also float32 with rounding, infinities or NaN converted to an arbitrary integer).", "quantifier": "every n >= 1, segments >= 1, widths, batch, every input, every scalar arithmetic", "why_tests_cant": "Inputs that overflow, are NaN or lie at a boundary after rounding cannot be enumerated; one bad index crashes or, negative, silently reads another weight.", "anchors": ["high_order_layers_torch/PolynomialLayers.py:Piecewise.forward", "high_order_layers_torch/PolynomialLayers.py:PiecewiseDiscontinuous.forward"]}
{"id": "C09", "title": "Continuous layer computes the piecewise polynomial", "statement": "PiecewisePolynomial(x)[b,l] = sum over k of the piecewise polynomial of link (l,k) at x[b,k]: on the segment containing x it is the degree < n polynomial through weights seg*(n-1)..seg*(n-1)+n-1 placed at the Chebyshev nodes of the segment.", "quantifier": "every n, segments, widths, batch size, weights, inputs", "why_tests_cant": "The flattened gather, view and permute arithmetic must be right for every batch size, width, order and number of segments together; tests use few shapes.", "anchors": ["high_order_layers_torch/PolynomialLayers.py:Piecewise.forward", "high_order_layers_torch/PolynomialLayers.py:PiecewisePolynomial"]}
{"id": "C10", "title": "Weights are function values", "statement": "A link of a continuous piecewise layer evaluated at the global position of any of its nodes (including shared segment boundaries) returns exactly the corresponding weight.", "quantifier": "every n >= 2, segments, node, weights", "why_tests_cant": "Tests check few layers; boundary nodes are shared by two segments and the lookup decides which of them is used.", "anchors": ["high_order_layers_torch/PolynomialLayers.py:Piecewise.forward", "high_order_layers_torch/PolynomialLayers.py:Piecewise.x_global", "README.md"]}
{"id": "C11", "title": "Continuous layer is continuous", "statement": "Every output of a PiecewisePolynomial layer is a continuous function of its inputs on all of R^in.", "quantifier": "every n >= 1, segments >= 1, weights, widths", "why_tests_cant": "Continuity quantifies over all points and all weights; sampling cannot exclude a jump.", "anchors": ["high_order_layers_torch/PolynomialLayers.py:PiecewisePolynomial", "README.md"]}
{"id": "C12", "title": "Out of range inputs use the end polynomials", "statement": "For x < -1 (x > 1) a link of a piecewise layer equals the polynomial of the first (last) segment extended to x.", "quantifier": "every x outside [-1,1], all shapes and weights", "why_tests_cant": "The inputs are unbounded and weights arbitrary.", "anchors": ["high_order_layers_torch/PolynomialLayers.py:Piecewise.forward", "README.md"]}
{"id": "C13", "title": "Only the active weights matter", "statement": "The output of a piecewise layer at a batch depends, for each link, only on the n weights of the segments that contain the batch inputs: changing any other weight leaves the output unchanged, in any arithmetic.", "quantifier": "all shapes, inputs, pairs of weight tensors, arithmetics", "why_tests_cant": "It compares all pairs of weight tensors that agree on the active entries, in any arithmetic.", "anchors": ["high_order_layers_torch/PolynomialLayers.py:Piecewise.forward", "high_order_layers_torch/PolynomialLayers.py:PiecewiseDiscontinuous.forward", "README.md"]}
{"id": "C14", "title": "Samples of a batch do not interact", "statement": "Row b of the output of a piecewise, polynomial or product layer depends only on row b of the input, and equals the output for the single-row batch.", "quantifier": "all batch sizes and contents", "why_tests_cant": "An interaction of rows depends on batch size and content; tests compare few batches.", "anchors": ["high_order_layers_torch/PolynomialLayers.py:Piecewise.forward", "high_order_layers_torch/PolynomialLayers.py:Function.forward", "high_order_layers_torch/ProductLayer.py:Product.forward"]}
{"id": "C15", "title": "Sum layers are linear in their weights", "statement": "For fixed input the output of Polynomial, PiecewisePolynomial and PiecewiseDiscontinuousPolynomial is linear in the weight tensor.", "quantifier": "all inputs, weights, scalars", "why_tests_cant": "Linearity is a statement about all pairs of weights, all scalars and inputs.", "anchors": ["high_order_layers_torch/Basis.py:Basis.interpolate", "high_order_layers_torch/Basis.py:BasisFlat.interpolate"]}
{"id": "C16", "title": "Discontinuous layer computes independent pieces", "statement": "PiecewiseDiscontinuousPolynomial(x)[b,l] = sum over k of the polynomial through the n weights owned by the active segment; each segment owns n weights shared with no other segment.", "quantifier": "all shapes, weights, inputs", "why_tests_cant": "That no weight is shared or unused holds for all shapes or not at all; tests look at few.", "anchors": ["high_order_layers_torch/PolynomialLayers.py:PiecewiseDiscontinuous.forward"]}
{"id": "C17", "title": "Mirror periodicity", "statement": "make_periodic(x,p) lies in [-p/2,p/2], is the identity there, has period 2p, is mirror symmetric about p/2 + k p for every integer k, and is continuous.", "quantifier": "every x, every p > 0, every integer k", "why_tests_cant": "x, the period and the number of reflections are unbounded, and the interesting points (the mirrors) have measure zero.", "anchors": ["high_order_layers_torch/utils.py:make_periodic"]}
{"id": "C18", "title": "Layers with periodicity are mirror periodic", "statement": "A layer constructed with periodicity p satisfies layer(x + 2p) = layer(x) and layer(p - x) = layer(x) and agrees with the layer without periodicity on [-p/2,p/2].", "quantifier": "every layer, p > 0, x", "why_tests_cant": "x and p range over a continuum; tests use one period and few points.", "anchors": ["high_order_layers_torch/PolynomialLayers.py:Piecewise.forward", "high_order_layers_torch/PolynomialLayers.py:Function.forward"]}
{"id": "C19", "title": "Constant-random initialization gives a constant layer", "statement": "After the default initialization every link is a constant function, so the output does not depend on x and lies in [0, weight_magnitude).", "quantifier": "all random draws, shapes and inputs", "why_tests_cant": "The initialization is random: a test sees one draw and a few inputs.", "anchors": ["high_order_layers_torch/PolynomialLayers.py:constant_random_initialization", "README.md"]}
{"id": "C20", "title": "p refinement of a layer is exact", "statement": "After layer_in.interpolate(layer_out) with the same number of segments and n_in <= n_out both layers compute the same function for every input (continuous and discontinuous). For the product classes the call raises UnboundLocalError and changes nothing.", "quantifier": "all n_in <= n_out, segments, widths, weights (old and new), inputs", "why_tests_cant": "Exactness is a statement about all weights, orders and inputs; tests compare at sampled points with a tolerance.", "anchors": ["high_order_layers_torch/PolynomialLayers.py:interpolate_polynomial_layer"]}
{"id": "C21", "title": "p coarsening samples the function", "statement": "For any n_out >= 2 (any n_out >= 1 for discontinuous layers) the interpolated layer agrees with layer_in at every node of layer_out. For n_out = 1 this fails for continuous layers, because all segments write the same single weight.", "quantifier": "all n_in, n_out, segments, weights, nodes", "why_tests_cant": "All orders, segment counts and nodes; the failing case (order one) is not tried in tests.", "anchors": ["high_order_layers_torch/PolynomialLayers.py:interpolate_polynomial_layer"]}
{"id": "C22", "title": "Segment mismatch is rejected without damage", "statement": "interpolate between layers with different segments raises ValueError and leaves the weights of layer_out unchanged.", "quantifier": "all layers", "why_tests_cant": "Whether a rejected call leaves the target intact needs every pair of layers and weights.", "anchors": ["high_order_layers_torch/PolynomialLayers.py:interpolate_polynomial_layer"]}
{"id": "C23", "title": "h refinement of a layer is exact", "statement": "After layer_in.refine(layer_out) for a continuous layer with segments_out a multiple of segments_in and n_out >= n_in, default length, and no periodicity or one of at least 2, both layers compute the same function. With a periodicity below 2 the refined layer can compute a different function.", "quantifier": "all n, segments, multiples, weights, inputs", "why_tests_cant": "Exactness concerns all inputs and all multiples; that a small periodicity breaks it shows only for particular weights.", "anchors": ["high_order_layers_torch/PolynomialLayers.py:refine_polynomial_layer"]}
{"id": "C24", "title": "Any h refinement samples the function", "statement": "For arbitrary segment counts and n_out >= 2 (default length, no periodicity) the refined layer agrees with layer_in at every node of layer_out.", "quantifier": "all shapes and weights", "why_tests_cant": "All pairs of segment counts, including ones that do not divide each other.", "anchors": ["high_order_layers_torch/PolynomialLayers.py:refine_polynomial_layer"]}
{"id": "C25", "title": "Discontinuous refinement refuses", "statement": "refine on a discontinuous layer raises ValueError and leaves the target weights unchanged whenever there is at least one link and one output segment.", "quantifier": "all layers", "why_tests_cant": "Needs all layers; tests of refusals try one.", "anchors": ["high_order_layers_torch/PolynomialLayers.py:refine_discontinuous_polynomial_layer"]}
{"id": "C26", "title": "Network p refinement preserves the function", "statement": "interpolate_high_order_mlp(a,b), where the HighOrderMLP b has the architecture of a (layer types continuous, discontinuous, switch_continuous, switch_discontinuous, possibly another of them for the input layer), the same numbers of segments and nowhere a smaller order, succeeds; afterwards b computes exactly the function of a, and a is unchanged. Any training may have happened before. With resnet=True this needs at most one hidden layer: the others are never reached.", "quantifier": "all depths, widths, orders, segments, weights, inputs, normalization/nonlinearity/dropout functions that keep shapes", "why_tests_cant": "Depths, widths, orders, weights and inputs vary together, and the network may have been trained in between; tests build one or two networks.", "anchors": ["high_order_layers_torch/networks.py:interpolate_high_order_mlp", "high_order_layers_torch/layers.py:SwitchLayer.interpolate"]}
{"id": "C27", "title": "Network hp refinement preserves the function", "statement": "hp_refine_high_order_mlp(a,b), where b has the architecture of a (layer types continuous, continuous_prod, switch_continuous, possibly another of them for the input layer), every number of segments a multiple and nowhere a smaller order, succeeds; afterwards b computes exactly the function of a, and a is unchanged. A periodicity must be at least 2, and with resnet=True there must be at most one hidden layer.", "quantifier": "all depths, widths, orders, segments, weights, inputs", "why_tests_cant": "Depths, widths, orders, segment counts, weights and inputs vary together; tests build one or two networks.", "anchors": ["high_order_layers_torch/networks.py:hp_refine_high_order_mlp", "high_order_layers_torch/layers.py:SwitchLayer.refine"]}
{"id": "C28", "title": "Smoothing shrinks exactly the jumps", "statement": "smooth_discontinuous_layer(layer,f) multiplies the jump at each interior boundary by 1-f, keeps the mean of the two sides and leaves all other weights unchanged; f=1 makes the layer continuous. This needs n >= 2: with one node per segment (and at least 4 segments) the call raises RuntimeError.", "quantifier": "all n >= 2, segments, weights, factors", "why_tests_cant": "All weights and factors; a test checks one layer, and leaves open which entries stay unchanged.", "anchors": ["high_order_layers_torch/PolynomialLayers.py:smooth_discontinuous_layer"]}
{"id": "C29", "title": "Repeated smoothing converges to a continuous layer", "statement": "Applying the smoothing k times multiplies every jump by (1-f)^k, hence for 0 < f < 2 the jumps tend to 0.", "quantifier": "all histories of k calls", "why_tests_cant": "The number of calls is unbounded and the claim is about a limit.", "anchors": ["high_order_layers_torch/PolynomialLayers.py:smooth_discontinuous_layer"]}
{"id": "C30", "title": "Linear initialization is a line", "statement": "After initialize_polynomial_layer with n >= 2 every link computes a*x+b at every real x with |a| <= max_slope, |b| <= max_offset, on all segments and beyond.", "quantifier": "all draws, shapes, x", "why_tests_cant": "The draws are random and x unbounded; a test sees one line at few points.", "anchors": ["high_order_layers_torch/PolynomialLayers.py:initialize_polynomial_layer"]}
{"id": "C31", "title": "Network initialization", "statement": "initialize_network_polynomial_layers(network,max_slope,max_offset,scale_slope) succeeds, replaces every continuous, discontinuous or discontinuous product layer that is registered in the network or in the list of a registered switch layer by a linear one with slopes at most max_slope*scale_slope(in_features) and offsets at most max_offset, and changes no other parameter of the program (in particular not continuous product layers). Hence a HighOrderMLP of continuous or discontinuous layers without periodicity, normalization, nonlinearity, dropout and sums becomes an affine function of its input.", "quantifier": "all networks with n >= 2 and default length, all draws, all inputs", "why_tests_cant": "All networks, draws and inputs; what must not change is everything else in the program.", "anchors": ["high_order_layers_torch/networks.py:initialize_network_polynomial_layers", "high_order_layers_torch/layers.py:SwitchLayer.initialize"]}
{"id": "C32", "title": "Product units", "statement": "With f_i the link functions and P=-1+prod(1+f_i): the Product layer (f_i = w_i x_i) returns P + (alpha-1) sum f_i + bias, so alpha=1 keeps the linear part and alpha=0 removes it (bias=False raises TypeError in forward); the piecewise product layers return P, linear part included once; the interpolation classes LagrangePolyProd/LagrangePolyFlatProd return P + (1-alpha) sum f_i, so alpha=1 is the pure product and alpha=0 counts the linear part twice (the reverse of the natural reading of alpha); layer_type polynomial_prod cannot be constructed (AttributeError).", "quantifier": "all inputs, alpha", "why_tests_cant": "The role of alpha and of the linear part shows only when formulas are compared for all inputs; tests check shapes.", "anchors": ["high_order_layers_torch/Basis.py:BasisProd.interpolate", "high_order_layers_torch/Basis.py:BasisFlatProd.interpolate", "high_order_layers_torch/ProductLayer.py:Product.forward", "README.md"]}
{"id": "C33", "title": "Switch layer multiplies its layers", "statement": "SwitchLayer(x) is the elementwise product of the outputs of its sublayers (of equal shape), then normalized if there is a normalization; with no sublayers it raises IndexError. The constructor builds num_input_layers sublayers of the given type with the given arguments but with periodicity None; an unknown type raises ValueError.", "quantifier": "all numbers of sublayers, inputs, types", "why_tests_cant": "Any number of sublayers and any inputs; tests check shapes.", "anchors": ["high_order_layers_torch/layers.py:SwitchLayer.forward"]}
{"id": "C34", "title": "All weights that matter are trainable", "statement": "In a HighOrderMLP without switch layers, and without resnet or with at most one hidden layer, every module with weights that the forward pass reads is in parameters(), also after training. Otherwise not: an all switch network has no parameters at all, and with resnet=True no weight of the hidden layers after the first is in parameters(), although every call uses them (SwitchLayer and SumLayer keep their layers in plain lists).", "quantifier": "all layer types and depths, resnet flag", "why_tests_cant": "A weight that is used but not registered trains silently not at all: the loss still falls, so tests pass.", "anchors": ["high_order_layers_torch/layers.py:SwitchLayer.__init__", "high_order_layers_torch/layers.py:SumLayer.__init__", "high_order_layers_torch/networks.py:HighOrderMLP.__init__"]}
{"id": "C35", "title": "What resnet adds", "statement": "With resnet=True hidden entry i>0 outputs hidden_i(y)+g(y), where g is the module before it in the list (last of normalization, nonlinearity, dropout, else the previous hidden entry) applied again. If g is idempotent (ReLU, dropout in eval mode) this is hidden_i(y)+y, a residual network; without modules in between entry i is hidden_0(y)+...+hidden_i(y), which is not the residual network: a concrete network gives 1/2 where the residual one gives -1/2.", "quantifier": "all depths, layers, inputs", "why_tests_cant": "A network that adds the wrong term still trains; only a comparison of the functions for all inputs shows which term is added.", "anchors": ["high_order_layers_torch/networks.py:HighOrderMLP.__init__", "high_order_layers_torch/layers.py:SumLayer.forward"]}
{"id": "C36", "title": "max_abs normalization", "statement": "max_abs_normalization maps every sample into (-1,1) for eps>0, keeps signs and order, its largest magnitude is m/(m+eps), and positive rescaling of a sample does not change the result when eps=0.", "quantifier": "all tensors, eps >= 0", "why_tests_cant": "Values range over a continuum of tensors; bounds at extreme scales are not reached by random inputs.", "anchors": ["high_order_layers_torch/utils.py:max_abs_normalization", "high_order_layers_torch/layers.py:MaxAbsNormalization"]}
{"id": "C37", "title": "max_center normalization", "statement": "max_center_normalization maps every sample into (-1,1) for eps>0, sends max and min to opposite values, is invariant under adding a constant to the sample and preserves order.", "quantifier": "all tensors", "why_tests_cant": "Values range over a continuum of tensors; invariance is a statement about all shifts.", "anchors": ["high_order_layers_torch/utils.py:max_center_normalization"]}
{"id": "C38", "title": "l2 normalization", "statement": "l2_normalization gives each sample a Euclidean norm below 1 (equal to r/(r+eps)) and keeps its direction.", "quantifier": "all tensors", "why_tests_cant": "Values range over a continuum of tensors; tests see a few random ones.", "anchors": ["high_order_layers_torch/utils.py:l2_normalization"]}
{"id": "C39", "title": "ND and last variants normalize the documented axes", "statement": "The nd variants normalize each sample as one flat vector and keep the shape; the last variants normalize every last-axis slice independently of the others.", "quantifier": "all shapes", "why_tests_cant": "Reducing the wrong axis keeps all shapes right, so it must be excluded for all shapes and values.", "anchors": ["high_order_layers_torch/utils.py:max_abs_normalization_nd", "high_order_layers_torch/utils.py:max_center_normalization_nd", "high_order_layers_torch/utils.py:max_abs_normalization_last", "high_order_layers_torch/utils.py:max_center_normalization_last"]}
{"id": "C40", "title": "Fixed rotation layer", "statement": "fixed_rotation_layer(n,rotations) returns n + n(n-1)(rotations-1) rows, each of L1 norm 1 if normalize (so it maps [-1,1]^n into [-1,1]) and of L2 norm 1 otherwise, contains every coordinate axis, the two rows of a rotation are orthogonal, and rotations < 1 raises ValueError.", "quantifier": "all n, rotations", "why_tests_cant": "All numbers of inputs and rotations; tests check the number of rows for one or two.", "anchors": ["high_order_layers_torch/layers.py:fixed_rotation_layer"]}
{"id": "C41", "title": "Mesh positions", "statement": "For width>=2 and height>=1 positions_from_mesh returns 2*rotations meshes of shape [width,height]; meshes 2i and 2i+1 are the centred coordinates along (cos,+-sin) of angle (pi/2) i/rotations, scaled so that each attains exactly [-max/2,max/2] ([-1,1] when normalized). Contrary to the docstring the first two meshes are the same x axis: the y axis is never among them. A single point mesh raises ZeroDivisionError, an empty one RuntimeError.", "quantifier": "all sizes and rotations", "why_tests_cant": "All sizes and rotations; tests of shapes do not see that one axis is missing.", "anchors": ["high_order_layers_torch/utils.py:positions_from_mesh"]}
{"id": "C42", "title": "Sinusoidal embedding", "statement": "ClassicSinusoidalEmbedding(dim) rejects odd dim in the constructor, raises ZeroDivisionError in forward for dim=2, and otherwise maps x to dim values in [-1,1], made of sin/cos pairs at distinct frequencies; the embedding of x+d is a rotation of the embedding of x that depends only on d, so that inner products of embeddings depend only on the difference. The Fourier embedding returns None; the piecewise embeddings are the corresponding layers.", "quantifier": "all even dims, x, d", "why_tests_cant": "All dimensions and a continuum of positions; the rotation property relates infinitely many pairs.", "anchors": ["high_order_layers_torch/positional_embeddings.py:ClassicSinusoidalEmbedding"]}
{"id": "C43", "title": "Fourier layers are periodic", "statement": "FourierSeries(n, length) is periodic in each input with period length, its first component is the constant 1/2.", "quantifier": "all n, length, weights, inputs", "why_tests_cant": "Periodicity is a statement about a continuum of inputs and all weights.", "anchors": ["high_order_layers_torch/LagrangePolynomial.py:FourierBasis", "high_order_layers_torch/PolynomialLayers.py:FourierSeries"]}
{"id": "C44", "title": "Fourier basis is orthogonal", "statement": "Distinct Fourier basis functions have zero inner product over one period.", "quantifier": "all pairs i != j, all length > 0", "why_tests_cant": "An infinite family of integrals.", "anchors": ["high_order_layers_torch/LagrangePolynomial.py:FourierBasis.__call__"]}
{"id": "C45", "title": "SparseLion leaves inactive entries alone", "statement": "step changes neither the parameter nor the momentum of an entry whose gradient is exactly zero; over any history an entry that never received a gradient keeps its initial value.", "quantifier": "all parameters, gradients, histories, arithmetics", "why_tests_cant": "Histories of training are unbounded, and exact equality must hold with rounding.", "anchors": ["high_order_layers_torch/sparse_optimizers/sparse_lion.py:update_fn", "high_order_layers_torch/sparse_optimizers/sparse_lion.py:SparseLion.step"]}
{"id": "C46", "title": "SparseLion step size", "statement": "Each step moves an entry by exactly lr or 0, so after k steps it has moved by at most k*lr; the momentum stays within the largest gradient seen. The constructor rejects lr<=0 and betas outside [0,1].", "quantifier": "all histories", "why_tests_cant": "Histories of training are unbounded; a bound over k steps cannot be sampled.", "anchors": ["high_order_layers_torch/sparse_optimizers/sparse_lion.py:update_fn"]}
{"id": "C47", "title": "SparseLion ignores weight decay", "statement": "The weight_decay option has no effect on any training history: the decay multiplies a copy. So with weight_decay different from 0 a step differs from the Lion algorithm, which first multiplies the entry by 1-lr*wd.", "quantifier": "all states, wd", "why_tests_cant": "That an option has no effect on any history cannot be shown by running some.", "anchors": ["high_order_layers_torch/sparse_optimizers/sparse_lion.py:update_fn"]}
{"id": "C48", "title": "SparseLion agrees with Lion on dense gradients", "statement": "When no gradient entry is zero and weight_decay is 0 a step equals the step of the dense Lion algorithm, over whole histories; with a zero gradient entry and nonzero momentum the two differ.", "quantifier": "all histories", "why_tests_cant": "Agreement over all histories with nonzero gradients; tests compare few steps.", "anchors": ["high_order_layers_torch/sparse_optimizers/sparse_lion.py:update_fn"]}
{"id": "C49", "title": "Expansion layout", "statement": "Expansion1d/2d return, for channel c and basis function j, channel c*basis_size+j holding basis_j of input channel c at the same pixel; for LagrangeExpand and FourierExpand these are the cardinal polynomials and the trigonometric functions. Tensors with another number of axes are rejected. Constructing an expansion without a basis raises.", "quantifier": "all shapes, bases, arithmetics", "why_tests_cant": "A wrong order of channels keeps all shapes right; it must be excluded for all shapes and bases.", "anchors": ["high_order_layers_torch/FunctionalConvolution.py:Expansion1d", "high_order_layers_torch/FunctionalConvolution.py:Expansion2d"]}
{"id": "C50", "title": "Piecewise expansion agrees with the fully connected layers", "statement": "The dense expansion used by the convolutions has at most n nonzero entries per value, summing to 1 (for every length other than 0); and with length=2 contracting it with a link weight vector gives the piecewise polynomial with these weights, the same contribution as that link of the fully connected layer.", "quantifier": "all shapes, inputs, weights", "why_tests_cant": "Two implementations must agree for all inputs, weights and shapes, including boundaries of segments.", "anchors": ["high_order_layers_torch/Basis.py:PiecewiseExpand", "high_order_layers_torch/Basis.py:PiecewiseExpand1d", "high_order_layers_torch/Basis.py:PiecewiseDiscontinuousExpand", "high_order_layers_torch/Basis.py:PiecewiseDiscontinuousExpand1d"]}
{"id": "C51", "title": "One segment is a plain polynomial", "statement": "With segments=1 and length=2 the continuous and discontinuous piecewise expansions equal LagrangeExpand, and PiecewisePolynomial/PiecewiseDiscontinuousPolynomial layers equal the Polynomial layer with the same weights. For another length the expansions differ (length=1: 3/4 instead of 1).", "quantifier": "all n, x, weights", "why_tests_cant": "Agreement of three implementations on a continuum of inputs and weights.", "anchors": ["high_order_layers_torch/Basis.py:PiecewiseExpand", "high_order_layers_torch/LagrangePolynomial.py:LagrangeExpand"]}
{"id": "C52", "title": "Initialization of convolutions", "statement": "After construction a 2d polynomial or piecewise polynomial convolution outputs, at every pixel whose receptive field lies inside the image (every pixel without padding), a value that depends on the output channel only: weight_magnitude times the mean of the draws over input channels and kernel offsets (rescaled), because all basis weights of a link are equal and sit in the layout used by the expansion. The other convolutions (1d, fourier2d, transposed) start with independent weights (2r-1)*m, r the draw in [0,1), m = weight_magnitude/(channels*kernel^2) also in 1d: every weight lies in [-m,m] and opposite draws give opposite weights. conv_wrapper and conv_transpose_wrapper themselves use m = weight_magnitude/in_features for rescale_output False (ZeroDivisionError without inputs), m = weight_magnitude for True, and keep the weights of PyTorch otherwise; the layer classes never pass rescale_output to them.", "quantifier": "all draws, shapes, strides, dilations, inputs; length=2 for piecewise classes", "why_tests_cant": "The weights are random: a test sees one draw and one input, not that the output is constant for all inputs or that the bound holds for every draw.", "anchors": ["high_order_layers_torch/FunctionalConvolution.py:constant_random_initialization_conv2d", "high_order_layers_torch/FunctionalConvolution.py:conv_wrapper", "high_order_layers_torch/FunctionalConvolutionTranspose.py:conv_transpose_wrapper"]}
{"id": "C53", "title": "Convolution is the sum of link functions over the receptive field", "statement": "A high order convolution constructs, and for all weights each output pixel is the sum over input channels and kernel offsets of the link function of the documented family at the input pixel (divided by in_channels*kernel_size^2 with rescale_output, also in 1d); offsets in the padding contribute 0, not f(0); the output has floor((H+2p-dil(k-1)-1)/s)+1 rows, and s(H-1)+dil(k-1)+1+op-2p for transposes. Images smaller than the kernel or with a wrong number of channels raise RuntimeError.", "quantifier": "all classes (2d, 1d, transpose), shapes, strides, paddings, dilations, weights, images; length=2 for piecewise classes", "why_tests_cant": "Strides, paddings, dilations, kernels and channels combine in infinitely many ways; a wrong layout keeps shapes right.", "anchors": ["high_order_layers_torch/FunctionalConvolution.py:PiecewisePolynomialConvolution.forward", "high_order_layers_torch/FunctionalConvolutionTranspose.py:PiecewisePolynomialConvolutionTranspose.forward"]}
{"id": "C54", "title": "Convolutions are translation equivariant", "statement": "Shifting the input by m,n strides shifts the output of a high order convolution (1d and 2d, any link functions, any weights) by m,n pixels, wherever the receptive fields lie inside the images.", "quantifier": "all shapes, shifts, inputs, arithmetics", "why_tests_cant": "All shifts, shapes and images, in any arithmetic.", "anchors": ["high_order_layers_torch/FunctionalConvolution.py:PolynomialConvolution.forward"]}
{"id": "C55", "title": "Tail focus sizes", "statement": "For a normalized HighOrderTailFocusNetwork of 1d layers without padding, with given strides, one kernel size per layer and one focus value per layer between 1 and the width of the signal there: compute_sizes(w) returns the widths of the signal before and after every layer, and the sizes of the blocks of the output; forward returns [batch, sum(output_sizes)], whose block i is the last focus[i] columns of the signal after i layers, channel by channel, and whose last block is the whole final signal. More generally the blocks are the last min(focus, width) columns (all for focus 0); without normalization layers only the tail of the input and the final signal remain, without strides compute_sizes is a TypeError, with more focus values than layers an IndexError, and padding is ignored by compute_sizes.", "quantifier": "all layer counts, kernels, strides, focus values, channel counts, input widths, weights and shape preserving normalizations", "why_tests_cant": "The arithmetic of widths interacts across layers; tests check the total width for a few sizes and never the content of the blocks.", "anchors": ["high_order_layers_torch/networks.py:650-781"]}
{"id": "C56", "title": "Fully convolutional networks: output per channel and validation", "statement": "A HighOrderFullyConvolutionalNetwork accepts every configuration of m layers with m+1 channels and at least m entries in the other lists; a single value for layer_type, n, segments or stride means the list repeating it (the same holds for the deconvolutional and the tail focus network, there also for focus). For images large enough for its kernels it returns [batch, channels[-1]] with the average pooling of the same dimension: the mean over all pixels of the last layer, for any weights and shape preserving normalizations, and output_size is channels[-1]; without pooling it returns these pixels flattened row-major. With pooling of one dimension more (the default 2d with 1d layers) it returns [batch, 1], the mean over all channels, with any other a RuntimeError. The checks of list lengths never raise: superfluous entries are ignored and a missing entry is an IndexError; fewer than two channels are a ValueError.", "quantifier": "all layer counts, configuration lists, kernels, strides, paddings, image sizes, weights and shape preserving normalizations", "why_tests_cant": "Tests check shapes for a few uniform configurations; the content, mismatched lists and mismatched pooling are never checked.", "anchors": ["high_order_layers_torch/networks.py:444-560"]}
{"id": "C57", "title": "HighOrderMLP shape and structure", "statement": "HighOrderMLP(...) with a known layer_type builds dropout, input layer, for every hidden layer normalization, nonlinearity, dropout (each if given) and the layer, then the same and the output layer, with the documented arguments; unset (or falsy) n_in, n_hidden, n_out fall back to n and layer_type_in to layer_type; an unknown type raises ValueError. Its forward pass is their composition and maps [batch,in_width] to [batch,out_width] for every batch size.", "quantifier": "all configurations", "why_tests_cant": "The constructor has many options that combine; tests build a few networks and check the shape of the result.", "anchors": ["high_order_layers_torch/networks.py:HighOrderMLP"]}
{"id": "C58", "title": "HighOrderMLPList builds only its first layer", "statement": "HighOrderMLPList(layer_type,n,width,segments) with several entries builds only the first layer, from width[0] to width[1], contrary to one layer per entry; a wrong length of width raises ValueError and an empty list IndexError.", "quantifier": "all lists", "why_tests_cant": "That later entries are ignored shows neither in an exception nor in the shape of the output if the widths agree; all lists.", "anchors": ["high_order_layers_torch/networks.py:HighOrderMLPList.__init__"]}
{"id": "C59", "title": "HighOrderMultiMLP cannot be constructed", "statement": "HighOrderMultiMLP(...) never returns an object: with no replica it raises AttributeError, otherwise its constructor calls itself without end (RecursionError), for every depth limit.", "quantifier": "all arguments", "why_tests_cant": "That no arguments at all make the constructor return is a universal statement.", "anchors": ["high_order_layers_torch/networks.py:HighOrderMultiMLP"]}
{"id": "C60", "title": "Layer factories", "statement": "high_order_fc_layers, high_order_convolution_layers and high_order_convolution_transpose_layers raise ValueError for every unknown key and build the class of its name for each documented key, with the given sizes, periodicity and number of nodes. Exceptions: continuous_prod2d, discontinuous_prod2d, polynomial_prod2d, product2d (no class) and fourier1d raise TypeError, polynomial_prod raises AttributeError, the N dimensional keys raise TypeError/ValueError for an integer n and all other polynomial keys TypeError for a list.", "quantifier": "all strings, all arguments", "why_tests_cant": "The keys are infinitely many strings, and each key combines with all arguments.", "anchors": ["high_order_layers_torch/layers.py:high_order_fc_layers", "high_order_layers_torch/layers.py:high_order_convolution_layers", "high_order_layers_torch/layers.py:high_order_convolution_transpose_layers"]}
{"id": "C61", "title": "Options without effect", "statement": "scale, rescale_output and initialization given to HighOrderMLP have no effect: networks built with different values from the same random numbers are identical; and switch layers ignore periodicity.", "quantifier": "all configurations", "why_tests_cant": "That an option has no effect in any configuration cannot be shown by trying some.", "anchors": ["high_order_layers_torch/networks.py:HighOrderMLP.__init__", "high_order_layers_torch/PolynomialLayers.py:PiecewisePolynomial.__init__"]}
{"id": "C62", "title": "N dimensional basis", "statement": "LagrangeBasisND(n) enumerates all prod(n) multi indices in row-major order; its basis function for an index is (-1)^(sum(n_d - 1)) times the product of the 1d cardinal polynomials, so it vanishes at every other tensor node and is +1 at its own node exactly when sum(n_d - 1) is even (e.g. n=[2,3] gives -1); a PolynomialND layer outputs, up to that one sign, the sum over inputs of the tensor product interpolant of its weights, which reproduces every product of polynomials of degrees < n_d. An integer n raises TypeError, an empty list RuntimeError, too few coordinates IndexError.", "quantifier": "all n lists, lengths, nodes, x, weights", "why_tests_cant": "All dimensions and orders; the sign is right for the orders with an even sum, so a test of one case passes.", "anchors": ["high_order_layers_torch/LagrangePolynomial.py:LagrangeBasisND", "high_order_layers_torch/PolynomialLayers.py:PolynomialND"]}
{"id": "C63", "title": "PiecewiseND evaluates one shared function", "statement": "PiecewiseND(x)[b,o] (default initialization, any weights reached afterwards) is, up to the sign of C62, the sum over inputs k of one tensor product piecewise polynomial g at x[b,k,:], the same g for every input and every output, made from the first prod(segments)*prod(n) weights; so all outputs coincide and the other weights have no effect, contrary to the in_features*out_features sets of weights allocated. One dimensional points raise IndexError, integer n without dimensions or mismatched lists ValueError.", "quantifier": "all n, segments, shapes, weights, inputs with at least two coordinates", "why_tests_cant": "That outputs coincide for all weights and inputs, and which weights have no effect, cannot be shown by examples; shapes are right.", "anchors": ["high_order_layers_torch/PolynomialLayers.py:PiecewiseND"]}
{"id": "C64", "title": "Attention weights are a distribution over the keys that are not masked", "statement": "ScaledDotProductAttention(dim) returns weights softmax(q\u00b7k/sqrt(dim)) over the keys that are not masked: nonnegative, of sum 1, zero exactly at masked keys (when some key is unmasked), and a context that is the combination of the values with these weights, hence between any bounds of the unmasked values. Reordering keys, values and mask together reorders the weights and leaves the context unchanged. Tensors of three axes with sizes that do not match raise RuntimeError. DotProductAttention and AdditiveAttention likewise return a softmax distribution and the combination of the values (additive: the query has one row, or one per key). A freshly constructed AdditiveAttention(h) satisfies this for every draw; its bias lies in [-0.1,0.1). Queries or keys of another width than h raise RuntimeError.", "quantifier": "all dims, batch sizes, queries, keys, values, masks and permutations", "why_tests_cant": "The weights range over a continuum of inputs and all masks; a test compares a few tensors.", "anchors": ["high_order_layers_torch/attentions.py:ScaledDotProductAttention", "high_order_layers_torch/attentions.py:DotProductAttention", "high_order_layers_torch/attentions.py:AdditiveAttention"]}
{"id": "C65", "title": "Which mask governs a head of MultiHeadAttention", "statement": "In MultiHeadAttention every head attends with the scaled scores of its own slice of the projections and its context is the combination of its own value features. A [batch, query, key] mask is laid out batch first while the scores are laid out head first: row h*B+b takes the mask of batch element (h*B+b)/num_heads. So the mask of an element governs its own scores if there is one batch element, one head, or the masks agree; for any batch of at least two and at least two heads there is a mask hiding a key from an element that still gives the key positive weight. [batch, key] masks with one query row are right. The constructor accepts exactly head counts that divide d_model (AssertionError otherwise, ZeroDivisionError for none). Queries, keys or values whose last axis is not d_model wide raise RuntimeError.", "quantifier": "all batch sizes, head counts, lengths, inputs, parameters and masks", "why_tests_cant": "A test with one batch element or equal masks passes; the misalignment depends on the numbers of heads and batch elements.", "anchors": ["high_order_layers_torch/attentions.py:MultiHeadAttention.__init__", "high_order_layers_torch/attentions.py:MultiHeadAttention.forward"]}
{"id": "C66", "title": "Relative attention and its shift", "statement": "The relative positional shift of RelativeMultiHeadAttention puts at entry j<=i of row i the score of relative position T-1-(i-j) of the same row, zero at j=i+1 and the leading scores of the next row beyond, for every length T; with T1 rows and T2>=T1 positions row i holds its own score of position T1-1-i+j for j<=i+T2-T1. The module (not training) returns the output projection of the heads' combinations with weights softmax((content + shifted position scores)/sqrt(d_model)); masked scores become -1e9, so that a masked key keeps a positive weight of at most exp(-1e9 - s) for every score s of the row, and a row that is masked entirely has uniform weights. Queries, keys, values or positions whose last axis is not d_model wide raise RuntimeError.", "quantifier": "all lengths, batch sizes, head counts, inputs, parameters and masks", "why_tests_cant": "All lengths and a continuum of inputs; the shift by padding and reshaping keeps shapes right whatever it moves.", "anchors": ["high_order_layers_torch/attentions.py:RelativeMultiHeadAttention.forward", "high_order_layers_torch/attentions.py:RelativeMultiHeadAttention._compute_relative_positional_encoding"]}
{"id": "C67", "title": "Location aware attention", "statement": "LocationAwareAttention returns positive weights of sum 1 over the time steps (softmax of its scores, or normalized sigmoids with smoothing) and the combination of the value vectors of the same batch element. MultiHeadLocationAwareAttention returns a distribution for every head, but the context of head h combines with the weight of step j the features of head (j*N+h)/T at time (j*N+h) mod T: its own features only if there is one head or one step; with at least two of both, a head whose own features are all zero can get a positive context. CustomizingAttention.forward never returns: it raises TypeError for tensors of the documented shapes.", "quantifier": "all sizes, inputs, parameters and previous attentions", "why_tests_cant": "A continuum of inputs; the mixing of heads has the right shape and only shows in the values.", "anchors": ["high_order_layers_torch/attentions.py:LocationAwareAttention", "high_order_layers_torch/attentions.py:MultiHeadLocationAwareAttention", "high_order_layers_torch/attentions.py:CustomizingAttention"]}
{"id": "C68", "title": "VAE loss", "statement": "The divergence term of VanillaVAE.loss_function is the batch mean of the summed Kullback-Leibler divergences of the normal distributions N(mu, exp(log_var)) from N(0,1): nonnegative, zero exactly when all of mu and log_var are zero. loss = mean squared error + M_N * divergence, so it is >= 0 for M_N >= 0 and (M_N > 0) zero only for a perfect reconstruction at mu = log_var = 0. The dictionary entry KLD is minus the divergence. A call without M_N is a KeyError.", "quantifier": "all batches, all real mu, log_var, reconstructions, inputs and weights", "why_tests_cant": "The claim is about distributions and all real inputs; sampling cannot show an identity of divergences.", "anchors": ["high_order_layers_torch/networks.py:VanillaVAE.loss_function"]}
{"id": "C69", "title": "Accuracy is the fraction of correct rows", "statement": "The accuracy logged by ClassificationMixin.eval_step is the number of rows whose predicted class (a position of the largest score) equals the target divided by the number of rows, hence in [0,1], for targets of any shape with one entry per row; the loss gets the flattened targets. RegressionMixin.eval_step compares the flattened output with the flattened targets, so outputs [B,1] and targets [B] are never broadcast to a matrix.", "quantifier": "all batches, scores, targets, choices among equal scores", "why_tests_cant": "All batches and all ways of breaking ties; a silent broadcast to a matrix still gives a number.", "anchors": ["high_order_layers_torch/modules.py:ClassificationMixin.eval_step", "high_order_layers_torch/modules.py:RegressionMixin.eval_step"]}
{"id": "C70", "title": "What length does to a piecewise layer", "statement": "With length=L>0 the segment of x is the one of 2x/L (so the segments divide [-L/2,L/2] into equal parts), but within segment s the polynomial is evaluated at L/2 times the local coordinate of the s-th segment of [-1,1]. So a layer with one segment takes its weights at 2/L times the Chebyshev nodes, and for n>=2 and at least two segments the continuous layer computes a continuous function for all weights if and only if L=2: the documented use (\"if the value is 4 then it would be defined in [-2,2]\") gives a function with jumps for some weights.", "quantifier": "all positive lengths, n, segment counts, weights and inputs", "why_tests_cant": "The mismatch only shows off the default length; continuity is about a continuum of inputs and all weights.", "anchors": ["high_order_layers_torch/PolynomialLayers.py:Piecewise.__init__", "high_order_layers_torch/PolynomialLayers.py:Piecewise._eta", "high_order_layers_torch/PolynomialLayers.py:Piecewise.forward"]}
{"id": "C71", "title": "Network smoothing", "statement": "smooth_discontinuous_network(network,f) smooths (C28) every discontinuous layer registered in network.model exactly once and changes nothing else in the program (in particular not sublayers of switch layers). With f=1 a HighOrderMLP of discontinuous layers without resnet (or with at most one hidden layer) becomes a continuous function of its input.", "quantifier": "all networks with n >= 2, weights, factors", "why_tests_cant": "All networks and weights, and everything that must not change.", "anchors": ["high_order_layers_torch/networks.py:smooth_discontinuous_network"]}
{"id": "C72", "title": "Networks without discontinuous layers are continuous", "statement": "A HighOrderMLP of continuous, continuous_prod, switch_continuous, polynomial, fourier, product, linear or relu layers, trained or not, computes a continuous function of its input row, with or without resnet, for positive periodicity and continuous normalization, nonlinearity and dropout.", "quantifier": "all depths, widths, orders, weights", "why_tests_cant": "Continuity concerns a continuum of inputs and all networks; sampling cannot exclude a jump.", "anchors": ["high_order_layers_torch/networks.py:HighOrderMLP", "high_order_layers_torch/layers.py:fc_layers"]}
{"id": "C73", "title": "Convolutions with continuous links are continuous", "statement": "Every output pixel of a polynomial, continuous piecewise polynomial or Fourier convolution (1d, 2d, transposed; with or without periodicity) depends continuously on the image.", "quantifier": "all weights, shapes, continuous families of images", "why_tests_cant": "Continuity concerns a continuum of images; sampling cannot exclude a jump.", "anchors": ["high_order_layers_torch/FunctionalConvolution.py:PiecewisePolynomialConvolution.forward", "high_order_layers_torch/FunctionalConvolution.py:PolynomialConvolution.forward", "high_order_layers_torch/FunctionalConvolution.py:FourierConvolution.forward", "high_order_layers_torch/FunctionalConvolutionTranspose.py:PiecewisePolynomialConvolutionTranspose.forward"]}
{"id": "C74", "title": "Deconvolutional networks: sizes and mirroring", "statement": "A HighOrderFullyDeconvolutionalNetwork of m layers continuous2d maps [batch, channels[0], H, W] to [batch, channels[-1], H', W'], where every layer takes a size w to (w-1)*stride + kernel - 2*padding (as long as that is positive), for any weights and shape preserving normalizations; in_channels is channels[0]; other layer types are a ValueError. A transposed layer restores the size of the input of the convolution with the same kernel, stride and padding up to the remainder (w + 2 padding - kernel) mod stride, so the network with reversed lists restores all the sizes of the convolutional network when these remainders are zero.", "quantifier": "all layer counts, configuration lists, kernels, strides, paddings and image sizes", "why_tests_cant": "There are no tests of this network; sizes interact across layers.", "anchors": ["high_order_layers_torch/networks.py:563-647"]}
{"id": "C75", "title": "VAE sampling and shapes", "statement": "If the draws of randn_like are independent standard normal, VanillaVAE.reparameterize(mu, log_var) has independent entries N(mu, exp(log_var)). With an encoder producing output_size features per sample and a decoder taking [B, in_channels, 1, 1], forward returns the decoded reconstruction, the input itself, and mu, log_var of shape [B, latent_dim]; generate returns the reconstruction and sample(num) decodes num rows. An encoder whose real number of features differs from output_size (e.g. a convolutional encoder without pooling) gives a RuntimeError.", "quantifier": "all mu, log_var, batch sizes, encoders, decoders", "why_tests_cant": "The law of a random output cannot be tested, only sampled; all shapes.", "anchors": ["high_order_layers_torch/networks.py:VanillaVAE.reparameterize", "high_order_layers_torch/networks.py:VanillaVAE.forward", "high_order_layers_torch/networks.py:VanillaVAE.sample"]}
{"id": "C76", "title": "LowOrderMLP is the network it says", "statement": "LowOrderMLP(in_width, out_width, hidden_layers=H, hidden_width) consists, at any time of training, of H+2 different linear layers with bias of widths in_width, hidden_width (H+1 times), out_width. It computes the first one and then, before every other layer, the normalization and the nonlinearity (if given), in this order. It maps [batch, in_width] to [batch, out_width], is continuous if normalization and nonlinearity are, is an affine map if there are none, and parameters() enumerates exactly the linear layers (normalization and nonlinearity without own parameters).", "quantifier": "all widths, H, weights, batch sizes, inputs, normalizations and nonlinearities", "why_tests_cant": "All depths and weights; a test builds a few networks.", "anchors": ["high_order_layers_torch/networks.py:LowOrderMLP"]}
{"id": "C77", "title": "transform_mlp and transform_low_mlp put a fixed rotation in front of a network", "statement": "With rotations=R>=1 both return, at any time of training, the fixed linear rotation of the input (not changed by training) followed by a HighOrderMLP (LowOrderMLP) with in_width + in_width*(in_width-1)*(R-1) inputs and otherwise the given arguments; its trainable parameters are those of that network, [batch, in_width] goes to [batch, out_width], and for layers without jumps the result is continuous. With R=1 it is the network itself. R<1 is a ValueError. The result has no attribute model, so interpolate_high_order_mlp, hp_refine_high_order_mlp and smooth_discontinuous_network raise AttributeError on it and change nothing.", "quantifier": "all widths, rotation numbers, usable layer types, weights, batches and inputs", "why_tests_cant": "The only test checks that nothing crashes; the function computed is a statement about all inputs.", "anchors": ["high_order_layers_torch/networks.py:transform_mlp", "high_order_layers_torch/networks.py:transform_low_mlp", "high_order_layers_torch/layers.py:fixed_rotation_layer"]}
{"id": "C78", "title": "select_network builds the configured fully connected network", "statement": "For every configuration select_network(cfg) with model_type high_order returns the HighOrderMLP with the configured layer type, widths, segments and numbers of hidden layers (batch normalization between layers exactly if cfg.net.normalize is True), mapping [batch, input.width] to [batch, output.width]; but the order of the hidden layers is n_in, n_hidden and periodicity are ignored. model_type high_order_input builds one high order layer, optional normalization, then a LowOrderMLP with hidden.layers-1 hidden layers, whose output width is cfg.output.width, not cfg.net.output.width: a configuration without root entry output is an AttributeError. A missing net.normalize or net.model_type is an AttributeError; so is an unknown model_type if cfg.model_type does not exist (otherwise ValueError). In training mode a normalized network rejects a batch of one with ValueError.", "quantifier": "all configurations, usable layer types, widths, orders, segments, layer counts, weights, batches", "why_tests_cant": "Tests never call select_network; the examples use few configurations in which n_in equals n_hidden or both are unset.", "anchors": ["high_order_layers_torch/modules.py:select_network"]}
{"id": "C79", "title": "configure_optimizers follows the configuration", "statement": "The optimizer named adam or lion is constructed with all parameters of the network and the configured learning rate; scheduler plateau and exponential give the list form with the configured patience, factor or gamma, reduce_on_plateau true exactly for plateau, and monitor train_loss, which training_step logs and validation and test steps do not; any other scheduler gives the bare optimizer. An unknown name (also the shipped sophia and adahessian configurations) is a ValueError; so are a negative learning rate for adam, a plateau factor of 1 or more, and a network without registered parameters (all layers switch layers); a learning rate of lion that is not positive is an AssertionError; a missing entry is an AttributeError.", "quantifier": "all configurations and parameter lists", "why_tests_cant": "Needs every combination of names, schedulers and values; the project has no test of it.", "anchors": ["high_order_layers_torch/modules.py:PredictionNetMixin.configure_optimizers"]}
{"id": "C80", "title": "select_network builds the configured convolutional network", "statement": "model_type high_order_conv gives the HighOrderFullyConvolutionalNetwork with the configured lists, without pooling, always with batch normalization (whatever normalize says), and a linear layer: [batch, channels[0], w] goes to [batch, out_features] for signals long enough for all kernels; the first call fixes the number of inputs of the linear layer, afterwards signals giving another number are a RuntimeError. high_order_tail_focus likewise gives a HighOrderTailFocusNetwork, but stride null is a TypeError in the log message. The number of channels C is handed to the batch normalization as eps: in training mode the variance of a channel becomes v/(v+C) instead of about 1. With 2d layer types the network constructs but raises ValueError for every batch, in training and evaluation mode.", "quantifier": "all configurations, layer counts, kernels, strides, signals, weights and states of the normalizations", "why_tests_cant": "Whether a normalization normalizes is a statement about all batches, and the normalization modules accept any eps silently; no test builds these networks.", "anchors": ["high_order_layers_torch/modules.py:select_network", "high_order_layers_torch/networks.py:HighOrderFullyConvolutionalNetwork.__init__"]}
{"id": "C81", "title": "Lazy layer normalization and the normalization table", "statement": "LazyLayerNormLastDim has no parameters before its first call, so an optimizer made before it never trains them; the first call fixes the size n of the last axis, creates a weight of n ones and (with bias) n zeros, and returns a tensor of the shape of the input whose rows along the last axis have mean 0 and variance v/(v+1e-5). Later it returns (x-mean)/sqrt(var+1e-5)*weight+bias per row, is not changed by adding a constant to a row, and inputs with another size of the last axis are a RuntimeError. normalization_layers has the keys max_abs, max_center, l2 (axis 1, eps 1e-6) and layer_norm; any other key is a KeyError. The other normalization modules divide by the largest absolute value plus eps, or subtract the middle of the range and divide by half the range plus eps: along the last axis (...Last), along dim or axis 1, or over all entries of a batch element (...ND), and keep the shape.", "quantifier": "all inputs of any number of axes, all weights and biases", "why_tests_cant": "All inputs, shapes and weights; that the parameters appear only with the first call shows only when an optimizer is created before it.", "anchors": ["high_order_layers_torch/layers.py:LazyLayerNormLastDim", "high_order_layers_torch/layers.py:normalization_layers"]}
{"id": "C82", "title": "Losses of the classification and regression networks", "statement": "The loss of a ClassificationNet for scores [B,C] and B targets is the mean of -log softmax(row)[target] over the rows whose target is not -100; it is not negative, does not change when a constant is added to a row, and bounds the logged accuracy: accuracy >= 1 - loss/log 2, so a loss below log 2/B means that every row is classified correctly. Targets that are no class are an IndexError, another number of targets a ValueError. Rows with target -100 do not count in the loss but are counted as wrong in the accuracy. The loss of a RegressionNet is the mean squared difference, zero exactly if all entries agree. Both hold the network of select_network with its errors; ClassificationNet also needs an integer data.classes >= 2, which is compared with nothing else.", "quantifier": "all scores, targets, batch sizes and numbers of classes, all networks", "why_tests_cant": "The relation of loss and accuracy is a statement about all score matrices; tests see single batches, rarely with ignored targets.", "anchors": ["high_order_layers_torch/modules.py:ClassificationNet", "high_order_layers_torch/modules.py:RegressionNet", "high_order_layers_torch/modules.py:ClassificationMixin"]}
{"id": "C83", "title": "Gradients of piecewise layers, and training leaves distant segments alone", "statement": "For the four piecewise layers the gradient of the weights is the derivative of the loss of the output by each weight, and it is exactly zero for weights that no input of the batch uses. Therefore any number of SparseLion steps on batches whose inputs lie, feature by feature, in other segments (for the continuous layers: in segments that are not neighbours) leaves the output on given inputs unchanged, in any arithmetic in which 0 equals 0. For neighbouring segments of a continuous layer this fails, because they share a weight.", "quantifier": "all well formed piecewise layers, batches, differentiable losses and training histories", "why_tests_cant": "Gradient checks and training tests see single batches; that nothing changes after every possible history, with rounding, is a statement about all of them.", "anchors": ["high_order_layers_torch/PolynomialLayers.py:Piecewise", "high_order_layers_torch/PolynomialLayers.py:PiecewiseDiscontinuous", "high_order_layers_torch/sparse_optimizers/sparse_lion.py:SparseLion"]}
{"id": "C84", "title": "Piecewise layers approximate with order n", "statement": "If the weights of a continuous or discontinuous piecewise layer are the values of n times continuously differentiable functions f_oi at its nodes, then for inputs in [-1,1] every output o differs from sum_i f_oi(x_i) by at most 4/(n! (2 segments)^n) times the sum of bounds of the n-th derivatives: twice the segments divide the bound by 2^n. Such weights exist (continuous layers need n >= 2). For functions that are only continuous the error tends to 0 uniformly as the number of segments grows. The constant is attained for n=2 and x^2 in the middle of every segment.", "quantifier": "all n, segments, widths, batches in [-1,1] and functions of the stated smoothness", "why_tests_cant": "A rate of convergence is a statement about all functions, all orders and all numbers of segments; a test fits a slope to a few errors.", "anchors": ["high_order_layers_torch/PolynomialLayers.py:Piecewise", "high_order_layers_torch/PolynomialLayers.py:PiecewiseDiscontinuous", "high_order_layers_torch/LagrangePolynomial.py:chebyshevLobatto"]}
{"id": "C85", "title": "Layers with two nodes per segment: bounds, slopes, monotonicity", "statement": "With n=2 an output of a continuous or discontinuous layer at inputs in [-1,1] stays between the sums of the lower and of the upper bounds of the weights of its links. For the continuous layer, if the increments of successive weights lie in [m,M], raising the inputs changes an output by between m and M times segments/2 times the rise (summed over the inputs), everywhere; the layer is monotone in all inputs exactly if no weight is smaller than the one before. With n=3 this fails: weights between 0 and 1 that never increase give the value 9/8.", "quantifier": "all layers with n=2, all weights and inputs", "why_tests_cant": "Bounds and monotonicity quantify over all inputs and weights; sampling a layer finds no overshoot for n=2 and may miss it for n=3.", "anchors": ["high_order_layers_torch/PolynomialLayers.py:Piecewise", "high_order_layers_torch/PolynomialLayers.py:PiecewiseDiscontinuous"]}
{"id": "C86", "title": "Rounding errors of piecewise layers stay proportional to the rounding unit", "statement": "Evaluated in floating point arithmetic instead of exactly, a stack of continuous piecewise layers (sum or product, any class sizes, length 2, no periodicity) returns finite outputs that differ from the exact ones by at most C*eps, for every input with entries at most X and weights at most W; C depends only on the layer sizes, W and X (eps small enough, range large enough). This includes inputs on and arbitrarily near segment boundaries, where rounding may select the neighbouring segment. A discontinuous layer satisfies the same bound if every input is farther than C*eps from the inner segment boundaries; near a boundary the error can be as large as the jump however small eps is.", "quantifier": "all layer sizes, weights and inputs within the bounds, all arithmetics whose operations err by at most eps*(1+|result|) and do not overflow below M", "why_tests_cant": "Tests compare a few inputs in one precision with tolerances; they cannot show that no input near a boundary makes rounding pick a segment with a very different value, nor bound the error for all weights, sizes and precisions.", "anchors": ["high_order_layers_torch/PolynomialLayers.py:Piecewise.forward", "high_order_layers_torch/PolynomialLayers.py:PiecewiseDiscontinuous.forward", "high_order_layers_torch/LagrangePolynomial.py:LagrangePoly"]}
{"id": "C87", "title": "Networks approximate every continuous function, single sum layers do not", "statement": "For every continuous function f from [-1,1]^d to R^m and every eps > 0 there are a hidden width and a number of output segments such that every HighOrderMLP of continuous or discontinuous piecewise layers with that width and at least that many output segments (any number of hidden layers, any input and hidden segments, all n >= 2, no normalization, nonlinearity, dropout, periodicity or resnet) has weights with which it is within eps of f on the whole cube. A single sum layer does not suffice: it has no interaction between features (changing two features has the sum of the two effects), so whatever its size it is off by at least 1 from the product x0*x1 at one of the four corners.", "quantifier": "all continuous functions, dimensions, tolerances, all network configurations of the stated kind; all single layers", "why_tests_cant": "A test can fit particular functions with particular sizes; existence of weights for every continuous function and impossibility for every layer size are not testable.", "anchors": ["high_order_layers_torch/networks.py:HighOrderMLP", "high_order_layers_torch/PolynomialLayers.py:Piecewise.forward"]}
{"id": "C88", "title": "Refinement loses nothing: going back restores the weights, stages give the same result", "statement": "Interpolating a continuous or discontinuous layer to a layer with at least as many points per segment, and the result back to a layer of the original sizes, restores the original weights exactly; likewise refining a continuous layer (sum or product, length 2, no periodicity or one of at least 2) to a multiple of its segments with at least as many points and back. Refining in two stages gives exactly the weights of refining at once, where the last target may have any order (and any segments for refine). The order matters: interpolating down and up again loses information, e.g. the quadratic with values 0, 1, 0 becomes zero.", "quantifier": "all layers of these classes, sizes, weights, targets with arbitrary previous weights", "why_tests_cant": "Every combination of orders, segments and weights is involved; a test compares a few and only up to a tolerance.", "anchors": ["high_order_layers_torch/PolynomialLayers.py:interpolate_polynomial_layer", "high_order_layers_torch/PolynomialLayers.py:refine_polynomial_layer"]}
{"id": "C89", "title": "Which weights compute the same function", "statement": "Two sum layers (continuous or discontinuous) of the same sizes on [-1,1] without periodicity compute the same function on the cube if and only if the weights of each link (output, input) differ by a constant and, for every output, these constants sum to zero over the inputs. With one input feature the function determines the weights. For product layers, multiplying 1 + w of every link by a factor leaves the function unchanged if the factors of each output multiply to one.", "quantifier": "all layers, sizes, pairs of weight tensors, all inputs of the cube", "why_tests_cant": "Equality of two functions on all inputs and the converse direction (equal functions force this relation of the weights) cannot be sampled.", "anchors": ["high_order_layers_torch/PolynomialLayers.py:Piecewise.forward", "high_order_layers_torch/PolynomialLayers.py:PiecewiseDiscontinuous.forward"]}
{"id": "C90", "title": "Small changes of weights change outputs little, for any number of segments", "statement": "For every number n of points per segment there is a constant (1 for n of at most 2, never more than sqrt(2n)) such that changing the weights of a sum layer (continuous or discontinuous, on [-1,1], no periodicity) by at most d(o,i) per link changes every output at inputs in [-1,1] by at most the constant times the sum of d(o,i) over the inputs. The constant does not depend on the number of segments, of features or on the weights. For product layers with weights bounded by W there is such a constant depending on n, the number of inputs and W. Conversely, with one input, outputs within e on [-1,1] force weights within e. Outside [-1,1] the constant grows with the segments: changing the last weight of a linear layer by d changes the output at t >= 1 by d (1 + S (t - 1) / 2).", "quantifier": "all layers of these classes, sizes, pairs of weight tensors, all inputs in the cube", "why_tests_cant": "The bound holds for all weights, inputs and any number of segments with one constant; tests see single differences.", "anchors": ["high_order_layers_torch/PolynomialLayers.py:Piecewise.forward", "high_order_layers_torch/PolynomialLayers.py:PiecewiseDiscontinuous.forward"]}
{"id": "C91", "title": "Input gradients of piecewise layers are the derivatives of the computed function", "statement": "For every piecewise layer (sum or product, continuous or discontinuous, any length > 0, with or without periodicity), every batch without inputs on an inner segment boundary or a turning point of the periodic wrap and every differentiable loss of the output, the gradient PyTorch computes for the input is the derivative of the loss by all inputs together. Without periodicity it is at all points, boundaries included, the derivative towards larger inputs. With one point per segment it is 0 everywhere, so jumps pass no gradient to earlier layers; with two points it is the difference quotient of the weights of the segment (e.g. 1 for |x| at 0). At the turning points, where the wrap has no derivative, slope 1 is used.", "quantifier": "all layers, weights, batches and differentiable losses", "why_tests_cant": "The gradient at all inputs and for all losses is involved and the points where no derivative exists have to be told apart; finite difference tests sample a few points with a tolerance.", "anchors": ["high_order_layers_torch/PolynomialLayers.py:Piecewise.forward", "high_order_layers_torch/PolynomialLayers.py:PiecewiseDiscontinuous.forward", "high_order_layers_torch/LagrangePolynomial.py:LagrangeBasis.__call__", "high_order_layers_torch/utils.py:make_periodic"]}
{"id": "C92", "title": "Gradients of every kind of fully connected layer are derivatives", "statement": "For piecewise, polynomial, Fourier, product and linear layers and relu, with any parameters of the right shapes and any batch: the forward pass succeeds, and for every differentiable loss of the output every parameter (weights, and biases where there are) receives a gradient of its own shape whose every entry is the derivative of the loss by that entry, also at kinks. Off the points where the layer has a kink (segment boundaries, turning points of the periodic wrap, 0 for relu) the input gradient is the derivative of the loss by all inputs together.", "quantifier": "all layers of these kinds, parameters, batches off kinks and differentiable losses", "why_tests_cant": "All weights, inputs and losses are quantified over; numerical gradient checks compare a few points up to a tolerance.", "anchors": ["high_order_layers_torch/PolynomialLayers.py:Function.forward", "high_order_layers_torch/Basis.py:BasisFlat.interpolate", "high_order_layers_torch/ProductLayer.py:Product.forward", "high_order_layers_torch/layers.py:LinearReluAdapter"]}
{"id": "C93", "title": "Backpropagation through whole networks gives the derivatives of the loss by every parameter", "statement": "For sequential networks of any depth made of these layers with matching widths, any parameters and any batch on which no intermediate value is on a kink of the layer that reads it: the backward pass succeeds, its input gradient is the derivative of the loss by the input, and the gradient of every entry of every parameter of every layer is the derivative of the loss of the whole network by that entry. HighOrderMLP networks of any of these layer types without normalization, dropout and resnet, with no nonlinearity or relu, are such networks, as built and after any training.", "quantifier": "all depths, widths, layer types, parameters, batches off kinks and differentiable losses", "why_tests_cant": "The claim is about the composition of arbitrarily many layers with arbitrary parameters and losses; tests check gradients of single small networks numerically.", "anchors": ["high_order_layers_torch/networks.py:HighOrderMLP.forward", "high_order_layers_torch/networks.py:HighOrderMLP.__init__", "high_order_layers_torch/layers.py:high_order_fc_layers"]}
{"id": "C94", "title": "Training one layer with a convex loss has no bad stationary points", "statement": "For a single layer whose output is a sum over the inputs (piecewise continuous or discontinuous, polynomial, Fourier, linear), any batch and any convex differentiable loss of the output: the loss with any other parameter values is at least the present loss plus the sum over all parameter entries of change times gradient. Hence the parameters minimize the loss over all parameter values exactly if all their gradients vanish. This is false for product layers and for networks of two linear layers, where all gradients can vanish although other parameters are better.", "quantifier": "all layers of these kinds, parameters, batches and convex differentiable losses; concrete counterexamples for products and depth", "why_tests_cant": "A statement about all parameter values and all losses; a test can only observe that some training runs converge.", "anchors": ["high_order_layers_torch/PolynomialLayers.py:Piecewise.forward", "high_order_layers_torch/PolynomialLayers.py:Function.forward", "high_order_layers_torch/layers.py:high_order_fc_layers", "high_order_layers_torch/ProductLayer.py:Product.forward"]}
{"id": "C95", "title": "How many samples a piecewise layer can memorize", "statement": "With length 2 and no periodicity, a piecewise layer of any of the four kinds has weights that reproduce any targets of a batch exactly if some input feature takes different values on all samples and no segment contains more of them than n (continuous layers: n-1, n in the last segment). With a sum layer and squared error, vanishing gradients then mean that all targets are met. For discontinuous layers of one input the bound n per segment is exact: with more samples in a segment some targets cannot be met. Sum layers can never meet all targets of more samples than they have weights per output.", "quantifier": "all layer sizes, batches and targets", "why_tests_cant": "Quantifies over all batches and targets and asserts existence of weights; training in a test may fail for other reasons and never shows impossibility.", "anchors": ["high_order_layers_torch/PolynomialLayers.py:Piecewise.forward", "high_order_layers_torch/PolynomialLayers.py:PiecewiseDiscontinuous.forward", "high_order_layers_torch/PolynomialLayers.py:Piecewise.__init__"]}
{"id": "C96", "title": "Convolutions with groups are separate layers, or fail, or cut through a channel", "statement": "A 1d convolution, FourierConvolution2d or the transposed convolution built with groups=G, where G divides in_channels and out_channels, is exactly (in every arithmetic) G separate convolutions: the output channels of group g are the convolution without groups, with the weights of these channels, of the input channels of group g. With link functions: output channel g*Og + r is the sum over the in_channels/G channels of its group; rescale_output still divides by in_channels*kernel_size**2, not by the number of inputs of the output. Groups that do not divide the number of expanded channels (basis functions times in_channels) or out_channels raise ValueError. PolynomialConvolution2d, PiecewisePolynomialConvolution2d and PiecewiseDiscontinuousPolynomialConvolution2d cannot be built with groups other than 1 at all (RuntimeError when the sizes divide). Since only the number of expanded channels has to be divisible, groups that do not divide in_channels are accepted silently; then the basis functions of one input channel are shared out between groups: with n=2, in_channels=3, groups=2 the first output sees the middle channel only through 1-x and the second only through 1+x, whatever the weights. With groups=1 nothing changes.", "quantifier": "all classes, sizes, geometries, groups, weights, images; the separation theorems in every arithmetic", "why_tests_cant": "a test tries one number of groups with one shape; which channels every output depends on, for all weights and images, and that no 2d polynomial convolution with groups exists are statements about all inputs", "anchors": ["high_order_layers_torch/FunctionalConvolution.py:17-103", "high_order_layers_torch/FunctionalConvolution.py:123-172", "high_order_layers_torch/FunctionalConvolution.py:176-650", "high_order_layers_torch/FunctionalConvolutionTranspose.py:18-160"]}
{"id": "C97", "title": "padding_mode extends the image before the link functions", "statement": "With padding_mode 'reflect', 'replicate' or 'circular' a 1d or 2d high order convolution is exactly (in every arithmetic and for any groups) the convolution without padding of the image extended by mirroring, repeating its last pixels or wrapping around, although the code pads the expanded channels: padded pixels pass through the link functions. So each output is the sum of the link functions over the receptive field of the extended image (with the default 'zeros' padded positions contribute nothing, C53). Paddings that are too large for the mode (reflect: padding >= size, circular: padding > size) raise RuntimeError. With 'circular', stride 1 and 2*padding = dilation*(kernel_size-1), rolling the image by any number of rows and columns rolls the output by the same number, with no exception at the borders. The four modes change nothing else in the constructors; other strings raise ValueError, and the transposed convolution refuses every mode but 'zeros' with ValueError.", "quantifier": "all classes, geometries, groups, modes, weights, images and shifts; the extension and rolling theorems in every arithmetic", "why_tests_cant": "equality with the extended image and equivariance under all rolls hold for all images and weights; tests compare a few arrays", "anchors": ["high_order_layers_torch/FunctionalConvolution.py:53-103", "high_order_layers_torch/FunctionalConvolution.py:123-172", "high_order_layers_torch/FunctionalConvolution.py:215-218", "high_order_layers_torch/FunctionalConvolution.py:314-320", "high_order_layers_torch/FunctionalConvolution.py:441-447", "high_order_layers_torch/FunctionalConvolutionTranspose.py:18-72"]}
{"id": "C98", "title": "How often a network can bend and oscillate along a line", "statement": "Take a HighOrderMLP of continuous, discontinuous, their prod variants, polynomial, product, linear or linear_relu layers, without periodicity, normalization, dropout and resnet, with no nonlinearity or relu. When built and after any training, on every straight line of inputs all outputs are polynomials between fewer than M common break points, of degree at most D, where M and D depend on the sizes only: for the sum layers with n nodes and s segments D = (n-1)^layers, and a layer with w inputs of degree d multiplies the number of pieces at most by 1 + w*(s-1)*d. In particular networks of polynomial layers are one polynomial on every line, and with n=2 they are affine functions whatever their depth. An output on M pieces of degree D can pass from one side of a value to the other at most 2(M-1) + M*D times, so faster alternating targets cannot be fitted. Depth helps: d layers of one input, one output and two linear segments can alternate 2^d times on equally spaced points, while a single sum layer needs segments*(n+1) >= 2^d + 2 for it.", "quantifier": "all layer types named, widths, depths, numbers of nodes and segments, weights, lines and sample points", "why_tests_cant": "an upper bound over all weight values and all lines: tests can only try some weights, and training that fails to fit may fail for other reasons", "anchors": ["high_order_layers_torch/networks.py:HighOrderMLP", "high_order_layers_torch/PolynomialLayers.py:Piecewise.forward", "high_order_layers_torch/PolynomialLayers.py:PiecewiseDiscontinuous.forward", "high_order_layers_torch/PolynomialLayers.py:Function.forward", "high_order_layers_torch/layers.py:high_order_fc_layers"]}
{"id": "C99", "title": "The MNIST example network classifies each 28x28 image by itself, for the kernel sizes its hard-wired sizes allow", "statement": "examples/mnist.py: for every high order 2d layer type, n, segments >= 1, channel numbers >= 1, normalization max_abs or max_center and output layer linear, auto or any usable fully connected type, Net(cfg) is built. Before and after any training it takes every batch of 28x28 images to ten logits per image, each depending on that image alone, and its output layer receives features in (-1, 1), if kernel_size is 3, 4 or, without double, 5. With any other kernel_size and the default linear output layer it is built without complaint and raises RuntimeError on every batch. layer_type standard uses kernels of size 5 whatever kernel_size says: it works unless kernel_size is 3 (RuntimeError on every batch) or double is set (AttributeError on every batch), and output type auto is rejected with ValueError. Fewer than two channels, another normalization and unknown layer types are rejected by the constructor (IndexError, KeyError, ValueError).", "quantifier": "all configurations, kernel sizes, channel numbers, weights, batch sizes and images", "why_tests_cant": "the hard-wired sizes of the output layer have to match for all configurations, and independence of the other images of a batch and the range of features concern all weights and images", "anchors": ["examples/mnist.py:Net.__init__", "examples/mnist.py:Net.forward", "high_order_layers_torch/layers.py:MaxAbsNormalizationND"]}
{"id": "C100", "title": "The CIFAR10 example network classifies each image by itself for 32x32 images only", "statement": "examples/cifar10.py: for the layer types continuous, piecewise, discontinuous and standard, n, segments >= 1, before and after any training, images of height and width 32 to 35 give ten logits per image, each depending on that image alone. For other sizes the rows of the result do not belong to the images: with pixel maps of h' x w', h' = ((H-4)/2-4)/2, a batch of B images gives B h' w'/25 rows of logits when that is a whole number (25 images of 36x36 silently give 36 rows) and RuntimeError otherwise. Images with a side below 16 raise RuntimeError. An unknown layer_type is accepted by the constructor and every forward call raises AttributeError.", "quantifier": "all layer types, numbers of nodes and segments, weights, batch sizes, image sizes and images", "why_tests_cant": "which sizes are treated correctly, silently mixed up or rejected is a statement about all sizes and batch sizes, and independence of the other images concerns all weights", "anchors": ["examples/cifar10.py:Net.__init__", "examples/cifar10.py:Net.forward"]}
{"id": "C101", "title": "The pixel network of the block MNIST example adds up one bounded function of the pixel, so pixels cannot interact", "statement": "examples/block_mnist.py: collate_fn turns the pixel of row i and column j of a 28x28 image into row 28 i + j of a table: its colour, its row and its column, both scaled to [-1, 1] with the corners at -1 and 1; other sizes and empty batches raise RuntimeError. With a layer for several variables (polynomial_2d to polynomial_5d, which behave alike) and normalization max_abs or max_center, Net(cfg) is built, and before and after any training the logits of each image are the sum of g(pixel) over its pixels, for a function g of colour and position with values in (-1, 1) that is the same for all pixels and images. So the logits depend on that image alone and not on the order of its pixels, their absolute values are below the number of pixels, and changing one pixel changes them by an amount which does not depend on the other pixels, however large n is. An unknown layer type is a ValueError (continuous_3d, which the configuration mentions, is one), an unknown normalization a KeyError, and a table whose entries are not a multiple of three a RuntimeError.", "quantifier": "all n, weights, batch sizes, numbers of pixels, images and permutations of pixels", "why_tests_cant": "the absence of interactions between pixels and the order independence quantify over all weights and pairs of images; accuracy tests cannot tell whether more training would help", "anchors": ["examples/block_mnist.py:collate_fn", "examples/block_mnist.py:Net.__init__", "examples/block_mnist.py:Net.forward", "high_order_layers_torch/PolynomialLayers.py:PolynomialND"]}
{"id": "C102", "title": "Inputs of the wrong width: which are rejected, which are silently accepted, and what then happens", "statement": "A piecewise layer (continuous or discontinuous, sum or product) accepts a batch of B samples of width I (both at least 1) exactly if I is in_features, or I = 1 and B = in_features, or in_features = 1 and B = 1; every other width and every input that does not have two axes raises RuntimeError. The two wrong but accepted shapes do not give the layer's function: a batch of in_features samples of width 1 gives for row b the pieces of the segments of ALL samples evaluated at the local coordinate of sample b, so that samples influence each other (with a two-feature layer the first row can change from 0 to 1 when only the second sample changes), and a single sample of width I given to a layer with one feature gives I rows, row b being the piece of the segment of entry b evaluated at the local coordinates of all entries. Polynomial, Fourier and Product layers accept I = in_features, I = 1 (the value is sent to every feature) and, if in_features is 1, any I (all entries use the one feature); every other width and rank raises RuntimeError.", "quantifier": "all layers, weights, scalar types (for which shapes are accepted), batch sizes, widths and inputs", "why_tests_cant": "which shapes pass is a statement about all pairs of sizes, and the silent ones look like valid results; a test would have to hit a batch whose size happens to equal the number of features", "anchors": ["high_order_layers_torch/PolynomialLayers.py:Piecewise.forward", "high_order_layers_torch/PolynomialLayers.py:PiecewiseDiscontinuous.forward", "high_order_layers_torch/PolynomialLayers.py:Function.forward", "high_order_layers_torch/Basis.py:Basis.interpolate", "high_order_layers_torch/Basis.py:BasisFlat.interpolate", "high_order_layers_torch/ProductLayer.py:Product.forward"]}
{"id": "C103", "title": "With a max_abs, max_center or l2 normalization every layer after the first stays inside [-1, 1] and the outputs are bounded for all inputs", "statement": "The normalizations max_abs, max_center and l2 of normalization_layers take every [batch, width] tensor to values strictly between -1 and 1. Hence in a HighOrderMLP with one of them (optionally followed by a nonlinearity that keeps this interval such as ReLU or tanh; no dropout, no resnet), for every input and all weights, each hidden layer and the output layer receive only values strictly inside the interval that their segments divide: after the input layer nothing is extrapolated. For piecewise polynomial layers the outputs are therefore bounded for all inputs by the weights of the output layer alone: if these are at most W in absolute value, by hidden_width * L * W for sum layers and by (1 + L*W)^hidden_width - 1 for product layers, where L depends only on the number of nodes n (L = 1 for n <= 2, and L <= sqrt(2n) always), not on segments, depth, other weights, or periodicity. Without a normalization there is no such bound: two continuous layers with weights -1 and 1 return their input, however large.", "quantifier": "all networks, weights (trained in any way), batch sizes, widths, depths and inputs", "why_tests_cant": "a bound for all real inputs and all weights cannot be established by trying inputs", "anchors": ["high_order_layers_torch/networks.py:HighOrderMLP.__init__", "high_order_layers_torch/layers.py:normalization_layers", "high_order_layers_torch/utils.py:max_abs_normalization", "high_order_layers_torch/utils.py:max_center_normalization", "high_order_layers_torch/utils.py:l2_normalization"]}
{"id": "C104", "title": "The refinement schedule of the invariant MNIST example trains the orders below the target and tests an untrained network of the target order", "statement": "With p_refine and n < target_n, invariant_mnist(cfg) of examples/invariant_mnist.py trains with continuous, discontinuous or switch layers exactly the orders n, ..., target_n - 1, each for max_epochs // (target_n - n) epochs, so at most max_epochs and more than max_epochs - (target_n - n) in all; every run after the first starts from the function the run before ended with, on all inputs; the network tested last has order target_n, was never trained itself and computes what the trained network of order target_n - 1 computes. With polynomial layers (the layer type of the config file), Fourier, product, linear or relu layers nothing is carried over: each run starts from new random weights and the network tested last is a new random one, whatever training did. With continuous_prod and discontinuous_prod layers UnboundLocalError is raised at the first refinement. target_n = n raises ZeroDivisionError; target_n < n trains nothing and tests the random network of order n, or is rejected by the trainer if max_epochs > n - target_n. Without p_refine the network of order n is trained for max_epochs epochs and tested.", "quantifier": "All layer types as named, all n, target_n, max_epochs >= 0, widths, depths, numbers of segments, shape-preserving normalizations and dropouts, all random numbers, whatever training does to the weights, all inputs of all batch sizes.", "why_tests_cant": "The claim quantifies over everything training may do and over all inputs; a test would have to train on MNIST, sees one outcome, and an accuracy printed for a random network is not an error a test can notice.", "anchors": ["examples/invariant_mnist.py:24-59", "examples/invariant_mnist.py:173-216", "config/invariant_mnist.yaml:1-39", "high_order_layers_torch/networks.py:1048-1078"]}
{"id": "C105", "title": "Which networks of the exclusive or example can learn the problem", "statement": "NDFunctionApproximation (examples/xor.py) with layer_type polynomial, continuous or discontinuous maps [batch,2] to [batch,1] row by row by two layers of link functions, and training can reach every pair of layers of links of that family. Some weights give the right sign at every point off the axes exactly when: polynomial n >= 3; continuous n >= 3, or n = 2 and at least two segments; discontinuous these, or n = 1 and an even number of segments. In all other cases every choice of weights has the wrong sign somewhere in the square the samples come from; where the links are affine (the n = 2 entry of model_set_p) the loss is at least 1/4, that of always answering zero, on every batch of reflected samples. discontinuous with an even number of segments can reach loss 0. layer_type polynomial_2d always raises TypeError (dimensions is passed twice); continuous_nd evaluates one tensor product piecewise polynomial, which can be -x*y for n >= 2 and the labels themselves for an even number of segments.", "quantifier": "all n, numbers of segments, initial draws, weights reached by training, batches", "why_tests_cant": "Training one model per entry shows losses for one seed; that no weights can solve the problem, or that some do, is a statement about all weights and all points.", "anchors": ["examples/xor.py:NDFunctionApproximation", "examples/xor.py:XorDataset", "high_order_layers_torch/PolynomialLayers.py:Polynomial2D", "high_order_layers_torch/PolynomialLayers.py:PiecewiseND", "high_order_layers_torch/layers.py:high_order_fc_layers"]}
{"id": "C106", "title": "High orders stay bounded inside the interval and grow like Chebyshev polynomials outside", "statement": "For every n the squares of the n basis functions of get_lagrange_basis add up to at most 2 on [-length/2, length/2] (to at most 1 for n <= 3). Hence two sum layers that differ only in their weights differ in every output, at inputs in [-1,1] (or at all inputs with a periodicity of at most 2), by at most sqrt(2 in_features) times the Euclidean distance of the weights of this output: high orders do not amplify weights. Outside [-1,1] without periodicity they do: with weights of absolute value at most W and all |x_i| >= 1 the outputs are at most W times the sum over the inputs of T_{n-1}(1 + segments (|x_i| - 1)), T the Chebyshev polynomials, and weights that alternate between W and -W attain this at all x_i >= 1. This worst case is more than 1 beyond the ends and grows strictly with the distance and with the number of segments; with n = 5 and 10 segments weights of size 1 give 577 at x = 1.2. Polynomial layers have the bound T_{n-1}(2 |x_i| / length).", "quantifier": "all n, segments, widths, lengths, weights, and batches in the stated ranges", "why_tests_cant": "The bounds hold for all orders, all weights and all real inputs with explicit constants, and the worst case is exact; a test evaluates single layers at single points.", "anchors": ["high_order_layers_torch/LagrangePolynomial.py:chebyshevLobatto", "high_order_layers_torch/LagrangePolynomial.py:LagrangeBasis", "high_order_layers_torch/PolynomialLayers.py:Piecewise.forward", "high_order_layers_torch/PolynomialLayers.py:PiecewiseDiscontinuous.forward", "high_order_layers_torch/PolynomialLayers.py:Polynomial"]}
{"id": "C107", "title": "Gradient descent on one layer decreases the loss for a known range of learning rates and finds the best layer", "statement": "Take a sum layer (PiecewisePolynomial or PiecewiseDiscontinuousPolynomial, length 2) with inputs inside the interval, mean squared error and plain gradient descent with the whole batch. Every pass with learning rate lr > 0 succeeds and lowers the loss by at least (1/lr - q*in/out) times the squared change of the weights, where q is 1 for n <= 3 and 2 otherwise; the weights stay exactly as they are if and only if no layer of the same sizes has a smaller loss. So for lr < out/(q*in) every pass lowers the loss until it is the smallest possible. For lr <= out/(2*q*in) the loss after k passes exceeds that of any layer of the same sizes by at most the squared distance of the initial weights to those of that layer divided by 2*lr*k, so training comes arbitrarily close to the smallest loss from every initialization. These limits depend neither on the number of segments nor on the batch size. They cannot be improved much: with all inputs at the left end of the interval and targets 0 each pass multiplies the loss by (1 - 2*lr*in/out)^2, so the loss grows without bound for lr > out/in.", "quantifier": "all sum layers, numbers of nodes and segments, widths, batches inside the interval, targets, initial weights, learning rates and numbers of passes", "why_tests_cant": "A training test runs one data set with one learning rate for some passes; that the loss falls at every pass, for which learning rates it must, and that the limit is the smallest possible loss are statements about all data sets, weights and numbers of passes.", "anchors": ["high_order_layers_torch/PolynomialLayers.py:294-340", "high_order_layers_torch/PolynomialLayers.py:639-690", "high_order_layers_torch/Basis.py:492-513", "examples/function_example.py:117", "examples/xor.py:131"]}
{"id": "C108", "title": "With batch normalization as last layer, pooled networks have the same mean output on every training batch", "statement": "HighOrderFullyConvolutionalNetwork puts a normalization after every layer, also the last one, and then averages over the pixels. With normalization=BatchNorm2d and 2d layers (or BatchNorm1d, 1d layers and pooling='1d') in training mode, for all weights: the mean over the batch of every output equals the bias of the last normalization, whatever the inputs are; so the output for a batch of one sample is the vector of biases and does not depend on the sample. If some layer leaves a single value per channel (batch size times pixels is 1) the call is a ValueError. A VanillaVAE with such an encoder has, in training mode, batch means of mu and log_var that do not depend on the images, and gives all single images the same mu and log_var. Likewise every channel of the output of a HighOrderFullyDeconvolutionalNetwork with BatchNorm2d in training mode has the bias of its last normalization as mean over batch and pixels, so the reconstruction loss is at least the mean over the channels of the squared difference of these biases and the channel means of the images.", "quantifier": "all usable configurations, weights, normalization parameters, batch sizes, image sizes and inputs, in exact arithmetic", "why_tests_cant": "Tests run random batches and see outputs of the right shape that vary with the input; that their mean is a constant whatever is fed in shows only as an identity over all inputs and weights.", "anchors": ["high_order_layers_torch/networks.py:483-560", "high_order_layers_torch/networks.py:581-647", "high_order_layers_torch/networks.py:787-894"]}
{"id": "C109", "title": "The variational autoencoder example reconstructs 32 by 32 images only and shows its samples with wrong colours", "statement": "The network of examples/variational_autoencoder.py with the shipped configuration (and any n >= 1, segments >= 1, periodicity) is built, and for all weights: in training mode every batch of 32 x 32 images gives a loss, the reconstruction loss plus 0.0000256 times the divergence; the batch means of mu and log_var do not depend on the images, single images all have the same code; every channel of the reconstructions, and of the samples shown after an epoch, has the bias of the last normalization of the decoder as mean, so the loss is at least the mean squared difference between these biases and the channel means of the batch. In evaluation mode images of every size are accepted and the reconstruction is always 32 x 32: the evaluation step computes a loss for sizes 32 and, stretching them silently, for sizes 1, and raises RuntimeError for all others. The callback that 'undoes' the normalization before showing samples does not: a brightness is shown unchanged for exactly one value per channel, black is shown as more than 16 percent, white as less than 78 percent brightness.", "quantifier": "all orders, numbers of segments, periodicities, weights, normalization parameters, batches, noise and image sizes", "why_tests_cant": "An example is run on one data set and looked at; that the losses have a lower bound set by the biases, which image sizes fail, and that the displayed colours are off by a fixed map are statements about all weights and images.", "anchors": ["examples/variational_autoencoder.py:26-75", "examples/variational_autoencoder.py:129-149", "examples/variational_autoencoder.py:194-219", "config/variational_autoencoder.yaml:1-38", "high_order_layers_torch/networks.py:787-909"]}
{"id": "C110", "title": "Outputs change at most in proportion to inputs, with a factor that grows with the square of the order and with the segments", "statement": "For every continuous piecewise layer with length 2 and any weights, the outputs at two inputs in [-1, 1] differ by at most sqrt(2 n) (n - 1)^2 segments times the sum over the input features of the largest absolute weight of the link times the difference of the inputs. With a periodicity of at most 2 this holds for all inputs. The factor cannot be replaced by anything below (n - 1)^2 segments: layers with weights 1 and -1 reach every smaller slope next to the end of the interval. For discontinuous layers the bound holds for inputs in the same segments; across segments there is no such bound. A HighOrderMLP of continuous layers with periodicity at most 2, without normalization and dropout and with a nonlinearity that does not enlarge differences (relu) or none, is Lipschitz on all inputs: changing every input by at most d changes every output by at most d times the product over the layers of (number of inputs of the layer) sqrt(2 n) (n - 1)^2 segments W, where W bounds the absolute values of all weights.", "quantifier": "for all sizes, orders n, numbers of segments, weights and pairs of inputs; networks of any depth and width", "why_tests_cant": "The largest slope over all weights and inputs and its growth with n and segments are suprema over infinite sets; tests compare finitely many pairs.", "anchors": ["high_order_layers_torch/PolynomialLayers.py:Piecewise.forward", "high_order_layers_torch/PolynomialLayers.py:PiecewiseDiscontinuous.forward", "high_order_layers_torch/LagrangePolynomial.py:chebyshevLobatto", "high_order_layers_torch/LagrangePolynomial.py:LagrangeBasis", "high_order_layers_torch/utils.py:make_periodic", "high_order_layers_torch/networks.py:HighOrderMLP"]}
{"id": "C111", "title": "Which networks of the function example can follow its function", "statement": "The function of examples/function_example.py changes its sign ten times on the test grid of the script. So whatever the weights (however long one trains), a network of PolynomialFunctionApproximation is off by at least 2/5 (the amplitude is 1/2) at some test point if it is: continuous with segments*(n-1) < 10, discontinuous with segments*n <= 10, polynomial with n <= 10, fourier with n <= 10, product with n < 10, or standard (ReLU) with n <= 2. Of the fourteen networks that plot_results trains with the configured five segments these are six: discontinuous n = 1, 2, continuous n = 1, 2, polynomial n = 10 and fourier n = 10. Conversely continuous (n >= 2) and discontinuous networks have weights for which all predictions on [-1, 1] are within 76*sqrt(2n)/segments of the function. The argument optimizer of plot_results changes nothing: every network is trained with sophia. An unknown function, or an optimizer that is none of adam, lion, sophia, sparse_lion, lbfgs, is a ValueError (the latter when training starts); the branch of training_step for adahessian can therefore never be used.", "quantifier": "for all weights, initializations, n, segments, function names and optimizers; all inputs in [-1, 1] for the converse", "why_tests_cant": "Running the script shows how one training run ended; that no weights at all can do better, or that some can, is a statement about all weights.", "anchors": ["examples/function_example.py:simple_func", "examples/function_example.py:PolynomialFunctionApproximation.__init__", "examples/function_example.py:PolynomialFunctionApproximation.forward", "examples/function_example.py:PolynomialFunctionApproximation.configure_optimizers", "examples/function_example.py:plot_results", "high_order_layers_torch/layers.py:high_order_fc_layers"]}
{"id": "C112", "title": "Weights trained with SparseLion stay on a grid of the learning rate", "statement": "Whatever the gradients, after any number of steps every entry of a parameter is its initial value plus an integer multiple (at most the number of steps) of the learning rate of its group. So for a continuous layer the outputs at inputs whose features are all at nodes move on a grid as well: they are the initial outputs plus integer multiples of lr. If a wanted value there lies half way between two grid points, the error at this sample is at least lr/2 after every training with constant lr, however long. And training has a speed limit: for inputs in [-1, 1] the outputs of a sum layer have changed by at most C*in_features*steps*lr, with C = 1 for n <= 2 and C <= sqrt(2n) always.", "quantifier": "for all gradients (losses, batches), momenta, betas, learning rates, layer sizes, initial weights and numbers of steps", "why_tests_cant": "A training run shows one sequence of losses; that no schedule of batches with a constant learning rate can do better is a statement about all histories.", "anchors": ["high_order_layers_torch/sparse_optimizers/sparse_lion.py:update_fn", "high_order_layers_torch/sparse_optimizers/sparse_lion.py:SparseLion.step", "high_order_layers_torch/PolynomialLayers.py:Piecewise.forward"]}
{"id": "C113", "title": "Number of trainable numbers of a network", "statement": "sum(p.numel() for p in net.parameters()) of HighOrderMLP, also after any training, is P(in_width, hidden_width) + hidden_layers * P(hidden_width, hidden_width) + P(hidden_width, out_width), where P(i, o) is o*i + o for baseline, baseline_relu and product layers, o*i*(segments*(n-1)+1) for continuous(_prod), o*i*segments*n for discontinuous(_prod), o*i*n + o for polynomial and fourier (the o numbers of the parameter `result` are never read) and 0 for switch layers, each with the n and segments of its position; normalization without parameters, nonlinearity and dropout add nothing. With resnet=True the factor hidden_layers is min(1, hidden_layers): further hidden layers are not registered. LowOrderMLP has (in+1)*w + hidden_layers*(w+1)*w + (w+1)*out. Polynomial2D..5D layers have o*i*prod(n) + o, PiecewiseND layers i*o*prod(segments)*prod(n). So a continuous layer has as many numbers as a polynomial with segments*(n-1)+1 nodes (less the unused o), a discontinuous one segments-1 more per link, and doubling the segments adds segments*(n-1) per link.", "quantifier": "all layer types that can be built, widths, depths, numbers of nodes and segments, normalizations, nonlinearities, dropout, resnet or not, any training", "why_tests_cant": "a test counts the parameters of a few networks; the formula is about all architectures, and modules that are silently left out (Python lists) or counted once although they occur many times only show up in some of them", "anchors": ["high_order_layers_torch/networks.py:160-288", "high_order_layers_torch/networks.py:34-81", "high_order_layers_torch/PolynomialLayers.py:26-58", "high_order_layers_torch/PolynomialLayers.py:241-246", "high_order_layers_torch/PolynomialLayers.py:404-424", "high_order_layers_torch/PolynomialLayers.py:607-610", "high_order_layers_torch/ProductLayer.py:12-34", "high_order_layers_torch/layers.py:161-213"]}
{"id": "C114", "title": "Training and validation images of the example programs", "statement": "The data modules of the image examples (mnist, block_mnist, invariant_mnist with 60000 images of which base = 50000 can be trained on; variational_autoencoder, autoencoder with 50000 and base = 40000) split the data with a shuffled order that depends only on the seed. For every value of train_fraction the setup succeeds and no image is both a training and a validation image. For 0 <= train_fraction <= 1 there are floor(train_fraction*base) training and 10000 validation images, and with 1 every image is used. Larger fractions are accepted silently and take the training images from the validation images (the validation set can be empty), negative ones are accepted and train on all but floor(-train_fraction*base) images. The validation images follow the training images in the order, so they depend on the fraction: of the validation images of a run with fraction f, min(10000, floor(g*base) - floor(f*base)) are training images of a run with g >= f. In cifar100 the validation images are all images that are not trained on.", "quantifier": "all fractions (also above 1 and negative), all shuffled orders, exact arithmetic for train_fraction*base", "why_tests_cant": "a test sees the split for one seed and a few fractions; overlap of the subsets or leaks between runs depend on the order and on the fraction", "anchors": ["examples/mnist.py:161-173", "examples/block_mnist.py:97-111", "examples/invariant_mnist.py:63-75", "examples/variational_autoencoder.py:80-93", "examples/autoencoder.py:100-113", "examples/cifar100.py:33-48"]}
{"id": "C115", "title": "Configured networks do not take images", "statement": "ClassificationNet and RegressionNet hand the batch to the network of select_network unchanged, so a batch of images has four axes [batch, channels, height, width]. Every network that select_network makes for model_type high_order_conv or high_order_tail_focus, with any configuration, raises for every input with four axes, in training and in evaluation mode: one-dimensional layers cannot expand it, and after two-dimensional layers the LazyBatchNorm1d rejects the result. Networks for model_type high_order and high_order_input with piecewise, polynomial, Fourier or switch layers raise for every input that has not exactly two axes, also after any training. So examples/cifar100.py cannot run with the shipped configuration nor with any other one of these.", "quantifier": "all configurations for which select_network succeeds (convolutional), all widths, orders, segments (fully connected); all tensors with four axes (other than two axes), all weights", "why_tests_cant": "a test shows that one configuration fails; that no setting of channels, kernels, layer types or normalization can make the classifier work on images is a statement about all configurations", "anchors": ["high_order_layers_torch/modules.py:96-191", "high_order_layers_torch/modules.py:17-46", "high_order_layers_torch/modules.py:194-220", "high_order_layers_torch/networks.py:453-556", "high_order_layers_torch/networks.py:650-785", "high_order_layers_torch/PolynomialLayers.py:60-67", "high_order_layers_torch/PolynomialLayers.py:294-336", "examples/cifar100.py:77-100", "config/cifar100_config.yaml:1-22", "config/net/high_order_conv.yaml:1-14"]}
{"id": "C116", "title": "Gradients of a batch are the sums of the gradients of its parts", "statement": "For sequential networks of piecewise layers (sum and product variants), polynomial, Fourier, product and linear layers and relu, the gradients a backward pass gives do not depend on how the samples are batched. For any parameters, any batch (samples on kinks and segment boundaries included) and any gradient of the outputs: the gradient of every parameter is, entry by entry, the sum of the gradients from backward passes over the parts of any division of the batch, in any order; the gradient of each sample's input is the one computed with its part alone. With losses averaged over the batch the gradient of the batch is the average of the gradients of the parts weighted with their sizes, hence the plain average when all parts have the same size (gradient accumulation with the loss divided by the number of parts, data parallel training). With parts of different sizes the plain average is a different gradient (samples 1, 0, 0 in parts of one and two, one linear layer: 1/3 for the batch, 1 and 0 for the parts). Batch normalization breaks this (C108), and the normalization layers of the package are not part of the claim.", "quantifier": "All network depths, widths, parameters, batches, gradients of the outputs and divisions of the batch into parts.", "why_tests_cant": "A test compares one batch with one division of it for one network, away from kinks and up to rounding.", "anchors": ["high_order_layers_torch/PolynomialLayers.py:60-67", "high_order_layers_torch/PolynomialLayers.py:294-336", "high_order_layers_torch/PolynomialLayers.py:639-675", "high_order_layers_torch/Basis.py:391-409", "high_order_layers_torch/Basis.py:492-513", "high_order_layers_torch/ProductLayer.py:44-55", "high_order_layers_torch/layers.py:152-158", "high_order_layers_torch/networks.py:160-288"]}
{"id": "C117", "title": "Saved weights restore a network, except those of switch layers and resnets", "statement": "`load_state_dict` of the `state_dict` of one `HighOrderMLP` into another one built with the same arguments (layer types from `layers.py` other than the switch types, `resnet=False` or at most one hidden layer; any initial weights, any training since) succeeds, and the second network then computes the same function as the first, errors included; modules not registered in it are left alone. For networks of switch layers this fails silently: their state is empty although calls use their weights, so loading succeeds and changes nothing. With `resnet=True` no state whatsoever changes the weights of the hidden layers after the first, which every call uses; there is a network for which loading succeeds and the outputs still differ. In general `load_state_dict` succeeds exactly if the keys are those of the module and all shapes agree; otherwise it raises RuntimeError, and has by then overwritten all parameters whose key is there with the right shape.", "quantifier": "All configurations of the network, all weights and trainings, all states.", "why_tests_cant": "A test saves and loads a few networks, and notices lost weights only if it compares outputs after training a switch or resnet network.", "anchors": ["high_order_layers_torch/layers.py:152-158", "high_order_layers_torch/layers.py:161-168", "high_order_layers_torch/layers.py:171-222", "high_order_layers_torch/networks.py:160-288", "high_order_layers_torch/PolynomialLayers.py:42-58", "high_order_layers_torch/PolynomialLayers.py:241-246", "high_order_layers_torch/PolynomialLayers.py:607-610", "high_order_layers_torch/ProductLayer.py:24-30"]}
{"id": "C118", "title": "Refining into a layer of another width or class changes the target without checking that it fits", "statement": "interpolate(layer_out) and refine(layer_out) compare neither the widths nor the classes of the two layers. For sources of class PiecewisePolynomial or PiecewiseDiscontinuousPolynomial (interpolate; same segments, length, periodicity, n_in <= n_out) and for the continuous classes (refine; segments_out a multiple of segments_in), for all weights: if the target has at least the inputs and the outputs of the source the call succeeds; the links common to both compute what those of the source do and all other weights keep their values, so each output is that of the source plus the contribution of the additional inputs through the old weights, and additional outputs are unchanged. If the source has more outputs (and the same inputs) the call raises IndexError, and the target then computes the first outputs of the source. If the source has more inputs it raises IndexError with output 0 of the target overwritten and the other outputs as before. interpolate from a discontinuous into a continuous layer with two or more segments raises RuntimeError with part of the first link overwritten. interpolate from a continuous into a discontinuous layer succeeds, but stores the values in the layout of the source and leaves the last segments - 1 weights of every link, so the target computes another function (the line x on two segments becomes 0 at 1); with one segment it is exact.", "quantifier": "all weights, widths, orders, segments, lengths, periodicities and inputs", "why_tests_cant": "Tests refine between layers that fit; which weights are touched, and that nothing else is, for every pair of sizes and before every error cannot be enumerated.", "anchors": ["high_order_layers_torch/PolynomialLayers.py:interpolate_polynomial_layer", "high_order_layers_torch/PolynomialLayers.py:refine_polynomial_layer", "high_order_layers_torch/PolynomialLayers.py:Piecewise.refine"]}
{"id": "C119", "title": "Convolutional networks and autoencoders treat the images of a batch separately, in evaluation mode", "statement": "HighOrderFullyConvolutionalNetwork (1d and 2d layers, every pooling that gives an output), HighOrderFullyDeconvolutionalNetwork and HighOrderTailFocusNetwork, with all weights, without normalization or with normalizations that treat samples separately: the output for an image depends on that image alone, not on its place in the batch nor on the other images. The max-abs and max-center normalizations and BatchNorm2d in evaluation mode are such normalizations (the latter maps each pixel to (pixel - running_mean)/sqrt(running_var + eps) * weight + bias of its channel); BatchNorm2d in training mode is not, whenever its weight is not zero. BatchNorm2d raises ValueError for inputs without four axes. A VanillaVAE with such an encoder and decoder has mu and log_var that depend on the own image only, samples that depend on the own latent vector only, and reconstructions that depend on the own image and noise only; the loss, the reconstruction loss and the divergence of a batch are the means of those of its images. In particular this holds for the network of examples/variational_autoencoder.py in evaluation mode.", "quantifier": "all usable configurations, weights, running statistics, batch sizes, image sizes and inputs (the networks in every arithmetic, the losses in exact arithmetic)", "why_tests_cant": "Tests compare a few batches of random images; that no batch, no weights and no position can make one image influence another is a statement about all of them.", "anchors": ["high_order_layers_torch/networks.py:483-560", "high_order_layers_torch/networks.py:581-647", "high_order_layers_torch/networks.py:684-781", "high_order_layers_torch/networks.py:787-920", "examples/variational_autoencoder.py:26-149"]}
{"id": "C120", "title": "Gradients of convolutional networks are the derivatives of the computed function", "statement": "For the convolution layers of the library (1d, 2d and transposed; polynomial, Fourier, piecewise continuous and discontinuous expansions; any kernel, stride, padding, dilation and positive periodicity), for BatchNorm1d/BatchNorm2d in training and evaluation mode, for adaptive average pooling, flattening and the fully connected layers: for every differentiable loss of the output the backward pass gives the derivative of the loss by the whole input and by every entry of every parameter, at all inputs away from inner segment boundaries and turning points of the periodic wrap. In training mode this includes the dependence of the batch statistics on the input. The same holds for all sequences of such modules with fitting shapes, in particular for HighOrderFullyConvolutionalNetwork and HighOrderFullyDeconvolutionalNetwork as their constructors build them, with any later weights, with or without batch normalization, with pooling or without. Weights of a piecewise convolution whose segment no pixel of their channel visits get a gradient of exactly 0 whatever the loss.", "quantifier": "all layers, weights, batches, image sizes, network depths and differentiable losses (exact arithmetic)", "why_tests_cant": "Numerical gradient checks look at single points with a tolerance; that the gradient is the derivative for all kernels, strides, paddings and batches, and exactly zero for unused weights, cannot be sampled.", "anchors": ["high_order_layers_torch/FunctionalConvolution.py:215-218", "high_order_layers_torch/FunctionalConvolution.py:314-320", "high_order_layers_torch/FunctionalConvolution.py:441-447", "high_order_layers_torch/FunctionalConvolution.py:568-574", "high_order_layers_torch/FunctionalConvolutionTranspose.py:123-129", "high_order_layers_torch/Basis.py:67-378", "high_order_layers_torch/networks.py:483-556", "high_order_layers_torch/networks.py:581-647"]}
{"id": "C121", "title": "Gradients pass correctly through the normalizations of the library", "statement": "For every normalization of the library (max_abs, max_center and l2 normalization, their variants for the last dimension and for whole samples, and the layer normalization after its first call): for every differentiable loss of the output the backward pass gives the derivative of the loss by the whole input and by every entry of the weight and bias of the layer normalization. The dependence of maxima, minima, norms, means and variances on the input is included. For l2 and layer normalization this holds at all inputs, zero included; for max_abs wherever every line is zero or has a single entry of greatest absolute value; for max_center wherever every line has a single greatest and a single smallest entry. It holds whichever index torch.max and torch.min return for equal entries. The same holds for all sequences of these modules and the modules of C120 with fitting shapes, in particular for HighOrderMLP with a normalization and with relu or no nonlinearity. Away from these points it can fail: for a line of two equal entries max_center normalization is differentiable with the derivatives \u00b11/(2 eps), but if torch.max and torch.min return the same index the backward pass gives the gradient 0.", "quantifier": "all shapes, inputs, eps > 0, weights, network depths and differentiable losses (exact arithmetic)", "why_tests_cant": "Numerical gradient checks look at single points with a tolerance, and the quotient by a maximum changes form from point to point; the exceptional points with equal entries are never hit by random inputs.", "anchors": ["high_order_layers_torch/utils.py:8-65", "high_order_layers_torch/layers.py:21-145", "high_order_layers_torch/networks.py:161-288"]}
{"id": "C122", "title": "Gradients of networks with residual sums, switch layers and modules used more than once", "statement": "HighOrderMLP with resnet=True calls modules more than once (SumLayer adds the output of the entry before it in the list to that of the hidden layer), and a switch layer multiplies the outputs of two layers for the same input. For every HighOrderMLP with or without resnet, of switch layers or any other layers, with or without a normalization of the library, with relu or no nonlinearity and without dropout: the network is total on batches of its width, and for every differentiable loss of its output at points where no input of a module is a breakpoint the backward pass gives the derivative of the loss by the input, and accumulates in .grad of every entry of every parameter of the modules it uses the derivative of the loss by that entry, counted over all uses of the module together. Modules that are not used get no gradient. The same holds for every combination of sums, products and compositions of such modules, each used any number of times.", "quantifier": "all networks, batch sizes, inputs off the breakpoints, weights and differentiable losses (exact arithmetic)", "why_tests_cant": "Gradient checks compare a few weights at a few points; that the contributions of several uses are all counted, and counted once, for every depth is a statement about all networks.", "anchors": ["high_order_layers_torch/networks.py:161-288", "high_order_layers_torch/layers.py:152-247"]}
{"id": "C123", "title": "One small gradient step on a network lowers the loss", "statement": "Take a HighOrderMLP without dropout, with or without resnet, of switch layers or any other layers, with or without a normalization of the library, at any point of its training, a batch for which no input of a module is a breakpoint, and a differentiable loss of the output. Call loss.backward() and take one step of plain gradient descent (p - lr*p.grad) on the parameters of any selection of its modules. For every learning rate the network still runs on the batch; as a function of lr the loss after the step starts at the loss before the step with derivative minus the sum of the squares of all entries of the gradients of these parameters. So there is a positive limit below which every learning rate strictly lowers the loss, unless all these entries are zero, and then the step does not change the output for any learning rate. In particular parameters of modules that are used several times move by the sum over all uses and parameters of unused modules do not move. The same holds for every combination of sums, products and compositions of such modules.", "quantifier": "all networks, selections of trained modules, batch sizes, inputs off the breakpoints, weights and differentiable losses (exact arithmetic)", "why_tests_cant": "A training test sees one data set and a few learning rates; that the direction of .grad always is one of descent needs the derivative in all parameters at once, not in one at a time.", "anchors": ["high_order_layers_torch/networks.py:161-288", "high_order_layers_torch/layers.py:152-247"]}
{"id": "C124", "title": "Refinement between networks of different depth", "statement": "interpolate_high_order_mlp(a,b) and hp_refine_high_order_mlp(a,b) for networks whose layers at the same position fit as in C26/C27, but whose numbers of hidden layers differ (so that the output layer of the less deep network must have as many outputs as a hidden layer): both return normally and leave a unchanged, but the function is not preserved. If b is deeper, b afterwards computes the function of a followed by its own remaining modules with the weights they had; if b is less deep, a is b followed by the remaining modules of a. If b has a normalization, nonlinearity or dropout and a has none, interpolate_high_order_mlp raises AttributeError, with the input layer of b already overwritten and everything else untouched. If a has a nonlinearity and b has none, layers are paired with the wrong ones without an error: with one hidden layer each, the hidden layer of b keeps its weights and its output layer becomes the hidden layer of a.", "quantifier": "all depths, widths, orders, segments, weights and inputs, any training before; the shifted pairing for step functions of width one with all weights and every nonlinearity", "why_tests_cant": "zip stops silently at the shorter list of modules, so nothing fails; a test would have to compare the networks for each combination of depths and options.", "anchors": ["high_order_layers_torch/networks.py:interpolate_high_order_mlp", "high_order_layers_torch/networks.py:hp_refine_high_order_mlp", "high_order_layers_torch/layers.py:SwitchLayer.interpolate"]}
{"id": "C125", "title": "Small changes of all weights of a network change its outputs in proportion", "statement": "Take a HighOrderMLP of continuous layers with a periodicity of at most 2, without resnet, normalization and dropout, and with a nonlinearity that does not enlarge differences (such as ReLU) or none, at two times after its construction. If all weights are at most W in absolute value at the first time and none differs by more than d between the times, then for every batch of any inputs the outputs differ by at most K d. K depends only on the widths, the number of hidden layers, the orders, the segments and W: it is the sum over the layers of width sqrt(2 n), multiplied for each later layer by width sqrt(2 n) (n - 1)^2 segments W. In particular k steps of SparseLion with learning rate lr, on whatever gradients, change no output by more than K k lr. For discontinuous layers there is no such K: in two layers one after the other an arbitrarily small change of the weights of the first can change the output by 2.", "quantifier": "all constructor arguments of the described kind, random draws, pairs of later states, weights, batches, gradients and numbers of steps", "why_tests_cant": "A bound for all pairs of states of a network and all inputs (also outside the training range) cannot be sampled; the constant multiplies up over the layers, so that a test on small networks says nothing about deep ones.", "anchors": ["high_order_layers_torch/networks.py:HighOrderMLP", "high_order_layers_torch/utils.py:make_periodic", "high_order_layers_torch/PolynomialLayers.py:PiecewisePolynomial", "high_order_layers_torch/sparse_optimizers/sparse_lion.py:SparseLion"]}
{"id": "C126", "title": "A network with periodicity folds its inputs, and cannot tell mirror images apart", "statement": "A HighOrderMLP built with periodicity p whose input layer is a piecewise, polynomial or product layer returns the same output for two inputs whose entries, each in its own way, are shifted by multiples of 2p or mirrored at p/2: with any weights, any hidden and output layers, normalization, nonlinearity, dropout, and with or without resnet. In any arithmetic the output is determined by make_periodic of the inputs. So if the network is within e of a target at two such inputs then the target differs by at most 2e between them: nothing outside [-p/2, p/2] can be learned independently. The same holds for HighOrderFullyConvolutionalNetwork when its first layer is not a Fourier convolution, and for HighOrderFullyDeconvolutionalNetwork, whatever follows the first layer. It does not hold for HighOrderTailFocusNetwork, which returns the tail of its input unchanged (two inputs with the same output have the same tail), although all signals after the first layer agree. Linear, Fourier, switch and PiecewiseND layers are the same for every periodicity, so a network starting with one of them is not folded by it.", "quantifier": "all constructor arguments of the described kinds, random draws, later states, inputs of any shape and size", "why_tests_cant": "Equality of outputs at all mirror images of all inputs, for every architecture and every state of training, is a statement about infinitely many inputs; tests at a few points of one layer would not notice an architecture that lets an input pass by the folding, as one of them does.", "anchors": ["high_order_layers_torch/networks.py:HighOrderMLP", "high_order_layers_torch/networks.py:HighOrderFullyConvolutionalNetwork", "high_order_layers_torch/networks.py:HighOrderFullyDeconvolutionalNetwork", "high_order_layers_torch/networks.py:HighOrderTailFocusNetwork", "high_order_layers_torch/utils.py:make_periodic"]}
{"id": "C127", "title": "Every output pixel of a convolutional network is one fixed function of the window of the image it sees", "statement": "For a HighOrderFullyConvolutionalNetwork of 2d (or 1d) layers, with any weights, let S be the product of the strides, R = 1 + sum of (kernel_t - 1) * (product of the strides before layer t) and P the sum of padding * (product of the strides before layer t). If there are no normalizations or they act on each pixel separately (BatchNorm2d/BatchNorm1d in evaluation mode does), then for images and batches of all sizes channel o of pixel (i, j) of the last layer is F_o of the R x R window of the image that starts at (i*S - P, j*S - P), whenever this window lies in the image, with the same F for all pixels, images and batches; nothing outside the window matters. Hence moving the image by multiples of S moves the result, and without padding running the network on a crop at a multiple of S gives exactly the crop of the result of the whole image. The max-abs normalization of the library is not of this kind: it divides by the largest magnitude of the whole image, so it destroys the property.", "quantifier": "all accepted 2d or 1d network configurations, all weights, pixelwise normalizations, image sizes, batch sizes and pixels; every arithmetic", "why_tests_cant": "A test compares a few shifted images for one network; the claim is that one function serves every pixel of every image of every size.", "anchors": ["high_order_layers_torch/networks.py:444-560", "high_order_layers_torch/FunctionalConvolution.py", "high_order_layers_torch/utils.py:max_abs_normalization_nd"]}
{"id": "C128", "title": "A SparseLion step lowers the loss of a network unless momentum opposes the gradient", "statement": "After loss.backward() on a HighOrderMLP without dropout at a batch where its layers are smooth, for a differentiable loss, one SparseLion.step() for the parameters of any of its modules always succeeds whatever the momentum (exp_avg of the shape of the parameter, or none yet), weight decay and betas, changes no module the network does not use, and leaves a network that runs on the batch. The loss after the step as a function of the learning rate starts at the loss before the step with derivative minus the sum over all entries of these parameters of g * sign(beta1 * m + (1 - beta1) * g), g the gradient and m the momentum. Hence for all small enough learning rates the loss is strictly lower if this sum is positive and strictly higher if it is negative. On the first step the sum is the sum of |g|; for 0 <= beta1 < 1 it is positive if no momentum entry has the opposite sign of its gradient and some gradient is not zero; it is negative if every nonzero gradient is outvoted by its momentum (so a single step can raise the loss however small the learning rate). If all gradients are zero the step changes no parameter, whatever the momentum.", "quantifier": "every HighOrderMLP (kinds, widths, depth, normalization module, periodicity), state of training, batch of smooth points, differentiable loss, list of trained modules, optimizer state, weight decay, betas, learning rate", "why_tests_cant": "A test trains one network for some steps and sees the loss fall; it cannot see the rate at which every network's loss moves under the sign update, nor that it depends only on signs of averages of momentum and gradient, nor that zero gradients freeze parameters with momentum.", "anchors": ["high_order_layers_torch/sparse_optimizers/sparse_lion.py", "high_order_layers_torch/networks.py", "high_order_layers_torch/layers.py", "high_order_layers_torch/LagrangePolynomial.py", "high_order_layers_torch/PolynomialLayers.py"]}
{"id": "C129", "title": "Different positions get different sinusoidal embeddings, and how far apart", "statement": "ClassicSinusoidalEmbedding(dim) with even dim >= 4, in exact arithmetic: two positions of a tensor get the same embedding vector exactly if they are equal, except for dim 4, 6 and 10 (dim/2 - 1 divides 4), where they get the same vector exactly if they differ by an integer multiple of 20000*pi. Hence positions that differ by a nonzero rational number, such as indices of a sequence, never collide in any dimension. The distance of two embeddings is at most sqrt(dim/2) times the difference of the positions, at least 2/pi times the difference for positions at most pi apart, and at least 1/(5000*pi) times the difference for positions at most 10000*pi apart.", "quantifier": "every even dim >= 4, every tensor with at least one axis, every pair of its entries (real numbers)", "why_tests_cant": "Distinctness of all pairs of positions is an infinite claim that rests on pi and roots of 10000 being irrational; a test samples finitely many positions in floating point.", "anchors": ["high_order_layers_torch/positional_embeddings.py"]}
{"id": "C130", "title": "One small gradient step lowers the loss of a convolutional network, and the direction of the step is the steepest-descent direction of all parameters together", "statement": "For every list of modules with matching shapes - convolutions and transposed convolutions of the library, BatchNorm in training or evaluation mode, average pooling, flatten, fully connected layers and the library's normalizations including LazyLayerNormLastDim - and in particular for every HighOrderFullyConvolutionalNetwork and HighOrderFullyDeconvolutionalNetwork that can be constructed, with any values of the parameters: at every input at which the modules are differentiable, the derivative of a differentiable loss along ANY direction in the space of all parameters of all modules, moved simultaneously, is the inner product of the direction with the gradients that the backward pass returns. One step of torch.optim.SGD on the parameters of any selection of the modules runs without error, leaves all other modules unchanged, and has the derivative minus the sum of the squares of all selected gradient entries at learning rate zero. If one of these entries is not zero, there is a positive bound such that every smaller positive learning rate makes the loss strictly smaller; if all are zero, the step changes no output at any input, whatever the learning rate. The network after the step is again the same network, with each weight w replaced by w - lr * grad.", "quantifier": "Unbounded in the number and kinds of modules, their sizes, the batch, the parameters, the loss, the selection of trained modules, and the direction; the bound on the learning rate depends on all of them.", "why_tests_cant": "Tests train for a few epochs and check that a printed loss went down; they cannot show that the gradients of convolution weights, batch normalization and layer normalization parameters together form the gradient of the loss as a function of all parameters at once, nor that small enough steps always help.", "anchors": ["high_order_layers_torch/networks.py", "high_order_layers_torch/FunctionalConvolution.py", "high_order_layers_torch/FunctionalConvolutionTranspose.py", "high_order_layers_torch/layers.py", "high_order_layers_torch/Basis.py", "high_order_layers_torch/utils.py"]}
{"id": "C131", "title": "The numbering of inputs, hidden units and outputs of a network does not matter: renumbering them consistently gives other weights and the same function", "statement": "Take a HighOrderMLP whose layers the library can build (linear, piecewise continuous or discontinuous, their product versions, polynomial, Fourier, product, and switch layers), with relu or no nonlinearity, with or without resnet, and with no normalization or one that treats all columns alike (max_abs, max_center, l2 and their variants), with any values of the parameters. Reorder the inputs, the hidden units of each layer (with resnet: all hidden layers in the same way, since their outputs are added) and the outputs, and move the weights accordingly: first axis by the outputs, second axis by the inputs, the entries of one link function stay together, the biases by the outputs. The network with these weights returns for the batch with reordered columns exactly the outputs of the original network with reordered columns. For networks whose layers are single modules, a state of the same shapes with these weights exists for all reorderings, all other modules unchanged; reordering only hidden units changes no output at any input. The same holds for every single layer and for every network put together from layers by composition, sums and products. It does not hold with a layer normalization whose weight and bias differ between columns: there is a concrete counterexample.", "quantifier": "Unbounded in the widths, the depth, the batch size, the reorderings, the parameters, the inputs, n, segments and periodicity.", "why_tests_cant": "A test can permute the units of one network for one batch; it cannot show that no kind of layer treats some unit specially (for instance through the layout of the basis indices, the reshape of weights, or a reduction over the wrong axis) for all sizes and all permutations.", "anchors": ["high_order_layers_torch/networks.py", "high_order_layers_torch/layers.py", "high_order_layers_torch/PolynomialLayers.py", "high_order_layers_torch/ProductLayer.py", "high_order_layers_torch/LagrangePolynomial.py", "high_order_layers_torch/Basis.py", "high_order_layers_torch/utils.py"]}
{"id": "C132", "title": "Training does not depend on the numbering of inputs, hidden units and outputs; hidden units that start equal stay equal", "statement": "Take a network without normalization whose layers have parameters (linear, piecewise continuous or discontinuous, their product versions, polynomial, Fourier, product, and switch layers), with relu or no nonlinearity, with or without resnet, in any state, and the same network with inputs, hidden units and outputs renumbered as in C131. Train both by gradient descent (forward pass, backward pass, step on any chosen modules, any learning rates, any number of batches) or with the library's SparseLion optimizer (any betas and weight decay; its momenta renumbered like the parameters), the second on the batches with renumbered input columns and with losses that treat the renumbered outputs alike (for the mean squared error: targets renumbered like the outputs). Then neither run raises, every gradient of a parameter and of the inputs in the second run is the renumbered one of the first, the parameters after every step are the renumbered ones, and the trained networks compute the same up to the renumbering of inputs and outputs. In particular, if a network starts in a state that is unchanged by exchanging hidden units (equal weights for them in and out), it stays in such a state for ever: no amount of training makes equal units different.", "quantifier": "Unbounded in the widths, the depth, the number and sizes of the batches, the learning rates, the set of trained modules, the renumberings, the parameters, the inputs, n, segments and periodicity.", "why_tests_cant": "A test can compare two short runs with one permutation; floating point differences then grow with training, and no test can show that no layer's backward pass treats some unit specially for all sizes, permutations and lengths of training.", "anchors": ["high_order_layers_torch/networks.py", "high_order_layers_torch/layers.py", "high_order_layers_torch/PolynomialLayers.py", "high_order_layers_torch/ProductLayer.py", "high_order_layers_torch/LagrangePolynomial.py", "high_order_layers_torch/Basis.py", "high_order_layers_torch/utils.py", "high_order_layers_torch/sparse_optimizers/sparse_lion.py"]}
{"id": "C133", "title": "Gradient descent keeps the differences of the levels of the links to an output for ever; with it the weights of a layer are determined by its function", "statement": "A layer that adds its links (piecewise continuous or discontinuous, polynomial, Fourier) does not change when a constant is added to the function of one input and subtracted from that of another input to the same output (C89). Call level of a link the sum of its weights (for Fourier layers the weight of the constant function). In any network built of the library's modules (normalizations, resnet, shared layers, product and switch layers elsewhere included), in any state, training by gradient descent with any losses, batches, learning rates and any choice of trained modules never changes the difference of the levels of two links to the same output of such a layer: after any number of steps it is what it was at initialization, exactly. So two runs from the same initial weights of a piecewise layer on [-1,1], whatever else differs between them, in which the layer ends with the same function end with the same weights. The reason is that the gradients of the weights of a link sum to the gradient of the output, wherever the input lies, because the basis functions sum to one. Neither holds elsewhere: in the product layers the gradients of the levels differ between links, and SparseLion, which moves each weight that has a gradient by the learning rate, changes the difference of the levels in one step.", "quantifier": "Unbounded in the widths, depth, numbers of nodes and segments, batch sizes, number of steps, inputs, weights, learning rates and losses.", "why_tests_cant": "A conservation law over training runs of every length, for every network and all data; a test sees single runs in rounded arithmetic. The counterexamples show that it is a property of the pair of layer and optimizer, not of either.", "anchors": ["high_order_layers_torch/layers.py", "high_order_layers_torch/PolynomialLayers.py", "high_order_layers_torch/LagrangePolynomial.py", "high_order_layers_torch/networks.py", "high_order_layers_torch/Basis.py", "high_order_layers_torch/sparse_optimizers/sparse_lion.py"]}
{"id": "C134", "title": "Gradient descent keeps the differences of the levels of the links of convolutions; padding is what breaks it between kernel positions", "statement": "A convolution of the library (polynomial, piecewise continuous or discontinuous, Fourier; 1d, 2d, transposed) has for every output channel, input channel and position in the kernel a link, a one dimensional function given by a few weights. Call its level the sum of these weights (for Fourier series the weight of the constant). Adding a number to the weights of one link and subtracting it from those of another link of the same output channel at the same position of the kernel changes no output; without padding the two positions may differ too (not for transposed convolutions). Training by gradient descent never moves along these directions: in any network of convolutions, normalizations, pooling, nn.Flatten and fully connected layers, the difference of the levels of two such links stays exactly what it was at initialization, for any images, sizes, losses, learning rates, number of steps and choice of trained modules. For the networks the classes HighOrderFullyConvolutionalNetwork and HighOrderFullyDeconvolutionalNetwork construct, with any weights and with or without batch normalization, the training loop moreover never fails on images of sizes the network takes. With padding it is false between different positions of the kernel: on a line of one pixel with a kernel of three and padding one only the middle link gets a gradient.", "quantifier": "Unbounded in the numbers of channels, kernel sizes, strides, dilations and paddings, image sizes, numbers of nodes and segments, depth, batch sizes, number of steps, pixels, weights, learning rates and losses.", "why_tests_cant": "A conservation law over training runs of every length, for every convolutional network and all data; a test sees single runs in rounded arithmetic. Which links are tied depends on padding and on the kind of convolution, which a test on one configuration does not tell.", "anchors": ["high_order_layers_torch/FunctionalConvolution.py", "high_order_layers_torch/FunctionalConvolutionTranspose.py", "high_order_layers_torch/networks.py", "high_order_layers_torch/layers.py", "high_order_layers_torch/LagrangePolynomial.py", "high_order_layers_torch/Basis.py"]}
{"id": "C135", "title": "The signs of inputs and hidden units do not matter", "statement": "Changing the sign of inputs of a layer is the same as changing its weights: for continuous piecewise and polynomial layers (default length 2 for the piecewise ones) the numbers of every link of such an input are put in the opposite order, for Fourier layers the coefficients of sines change their sign, for linear and product layers the weights do. For layers that sum up their links the sign of an output can be changed by changing the sign of its weights. So in a network of linear, continuous, polynomial or Fourier layers without nonlinearity (with or without max-abs or L2 normalization, also with resnet if the signs are the same in all hidden layers), changing the signs of hidden units in this way gives other weights of the same shapes and the same outputs for all inputs. In particular the basis, the segments and the periodic wrap treat both directions alike. For discontinuous layers it holds unless an input whose sign is changed is the common end of two segments (which belongs to the right one). It does not hold for relu.", "quantifier": "all layers, networks, weights, batches, inputs (also outside [-1, 1], at ends of segments, with periodicity) and choices of signs", "why_tests_cant": "It is a statement about two sets of weights and all inputs; tests compute at some inputs, and asymmetries of nodes, segments or the periodic wrap show only at some of them.", "anchors": ["high_order_layers_torch/PolynomialLayers.py", "high_order_layers_torch/LagrangePolynomial.py", "high_order_layers_torch/ProductLayer.py", "high_order_layers_torch/networks.py", "high_order_layers_torch/utils.py"]}
{"id": "C136", "title": "Training does not depend on the signs of the units", "statement": "Take a network of linear, polynomial, Fourier and product layers without periodicity (also with sums and products of modules and modules used several times); the modules that read the inputs of the network may also be piecewise continuous layers and layers with periodicity. Change the signs of any units, and the weights of the modules accordingly (links given by values in the opposite order, coefficients of sines and weights of linear and product layers with the other sign). Then the gradients of all parameters, for inputs and gradients of outputs with changed signs, are the gradients with changed signs, for all inputs, also at ends of segments. So training with gradient descent or with the library's SparseLion (any betas and weight decay, its state changed like the parameters), any number of steps with any rates and any trained modules, gives the network with changed signs after training. If only signs of hidden units are changed, training on the same batches always gives networks that compute the same. For HighOrderMLP (no normalization, nonlinearity or periodicity; linear, polynomial or Fourier layers, the first one also piecewise continuous; with or without resnet) this is stated for the network that the constructor builds, in every state. So a hidden unit to which only zeros lead, and from which only links lead on that do not depend on its sign, stays so: training never brings it to life. For piecewise layers behind other trained layers this fails: at a kink the gradient of the inputs is that of the right segment for either sign.", "quantifier": "all widths, numbers of nodes and segments, parameters, signs, batches, losses that count outputs of other signs alike, learning rates and numbers of steps, betas and weight decay", "why_tests_cant": "Tests train from a few seeds; whether a symmetry of the parametrization is kept exactly by every step of training is a statement about all parameters and batches.", "anchors": ["high_order_layers_torch/PolynomialLayers.py", "high_order_layers_torch/LagrangePolynomial.py", "high_order_layers_torch/Basis.py", "high_order_layers_torch/ProductLayer.py", "high_order_layers_torch/layers.py", "high_order_layers_torch/networks.py", "high_order_layers_torch/sparse_optimizers/sparse_lion.py"]}
{"id": "C137", "title": "The order of the samples in a batch does not matter, and training on symmetric data keeps a symmetric network symmetric everywhere", "statement": "Take a network of linear, piecewise, polynomial, Fourier, product and relu layers (also with sums and products of modules and modules used several times). Training by gradient descent or with SparseLion on the same batches with their samples (and targets) in another order gives exactly the same parameters; for a HighOrderMLP without normalization (all kinds of layers, with or without resnet and relu) the whole state after gradient descent is the same. If the parameters of a network (as in C136) are the same after changing the signs of some inputs, hidden units and outputs (for instance an odd function: odd links and no constants), and every batch contains with every sample its mirror image, with a loss that does not distinguish them (for instance squared errors with mirrored targets), then after any number of steps of gradient descent or of SparseLion the parameters still are the same after changing the signs, and the function is symmetric for all inputs, not only on the samples; also stated for the networks HighOrderMLP builds from such layers. With batches that are not symmetric the symmetry is lost: one linear layer and one sample suffice.", "quantifier": "all networks of these layers, parameters, signs, permutations of samples, symmetric batches, losses that do not distinguish mirror images, learning rates, trained modules, numbers of steps, betas and weight decay", "why_tests_cant": "Tests shuffle a few batches and compare up to rounding; that a symmetry survives all of training, for all networks, batches and inputs outside the data, is not seen in finitely many runs.", "anchors": ["high_order_layers_torch/PolynomialLayers.py", "high_order_layers_torch/LagrangePolynomial.py", "high_order_layers_torch/Basis.py", "high_order_layers_torch/ProductLayer.py", "high_order_layers_torch/layers.py", "high_order_layers_torch/networks.py", "high_order_layers_torch/sparse_optimizers/sparse_lion.py"]}
{"id": "C138", "title": "Training on data that do not distinguish some inputs keeps a network that does not distinguish them", "statement": "Take a network as in C132 (linear, piecewise, polynomial, Fourier, product and switch layers with relu or no nonlinearity, sums, products, modules used several times) whose parameters are the same after renumbering inputs, hidden units and outputs, for instance one whose output does not change when two inputs are exchanged. If every batch contains with every sample the renumbered sample, with a loss that does not distinguish them (for instance squared errors with renumbered targets), then after any number of steps of gradient descent or of SparseLion, with any rates, betas and weight decay, on any modules, the parameters are still the same after renumbering, and for all inputs, also those that are not in the data, renumbered inputs give renumbered outputs. For a HighOrderMLP without normalization whose layers are single modules this is stated for the network that the constructor builds, in any state with such parameters.", "quantifier": "all networks of these layers, parameters, bijections of units, batches closed under the renumbering, losses that do not distinguish renumbered samples, learning rates, trained modules, numbers of steps", "why_tests_cant": "Tests compare a few outputs after a few steps up to rounding; that the symmetry survives all of training and holds for inputs outside the data is a statement about all networks, batches and steps.", "anchors": ["high_order_layers_torch/PolynomialLayers.py", "high_order_layers_torch/LagrangePolynomial.py", "high_order_layers_torch/Basis.py", "high_order_layers_torch/ProductLayer.py", "high_order_layers_torch/layers.py", "high_order_layers_torch/networks.py", "high_order_layers_torch/sparse_optimizers/sparse_lion.py"]}
{"id": "C139", "title": "Repeated, weighted and padded samples do not change training", "statement": "Take a network of linear, piecewise, polynomial, Fourier, product and switch layers with relu or no nonlinearity, sums, products and modules used several times (for instance HighOrderMLP without normalization). Replace every batch by one whose rows are copies of its samples, in any order and number, with weights in the loss that add up to 1 for every sample, and further rows of weight 0 that may hold anything (padding): for instance every sample k times with a mean loss. Then gradient descent, and SparseLion from any state, give for any number of steps, any rates and any trained modules the same parameters (and the same optimizer state). With weights that do not add up to 1 (a sum over repeated rows) the parameters differ.", "quantifier": "all networks of these layers, parameters, batches and batches of copies of their samples, weights, contents of padding rows, losses whose gradients have these weights, learning rates, trained modules, numbers of steps", "why_tests_cant": "Tests compare one repeated or padded batch up to rounding; that no row influences the gradient of another and that gradients are linear in the weights, through all layers, modules and steps, is a statement about all networks and batches.", "anchors": ["high_order_layers_torch/PolynomialLayers.py", "high_order_layers_torch/LagrangePolynomial.py", "high_order_layers_torch/Basis.py", "high_order_layers_torch/ProductLayer.py", "high_order_layers_torch/layers.py", "high_order_layers_torch/networks.py", "high_order_layers_torch/sparse_optimizers/sparse_lion.py"]}
{"id": "C140", "title": "The scale of the loss: it can be traded for the learning rate, and with SparseLion it does not matter", "statement": "Take a network of linear, piecewise, polynomial, Fourier, product and switch layers with relu or no nonlinearity, sums, products and modules used several times (for instance HighOrderMLP without normalization). Gradient descent with the loss of every batch multiplied by a factor that is not 0 (another one for every batch) and the learning rate divided by it gives the same parameters, for any number of steps. SparseLion with the loss multiplied by one positive factor gives the same parameters with the same learning rates, from its first step or from a state multiplied by the factor, and its state is then multiplied by the factor: sums and means over the samples train alike. Gradient descent with the same rate gives other parameters.", "quantifier": "all networks of these layers, parameters, batches, losses, factors, learning rates, betas, weight decay, trained modules, numbers of steps", "why_tests_cant": "Tests compare a few factors up to rounding; that the whole course of training is the same for every factor, network and data is a statement about all of them, and for SparseLion it depends on which entries its mask leaves alone.", "anchors": ["high_order_layers_torch/sparse_optimizers/sparse_lion.py", "high_order_layers_torch/PolynomialLayers.py", "high_order_layers_torch/LagrangePolynomial.py", "high_order_layers_torch/Basis.py", "high_order_layers_torch/ProductLayer.py", "high_order_layers_torch/layers.py", "high_order_layers_torch/networks.py"]}
{"id": "C141", "title": "Batches that give no gradient change nothing, also when SparseLion has momentum", "statement": "Take a network of linear, piecewise, polynomial, Fourier, product and switch layers with relu or no nonlinearity, sums, products and modules used several times. If the derivative of the loss at the outputs for every batch is zero, for instance because the network computes the targets exactly, then any number of steps of gradient descent with any rates changes no parameter, and neither does SparseLion, whatever momentum earlier steps have left and whatever its betas and weight decay; that momentum also stays as it is. (Lion with momentum would move on.)", "quantifier": "all networks of these layers, parameters, batches whose loss has derivative zero at the outputs, optimizer states, learning rates, betas, weight decay, trained modules, numbers of steps", "why_tests_cant": "Tests look at a few steps of one network; that a perfect fit is a fixed point for every state of the optimizer is a statement about all networks and states, and depends on the mask of SparseLion being taken from the gradient in every step.", "anchors": ["high_order_layers_torch/sparse_optimizers/sparse_lion.py", "high_order_layers_torch/PolynomialLayers.py", "high_order_layers_torch/LagrangePolynomial.py", "high_order_layers_torch/Basis.py", "high_order_layers_torch/ProductLayer.py", "high_order_layers_torch/layers.py", "high_order_layers_torch/networks.py"]}
