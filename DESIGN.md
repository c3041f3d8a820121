# Design: a Lean 4 model of pytspl and its proofs

`/repo` is read as text and never run. `/verif/lean` holds a Lake project; every
module is under `lean/Verif/` and imported from `lean/Verif.lean`.

## 1. Layout

| directory | contents |
|---|---|
| `Verif/Model/*` | the model: one Lean definition per Python function, branch by branch, each citing file and lines |
| `Verif/Spec/*` | small specification vocabulary (what "oriented", "orthogonal", "is an eigenvalue of" mean), written without model helpers |
| `Verif/Lemmas/*` | general mathematics used in proofs; nothing about the model |
| `Verif/Props/*` | the property theorems, named `Cnn_...` after `properties.jsonl`, each next to an `example` meeting its hypotheses |
| `Verif/Validation/*` | checks of the model's fidelity: the outputs the project's own tests record, derived from the model |

`MANIFEST.json` maps properties to theorem names. `seeded/LOG.jsonl` records the
mutation experiments.

How to read `seeded/LOG.jsonl`:

* The ids starting with `m` are edits chosen by hand. Those starting with `a` and `b` were generated mechanically,
  and their `claim` is the list of properties whose theorems depend on what broke, not a judgement made beforehand.
* `failed` is what the build reported. A module that imports a broken one is not built, so in 480 of the 1129 entries only
  auxiliary lemmas are listed.
* `claims_failed` is inferred, not observed: the property theorems whose proofs use something in `failed`.
* A failure shows that the existing proof does not survive the edit. It does not by itself show that the statement
  is false of the edited model; where this was noticed (m598, m599) the statement was tightened.
* 68 entries have no failure: 48 led to a tighter theorem (or to an existing one left out of the build targets), the
  other 20 carry a note why the edit changes nothing. One edit that did not compile (m375) is left out.

## 2. How Python is modelled

* **Exceptions are values.** `Py α := Except PyErr α`, with one constructor of
  `PyErr` per exception class the code can raise on the modelled paths. Methods
  that mutate an object are `ExceptT PyErr (StateM σ)`: the state after a
  failing call is visible.
* **numpy indexing** keeps its wrap-around: a negative index `-k` means `n-k`,
  anything else out of range is `IndexError`.
* **dict** is an insertion-ordered association list (`Dict`), with Python's
  overwrite-in-place semantics. Mutable dicts whose identity matters (filter
  histories) live in a small heap and are referred to by address; so do builders and complexes (C104) and the kernels,
  likelihoods, models and trainers of the Gaussian processes (`Model/GpHeap.lean`, C145, C146).
* **Numbers.** Table cells (feature values, ids, volumes) are rationals: every finite
  double is one, and comparisons on them are exact. Arithmetic in the
  signal-processing part is over `ℝ`: **floating-point rounding is not
  modelled**, with these exceptions: `Model/FloatArith.lean` models the operators
  (Laplacians, divergence, curl, shifting) once more in rounded arithmetic, with every
  order of summation and fused multiply-add allowed (C111-C113), and `Model/FloatFilter.lean` the application of the
  polynomial filters (C148, C149), `Model/FloatHodge.lean` the Hodge components (C150, C151) and `Model/FloatError.lean` the reported errors (C156). A floating point operation that yields inf/nan (division by zero) yields
  `none`/`PyErr.nonFinite` in the model; nothing is claimed after that point.
* **Shapes.** Vectors and matrices are indexed by `Fin n`; a call with an array
  of the wrong length is not expressible where the type fixes the length
  (`Model/ArrayApi.lean` models the main calls once more for arrays of any shape, C114, C115). Where
  the code itself can create a length mismatch (masks, Chebyshev coefficients,
  flow tables) lengths are dynamic (`List`) and the numpy error is modelled.
* **Sparse versus dense** matters in one place only (`get_eigendecomposition`
  asserts a dense array); there the argument carries a tag. Elsewhere both
  are the same mathematical matrix.
* **External numerics** are oracles with contracts, bundled in one structure
  `NumLib`: `eigh` (orthonormal, ascending, `A U = U diag w` for symmetric `A`),
  `lstsq` (minimises the residual, least norm among minimisers), `argsort`
  (some sorting permutation, ties arbitrary). Theorems quantify over *every*
  `NumLib`; `NumLib` is proved inhabited, so they are not vacuous. Inverses are
  modelled by Mathlib's matrix inverse with `LinAlgError` on a zero determinant.
  Random draws, `chebfun` coefficients, the convex solver, sklearn's
  permutation and directory listings are likewise universally quantified
  arguments with their documented contract as hypothesis.
* **Randomness.** Draws are universally quantified arguments; where a claim is about averages (C171-C173), they are random
  variables on any probability space (Mathlib's measure and integral) with the first two moments as hypotheses.
* **Drawing** is modelled as the list of commands sent to matplotlib/networkx
  (target axes, shape with its data, options); what these libraries do with a
  command is not modelled. networkx's edge order and spring layout are oracles
  (`GraphLib`), pyplot's current axes an argument.
* **Warnings and progress bars** are not modelled. Printing is modelled for `print_summary`, for the losses of `train` and
  for the progress lines of the filters: the printed numbers are a value, the words around them are constant.

## 3. Trusted base

* Lean 4.33.0's kernel, and the axioms `propext`, `Classical.choice`,
  `Quot.sound` (Mathlib's usual ones). No theorem uses any other axiom; no
  `sorry`, `admit`, `native_decide`, `bv_decide`.
* That the definitions in `Verif/Model` match the cited Python lines (checked
  by reading; tested for discriminating power by the mutations in `seeded/`). `Verif/Validation` adds evidence: reading
  the shipped `paper` data set and the calls in the project's tests (shifting, curl, Hodge components, NRMSE, denoising
  with and without a grid of mu, the gradient filter of size 4) give in the model exactly the numbers the tests record,
  for every `NumLib`. No claim refers to these modules.
* The contracts of the oracles above, i.e. of LAPACK, scipy, sklearn, cvxpy,
  chebpy, networkx's graph container, pandas' parsing.
* Exact real arithmetic in place of IEEE doubles, except in C111-C113, C148-C151, C153 and C156, which assume of
  doubles what `structure Rounding` lists (no overflow).

## 4. Plan per property

| id | property | how it is modelled and proved |
|---|---|---|
| C01 | Node-edge incidence matrix is exact | `SC.edgesToB1` as the fold over edges with two entry writes; closed form by induction on the fold; the IndexError iff by the same induction. |
| C02 | Edge-triangle incidence matrix is exact | `SC.trianglesToB2` likewise, with `list.index` on either orientation. |
| C03 | Boundary of a boundary is zero | `Oriented` spec; matrix product expanded entrywise. Counterexample complex by evaluation. `_partial`. |
| C04 | Exactly when the boundary identity holds | entrywise expansion of the product, case split on the 8 orientations. |
| C05 | Building with ascending edges always yields a valid chain complex | compose C33 (cliques) with C01-C03. |
| C06 | shape, simplices and max_dim agree | direct from list model; induction for max_dim. |
| C07 | get_faces returns exactly the codimension-one faces | combinations = sublists of length n-1; membership and sortedness lemmas. |
| C08 | adjacency_matrix is the graph's adjacency | model scans each column's non-zero rows and writes both entries; induction. |
| C09 | Graph Laplacian is degree minus adjacency | entrywise sum over edges, with simple-graph hypothesis. |
| C10 | Laplacian kernel is the locally constant node signals | quadratic form as sum of squares. |
| C11 | Hodge Laplacians are symmetric positive semidefinite and additive | Gram matrices. |
| C12 | Lower and upper Laplacians annihilate each other | from B1 B2 = 0; kernel through quadratic form. |
| C13 | Rank arguments are validated | case analysis on Int rank. |
| C14 | k-step shifting equals powers of the Hodge Laplacian | closed form of both branches; `_partial` for k in {1,2}; counterexample for 3 steps. |
| C15 | Divergence is inflow minus outflow and sums to zero | sum over edges of B1 entries. |
| C16 | Curl is the signed circulation and vanishes on gradients | sum over edges of B2 entries; transposed C03. |
| C17 | Edge feature accessors | induction over the table. |
| C18 | Hodge components add up to the flow | algebra, for any lstsq. |
| C19 | Hodge components are mutually orthogonal | normal equations from the lstsq contract, plus C12. |
| C20 | Each component has the right differential behaviour | normal equations. |
| C21 | Gradient and curl components are the best approximations | lstsq contract; uniqueness of the fitted value. |
| C22 | Component extraction is linear and idempotent | characterise the fitted value by (range, normal equations), uniqueness. |
| C23 | The Hodge decomposition is unique | uniqueness of the orthogonal decomposition. |
| C24 | Rounding error of components is bounded | model of np.round (half to even) as a rational/real function; bounds. |
| C25 | Unknown components are rejected | string case analysis. |
| C26 | Eigendecomposition reconstructs the Laplacian | `eigh` contract; snapping; PSD gives non-negativity. |
| C27 | Component eigenspaces fill the edge space | charpoly identity for AB=0, counting roots. |
| C28 | Component eigenvectors are orthonormal, mutually orthogonal and of the right kind | eigenvector equations with AB=0. |
| C29 | Component eigenvalues are the Hodge spectrum | charpoly identity. |
| C30 | Simplicial embeddings preserve the flow | orthonormal basis from 27/28, projections. |
| C31 | The default tolerance identifies the harmonic space | Rayleigh bound on path graph, for all lengths >= 2000; `_partial` from C27. |
| C32 | Total variance | the csr tag makes the assertion fire; free function by eigh contract. |
| C33 | triangles() lists every triangle of the graph exactly once | model of networkx `enumerate_all_cliques` (queue algorithm) on a graph built by insertion order; invariant of the search. |
| C34 | Triangles do not depend on edge order or orientation | corollary of C33. |
| C35 | Distance-filtered triangles | loop induction; exact condition for KeyError. |
| C36 | to_simplicial_complex dispatch | case analysis plus C33 for no-fail. |
| C37 | Edge extraction merges directions and is sorted | fold invariant (membership in either direction), sorting lemma. |
| C38 | Reading an empty or malformed table fails cleanly | evaluation of the failing branches. |
| C39 | Each edge keeps the features of its own row | `_partial` for sorted duplicate-free tables; counterexample. |
| C40 | Incidence matrices round-trip | composition of C01/C02 with the reader model. |
| C41 | Coordinates are keyed by node id | dict-of-zip lemma. |
| C42 | Transport flow is the net volume per edge | loop invariant over sorted edges; counterexample for unsorted. |
| C43 | load_dataset rejects unknown names and validates coordinates | decision logic with loaders as arguments. |
| C44 | Positional flows are attached to edges in order | dict-of-zip lemma. |
| C45 | Random complexes are well formed | composition of C33/C35/C03 on the generator's feature tables. |
| C46 | P-matrix choice | string cases. |
| C47 | NRMSE is a scale-free distance | norm algebra. |
| C48 | Logistic response | calculus-free monotonicity of exp. |
| C49 | Component coefficient masks partition the spectrum | charpoly multiset identity and uniqueness of sorted lists. |
| C50 | Power iteration stays finite and exact where it should | fold model with NaN as none. |
| C51 | Designed filters are polynomials in the Laplacian | induction on the design loop; spectral calculus for polynomials. |
| C52 | Least-squares design error never increases with filter size | lstsq contract with nested column spaces. |
| C53 | Type-two LS filter extracts the component exactly | Lagrange interpolation makes the residual zero, so H = projector. |
| C54 | Type-one LS filter extracts the harmonic component exactly | as C53 with the mask of C49. |
| C55 | general_filter components add up to the flow | algebra on the stateful model. |
| C56 | LS general_filter keeps both designs in its history | heap model, addresses of the two dicts differ. |
| C57 | Grid general_filter keeps both designs in its history | heap model; counterexample theorem for all inputs; `_partial` for one design. |
| C58 | Filter history always describes the last successful design | invariant over arbitrary call sequences. |
| C59 | Edge-flow denoising is a well-defined contraction | I + mu P positive definite. |
| C60 | Edge-flow denoising solves the regularised problem | completing the square. |
| C61 | Edge-flow denoising frequency response | spectral calculus. |
| C62 | Chebyshev filter is the Chebyshev series of the shifted Laplacian | induction against Mathlib's Chebyshev polynomials. |
| C63 | Chebyshev filter history is indexed by order | closed form of the slice-assignment loop. |
| C64 | Chebyshev coefficient shortage | broadcast model. |
| C65 | Ideal filter is the projector on the component | spectral projector. |
| C66 | Trend-filter shift operators vanish exactly on divergence-free (curl-free) flows | kernel of Gram powers. |
| C67 | l2 trend filter regularises the chosen component | model shows both components equal; closed form. |
| C68 | l1 trend filter beats every competitor | solver contract. |
| C69 | Interpolation keeps the observed flow | solver contract with constraint. |
| C70 | Unknown trend-filter components are rejected before any work | string cases. |
| C71 | Noise power follows the SNR | real analysis. |
| C72 | Edge kernels are valid covariances | sum of PSD terms. |
| C73 | Kernel spectral action | orthonormality. |
| C74 | Kernel diag agrees with the full matrix and slices | evaluation. |
| C75 | Kernel parameter accessors round-trip and stay positive | softplus and inverse. |
| C76 | Kernel serializer decision table | table. |
| C77 | Train/test split is an aligned partition | sklearn split model over an arbitrary permutation and an arbitrary rounding of the product, float and int sizes. |
| C78 | Normalisation is an invertible affine map fitted on training data | finite sums. |
| C79 | Matern covariance export matches the kernel | algebra. |
| C80 | Parameters before training | trainer protocol state. |
| C81 | Grid sampling | linspace model. |
| C82 | Edge colours follow edges | index lookup. |
| C83 | Edge label placement | case split on slope. |
| C84 | draw_network keyword routing | kwargs dictionaries. |
| C85 | Eigenvector grid is large enough | Nat arithmetic. |
| C86 | Axis limits contain all nodes | min/max. |
| C87 | General least-squares filter recovers the Hodge decomposition | From C53 applied to both branches. |
| C89 | Chebyshev filtering needs two edges | squeeze branch of `apply`. |
| C90 | Chebyshev history entries belong together | inversion of `apply`; the spectral norm of the code (largest singular value) against the supremum of |Ax|/|x|. |
| C88 | Saved least-squares histories are not modified | Heap frame over call sequences. |
| C91 | Correlations are bounded and detect affine copies | Cauchy-Schwarz on centred vectors. |
| C92 | Node positions are chosen once | plot object as state, induction over call sequences. |
| C93 | Hodge decomposition figure | panels as lists of drawing commands; C18 and C24 for the values shown. |
| C94 | Drawing stays in the given axes | classification of all commands of a drawing; counterexample for node labels; `_partial`. |
| C95 | Style keywords take effect | same classification; counterexample for `cmap`; `_partial`. |
| C96 | Eigenvector figure | panels by induction; index arithmetic. |
| C97 | When drawing succeeds | totality of every step under position hypotheses. |
| C98 | Topology | kernel of L0 through C10, dimension of functions constant on components through Mathlib's `SimpleGraph` Laplacian; rank-nullity for the Euler formula; C27 for the counts; `IsAcyclic` for forests. |
| C99 | Renumbering | closed forms of B1 and B2 commute with permutations; uniqueness of projections and of sorted spectra. |
| C100 | Edge direction | as C99 with signs; a filled triangle with one side reversed refutes the curl part. |
| C101 | GP predictions | exact conditioning formulas; completing the square gives optimality, Schur complements give the variance bounds. |
| C102 | GP metrics | torcheval's documented formulas on the arguments as passed; a two-edge example refutes R2. |
| C103 | Operators and simplices | programs over a heap (`Model/Objects`); induction over commands. |
| C104 | Independence | the same heap; frame property per command, two aliasing programs refute the rest. |
| C105 | Denoising strength | comparison of the two minimisers; explicit bound on `H P z` for the limit. |
| C106 | Chebyshev accuracy | spectral bound on `M - projector`; the component argument only reaches the errors. |
| C107 | Filter plots | the plotted lists; orthogonality of the eigenvectors makes distances agree. |
| C108 | Dataset contents | per dataset: files -> complex and flow, against Spec/Datasets.lean; sorted-column corollary and counterexample. |
| C109 | All-or-nothing results | induction over call lists (failing calls included) from a new object. |
| C110 | Trend filter statistics | every pass of the loops satisfies the formulas; means over the recorded rows. |
| C111 | Laplacians are exact in doubles | relational model of rounded sums in any order; sums of whole numbers stay below `2^53`. |
| C112 | Rounding error of divergence and curl | standard `(1+u)^k - 1` analysis over the same relation; zero terms do not count; products with ±1 are exact. |
| C113 | Rounding error of the shifting operators | errors of two chained products composed; Laplacian exact by C111. |
| C114 | Flows of any shape | arrays of up to two dimensions with numpy's shape checks; every operator is a composition of `@`, `lstsq` and entrywise operations, each of which acts column by column. |
| C115 | Reference flows in denoising | numpy broadcasting modelled entry by entry; which references are accepted and what error is recorded. |
| C116 | Likelihood metrics of predict | gpytorch's documented formulas; returned covariance positive definite (C101), logs of Mathlib's Gaussian density and of the joint normal density. |
| C117 | What the constructors store | Heap model of C103, C104: the default objects stay empty (induction over the program), so the calls on references agree with the calls on contents. |
| C118 | Designed filters are local | `ShareNode`, `ShareTriangle`, `Within` defined from the edge and triangle lists; nonzero entries of the Laplacians join edges one step apart, closed under sums and powers (induction over the taps); the designed matrix does not depend on the flow. |
| C119 | Entries of the edge Laplacians | `endSign`, `sideSign` defined from the edge and triangle alone; entries of B1, B2 multiplied out. |
| C120 | The trainer's float32 tensors are exact | Any rounding that fixes whole numbers up to 2^24; entries bounded by C119. |
| C121 | The tolerance is right on small networks | Discrete Poincaré inequality along paths (induction on the walk) for B1ᵀ, along crossings of triangles for B2; a bounded preimage gives a bound on eigenvalues. |
| C122 | Accuracy of computed components | The same inequalities applied to the difference of computed and true component; nothing is assumed of the solver's result. |
| C123 | The solver's cut-off has no effect | `LstsqRcond`: numpy's documented truncated solution, for every singular value decomposition; the bounds of C121 show that only zero singular values are dropped. |
| C124 | Filling triangles, adding nodes, relisting edges | Projections characterised by orthogonality; the images of B1ᵀ and B2 of two complexes with the same edges are compared. |
| C125 | Disconnected networks decompose part by part | `IsPart` describes a part as a complex of its own; masking potentials and triangle weights by the part stays within the images of B1ᵀ and B2. |
| C126 | Colour scales | Commands sent to matplotlib, as for C82; the limits passed with every edge are compared with those of the colour bar and with the extreme values of the list. |
| C127 | Eigenpairs from an eigensolver with rounding errors | `Model/InexactEig.lean` gives the eigenpair functions over an arbitrary function in place of `eigsh` (equal to the other model for an exact one, `C127_exact`). `Lemmas/Perturb.lean`: kernel vectors have small coordinates along large computed eigenvalues, vectors along small ones are nearly in the kernel, hence dimensions agree and the projections differ by at most `2 delta / tol`. Orthonormality of the computed eigenvectors is assumed exact. |
| C128 | Which exception a bad input raises | case analysis along the reading loop, the column look-ups, the colour limits and the size checks of the filters |
| C129 | Results do not depend on which correct numerical library is used | Two arbitrary `NumLib`s; uniqueness of the least-norm least-squares solution; functional calculus by Lagrange interpolation; power sums of the mask. Eigenvectors themselves, the Chebyshev frequency responses (`U.T @ f`), its ideal filter with shared eigenvalues and the eigenvector figure do depend on the basis and are left out of the claim |
| C130 | The recorded frequency response is the gain of the filter | Polynomial filters act diagonally on an orthonormal eigenbasis; Parseval; orthogonality of the components. |
| C131 | Filters do not depend on the numbering | A relation between the histories of the two objects is preserved by every call; Laplacians are conjugate by a permutation (C99), polynomials and inverses of them too, the power iteration starts from the constant vector, and the recorded responses depend on the eigenvalues only.  Frequency responses and filter errors of the Chebyshev design refer to the eigenvectors and are left out (C129). |
| C132 | Gaussian process models do not depend on the numbering | eigenpairs of the second complex are pulled back along the permutation of edges and compared by the relation of C129 (same eigenvalues, same sandwiches), which every kernel respects |
| C133 | The l1 trend filter is determined by its arguments | convexity: the midpoint of two minimisers is no better, so the triangle inequality for the residuals is an equality, and equality in Cauchy-Schwarz gives the direction; counterexample with one edge and two solvers |
| C134 | What the weight of the l1 trend filter does | small weights: the penalty is Lipschitz with a constant from the column sums; large weights: the shift operator is bounded below on the image of the incidence matrix (left inverse of an injective linear map) and the residual splits orthogonally |
| C135 | Trend filters do not depend on the numbering | the loops are compared pass by pass with the relation of C131; for l1 the answer of the second solver is pulled back and is a minimiser of the first problem |
| C136 | The printed summary | printed lines are a value; decimal numerals are injective |
| C137 | How far trend filters can be off | compare the minimiser with the flow itself and with the noisy (masked) flow; for l2 take the inner product of the normal equation with the error |
| C138 | Building a complex visits every clique | the list of cliques which the loop runs over is shown to be a duplicate-free list of exactly the clique sets; subsets of a clique are cliques, which gives 2^k - 1. |
| C139 | What the solver's cut-off costs in the polynomial filters | `FilterPassRcond` on top of `LstsqRcond` (C123); the residual is orthogonal to the kept directions, and the dropped ones change the fit by at most cut-off times largest singular value; then the response bound of C106. |
| C140 | Denoising with an inverse that has rounding errors | the methods over an arbitrary inversion routine; the exact inverse does not increase norms (C59), so the error of the filter is at most the residual. |
| C141 | The loss that train minimises | The model object gets its mode, training data and gpytorch's kept prediction quantities; the optimiser is any function of the loss. C141_loss_partial: induction over the passes; C141_after_predict: strict inequality by diagonalising the prior covariance; C141_mode, C141_other_inputs, C141_reset, C141_refines. |
| C142 | Filters keep the Hodge components apart | the projections onto gradient and curl flows are carried over by `L1l` and `L1u` (`B1 B2 = 0`), hence by sums, products, polynomials and inverses; the recorded filters are such, Chebyshev ones by induction over the recursion and the assignments |
| C143 | Disconnected networks are processed part by part | blocks of the Laplacians (entries by endpoints and common triangles), closed under polynomials and inverses; the spectral kernels are polynomials in the Laplacians by interpolation on both spectra, so the covariances are blocks too, whichever eigenvectors are returned |
| C144 | The three kinds of eigenvectors are an orthonormal basis on every complex | Same model as C27 - C30 and C49 without the gap hypothesis. The non-zero roots of the two characteristic polynomials are those of the Hodge one, so the counts above the tolerance add up; equality fails exactly when the tolerance is a root. A rational root of the characteristic polynomial of an integer matrix is an integer (integrally closed). Orthonormal columns as many as rows give a basis. |
| C145 | A trainer reports the model object it trained | heap of kernels, likelihoods, models and trainers (`GpHeap`); induction over programs with a validity invariant and the recorded trace of calls and results |
| C146 | Models are independent | frame theorem over programs of the heap model; counterexample with one kernel and two models |
| C147 | The seed determines the random complex | the process-wide generators of random and numpy as state, programs of calls that seed, draw and generate; C45 for every state; a process in which equal calls give different triangles |
| C148 | Rounding error of the least-squares and grid filters | powers as an inductive relation over all groupings, the loop as a sequence of rounded sums; error and magnitude bounds carried through sums, products and roundings together |
| C149 | Rounding error of the Chebyshev filter | the recurrence of the stack with every operation rounded; errors carried along the recurrence; the exact stack is Mathlib's Chebyshev polynomials |
| C150 | Computed Hodge components add up | the three functions with the solver's results arbitrary and every later operation rounded; np.round as scaled rint with both scalings rounded; triangle inequalities |
| C151 | Computed components are nearly curl-free and divergence-free | sums with two non-zero doubles are rounded once, by induction over the ways to add them up; B1 B2 = 0 leaves only the rounding errors of the curl component |
| C152 | The estimated largest eigenvalue is the largest eigenvalue | split the all-ones flow into an eigenvector and a rest of lower frequencies; expand the rest in an eigenbasis and bound the residual of the iterate entry by entry; false in full: on the path with two edges all-ones is an eigenvector for 1 while 3 is an eigenvalue |
| C153 | Computed Hodge components can be checked from their computed divergence and curl | `Props/FloatCheck.lean`: the certificates C122 in doubles. Row sums of squares of the incidence matrices bound both the rounding error of a computed divergence or curl (C112) and the effect of a perturbation of the flow; C150 and C151 bound the rounding of the components themselves. |
| C154 | Results do not depend on the unit of the flow | `Props/Units.lean`, `Props/UnitsTrend.lean`: a relation between the two heaps of history dictionaries kept by every step of every method (relational proof); the solver of the scaled problem is the given solver conjugated by the scaling; the default rounding: components are no longer than the flow. |
| C155 | A designed filter does not depend on the flow it is designed on | `Props/Units.lean`: the same relational lemmas with estimates and errors erased on both sides. |
| C156 | Reported errors are accurate | `Model/FloatError.lean`, `Props/FloatError.lean`: norm as rounded root of a rounded sum of squares; sums of non-negative terms keep small relative errors, so do roots and quotients. |
| C157 | The progress lines say what the call records | printed lines are a value beside the result; induction over the loops; rows of zeros in the mean of the noisy errors |
| C158 | A larger filter records the curves of all smaller ones | the least-norm solution puts nothing on empty columns, and it is unique |
| C159 | The least-squares filter is the best filter of its size | the error over an orthonormal family is a Frobenius distance; in an eigenbasis of the Laplacian it is the residual of the fit; `C159_triangle` computes the best gradient filter of the filled triangle |
| C160 | Gaussian processes keep the Hodge components apart | each part of the covariance is a polynomial of a Laplacian, so it maps components to components (as in C142); predictions from all edges are K (K + noise)^-1; `C160_one_edge`, `C160_triangle_edge`: the exact limit, training on one edge. |
| C161 | The covariance matrices in closed form | both sides act alike on the eigenvectors of L1 (with C73); for Matern the power is exp(-mu M) with a logarithm M, and the power of the inverse when mu is a whole number |
| C162 | Files become valid chain complexes, exactly when their links are consistently directed | `Props/Pipeline.lean`: composes C37 (extraction), C33/C36 (triangles), C04 (boundary of a triangle) and C108 (dataset contents); `C162_read_csv`, `C162_read_tntp` (exact conditions in terms of the rows), `C162_layouts`, `C162_any_condition`, `C162_dataset`, `C162_matrix_dataset`; `C162_one_way_counterexample` shows the condition is needed. |
| C163 | The printed response error measures the filter | every stored filter is diagonal in the eigenbasis of its Laplacian; Frobenius norm in an orthonormal basis; counterexample with the upper Laplacian of K4 with one triangle |
| C164 | A larger polynomial filter still passes the component | FALSE in full. `LSFilter.TypeOneRcond` models the design with numpy's default cut-off `rcond = eps max(E, L)`. `LstsqRcond.norm_bound`: the cut-off bounds the solution (rcond norm(A z) norm(x) <= norm(b)). `C164_gain`: the gain at any eigenvalue is at most of the order `norm(alpha) / (eps max(m, L) Lam^(L-1))`. `hodge_two_le`: every complex with an edge has a Hodge eigenvalue of at least 2. Hence `C164_counterexample`: on every complex the harmonic filter of size 64 or more keeps less than a thousandth of a harmonic flow. `C164_moderate_partial`: while the powers of the eigenvalues are moderate, the error is the machine precision times the size of the system and of an ideal filter's coefficients |
| C165 | How large the frequencies can be | `C165_energy`: the flow is read as an antisymmetric function of two nodes; the squared circulations over all ordered triples of nodes are computed exactly, and the six orders of each triangle are distinct triples. `C165_energy_complete` (equality), `C165_hodge`, `C165_hodge_complete` (eigenvalues), `C165_degree`, `C165_triangles` (a matrix with entries 0, 1, -1 and bounded row and column counts), `C165_hodge_degree`, `C165_sum` (trace), `C165_largest`. Examples: four nodes with one triangle attain the bound, a filled triangle has only the eigenvalue 3 |
| C166 | Grid-based denoising converges to the edge-flow denoising | C166_denoise and C166_geometric: the stored responses are least-squares fits on the grid (C51), so near the grid values of the explicit polynomial (1 - T_L(2x/lam - 1)/T_L(-1 - 2/(mu lam)))/(1 + mu x); a weak Markov inequality (grid_sup, from Mathlib's bound of derivatives at the end of the interval) carries closeness on the grid over to the interval and, with T_L, beyond it (grid_beyond); the eigenbasis turns the bound on responses into one on flows. C166_extraction: the same for any polynomial and the logistic targets. Exact least squares; the effect of the cut-off of lstsq is C139 and C164. |
| C167 | Grid-based denoising keeps smooth flows at every size | FALSE in full. `GridFilter.DenoiseRcond` models the design with numpy's default cut-off. `C167_lost`: by `C164_gain` and since the targets are at most 1 and the last sample is the estimate lam, the returned part of a kernel flow is at most 2^52 / (sqrt E lam^(L-1)). `C167_counterexample`: from size 64 on and with lam at least 2 less than a thousandth is left, while edge-flow denoising returns the flow. `C167_moderate_partial`: at sizes with 4 (L-1)^2 < E the distance to edge-flow denoising is that of the best polynomial response, magnified as in C166, plus machine precision times the size of the system and of the coefficients |
| C168 | Gaussian process regression on all edges is edge-flow denoising | GpDenoise.lean: closed form of the kernel (C161) gives prior = s (2/k^2 + L1)^-1; prior times the inverse of prior plus noise is computed by factoring out 1 + theta L1; compared with the filter of C59. |
| C169 | The noise of a Gaussian process model balances data and prior | GpNoise.lean: the residual is n times the solution of (A + n) z = y - c; Cauchy-Schwarz and the spectral theorem bound it; the frequencies are at most N (C165); more noise through the best-prediction characterisation (C101). |
| C170 | Closed walks, cuts and the gradient component | Kirchhoff.lean: potentials telescope along walks; conversely a potential is the total flow from a representative of each connected component, well defined because closed walks sum to zero; cuts by summing the divergence over the set; the complete case from the energy identity of C165. |
| C171 | Denoising random noise helps on average, unless it is too strong | bias-variance decomposition of the stored estimate with Mathlib's integral; eigenvalue by eigenvalue comparison; the limit of C105 for large mu. |
| C172 | snr_db is the signal-to-noise ratio of the flows the trend filters process | false; expectation of the noise energy with the moments of the noise gives the actual ratio, equal to the requested one only if 10^(dB/10) E = 1. |
| C173 | Noise spreads over the Hodge components by their dimensions | the component maps are orthogonal projections whose trace is the rank; ranks from C98; expectation as in C171. |
| C174 | Interpolation recovers a flow that the sampled edges determine | Exact penalty: a flow that vanishes on the samples can be moved into the kernel of the shift operator at a cost proportional to its penalty (bounded inverse, one constant per set of edges), so above the sum of the constants no penalty is left and the shortest flow wins. Acyclic graphs by bridges: the cut of a bridge carries no circulation, and a walk around a non-bridge carries one. Counterexample on the triangle for all solvers and samples. |
| C175 | Grid-based extraction removes the other components | `C175_samples`: with at least as many coefficients as samples the least-squares polynomial interpolates (Lagrange), so a flow at a sampled frequency is multiplied by exactly the logistic response there. `C175_leak_partial`: at frequency zero that factor is 1/(1+exp(steep·cut_off)), at most exp(-steep·cut_off) and never zero. `C175_general`: `general_filter` (ten samples, cut-off 0.01, steepness 100) returns 1/(1+e) of a divergence-free flow as gradient component, 1/(1+e) of a curl-free flow as curl component and 1-2/(1+e) of a harmonic flow as harmonic component. `C175_counterexample`: a filled triangle beside a hollow one |
| C176 | The ideal filters do not depend on the eigensolver | `C176_ideal_partial`: the harmonic ideal filter is the same for any two libraries, and so are the others if gradient and curl flows share no non-zero frequency (from C65 and C129). `C176_shared`: if they share one, a Householder reflection inside its eigenspace turns any correct library into another correct one that puts a chosen gradient eigenvector at a chosen position, so the ideal gradient filter keeps that gradient flow with one library and removes it with another. `C176_counterexample`: a filled triangle beside a hollow one |
| C177 | The recorded responses tell how much noise a designed filter passes | The stored filter does not depend on the flow (C155) and the estimate is the filter times the flow (C51), so the error splits into the error without noise and the noise through the filter. The sum of the squared entries of the filter is the trace of H H^T, so the sum of the squared gains at the eigenvalues, which are the recorded responses. The exact extraction is compared with C173. |
| C178 | The variances of predict are honest for data that follow the model | The difference of test values and predictions is a fixed linear map of the centred data, with blocks minus cross covariance times inverse observation covariance, and the identity. Its second moments are the map applied on both sides to the block matrix of the assumed covariances, which is the returned matrix. The quadratic form of the inverse covariance has the mean trace(inverse times covariance), the number of test edges. Data with the assumed moments exist for every model, built from white noise. |
| C179 | On complete networks the Hodge-Laplacian filters only rescale | All eigenvalues are N (C165), so the Laplacian is N times the identity. The fit at the one frequency takes the mean of the mask (least squares), which by counting (trace of the lower Laplacian) is 2/N for the gradient and 1-2/N for the curl (`C179_type_one`); `C179_dimension`, `C179_denoise`, `C179_grid`; the prior is a multiple of the identity, so cross-covariances vanish (`C179_regression`) |
| C180 | Type-one filters split a shared frequency by multiplicity | A best fit with enough coefficients takes the mean of the targets at each distinct frequency (Lagrange interpolation and orthogonality); the mask sums at a frequency are permutation-invariant (`coeffs_sum`) and count the eigenvalues of the part (`C180_shares`); additivity from the product of characteristic polynomials (`C180_total`); `C180_shared` |
| C181 | Rings: the harmonic component is the circulation, and the default tolerance finds it up to 198 edges | `SC.IsRing` is the specification (edge i joins node i and i+1 mod n, sign s i for the stored direction). Components from the uniqueness of the Hodge decomposition with a potential built by partial sums (`C181_components`, `C181_harmonic_space`). Frequencies by the sampled cosines and sines (`C181_frequencies`); no others because these are complete, by the geometric sum of roots of unity (`C181_spectrum`). Threshold from bounds on cos and pi (`C181_gap`, `C181_default`, `C181_tolerance`). Rings of every size exist (`ring_exists`). |
| C182 | Chains: every flow is a gradient, and the default tolerance agrees up to 98 edges | `SC.IsChain` is the specification (edge i joins node i and i+1, sign s i for the stored direction). Components by a potential of partial sums (`C182_components`, `C182_harmonic_space`). Frequencies by sampled sines (`C182_frequencies`), no others because these are complete (`C182_spectrum`). Threshold from bounds on cos and pi (`C182_gap`, `C182_default`, `C182_tolerance`); it sharpens the 2000 edges of `C31_default_tolerance_fails`. Chains of every length exist (`chain_exists`). |
| C183 | Type-one filters take all frequencies up to 1e-3 for harmonic | As C180 without its assumption on the spectrum: the ones of each mask at a frequency are counted from the selected eigenvalues (`vals_every`, `mask_every`), with the exact number of selected pairs from C144; the least-squares fit takes their mean (`typeOne_run`). Theorems `C183_harmonic`, `C183_others`; the chains of C182 give `C183_chain`. Eigenvalues between 0 and machine precision, which the code sets to zero, are excluded by hypothesis; `chain_machineEps` shows that chains of up to a million edges have none. |
| C184 | Rings: n/2+1 coefficients extract the gradient component, fewer do not | Upper part: the ring has at most n/2+1 different frequencies (from C181), none in (0, 1e-6) by Jordan's inequality, so C53 applies (`C184_enough`). Lower part: tested against the wave with its crest on the edge, exact extraction makes the filter polynomial take the value 1 at n/2 different points and 0 at 0, which its degree does not allow (`C184_needed`). |
| C185 | The default tolerance is right up to 99 nodes, and no further | A potential is sorted and its steps are counted along the edges that pass them, so its energy is at least that of a chain; the chain is solved by a discrete Dirichlet inequality with the sine as comparison function (Picone). `C121_upper` bounds the triangles; `C182_tolerance` is the counterexample with 100 nodes. |
| C186 | Sharp accuracy of inexact solvers | The energy inequality of C185 gives each gradient flow a small potential, and duality turns it into a bound by the divergence; the chain's first eigenvector attains it. The gap of C185 is put into C127. |
| C187 | How much of the gradient component denoising removes | The remainder d satisfies g = d + mu L d and is itself a gradient flow; `grad_energy` (C186) bounds its energy from below, `C165_energy` from above. The chain's first eigenvector attains the first bound. |
| C188 | As many filter coefficients as nodes are enough | The rank of B1 is below N since constant potentials have no gradient; with C185 no eigenvalue lies below the tolerance (4/N^2 by a quadratic bound of the cosine), and C53 and C54 apply. |
| C189 | How much divergence the l2 trend filter removes | The divergence u of a stored flow satisfies u + mu B1 B1ᵀ u = divergence of the noisy flow; `node_energy` (C185) and `C165_energy` bound the second term. |
| C190 | Which weight of the l1 trend filter removes the whole gradient component | a potential centred between its extremes on every component is at most sqrt(D)/2 times as large as its difference flow is long (Cauchy-Schwarz along a path); so a gradient flow is at most sqrt(D)/2 times the l1 norm of its divergence, and a heavier penalty is exact; on the chain the unit flow has length sqrt(N-1) and divergence of l1 norm 2 |
| C191 | Which weight of the l1 trend filter removes the whole curl component | the circulations are bounded by the depth times the flow (depth_bound of C121), so a curl flow is at most k times the l1 norm of its curl, and a heavier penalty is exact; for triangles apart the curl of the flow around a triangle is 3 there and 0 elsewhere, which gives the sharp constant |
| C192 | The weight below which the l1 trend filter changes nothing is the best possible on every bipartite network | the l1 norm of the divergence of this flow is at least its product with the signs of the two sides, 2E; its length is sqrt(E); so the zero flow has a smaller objective |
| C193 | Which weight of the interpolation recovers a flow without divergence | each edge of a forest is a bridge, and the flow over a bridge is the divergence on one side of it, hence at most half the l1 norm of the divergence; so the error is at most sqrt(K)/2 times the l1 norm of its divergence, and a heavier penalty is exact; the other direction compares with the masked flow, whose divergence has an l1 norm of at most twice its own |
| C194 | Splits with the same seed are nested | the test set is the beginning of the permutation of the seed and the training set the rest; beginnings and ends of one list are nested |
| C195 | A larger share of training data never makes predictions less certain | the training sets are nested (C194); the quadratic form of the posterior covariance is a minimum over weights of the observations, and weights for fewer observations are weights for more observations with zeros |

## 5. Not modelled

* matplotlib/networkx drawing itself (which pixels a command produces, type
  errors inside matplotlib for ill-typed options); the positions picked by `nx.spring_layout` in `generate_coordinates` (an argument; which nodes get one is modelled).
* torch's optimisers (`train` is modelled for any function that maps loss, pass and parameters to new parameters
  with positive noise) and what gpytorch returns in evaluation mode after the parameters have changed (its kept
  quantities are those of the old parameters; C101, C102 and C116 are about models without such quantities);
  `predict` is modelled by the exact
  formulas of Gaussian conditioning that gpytorch documents (not its
  `fast_pred_var` approximation), with positive noise, and torcheval's metrics by
  their documentation. gpytorch's positivity constraint is
  its documented softplus.
* pandas' CSV parsing: readers start from the parsed table (cells are finite numbers, texts or
  NaN for a missing entry; no infinities), file contents are arguments. `int` of a text knows ASCII digits only
  (and Python's limit of 4300 digits is not modelled).
* floating-point error beyond C111-C113, C148-C151, C153 and C156 (which assume that no product underflows), the eigensolver errors of C127 and the inverses of C140; `float32` casts in the GP code other than those of C120; LAPACK's rounding errors in `lstsq` (its cut-off for small singular values: C123, C139, C164, C167)
  (least squares is exact); decimal literals such as `1e-3` are the rationals they denote (except the default ratio of C77).
* the class of the arrays in `history`: the l2 trend filter stores its filter as `np.matrix`; entries are modelled.
* warnings, printing (other than `print_summary`, the losses of `train` and the lines of the filters), tqdm.

## 6. Where the code disagrees with the property a user would expect

Each item is proved as a theorem about the model (`..._counterexample` or an exact
characterisation), and the corresponding property carries status `partial` with a
`_partial` theorem for the part that does hold.

1. C03: `triangles_to_B2` ignores the stored orientation of edges, so
   `B1 @ B2 != 0` when an edge is stored descending (this happens in shipped
   transportation data: anaheim, barcelona, winnipeg, goldcoast, chicago-regional).
2. C14: `steps >= 3` silently means 2 steps.
3. C31: the default tolerance 1e-3 invents harmonic eigenvectors on long paths.
4. C32: `SimplicialComplex.get_total_variance` always raises `AssertionError`.
5. C35: triangles with a zero distance are dropped, and so are those with a missing one (NaN is truthy but below no
   threshold); descending storage raises `KeyError`.
6. C39: features are assigned to edges by position after sorting/de-duplication (on the shipped `paper`
   data, `Validation/Paper.lean`: edge (0,3) gets the distance 1 of another edge, edge (2,3) gets 10).
7. C40: `read_B1_B2` sorts the edges but not the rows of B2.
8. C42: the visited check compares 1-based with 0-based pairs.
9. C53: type-two LS assumes eigenvalue 0 exists; on a tree the gradient filter
   is wrong (zero on a single edge).
10. C57: the grid design's `history["L1"]` aliases the curl design.
11. C63: Chebyshev's history slot is off by one.
12. C67: the l2 trend filter uses the lower Laplacian for `component="curl"` too.
13. C76: `laplacian_non_hc` is advertised but raises `KeyError`.
14. C80: `get_model_parameters` before training raises `AttributeError`, not `ValueError`.
15. C74: kernels fail with `AttributeError` when `x2` is omitted.
16. C38: `read_csv(feature_cols=None)` (the default) raises `TypeError`.
17. C84: `draw_network(edge_labels=...)` passes validation and raises `TypeError`.
18. C94: node labels are drawn on pyplot's current axes, not on `ax`.
19. C95: `cmap` colours the colour bar but never the nodes.
20. C85: `draw_eigenvectors` of a component without eigenvectors raises `ZeroDivisionError`.
21. C100: reversing the stored direction of a side of a filled triangle changes the curl,
    not just its sign (consequence of item 1).
22. C102: `r2_score(y_test, pred_mean)` (hodge_gp_trainer.py:304) has prediction and target
    swapped, so the reported R2 divides by the spread of the predictions.
23. C103: a complex keeps references to the caller's lists but computes its matrices once.
24. C104: mutable default arguments are shared by all builders and complexes
    (scbuilder.py:23-24, simplicial_complex.py:30-34).
25. C106: with the default cut-off and steepness the Chebyshev filter keeps more than a quarter of
    a flow it should remove, and `component` does not influence the estimate.
26. C108: `load_dataset` attaches flows to the sorted edges by position, so unsorted columns of
    an incidence file get each other's values (`C108_unsorted_counterexample`).
27. C115: `denoise` accepts a reference flow of the wrong shape; given as a column it is compared
    crosswise, so that a perfect estimate has a positive error (`C115_column_counterexample`).
28. C133: the l1 trend filter hands cvxpy the norm of the residual instead of its square, so its
    result is not determined by its arguments: with one edge, the default weight 0.5 and the flow 1
    every value in [0, 1] is a correct answer (`C133_counterexample`).  Small weights do nothing at
    all and large weights all do the same (C134).
29. C138: `triangles` asks networkx for all cliques and keeps those with three nodes, so building a
    complex from a network with a clique of k nodes takes at least 2^k - 1 passes; a network with 40
    pairwise adjacent nodes is out of reach although it has only 9880 triangles.
30. C141: `predict` leaves the model in evaluation mode and `train` does not call `model.train()`, so training
    after a prediction computes its loss from the posterior; the first printed loss is always too small.
31. C146: a model keeps references to the kernel and the likelihood it is given, so models built on one kernel object
    share its parameters, and training one of them changes the others and what their trainers report.
32. C77: `train_ratio=1` (an int) does not mean all edges: scikit-learn takes it as the number of training samples, and
    one edge is used for training. `train_ratio=1.0` raises `ValueError`.
33. C147: the `seed` of `generate_random_simplicial_complex` fixes the graph only; the weights that decide which triangles
    are filled, and the coordinates, are drawn from unseeded process-wide generators.
34. C152: the power iteration starts from all ones, so it misses a largest eigenvalue whose eigenvectors are orthogonal to
    it. On the path `(0,1), (1,2)` the estimate is 1 although 3 is an eigenvalue; the Chebyshev series is then evaluated at
    5, and the grid-based design samples no frequency above 1.
35. C154: `get_component_flow` rounds to two decimals unless told otherwise, so its result depends on the unit of the flow:
    every component of a flow shorter than 0.005 is returned as zero (`C154_default_rounding`).
36. C157: the lines printed by the filters are off: `Filter size` is the loop counter (a filter of size L ends with
    `Filter size: L-1`; in the Chebyshev filter line k belongs to k + 2 coefficients), the trend filter prints the power
    ratio with the unit dB (20 dB appears as `SNR: 100.0 dB`), and the l2 filter averages the noisy errors with `[i:,]`
    instead of `[i, :]`, over rows that are still zero, so the printed noisy error of the first of n settings is n times too
    small.
37. C163: the Chebyshev filter's printed `Error response` lists the gains by the eigenvalues of the chosen Laplacian and the
    ideal response by those of the Hodge Laplacian. With the upper Laplacian of K4 with one triangle the exact curl filter is
    printed with an error of at least 1 (the recorded filter error is 0).
38. C164: numpy's default cut-off (`rcond=None` in `_apply_filter`) makes long filters useless. On every complex the type-one
    harmonic filter of size 64 or more returns less than a thousandth of a flow that is harmonic already, although the exact
    least-squares fit (C54) would return it unchanged.
39. C167: the same cut-off spoils the grid-based denoising. If the estimated largest eigenvalue is 2 or more, the filter of
    size 64 or more returns less than a thousandth of a flow that edge-flow denoising returns unchanged, although the exact
    fit converges to edge-flow denoising (C166).

40. C172: `get_power_noise` computes `norm(flow) / snr / E`, and the denoising functions multiply standard normal noise by this
    number. A variance would have to be `norm(flow)**2 / snr / E` and the factor its square root. The flows have the
    signal-to-noise ratio `E * snr**2`: with 100 edges and 20 dB requested, 60 dB.
41. C174: the objective of `interpolation_l1_regularizer` penalises the unknown values themselves (`f_in` is 0 there), so with
    the default weight a circulation on a triangle is not recovered from one edge, although one edge determines it.
42. C175: `GridBasedFilterDesign.subcomponent_extraction` fits a logistic response that is not zero at frequency zero.
    With at least as many coefficients as samples the fit passes through every sample, so a flow that the chosen
    Laplacian maps to zero is multiplied by 1/(1+exp(steep·cut_off)); `general_filter`, which cannot change the cut-off,
    keeps 1/(1+e) ≈ 0.27 of it (`C175_general`). On a filled triangle beside a hollow one a harmonic flow comes back with
    non-zero gradient and curl components and less than half of its harmonic component (`C175_counterexample`).
43. C176: `get_ideal_frequency` multiplies eigenvectors of `L1` by a 0/1 mask. Where a gradient and a curl flow share a
    frequency (on a filled triangle all frequencies are 3) the eigensolver may mix them, so the "ideal" gradient filter may
    remove a gradient flow and keep a curl flow (`C176_shared`, `C176_counterexample`).
44. C179: on a complete network with all triangles filled every Hodge frequency is the number of nodes N, and the type-one
    extraction returns 2/N of the flow as "gradient" and 1-2/N of it as "curl", whatever the filter size
    (`C179_type_one`). Denoising with `L1` divides by 1+mu N, and kernels without Hodge components learn nothing about
    unmeasured edges.
45. C180: the general form of items 43 and 44 for `subcomponent_extraction_type_one`: at a frequency with multiplicity a
    among the gradient and b among the curl flows the "gradient" filter has gain a/(a+b) and the "curl" filter b/(a+b)
    for all flows of that frequency (`C180_shares`).
46. C181: the default tolerance 1e-3 of the eigenpair functions is already too large for a ring of 199 edges: its smallest
    non-zero frequency 2-2cos(2 pi/199) is below 1e-3, so `get_component_eigenpair("harmonic")` returns eigenvectors with
    divergence (`C181_tolerance`). With 198 edges it is still right (`C181_default`).
47. C182: on a chain of 99 or more edges, which has no harmonic flow at all, `get_component_eigenpair("harmonic")` with the
    default tolerance returns eigenvectors (`C182_tolerance`); with 98 edges it returns none (`C182_default`).
48. C183: with the default tolerance `subcomponent_extraction_type_one("harmonic")` passes all flows of a frequency up to
    1e-3. On a chain of 99 or more edges it returns a gradient flow unchanged as the harmonic component (`C183_chain`).
49. C185: 100 nodes is the smallest size at which the default tolerance 1e-3 can fail without filled triangles
    (`C185_100_nodes`); up to 99 nodes it is right on every such network (`C185_99_nodes`).
50. C188: `subcomponent_extraction_type_two("gradient")` never works on a forest of up to 2000 nodes with L >= N: some
    gradient flow is returned as zero (`C188_forest`, generalising the path of C53).
51. C190: on every chain of three or more nodes there is a flow whose gradient component the l1 trend filter does not remove
    with its default weight 0.5 (`C190_default_weight`); a weight above sqrt(N-1)/2 always does, on any network of N nodes (`C190_nodes`).
52. C191: likewise for the curl component, when no two triangles share an edge (`C191_default_weight`);
    every weight above 1/sqrt(3) does (`C191_apart`).
