# Formal model of fancompute/simphox in Lean 4

## 1. Trusted base

* Lean 4.33.0's kernel (the gate replays every declaration with it) and the
  Mathlib *definitions* used in statements (ℝ, ℂ, `Matrix`, `Real.cos`, `Complex.arg`,
  `HasDerivAt`, `Finset.sum`, ...).
* Axioms: at most `propext`, `Classical.choice`, `Quot.sound` for every theorem. No axiom is
  added, nothing is admitted, `native_decide`/`bv_decide` are not used.
* The reading of the Python source: every definition of the model cites the file and lines in
  `/repo` it models. The code is not run; the tie between model and code is that citation.
* Modelling conventions, common to all modules:
  * floating point numbers are exact reals / complex numbers (rationals where the code only does
    field arithmetic and rounding). `np.spacing(1)` inside formulas is kept as an explicit
    parameter `ε ≥ 0`. Rounding error is modelled only in C186 (mesh propagation, as
    a relation bounding every operation's relative error) and C187 (FDTD, as an arbitrary error of every
    stored update); overflow, signed zeros and NaN are **not** modelled.
  * NumPy arrays are functions on `Fin n`/`ℕ`/`ZMod n` or lists; in-place mutation becomes
    returning the new value, except where aliasing is the property (then there is a heap).
  * exceptions are values (`Except`/`Option`).
  * the RNG, MKL's numerical kernels, eigensolvers, SVD/QR, dphox, jax's tracing machinery,
    xarray, holoviews are parameters with the assumptions listed beside the theorem using them.
* Not modelled at all: `viz.py`, plotting, `bpm.py` (its constructor always raises), pandas
  dataframe views, haiku layers, the progress bars' rendering, performance, dtype casts (complex64).

When the code *violates* the property as a user would state it, the development proves the
negation with a concrete witness (name suffix `_counterexample`), keeps what does hold under the
suffix `_partial`, and the property is listed as `partial` in `MANIFEST.json`.
Section 4 lists these findings.

## 2. Layout

`lean/Verif/*.lean`; each area has a model file (definitions, with citations), lemma files, and a
`…Props.lean` file that contains only the property theorems and their non-vacuity examples.

## 3. Plan per property

| id | plan |
|---|---|
| C01 | `_tree` as a structural recursion on lists of nodes with fuel-free well-founded recursion on n; induction on n. |
| C02 | Invariant of the recursion: rails of the subtree on `start..start+n-1` lie in that interval; sibling intervals are disjoint; columns after `invert_columns`. |
| C03 | Induction on n with `Nat.clog 2`; surjectivity of the column label onto 0..depth-1. |
| C04 | Spec: leaves merged into a rail = number of inputs in the sub-interval; induction. |
| C05 | Spec: order on columns; induction with the interval invariant. |
| C06 | Model `_parallel_mzi` elementwise over ℂ, columns as list of node actions; norm preservation by the 2x2 identity, lifted through disjoint columns, then unitarity by `Matrix.conjTranspose`. |
| C07 | As C06 with inequality, via factorisation of the lossy 2x2 block. |
| C08 | 2x2 transposition for equal left/right error; lift through reversed column list. Counterexample for unequal errors. |
| C09 | Explicit matrices `!![..]`, embedding as in `_embed_2x2`, product over columns. |
| C10 | Commutation of node actions on disjoint rails; permutation induction; simultaneous = sequential. |
| C11 | Model `idx` padding and masked scatter; prove the padded scatter equals unpadded. |
| C12 | Model `_parallel_dc`, `_parallel_propagate`; equality at zero error; counterexample otherwise. |
| C13 | Fold with snapshots; prefix lemma. |
| C14 | Model `_program_vector_unit`; per-node nullification lemma (trigonometry), invariant over columns; norm conservation; explicit √ε bound. |
| C15 | Model `cascade` as recursion over subunits; invariant "last column is null above the diagonal", unitary + triangular => diagonal. |
| C16 | `aggregate` resets the phase style; counterexample n = 2 BOTTOM. |
| C17 | Arithmetic of node ids/columns of cascade. |
| C18 | Model Clements elimination; hardest item, done last. |
| C19 | Model cuts, `HasDerivAt` of Re(gᵀ·out) at each phase; equality with the measured powers. |
| C20 | Model `phase_shift_localize`; counterexample for tree numbering; theorem for column-ordered numbering. |
| C21 | Model `nullification_basis`/`program_by_null_basis`. |
| C22 | Small heap model of arrays and node objects. |
| C23 | List lemmas. |
| C24 | Induction on k. |
| C25 | Real arccos lemmas. |
| C26 | 2x2 identities; embedding lemma; counterexample for `coupling_matrix_phase`. |
| C27 | Telescoping sums of partial sums of |v|². |
| C28 | Block matrices. |
| C29 | Cauchy–Schwarz for traces. |
| C30 | Phase bookkeeping layer by layer. |
| C31 | Inductive type of Python values; counterexamples for one-element lists. |
| C32 | Same value type; association lists. |
| C33 | Integer slices with Python semantics over ℚ spacing and round-half-even. |
| C34 | Python negative-index semantics; counterexample. |
| C35 | Pointwise. |
| C36 | Pointwise; counterexample for non-positive height. |
| C37 | Composition of fills; counterexample sub_height = 0. |
| C38 | Boolean decision logic; counterexample. |
| C39 | min/max algebra. |
| C40 | Permutations of `Fin 3`, all axes. |
| C41 | Field arithmetic. |
| C42 | Constructor as `Except`. |
| C43 | Constructor as `Except`; counterexample for the hand-over. |
| C44 | `deriv` as matrices on `Fin n`. |
| C45 | Commuting difference operators on `ZMod` grids. |
| C46 | Pointwise evaluation of the matrices. |
| C47 | From C44. |
| C48 | Sign computation: h2e(e2h e) = -e; counterexample. |
| C49 | Algebra from A x = b. |
| C50 | COO assembly. |
| C51 | Derivative of the inverse; COO sums. |
| C52 | Trace identity. |
| C53 | Additivity, homogeneity. |
| C54 | Induction on steps. |
| C55 | From C45, induction on steps. |
| C56 | Leapfrog invariant; nonnegativity via the norm of the curl. |
| C57 | Counterexample + source-free equality. |
| C58 | Heap model of in-place update; counterexample for NumPy mode. |
| C59 | State machine with an abstract key function; correct iff key separates; counterexample by truncated printing. |
| C60 | State machine. |
| C61 | Cache state machine; counterexample. |
| C62 | List/permutation model of argsort and filtering; counterexample. |
| C63 | Bilinear algebra. |
| C64 | Complex exponentials. |
| C65 | Integer logic; counterexample for negative indices. |
| C66 | Set iteration order as an arbitrary permutation parameter; counterexample. |
| C67 | List maximum; counterexample for port_source. |
| C68 | Cauchy–Schwarz. |
| C69 | Fold over iterations. |
| C70 | zip misalignment; counterexample + theorem when all problems are simulations. |
| C71 | Pointwise. |
| C72 | Index arithmetic; counterexample for even sizes. |
| C73 | Pointwise; counterexample for two flags, theorem for all flags / last flag. |
| C74 | tanh monotonicity. |
| C75 | Pointwise. |
| C76 | Field arithmetic. |
| C77 | Value model; counterexample for slices. |
| C78 | Decision logic; counterexample for the guard. |
| C79 | Pointwise. |
| C80 | Index model; counterexample for axes 0, 1. |
| C81 | Errors as list-ordered arrays read at node ids; theorem when ids equal positions, counterexample otherwise. |
| C82 | Pointwise on the grid array; counterexample for anisotropic spacing. |
| C83 | Heap of node objects; aggregate as a heap transformer. |
| C84 | Real exponentials and monotonicity of the grading. |
| C85 | Closed form of the psi lists after k steps; compared with the documented recursion. |
| C86 | Heap of arrays; frame property of `step`. |
| C87 | Eigen-equation implies the discrete Maxwell system (both directions). |
| C88 | Same for the 1D operators; counterexamples on the grid lattice. |
| C89 | State machine of the library's wavelength; counterexample. |
| C90 | List lookup of the source row; counterexamples for reordered requests and higher modes. |
| C91 | Two-plane interference with the mode's propagation constant. |
| C92 | Value model of `to_2d`; every input raises. |
| C93 | Fold over iterations, recorded permittivity compared with recorded fields. |
| C94 | Block matrices; svd/qr as parameters with their defining equations. |
| C95 | Closed form of the input cotangent. |
| C96 | Columnwise equality of the JAX and NumPy explicit propagation. |
| C97 | Broadcast of `(n,1)` against `(n,)`; counterexample. |
| C98 | One-node DIFFERENTIAL mesh; counterexample. |
| C99 | Length bookkeeping of the default gammas; counterexample. |
| C100 | From C18, svd a parameter with unitary factors. |
| C101 | Closed form of the index grid. |
| C102 | List lengths and order. |
| C103 | Closed form for even n; failure for n >= 3. |
| C104 | Index arithmetic; failures for odd n and n = 2. |
| C105 | Binary-tree calculus: second derivatives of the nulled tree in closed form, compared with the recorded powers. |
| C106 | 2x2 algebra with `arctan2` as `Complex.arg`. |
| C107 | Loop model of the finite differences; closed form of the last output under a pair of phase shifts. |
| C108 | Arithmetic of the estimates against the proved column counts of the meshes. |
| C109 | LRU cache as a list, all histories; freshness/staleness characterisation. |
| C110 | Value model of `measure_info`; lookup of the source. |
| C111 | Composition of the grid constructor, two fills and add; pointwise; counterexamples for zero substrate and placement. |
| C112 | Heap model of `columns` and `matrix_fn`; side effects of the per-column constructors. |
| C113 | Same heap model after relabelling. |
| C114 | Closures as addresses of copied arrays; frame property over all histories. |
| C115 | `_bowtie` with NumPy arrays, negative row indices and the `cs` results as a parameter; induction on the size for the layout, exact matrices for 2 and 3 modes. |
| C116 | `parallel_mzi` with optional arguments; a single-column mesh is one `parallel_transform`; the rotation formed by the two top-input elements shows they never vanish together, which gives the iff. |
| C117 | NumPy broadcasting for numbers and 1-D arrays; case analysis on lengths. |
| C118 | Node tuples and the zip loop with `tuple(e)`; induction on the node list. |
| C119 | `betaincinv` as any right inverse of the distribution function; uniform measure pushed forward, compared on half lines; change of variables for the phase density. |
| C120 | Total mass of the pushed-forward beta measure. |
| C121 | Moments of the last row factor over the nodes (product measure); each node gives a ratio of beta functions; induction over the binary tree telescopes them when the parameters match the arm sizes. Refutation: second moment of the power of the upper half. |
| C122 | Mesh heap of C22 plus the layer constructor (zero the gammas of the argument, then add_error copy); forward pass through C11. Refutation: the caller's matrix after construction. |
| C123 | The FDFD operators of C47-C49 with arbitrary complex cells; weighted integration by parts shows that (cell volume) x (operator) is symmetric up to reversing the Bloch phase. |
| C124 | Quadratic form of the operators with C44 (adjoint derivatives): the imaginary part is the absorbed power; kernel zero gives unique solvability; Cauchy-Schwarz the bound. |
| C125 | One dimensional grid with the stretching factors of C79; one-step discrete Poynting identity, monotone flux through the layers, dichotomy by the recursion. Refutation for every point source. |
| C126 | Locality of one half step by unfolding curl and CPML updates; induction over the steps with a shrinking neighbourhood. |
| C127 | Algebra of the leapfrog step; induction over the number of steps. |
| C128 | Steady states of the driven recursion characterised by an iff; geometric induction; refutation for the magnetic sign on two cells. |
| C129 | Lipschitz bounds of the factors of a node; passivity; induction over the nodes in visiting order. |
| C130 | Periods of the factors of a node per style; congruence of the block products; concrete refutation on three rails. |
| C131 | Roll commutes with differences, averages, sources; induction over the steps; uniqueness of the solution for FDFD. |
| C132 | The reals are a subfield closed under every operation of a step; induction over the steps. |
| C133 | Scaling of the derivative matrices; uniqueness of the solution; induction over the steps; refutation with PML by comparing one matrix entry, for all lines. |
| C134 | The repeated field satisfies the equations of the repeated device (pointwise); uniqueness of the solution for FDFD, induction over the steps for FDTD. |
| C135 | Discrete Lorentz reciprocity from summation by parts, for the mode and its mirror image; refutation of measure_fn on a two cell cross section with exact modes. |
| C136 | Bilinearity of the flux and C135; refutation on the same cross section at lengths 0 and pi. |
| C137 | 1D: Rayleigh quotient by summation by parts. 2D: energy balance (C135's reciprocity of a mode with itself) and curl curl = -laplace + grad div on the grid. |
| C138 | Spectral theorem; the modulus of a maximiser of the Rayleigh quotient is a maximiser; a zero spreads to the neighbours; simplicity gives symmetry. |
| C139 | Comparison of Rayleigh quotients at the fundamental mode of the other problem. |
| C140 | Plane waves diagonalise the difference operators with explicit symbols; a step of FDTD on the two-dimensional space of a transverse polarisation is a quadratic whose roots are the frequencies. |
| C141 | The flips of cells and of edges intertwine forward and backward differences; induction on steps and uniqueness of the solver. Counterexamples where the code breaks the symmetry. |
| C142 | The solver is a parameter that solves its system uniquely; linearity of curl, matrix and overlap; finite sums by induction. |
| C143 | Call graph of the S-parameter functions with the mode solver as a function of (port, size factor, wavelength, number); which queries reach the result. |
| C144 | `from_fdfd` and the labelled array with exceptions as values; labels by position; counterexamples for default, reordered and partial port lists. |
| C145 | Draws of the generator as a parameter; rows of the Hessian of C105. |
| C146 | Energies of the field components as finite sums; label as code compares; case analysis. |
| C147 | DFT sums over the roots of unity: convolution by exchanging sums, delay and Parseval by orthogonality; broadcasting as cases. |
| C148 | Optimiser and derivative of the radicand as parameters; differentiability of the mesh by induction over columns, chain rule for the root; induction on steps for nan. |
| C149 | Argument forms as an inductive type, numpy broadcasting and exceptions as values; case analysis for lists of any length. |
| C150 | Rational angles, floor-based mod; specification by sine and cosine of the angle. |
| C151 | Coordinate lists by recursion on the number of cells, length checks of the labelled array as in xarray. |
| C152 | Model of programmed networks with the length of `gammas` and NumPy broadcasting; tree nodes on `n_rails` rails are those on `n` rails up to the rail count. |
| C153 | `cascade` with array shapes tracked through slicing; the square case refines the model of C15. |
| C154 | Unitarity of the programmed tree (C06) turns C14 (light in `v*` leaves on the last rail) into an inner product; Cauchy-Schwarz for the regulariser. |
| C155 | Heap model: solver objects with wavelength, array reference and cached `eps_t`, libraries with stored results; operational semantics of programs, invariants by induction over histories. |
| C156 | Same heap: array references of grids; invariant `OwnArrays` by induction over programs; shared references give the counterexamples. |
| C157 | Model of the argument `beta_guess` and of the eigensolver calls; contract `IsEigs` with linear independence; the bound of C137 turns closest to the shift into largest. |
| C158 | Contract `IsFeast` from MKL's documentation (nothing about entries beyond `m`); every allowed run can be changed behind `m`, which gives the counterexample. |
| C159 | `totalSource`, `sourceWork` as specification; one-step Poynting identity from the adjointness of the two curls, then induction on steps. |
| C160 | Bilinear form for which one leapfrog round (shifted by half a round) is symmetric; induction on steps for the driven state. |
| C161 | Lower power bound of one node from its factors, composed over disjoint nodes of a column and over columns. |
| C162 | C159 plus coercivity from C56; square roots of the energies satisfy a one-step recursion, induction on steps. |
| C163 | Slices with Python's negative indices; `int(x / d)` by floor; specification `CellIn` in coordinates. |
| C164 | List of mutable boxes, operations by reference, invariant by induction over programs. |
| C165 | Accessors of the library model as functions into `Except`; algebra. |
| C166 | Argument type for axes (int, NumPy int, string), plot result as a value; the 1D branch raises. |
| C167 | Column loop with two error tables (own, by id); invariant of C14 generalised to per-node errors; chain of three rails as counterexample for every error. |
| C168 | Pictures as arrays with an extent and an origin (documented imshow/hv.Image semantics); cell of each row and column computed. Holoviews plots refuted for all non-square shapes, and shown flipped for all square ones. |
| C169 | Colour limits and live normalisations as functions of the array maximum/minimum over a finite index type; division by zero is `none`. Refuted for negative live fields and uniform arrays. |
| C170 | Column loop of C14 with lossy node elements; each element of a lossy node is within `1 - 10^(l/10)` of the lossless one, power per column from C07, bound on the total loss from C161. |
| C171 | Sparse matrices with natural-number indices; row-major index arithmetic (div/mod) as a bijection; a representation relation closed under `@`, `-`, `kron`, `bmat`. |
| C172 | Representation relation of C171 applied to `mat`, `mat_ez`, `mat_hz`; equality of flat vectors below the length is equality of reshaped fields. |
| C173 | Flat model of `waveguide_mode_matrix` and of a row of `solve` with `vstack`/`hstack` on natural-number indices; blockwise `mulVec` lemmas reduce it to the array operator of C87, whose two directions then give Maxwell's equations. |
| C174 | Power entering a node = power of the rails of its subtree (unitarity column by column, laminar intervals of the tree); an MZI with error x can null its top output iff the top share ≤ cos² 2x (C26 range); forward direction by darkness of nulled rails, backward by the loop invariant of `vector_unit` of C167. |
| C175 | Relate the ideal and the imperfect run of `cascade`: as long as every theta is ≥ 4·abs(e) both nullify the same column, so their working matrices differ by unit row phases (rows of a 2x2 unitary orthogonal to one vector are parallel); at the first too small theta a node of the imperfect run leaves light in a column. A unitary near-triangular matrix with nonnegative diagonal is the identity (lemma of C15). |
| C176 | vectorUnit and cascade with equal errors (Vector.lean), epsilon 0 | Identify.lean: a setting that routes v lights every rail still to be merged, so each node's two phases are determined by its inputs; induction over the columns, then over the subunits of the cascade |
| C177 | ColumnOrdered.lean: `column_ordered` on the mesh heap (columns, then aggregate); stable bucket sort by column: sorted, permutation, same sublist per column | induction over the number of columns; heap frame lemmas of C112 |
| C178 | same model | evaluation depends on the nodes only through the columns (stability); counterexamples: phase style dropped, errors looked up by id in the new list order |
| C179 | Recorded.lean: the recording loop of `_program_vector_unit` (powerLoop of Hessian.lean) for both styles and equal errors | invariant over the columns: entering_power (C174) and unitarity of the node after nulling |
| C180 | InSituNoise.lean: the noise arguments of `in_situ_matrix_fn`, draws as arguments; InSituNoiseProps.lean: draws as independent standard normal variables | the measurement is real-linear in the adjoint inputs (polarisation), means by independence and the characteristic function of the normal law, derivative by C19's lemmas |
| C181 | InSituShot.lean: same model, shot noise only | measured entry is a constant plus a combination of distinct draws, variance of independent sums, parallelogram identity |
| C182 | Compose.lean: MeshHeap/MeshEval objects, call sequence offset, offset_column, aggregate | columns of the concatenation are those of the first mesh followed by the shifted ones of the second; invariant Fresh is preserved, so it iterates |
| C183 | Parallel.lean: Mesh as a value | visiting order commutes with filtering the nodes of the set; induction over the visiting order with the invariant agreement on the set |
| C184 | AdjointGrad.lean: entries and positions of the two systems as lists, the backward pass as the composition of the modelled backward functions and the transposes of JAX operations | chain rule for Frechet derivatives through C51, C52 and C50; roll is a bijection, so averages transpose |
| C185 | TimeReversal.lean: Yee/Fdfd operators with conjugated coefficients | conjugation commutes with the difference operators once the coefficients are conjugated; uniqueness from the solver hypothesis |
| C186 | Rounding.lean: rounded products and sums as relations, one rounded column, rounded mesh | two-norm of one rounded column from the local 2x2 error, induction over columns with the exact columns contracting |
| C187 | FdtdRounding.lean: errors of the stored updates of an arbitrary sequence of states | the error sequence is the exact run driven by equivalent currents; C162 bounds it |
| C188 | ModePerturb.lean: on the ModeFundamental model, intensity of a mode | Rayleigh quotient of either mode in the other problem; squeeze for the derivative |
| C189 | GridHistory.lean: grid state with components and ports, edits as operations, run of a list of edits | induction over the history from the end |
| C190 | GridHistory.lean: add with its exact order of effects and exceptions | case analysis of the refusing branches; concrete counterexamples |
| C191 | Accuracy.lean: on the PlaneWave model | x - x^3/6 bound on sin, dispersion relations of C140 |
| C192 | Pulse.lean: pulses as lists of sources times a waveform on the Fdtd model | step is affine with the free step as linear part; induction over steps; Cauchy product for spectra |
| C193 | ModeSymmetry.lean: eigenpairs of wgm on transformed waveguides | difference operators under rescaling, translation and mirror (ScaleProps, SymmetryProps, MirrorProps) |
| C194 | Dft.lean | Induction over columns: after c columns the field from input j lives on rails that agree with j from bit c on and is the product of c elements; then gammas. |
| C195 | Dft.lean | Substitute theta = pi/2 in the path product; each factor is a twiddle phase, their sum is i times bitrev(j) over 2^k. |
| C196 | FdfdStable.lean | The imaginary part of the quadratic form (C124) bounds the inverse; apply it to the difference of two fields. |
| C197 | ButterflyLimits.lean | Both products of matrix entries are, by C194, products of the same node elements paired differently on each side of column c. |
| C198 | MeshNoise.lean | Induction over the nodes in the order visited: the field before a node depends on other draws than the node, so means multiply; Gaussian characteristic function. |
| C199 | MeshNoise.lean | Same induction with pairs of draws; the elements are linear in the coupler terms, whose means are Gaussian integrals of sines and cosines. |
| C200 | MeshClassical.lean | Induction over the nodes: the interference term is a product of a function of the node's own phase, of mean zero, and one of the earlier phases. |
| C201 | Random losses act as gain on average | MeshLossNoise: add_error_variance with normal draws; elements are bilinear in the two log-normal factors, so the mean field of independent nodes is the field of mean elements (as C198). |
| C202 | Line plots show every sample at its place | Viz1d: the points handed to matplotlib and holoviews, as lists; normalisation by the largest modulus. |
| C203 | Animated modes run from start to end | Viz1d: the linspace of evolve_viz over exact rationals. |
| C204 | Random meshes spread the power evenly | MeshSpread: expectation over independent draws of the exact output power of the mesh built by the constructor model; mean transport of powers (MeshClassical), then a vector indexed by line labels on which each node acts by exchanging labels. |
| C205 | Sensitivity index of a rectangular mesh is a distance | MeshSpread: trace the lines through nodes in the cross state, column by column, by induction. |
| C206 | A randomly set triangular mesh is Haar-random | HaarLaw, HaarMesh: moments of every linear form of the last row of a random chain, laws determined by moments (characteristic functions), right invariance subunit by subunit by induction, left invariance by averaging twice. |
| C207 | Randomly set networks of lines that cross once are Haar-random | HaarWords (monoid of laws under independent multiplication, absorption of uniform phases), HaarSwap (densities: three nodes on three rails may be exchanged when the outer indices are exchanged), HaarNetworks (confluence: all networks that reverse the same numbers have one law, by induction on the disorder), HaarRectangular (triangular reference network of C206, rectangular meshes by C205). |
| C208 | A crossing mesh is determined by its matrix; rectangular returns the phases | LineIdent: rails behind a node are compared with the lines of low label: light on a set of rails that does not fit below these lines can avoid all their outputs (exchange argument, induction on the nodes), light on the rails of these lines cannot when no node is in the bar state; in front of the first node this gives an input for which the node must leave its lower output dark in both settings, so its phases agree (C176's node lemma), and the node is stripped. `rectangular` has phases in the closed ranges (invariant of its loop, C30), realises the matrix (C18), so it returns the setting. |
| C209 | The phases of a programmed Haar-random matrix | HaarProgram: the map from settings to matrices is measurable and injective on generic settings (C176, C208), random settings are generic almost surely and give a Haar-random matrix (C206, C207), two Haar-random matrices have one law, images of measurable sets under the injective map are measurable (Lusin–Souslin); the explicit laws come from the draws (independence, substitution u to 2 pi u, density of rand_theta from C119 with alpha = 1). |
| C210 | The phases of a vector unit programmed with a random vector | HaarVector: unit vectors of unitarily invariant law have one law (averages over a Haar-random matrix; the unitary group is transitive on unit vectors by C14). VectorProgram: phases drawn with the merged input counts give a last row with the moments of a Haar-random row (the amplitude recursion of C121), hence a random direction; vector_unit recovers the phases from the direction (C176); Lusin–Souslin carries the law back. RandomVector: the characteristic function of independent normal draws depends only on the norm |
| C211 | Balanced cascades and Haar-random matrices | CascadeHaar: by induction on the units, from the smallest outwards; the last row of the product of a unit with natural phases is a random direction (C210), the rest is invariant by the induction hypothesis, so the whole is Haar (as C206 for chains). Conversely tree_cascade recovers the phases of a balanced cascade (C176); Lusin-Souslin carries the law back (as C209) |
| C212 | Randomly set balanced cascades | CascadeRandom: the cascade under rand_theta is the product of units of C211 with indices by list position; for n <= 3 these are the indices of the nodes (kernel computation on the node list) and C211's induction gives Haar; for n >= 4 the last row has the moments of C121's freshly built balanced tree, whereas a Haar-random matrix has the moments of a random direction (C210) |
| C213 | Randomly set butterflies | ButterflyRandom: the rank-one blocks of C197 give a minor that vanishes in every draw; invariance of a Haar law under row and column permutations carries this to all rows, which contradicts the first moments (C206); two rails: the butterfly equals a tree with indices 2, 2 and the fourth moment differs |
| C214 | Error of freshly drawn meshes | MeshError: the drawn matrix is Haar-random (C206, C207), so the star of the target times it is too; the mean square of its trace is 1, since sign flips of one row kill the mixed terms and each squared entry has mean 1/n; Markov's inequality for the bound; uniqueness of the Haar law for the common law |
| C215 | matrix_opt and the global phase | OptPhase: the matrix is the diagonal of output phases times a matrix that does not depend on them; the norm of the trace drops a common factor; the derivative in each output phase is an inner product with one term of the trace, the sum of the terms is i times the trace, orthogonal to it |

## 4. Where the code violates the property (findings)

For each row the negation is proved (`_counterexample`) or the proved part is weaker than the
property (`_partial`); the full statement stays in `properties.jsonl`.

<!-- findings -->
| id | property | finding / missing part |
|---|---|---|
| C04 | Tree alpha/beta count subtree inputs | Proved for balanced trees. False for chains: beta is n-i-1 but i+1 inputs are merged (counterexample + exact characterisation). |
| C08 | Reciprocity: back=True gives the transpose | Exact condition for lossless meshes with distinct ids (C08_iff_partial): reciprocal at all phases iff the style is not DIFFERENTIAL and every node's two coupler errors differ by a multiple of pi. With losses proved for equal errors. False otherwise: counterexamples for unequal errors and for DIFFERENTIAL. |
| C09 | The mesh applies its nodes' MZI matrices | Proved for TOP meshes with arbitrary coupler errors and left losses listed in id order. Counterexample for any right loss: the mesh attenuates the node's top input, mzi_node_matrix its top output. |
| C12 | Explicit propagation ends at the mesh output | Proved: the explicit output is the output of the mesh with negated errors (and swapped losses), hence equal for ideal couplers; false with errors (counterexample). |
| C16 | cascade honours its phase style | Fails: aggregate builds the mesh with the default style TOP, so BOTTOM cascades implement a wrong matrix (every 2x2 unitary with nonzero first row). Partial: the phases are right in the requested style. |
| C19 | In-situ backpropagation returns the true gradient | Derivatives proved for every node, listed in column order (equal to parameter order when ids are column-ordered); zero cotangent gives NaN. |
| C20 | Gradients are returned in parameter order | False for tree (depth-first ids) and BOTTOM (top rail read); exact order proved. |
| C26 | Node matrices are unitary | All node matrices proved unitary except coupling_matrix_phase (sine at [1,1]), which is refuted. |
| C31 | Excitation formats agree | Proved for every documented format outside the crashing shapes; one-element lists / nested single entries raise (counterexample). |
| C32 | Source formats agree | Proved for all handled formats of every nesting; documented single-tuple shape raises (counterexample). |
| C34 | set_eps clips boxes at the boundary | Upper boundaries proved for all boxes; false at lower boundaries (negative slice start wraps). C34_clip_iff_partial: the clipped box is painted exactly if and only if no axis has a negative slice start (LowerEndOk), for any box meeting the grid. |
| C35 | Design mask functions | get_mask_fn proved for all boxes; mask_fn proved unless eps is written in place afterwards, where it is refuted (the closure aliases grid.eps). |
| C37 | block_design keeps the rib | Proved for sub_height > 0; for the default sub_height = 0 refuted for every rib. |
| C38 | add rejects patterns outside the grid | Acceptance of inside components proved; the exact rejection set is characterised and is too small (operator precedence), so rejection is refuted. |
| C39 | pml_safe_placement | Proved when the safe window is nonempty; refuted on valid grids whose PML plus separation exceeds half the grid. C39_window_iff_partial: placement is safe for every request if and only if 2p is at most the extent. |
| C40 | Mode profile and view orientations are inverse | Permutations are inverse for every axis and the axes agree when exactly one side is zero (C40_axes_exact_partial gives the axis each of the two uses, and when each raises); signs remain for x and z (counterexample), place() addresses the component axis and does not permute components, and for a box with two zero sides profile and view_fn use different axes (counterexamples). |
| C43 | PML validation and hand-over | Validation proved; hand-over to FDFD proved for unit spacing and refuted otherwise. C43_handover_iff_partial gives the exact condition: n/(n+1) < spacing <= 1 on every axis. |
| C48 | Field conversions are consistent | Violated: e2h followed by h2e gives -e on source-free solutions (sign of h2e); proved as _partial, plus a concrete counterexample. |
| C49 | FDFD.solve returns Maxwell fields | 3d and Ez proved for zero Bloch phase (any PML). Hz (TM): Ampere always; Faraday only for constant permittivity without PML; counterexamples for non-uniform permittivity and for Bloch phase. |
| C50 | Differentiable and plain FDFD solve the same system | TE and 3d: all permittivities. TM: all positive permittivities; counterexample for mixed-sign permittivity (sparsity pattern changes). |
| C57 | JAX and NumPy FDTD agree | Agree without sources; with a source the modes agree iff the field vanishes on the source region (JAX .set overwrites). Counterexample given. |
| C58 | Synchronised CW measurement | JAX mode synchronised; NumPy mode averages the aliased new h with itself. Counterexample given. |
| C59 | Cached factorisation is never stale | Proved for every history when the printed-and-hashed key separates the matrices used and no call failed; refuted for matrices equal in scipy print-out (truncated) and after failed calls. |
| C60 | Pardiso lifecycle | Rejected matrix leaves the previous one solvable and solve after a different matrix refactorises: proved. Solve after free() of the same matrix and after failed factorisation use missing factors: refuted. |
| C61 | eps_t reflects eps | Proved when eps is not changed after the first read; refuted otherwise. C61_returns_last_fill gives the exact behaviour for every history. |
| C62 | Modes are sorted and matched | Proved when the eigensolver lists guided eigenvalues first; otherwise solve raises IndexError (double indexing by useful_modes), proved for every such output. |
| C65 | Mode index checking | Violated for negative indices (C65_negative_counterexample); proved for non-negative ones. |
| C66 | Measurements line up with ports | Iff-characterisation of when the result is right; counterexamples for set order and repeated ports. |
| C67 | Enough modes are solved | port_modes correct for all requests; port_source counterexamples for higher modes and string keys. |
| C68 | Fidelity bounds | All bounds proved; minimum is on multiples of the conjugate (counterexample for complex desired, exact for real desired). |
| C69 | Optimisation bookkeeping | Complete functional correctness of well configured runs; default arguments (no pbar / no viz), problems without sim and metric_interval >= 2 always raise (counterexamples). |
| C70 | Metrics belong to their problem | Proved when all problems have a source; misaligned otherwise (counterexample). |
| C72 | Copied symmetry | Odd sizes proved; exact condition for even sizes proved; refuted for even sizes in general. |
| C73 | Combined symmetry | Proved for 12 of 16 flag combinations (averaged, or copied with odd size); the other four refuted. |
| C77 | shift_slice | Int entries proved; slices with integer bounds always raise TypeError. |
| C78 | gaussian_fn | Envelope and causality proved; the argument guard never fires. |
| C80 | Poynting vector along any axis | Axis 2 proved; axes 0 and 1 raise IndexError for all fields. |
| C81 | Beamsplitter errors act on their own node | False in general (arrays are in list order but indexed by id); proved when ids equal list positions. |
| C82 | add extrudes along z | Isotropic spacing proved; anisotropic spacing refuted. C82_add_exact_partial says exactly which voxels are painted for any spacing (the z window uses dx below and dy above). |
| C83 | Aggregating leaves the parts alone | Fails: aggregate renumbers shared node objects when all ids sum to 0, and shares nodes. Holds for distinct ids as long as the aggregate is not relabelled. |
| C85 | PML memory follows the documented recursion | psi stores only the last weighted difference: memory of one step instead of the documented recursion. Counterexample given. |
| C86 | step leaves the caller's state alone | JAX without PML leaves the caller's state alone; NumPy overwrites it (and JAX with PML overwrites the psi lists in place). Counterexample given. |
| C88 | One-dimensional mode fields solve Maxwell's equations | Violated on the grid's own lattice and, for TM in non-uniform media, on every lattice; the partial theorems state where the fields do solve Maxwell's equations. |
| C89 | Wavelength sweeps use the swept wavelength | dispersion_sweep is wrong (counterexample); update_wavelength is history independent. |
| C90 | S-parameters are normalised by the source port | Default measure_info proved; counterexamples for reordered measure_info and higher source modes. |
| C91 | Unidirectional sources are dark outside | Exact for propagation with the mode's own constant; on the grid (numerical dispersion) the outward side is never dark (counterexample). |
| C92 | to_2d projects 3D simulations | to_2d raises for every input (proved); refusals as documented. |
| C93 | Recorded data of one iteration belong together | Proved to be off by one update in every run. |
| C94 | Cosine-sine round trip | False as stated: csinv(*cs(u)) = u iff no singular value of the top-left block is 1 (both directions proved, for any correct svd/qr with real R diagonal); fails on the 2x2 identity. |
| C95 | In-situ cotangent of the inputs | False: the cotangent is divided by its largest row norm; exact formula proved. |
| C97 | In-situ gradient does not depend on the shape of a single input | False: the (n,1) input broadcasts to (n,n); counterexample. |
| C98 | Self-configuration in the DIFFERENTIAL style | False: parallel_nullify uses the TOP formula for DIFFERENTIAL, where the phase acts with the opposite sign; for v = (1, i) all the power leaves on the wrong rail (counterexample theorem). C98_differential_iff_partial: a two-rail unit works exactly for the vectors whose amplitudes are in phase or in antiphase. |
| C99 | Default output phases of grid_common_mode_flow | The default gamma of grid_common_mode_flow has the wrong length on non-square grids (counterexample); with the right length the transfer is preserved. |
| C103 | Rows of the rectangular mesh | raises for n >= 3 (column_ordered on empty columns); off the mesh for odd n; the even case before reordering is proved |
| C104 | Phase shifter powers | proved for even n >= 4; wrong length for odd n, IndexError for n = 2 |
| C105 | hessian_vector_unit returns the second derivatives | Proved: the diagonal blocks are exact second derivatives and the matrix is symmetric; the off-diagonal block is the transpose of the documented one (row phi_i, column theta_j holds d2/dtheta_i dphi_j), for every vector and both trees. Counterexample: chain on three rails, any v with v[1] != 0. eps = np.spacing(1) is taken as 0 here. |
| C106 | CouplingNode.nullify turns the bottom rail dark | Proved with default flags for an ideal node on rails idx, idx+1, every vector. Violated otherwise: with the flags the bottom is dark only for special vectors (exact condition proved), coupler errors are ignored, and a node on non-neighbouring rails reads vector[idx+1] instead of its bottom rail. |
| C108 | Size estimates match the meshes they size | np.log2 is the exact real logarithm. At n = 2 rectangular_depth_size counts two columns per mesh where rectangular() has one (C108_rectangular_layers_counterexample). |
| C109 | Cached modes reflect the current permittivity | functools.lru_cache modelled exactly (shared, identity-keyed on the grid, 128 entries as parameter cap). Violated: the answer given before a permittivity change is repeated until 128 other distinct calls have been made (C109_stale_counterexample); exact conditions for staleness and freshness are proved. |
| C110 | FDFD.sparams is normalised by the source port | Holds for flat lists of tuples and for the default; dicts (the annotated type) and name lists always raise, nested lists normalise by the wrong port. Solved fields and the overlap measurement are parameters. |
| C111 | from_pattern builds the requested stack | Proved for positive sub_z, thickness and height, and for the 2D default. False for sub_z = 0 (rib and background overwritten by cladding) and for the boundary (the component is not moved); the PML check is C43. component.mask and bounds are parameters (dphox). |
| C112 | Evaluating a mesh does not change it | Proved for meshes with distinct ids. False with repeated ids: reading columns renumbers the node objects (constructor side effect). |
| C113 | Relabelled meshes can still be evaluated | invert_columns proved. offset(k>0) makes every evaluation raise IndexError, offset_column(k>0) ValueError, on every non-empty mesh. |
| C115 | Bowtie mesh implements the given unitary | False for every size. Even sizes from 4 on always raise ValueError (the column before the middle one has no node and ForwardMesh([]) raises); sizes 0 and 1 raise; for 2 modes the mesh is i exp(i theta) u when 0 < /u00/ < 1 (proved), raises when u00 = 0, and never equals u; for 3 modes the left and right factors are in the wrong order, so /M01/ = /u10/ (a concrete orthogonal matrix is shown to be returned wrongly). For odd sizes the layout itself is proved sound (n(n-1)/2 nodes, no empty column). |
| C116 | parallel_mzi describes the programmed mesh | parallel_mzi defaults phis to the thetas (self.params[0]): for TOP meshes the default call is right iff exp(i phi) = exp(i theta) at every node (proved). With explicit arguments it is right. |
| C117 | phases adds the requested error | Scalars proved (the same draw shifts theta and phi of a node). Arrays, the annotated type, always raise ValueError when the numbers of nodes and rails differ, e.g. on every tree with three or more inputs, because the same array is also combined with the gammas. |
| C118 | add_error_mean and add_error_variance set the requested imperfections | error_right is ignored; a one-dimensional array (one error per node) raises TypeError; existing errors are replaced. Numbers and (num_nodes, 2) arrays proved. |
| C120 | beta_phase is the density of the coupling phase | beta_phase integrates to 1/pi for all parameters (extra division by pi); pi * beta_phase is the density (C119). |
| C121 | A freshly built tree mesh has a Haar-random vector unit | C121_chain_haar_partial proves the claim for every unbalanced tree, C121_balanced_small_partial for balanced trees with 2 or 3 rails. It is false for every balanced tree (the default) with n >= 4 (C121_balanced_counterexample): rand_theta draws in the order of the node list (root first) while the mesh reads thetas by node_id, so the root is drawn with the parameters of another node (uniform split instead of Beta(n//2, n - n//2)). |
| C122 | InSituBackpropLayer computes activation(M x) and leaves the caller's mesh alone | Proved: the forward pass is activation(M x) (C122_forward, for the modelled jax-order application), and with set_gammas_zero=False the layer is an independent copy (C122_copy_partial). With the default set_gammas_zero=True the constructor zeroes the output phases of the caller's own mesh (C122_default_partial, C122_caller_counterexample). |
| C125 | The PML absorbs the power that leaves the sources | Unique solvability and conservation of the flux between sources and layers are proved. The direction is wrong with the default pml_params: scpml stretches with 1 + i*sigma, sigma < 0, which absorbs in the convention exp(+i w t), while solve computes h = curl e/(i k0), the convention exp(-i w t); so the Poynting vector of the returned fields points from the layers to the source (C125_inward_partial, and C125_default_counterexample for every point source). With log_reflectivity > 0 the net flux is outward (C125_outward_partial). Missing: 2D and 3D. |
| C128 | FDTD and FDFD describe the same harmonic fields | The electric fields agree exactly (C128_oscillates_iff, C128_electric_agrees). The magnetic field does not: the oscillating state has minus the h of FDFD (C128_magnetic_sign_counterexample), because e2h divides by +i k0 (convention exp(-i w t), as in C48 and C125) while run_cw_port drives with exp(+i w t). NumPy mode; PML and Bloch phase not covered. |
| C130 | Only phases modulo 2 pi matter | True for TOP and BOTTOM phases (C130_top_bottom). SYMMETRIC thetas and DIFFERENTIAL thetas and phis have period 4 pi (C130_periods_partial): adding 2 pi to one theta moves all light of an output (C130_symmetric_counterexample), although the code stores phases modulo 2 pi. |
| C133 | The unit of length does not matter | Proved without PML, and for any given complex stretching of the cells. Violated with PML: scpml divides by the absolute wave number k0 but uses relative depths, so the absorption depends on the unit of length (C133_pml_counterexample, for every PML line and every factor other than 1). |
| C135 | Different modes do not couple | Proved for 2D cross sections when the components are multiplied where they sit on the Yee grid, and the exact crosstalk k0 beta dx^2/4 of 1D TE modes under poynting_fn. Violated for measure_fn: it averages both fields over neighbouring cells before multiplying, and the 1D TM operator lacks the permittivity weighting, so measure_fn of another mode is not (0, 0) (C135_measure_counterexample). |
| C136 | A lossless waveguide keeps its power | Proved for the flux taken on the Yee grid and modes with distinct propagation constants. Violated for the flux of poynting_fn: the power of two superposed default modes beats along a lossless guide (C136_poynting_counterexample). |
| C141 | Mirroring a simulation mirrors its fields | Holds for FDTD, 3D FDFD and 2D Ez along x and y without PML (and along z for permittivity tensors symmetric as tensors). Counterexamples: along z (yee_avg does not average along z), with PML (electric stretching factors of the two ends differ), TM FDFD (difference operators of mat_hz are on the wrong side). |
| C143 | Sources and measurements use the simulation's wavelength | get_sim_fn, get_sim_sparams_fn, FDFD.sparams and the measurements of run_cw_port always use modes at the default wavelength 1.55, and measurements always use size factor 3. Counterexamples for every other wavelength and factor; exact what-is-computed theorem and the default case proved. |
| C144 | Component models are labelled with the ports they belong to | Labels are positional: port order other than the pattern's mislabels the entries; default ports or a subset of ports raise. Proved for all ports in the pattern's order (modes as in C143). |
| C145 | hessian_distribution returns Hessians | Returns only the first row of each Hessian (proved: the second derivatives with theta_0, blocks transposed as in C105); raises for n=1. |
| C146 | Mode polarisation | te_ratio proved in full; the label of plot_power is the opposite of the ratio for every mode. |
| C147 | gaussian_fft filters the pulse | One-dimensional profiles proved in full; profiles with several columns raise or are multiplied along the wrong axis. |
| C148 | Gradient optimisation of a mesh | Value and gradient proved for all lossless meshes; at a solution the gradient is nan and all later values are nan; lossy meshes have nan errors. Optimiser and JAX's derivative of the radicand are parameters. |
| C149 | Bloch phase and PML arguments of the constructors | Counterexamples: integer phase (TypeError), numpy array without PML (ValueError), every 1D/2D FDTD with PML (IndexError), from_simgrid drops the Bloch phase (its PML is C43). |
| C150 | Port planes are perpendicular to ports | Counterexample: ports of default width 0 pointing along y get modes along x. |
| C151 | Labelled results match grid and ports | Counterexample: S-parameters are labelled by port order; other measured lists raise or are mislabelled. |
| C152 | Vector units embedded in a larger system | Holds for tree. vector_unit(v, n_rails) with n_rails different from len(v) programs the nodes right but returns len(v) output phases: every evaluation raises (counterexample); proved with phases of the right length. |
| C153 | cascade accepts k orthonormal vectors | Square unitary case proved. Counterexamples: every k x n input with k < n raises ValueError; columns (n x k) raise for k = 1 and give a mesh that cannot be evaluated for k >= 2. |
| C155 | Mode libraries describe the modes they solved | A library keeps betas and modes but reads wavelength and eps_t of its solver live. Proved: histories that leave the solver at the same wavelength and eps_t do not change it; betas only change by its own updates; update gives the library of the current permittivity if eps_t was not cached earlier. Violated: updating another library of the same solver (or a failing update) rescales the effective indices; after an edit a 2D update solves the stale cached eps_t. |
| C156 | Grids own their permittivity | Grids built from numbers own their arrays (proved for all histories) and fill allocates a new array. Grids built from an array or by from_simgrid keep a reference: edits are visible in both, and in the caller's array. |
| C158 | Modes requested in a range of propagation constants lie in the range | True when FEAST finds exactly m modes or leaves no positive number in the unused entries (C158_range_partial). Violated: entries beyond the number found are treated as modes (C158_spurious_counterexample); no mode, or more than m modes, in the range raise RuntimeError (C158_count_counterexample); end points are squared, so ranges with negative ends miss modes (C158_negative_counterexample). |
| C163 | A Box marks the pixels it covers | True for boxes whose lower corner is not left of or below the origin. Violated otherwise: negative slice bounds wrap around (C163_negative_counterexample): a box from -1 to 2 marks nothing, a box from -3 to -1 marks pixels on the opposite side. |
| C166 | plot_field draws the requested component | Proved for every library on the component/label selection, and for 2D libraries for the whole call. False for 1D libraries: plot_field indexes a 1D profile with two indices and always raises IndexError. False for NumPy integers (label prints the digit). |
| C167 | Vector units compensate individual splitter errors | Proved whenever each node's own error equals the table entry at its id (equal errors, id-ordered lists such as the balanced tree on 3 rails). False otherwise: parallel_nullify reads network.mzi_terms (list order) at the node id while the update of w uses the node's own error; on the 3-rail chain every nonzero error pair (0,x) mis-programs (1,0,1) although all ratios are reachable. |
| C168 | 2D and 3D plots show every pixel at its place | Matplotlib and volume plots proved; the holoviews plots violate the property: the extent is that of the transposed array (non-square arrays get the wrong axes) and row 0 is drawn at the top (square arrays are upside down). |
| C169 | Plotted values are normalised | Still pictures, live permittivity and live power proved; uniform structures and zero fields raise/give nan, and live fields are divided by their most positive value instead of their largest modulus, so negative fields are sent with flipped sign. |
| C178 | column_ordered is the same circuit | Holds in style TOP with uniform errors and losses, or if the mesh already is in column order. False otherwise: aggregate drops the phase style (forward.py:149), and the errors array is rebuilt in list order while it is indexed by node id. |
| C190 | A refused edit leaves the grid unchanged | Holds for set_eps and for the bounds check of add. Violated: 2D add of a component with ports and no zmin raises TypeError after permittivity and component list were changed; 3D raises after recording the component. |
<!-- /findings -->

## 5. What is modelled and what is not

| file | modelled (properties) | not modelled |
|---|---|---|
| `circuit/coupling.py` | node matrices, embeddings, styles, loss, errors, nullification, mesh `direct_transmissivity` (C25, C26, C106, C150, C151) | dataclass `__repr__`-level details |
| `circuit/forward.py` | construction, renumbering, columns, parameters, `matrix_fn` (NumPy, JAX, back), `propagate` (implicit, explicit, JAX), in-situ backpropagation, null basis, copies and relabelling `phases`, `add_error_mean`, `add_error_variance`, `parallel_mzi`, random initialisation (C06-C14, C19-C23, C81, C83, C95-C97, C112-C114, C116-C119, C122, C129-C132, C148, C161, C180, C181) | `dataframe` |
| `circuit/vector.py` | `tree`, `chain`, `_tree`, `vector_unit`, `butterfly`, `hessian_vector_unit`, `hessian_fd` `hessian_distribution`, embedded units (`n_rails`), unequal splitter errors, losses (C01-C05, C14, C24, C105, C107, C121, C145, C152-C154, C167, C170) | random draws of errors (their values are parameters) |
| `circuit/matrix.py` | `cascade`, `triangular`, `tree_cascade`, `dirichlet_matrix`, `cs`, `csinv`, `psvd` (C15-C17, C27, C28, C94, C100, C133, C134) | `unitary_group.rvs` |
| `circuit/rectangular.py` | everything except plotting helpers (C18, C30, C99, C101-C104) | random number generation |
| `circuit/envelope.py` | the size estimates (C108) | |
| `grid.py` | `Port`, `Grid`, `YeeGrid` geometry, permittivity, PML validation, derivative and curl operators (C33-C39, C41-C47, C82, C147, C163, C164) | xarray/plot accessors |
| `fdfd.py` | operators, e2h/h2e, `solve`, `get_fields_fn`, `sparams`, `to_2d` (C47-C52, C92, C110, C123-C125, C140-C144) | plotting, `tfsf_profile` (raises) |
| `fdtd.py` | coefficients, `step`, PML, sources, `run_cw_port`, aliasing (C53-C58, C84-C86, C126-C128, C159, C160, C162, C169) | `tfsf` |
| `primitives.py` | sparse solve and TM operator with their VJPs (C50-C52) | |
| `mode.py` | waveguide matrices, `solve`, `beta`, fields, overlap, `evolve`, indices, sweeps mode search, aliasing of the library, access to modes (C40, C62-C65, C87-C89, C135-C139, C146, C155-C158, C165, C166) | the eigensolver itself |
| `sim.py` | cross sections, profiles, ports, measurement, sources, mode cache, S-parameters (C40, C66-C68, C90, C91, C109, C143, C144, C149) | panels and widgets |
| `parse.py` | everything (C31, C32) | |
| `opt.py` | `OptProblem`, `opt_run` (C69, C70, C93) | visualisation, the optimiser's internals |
| `mkl.py` | `Pardiso` life cycle and hash cache (C59, C60), the eigenvalue count returned by `Feast` (C157, C158) | MKL itself |
| `transform.py`, `utils.py` | symmetrisation, smoothing, Yee averaging, splitter metrics, slices, PML profiles, boxes, `poynting_fn`, `beta_phase` (C29, C41, C71-C80, C120) | Gaussian filters beyond their contract, random generators |
| `viz.py` | extents, origins and orientation of 2D and 3D plots, colour normalisation (C168, C169) | colours, widgets, 1D plots |
| `bpm.py` | | not modelled (BPM's constructor raises) |
