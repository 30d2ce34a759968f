import json
P=[]
def p(title, statement, quantifier, why, *anchors):
    P.append(dict(id=f"C{len(P)+1:02d}", title=title, statement=statement, quantifier=quantifier, why_tests_cant=why, anchors=list(anchors)))
CI="simphox/circuit/"
ALLN="Tests build a handful of sizes; the claim is about every size and the recursion that produces it."
REAL="The inputs are real/complex and the sizes unbounded; a test samples finitely many points of a continuum."
# ---- circuit meshes
p("Tree meshes are well formed","For every n >= 2, tree(n, balanced=True/False) has exactly n-1 nodes, their node ids are a permutation of 0..n-2, and every node couples two distinct rails top < bottom < n.","every n >= 2, balanced and unbalanced",ALLN,CI+"vector.py:_tree",CI+"vector.py:tree")
p("No two nodes of a tree column share a rail","In tree(n) (both shapes) any two distinct nodes with the same column touch four different rails, so applying a column's nodes 'in parallel' is well defined.","every n >= 2, every pair of nodes of one column",ALLN,CI+"vector.py:_tree",CI+"forward.py:ForwardMesh.columns")
p("Tree depth","tree(n) has ceil(log2 n) columns when balanced and n-1 columns as a chain, and none of the columns 0..num_columns-1 is empty (an empty column makes the column mesh constructor raise).","every n >= 2",ALLN,CI+"vector.py:_tree",CI+"forward.py:ForwardMesh.invert_columns")
p("Tree alpha/beta count subtree inputs","Every node of tree(n) has beta = number of inputs merged into its top rail and alpha = number of inputs merged into its bottom rail (1 and n-i-1 up to the chain's convention), so rand_s draws the Haar distribution's Beta parameters.","every n >= 2, every node",ALLN,CI+"vector.py:_tree",CI+"forward.py:ForwardMesh.rand_s")
p("Nullified rails stay dark","In tree(n) every rail other than the last is the top rail of exactly one node, and after that node's column no later column touches the rail; hence a rail nullified by its node stays null to the output.","every n >= 2, every rail, every node, both shapes",ALLN,CI+"vector.py:_tree",CI+"vector.py:_program_vector_unit")
p("Lossless meshes are unitary","For zero loss, every mesh with rail-disjoint columns, every theta/phi/gamma and every left/right beamsplitter error, mesh.matrix() is unitary in all four phase styles (forward and back).","all meshes, sizes, parameters, errors, phase styles",REAL,CI+"forward.py:_parallel_mzi",CI+"forward.py:ForwardMesh.matrix_fn")
p("Lossy meshes are passive","If every loss (in the code's sign convention, dB gain) is <= 0 then mesh.matrix() never amplifies: the output power of every input vector is at most its input power; if positive losses are given it can amplify.","all meshes, parameters, errors, losses <= 0, all input vectors",REAL,CI+"forward.py:_parallel_mzi",CI+"coupling.py:loss2insertion")
p("Reciprocity: back=True gives the transpose","mesh.matrix(back=True) equals mesh.matrix().T for every mesh and all parameters.","all meshes, parameters, errors, losses, phase styles",REAL,CI+"forward.py:ForwardMesh.matrix_fn",CI+"forward.py:_parallel_mzi")
p("The mesh applies its nodes' MZI matrices","A TOP-style lossless mesh's matrix equals diag(exp(i gamma)) times the product, in column order, of the embedded matrices CouplingNode.mzi_node_matrix(theta, phi) of its nodes; in particular a single node's parallel elements are those of the node's own matrix.","all meshes with rail-disjoint columns, all parameters and errors",REAL,CI+"forward.py:_parallel_transform",CI+"coupling.py:CouplingNode.mzi_node_matrix",CI+"coupling.py:_embed_2x2")
p("Node order inside a column is irrelevant","Permuting the nodes of a rail-disjoint column changes neither mesh.matrix() nor the result of sequentially applying the nodes one at a time.","all columns, all permutations, all inputs",REAL,CI+"forward.py:_parallel_transform")
p("JAX padded path equals the NumPy path","matrix_fn(use_jax=True), which pads every column to the widest column with a masked dummy rail, returns the same outputs as matrix_fn(use_jax=False) for every rail-disjoint mesh, forward and back.","all meshes, paddings, inputs, parameters","The padding depends on the column profile of the mesh; every shape of mesh must be covered.",CI+"forward.py:ForwardMesh.idx",CI+"forward.py:_parallel_transform")
p("Explicit propagation ends at the mesh output","The last snapshot of mesh.propagate(inputs) (explicit couplers) equals mesh.matrix() @ inputs.","all meshes, parameters, beamsplitter errors, losses, inputs",REAL,CI+"forward.py:_parallel_propagate",CI+"forward.py:_parallel_dc")
p("Implicit propagation snapshots","propagate(inputs, explicit=False) starts with the inputs, its k-th later snapshot is the field after the first k columns, its last snapshot is mesh.matrix() @ inputs, and with column_cutoff=c it stops exactly before column c.","all meshes, inputs, cutoffs",REAL,CI+"forward.py:ForwardMesh.propagate_matrix_fn")
p("vector_unit routes its vector to the last rail","For ideal couplers, vector_unit(v) (TOP or BOTTOM) returns a mesh that maps v to norm(v) on the last rail and (up to the spacing(1) regulariser, with explicit bound) zero on every other rail, with gamma making the last output real.","every n >= 2, every complex vector, both tree shapes",REAL,CI+"vector.py:_program_vector_unit",CI+"forward.py:ForwardMesh.parallel_nullify",CI+"coupling.py:direct_transmissivity")
p("cascade/triangular implement the unitary","For ideal couplers, cascade(u).matrix() equals u for every unitary u, for both the balanced and the triangular layout (in exact arithmetic when the spacing(1) regulariser is 0; with it, up to an explicit bound).","every n >= 2, every n x n unitary, both layouts",REAL,CI+"matrix.py:cascade",CI+"matrix.py:triangular",CI+"matrix.py:tree_cascade")
p("cascade honours its phase style","cascade(u, phase_style=s) returns a mesh of phase style s that implements u.","every unitary, every supported phase style",REAL,CI+"matrix.py:cascade",CI+"forward.py:ForwardMesh.aggregate")
p("Triangular layout","triangular(u) for an n x n unitary has n(n-1)/2 nodes with ids 0..n(n-1)/2-1, exactly 2n-3 columns none of which is empty, no two nodes of one column share a rail, and the column order never reverses two nodes that share a rail; the same holds for tree_cascade with the summed depths.","every n >= 2",ALLN,CI+"matrix.py:cascade",CI+"forward.py:ForwardMesh.offset",CI+"forward.py:ForwardMesh.offset_column")
p("rectangular implements the unitary","rectangular(u).matrix() equals u for every unitary u.","every n >= 2, every n x n unitary",REAL,CI+"rectangular.py:rectangular",CI+"rectangular.py:grid_common_mode_flow",CI+"rectangular.py:checkerboard_to_param")
p("In-situ backpropagation returns the true gradient","Without noise, errors and loss, for TOP meshes the cotangents returned by in_situ_matrix_fn for theta, phi, gamma equal the derivative of Re(g . output) with respect to each phase, in both all_analog and subtraction modes.","all rail-disjoint TOP meshes, all parameters, inputs and cotangents",REAL,CI+"forward.py:ForwardMesh.in_situ_matrix_fn",CI+"forward.py:ForwardMesh.phase_shift_localize")
p("Gradients are returned in parameter order","phase_shift_localize returns the measured power of node k's phase shifter at position k of the parameter vector, for every mesh.","all meshes (any node order), all measured powers","The answer depends on the node numbering of the mesh; tests use one numbering.",CI+"forward.py:ForwardMesh.phase_shift_localize")
p("Null-basis round trip","program_by_null_basis(mesh.nullification_basis) on an ideal TOP or BOTTOM mesh of the same architecture reproduces the source mesh's matrix up to a phase on every output, within an explicit multiple of the square root of the spacing(1) guard; on a target with coupler errors it does so exactly (guard 0) whenever each node can still realise the source node's ratio; programming a mesh by its own basis returns theta folded into [0, pi], and theta and phi modulo 2 pi exactly when 0 < theta < pi; SYMMETRIC raises.","all lossless rail-disjoint meshes with equal couplers per node, all source and previous parameters",REAL,CI+"forward.py:ForwardMesh.nullification_basis",CI+"forward.py:ForwardMesh.program_by_null_basis")
p("Copies are isolated","mesh.params returns copies: writing into the returned arrays never changes the mesh; add_error_mean/add_error_variance return a new mesh with the same parameters and leave the original mesh's nodes and errors untouched.","all meshes and all subsequent writes","Aliasing is a property of every later write, not of one call.",CI+"forward.py:ForwardMesh.params",CI+"forward.py:ForwardMesh.add_error_mean",CI+"forward.py:ForwardMesh.add_error_variance")
p("Column relabelling","invert_columns is an involution that reverses the column order and keeps all columns in range; offset and offset_column shift every id/column and nothing else; aggregate concatenates node lists in order.","all meshes and offsets",ALLN,CI+"forward.py:ForwardMesh.invert_columns",CI+"forward.py:ForwardMesh.offset",CI+"forward.py:ForwardMesh.aggregate")
p("Butterfly structure","For n = 2^k, butterfly(n) has k*n/2 nodes with distinct ids, k columns, every column covers every rail exactly once, and every node's rails differ by the stride of its column.","every k >= 1",ALLN,CI+"vector.py:_butterfly",CI+"vector.py:butterfly")
p("Transmissivity/phase conversion","transmissivity_to_phase always returns a phase in [0, pi]; for a reachable s it returns the theta at which the MZI's cross/bar power is exactly s, and outside the reachable range it clamps to the nearest reachable power.","all s, all splitting terms",REAL,CI+"coupling.py:transmissivity_to_phase")
p("Node matrices are unitary","phase_matrix, coupling_matrix_s (0<=s<=1), dc, mzi_node_matrix, ideal_node and mmi_node_matrix of a lossless node are unitary for all parameters, and _embed_2x2 preserves unitarity.","all parameters, all embeddings n, i != j",REAL,CI+"coupling.py:coupling_matrix_s",CI+"coupling.py:coupling_matrix_phase",CI+"coupling.py:_embed_2x2")
p("Dirichlet matrix is unitary","dirichlet_matrix(v) is unitary for every vector whose first entry is not zero (in particular with no zero entry), its last column carries v's phase-conjugated normalised amplitudes, its transpose maps v to norm(v) on the last rail and zero elsewhere, and embed_dim adds identity rails.","every n >= 1, every v with nonzero first entry, every embed_dim >= n",REAL,CI+"matrix.py:dirichlet_matrix")
p("Cosine-sine inverse","csinv of unitary blocks and any theta is unitary, for even and odd sizes.","all block sizes, all unitary blocks, all theta",REAL,CI+"matrix.py:csinv")
p("Normalised error is a metric-like cost","normalized_error(u)(uhat) lies in [0,1] for unitary u, uhat of equal size, is 0 exactly when uhat equals u up to a global phase and is invariant under global phases.","all unitary pairs of every size",REAL,"simphox/utils.py:normalized_error")
p("Common-mode flow preserves the transfer","grid_common_mode_flow moves the common phase of each pair to the next layer: the mesh with the returned (top-only) phases and gamma has the same transfer matrix as the original grid of two-arm external phases.","all grid sizes, phases, couplings commuting with common phases",REAL,CI+"rectangular.py:grid_common_mode_flow")
# ---- parse
p("Excitation formats agree","parse_excitation maps every documented format (name, (name, idx), nested lists of these, dict name -> indices) to the flat list of (port, mode) pairs in order, a documented format never raises, and parsing the result again returns it unchanged.","all excitations of all nesting depths","The format is a recursive type; tests use a few literals.","simphox/parse.py:parse_excitation")
p("Source formats agree","parse_source_port maps every documented source format to a dict (port, mode) -> weight: strings mean mode 0 with weight 1, later duplicates override earlier ones, dict weights are kept.","all sources of all nesting depths","The format is a recursive type; tests use a few literals.","simphox/parse.py:parse_source_port")
# ---- grid
p("set_eps sets exactly the requested box","For a box that lies inside the grid, set_eps(center, size, eps) sets every pixel of the box, rounded to the grid, to eps, changes no other pixel and keeps the grid's shape.","all grids, boxes inside the grid, previous eps","Quantifies over all geometries and prior contents.","simphox/grid.py:Grid.set_eps","simphox/grid.py:Grid.slice")
p("set_eps clips boxes at the boundary","For a box overlapping the grid boundary, set_eps sets exactly the pixels in the intersection of box and grid.","all grids and boxes","Quantifies over all geometries.","simphox/grid.py:Grid.set_eps","simphox/grid.py:Grid.slice")
p("Design mask functions","grid.mask_fn(size, center)(rho) equals rho inside the box and the eps at the time of the call to mask_fn outside it, for every later rho; get_mask_fn does the same for the union of boxes.","all grids, boxes, rho","Quantifies over all geometries and arrays.","simphox/grid.py:Grid.mask_fn","simphox/transform.py:get_mask_fn")
p("fill fills a prefix","fill(height, eps) with height > 0 sets exactly the pixels with index < floor(height/spacing) along the last axis; the later of two fills wins on the overlap; a non-positive height fills the whole grid (the convention block_design's callers must know).","all grids and heights","Quantifies over all geometries.","simphox/grid.py:Grid.fill")
p("block_design keeps the rib","block_design(waveguide, rib_y > 0, sub_height = h) leaves a rib layer of the waveguide material between h and h + rib_y wherever no block covers it.","all geometries","Quantifies over all geometries.","simphox/grid.py:Grid.block_design")
p("add rejects patterns outside the grid","Grid.add raises ValueError for every component whose bounds leave [0,size_x] x [0,size_y] and accepts every component inside.","all bounds","Quantifies over all bounds.","simphox/grid.py:Grid.add")
p("pml_safe_placement","The returned x, y lie inside [p, max - p] (p the PML thickness plus separation), locations already safe are unchanged, and the operation is idempotent.","all locations and grids whose PML fits",REAL,"simphox/grid.py:YeeGrid.pml_safe_placement")
p("Mode profile and view orientations are inverse","Viewing a field through Grid.view_fn along axis a undoes the axis permutation with which SimCrossSection.profile / ModeLibrary.place orient a mode along a, for every axis.","all axes, all fields","Quantifies over all fields.","simphox/grid.py:Grid.view_fn","simphox/sim.py:SimCrossSection.profile","simphox/mode.py:ModeLibrary.place")
p("Box alignment","translate, align, halign, valign move a box without changing its size; after align the centers coincide, after halign/valign the requested edges coincide, and only the requested coordinate changes.","all boxes and targets",REAL,"simphox/utils.py:Box")
p("Grid construction","A Grid whose size, spacing and eps are consistent has shape = round(size/spacing), n = product of the shape, on every axis with more than one pixel positions starting at 0 with one more entry than cells; inconsistent ndim or eps shape always raises.","all sizes, spacings, eps shapes","Quantifies over all inputs.","simphox/grid.py:Grid.__init__")
p("PML validation and hand-over","A constructed grid's PML is more than 3 pixels and less than half the grid on every axis, and FDFD.from_simgrid(sim) has the same PML thickness as sim.","all grids with PML","Quantifies over all inputs.","simphox/grid.py:YeeGrid.__init__","simphox/fdfd.py:FDFD.from_simgrid")
# ---- Yee / FDFD
p("Forward and backward differences are adjoint","On a uniform axis with any Bloch phase the backward derivative matrix is minus the conjugate transpose of the forward one.","all axis lengths, spacings, Bloch phases",REAL,"simphox/grid.py:YeeGrid.deriv")
p("Discrete div curl = 0 and curl grad = 0","The Yee curl operators satisfy the discrete vector identities exactly, including periodic wrap.","all 3d grids, spacings and fields",REAL,"simphox/utils.py:d2curl_op","simphox/utils.py:curl_fn","simphox/grid.py:YeeGrid.deriv")
p("Functional curl equals matrix curl","For zero Bloch phase, curl_fn/diff_fn (array rolls) give the same result as the sparse matrices deriv/d2curl_op on the flattened field.","all grids, spacings, fields",REAL,"simphox/grid.py:YeeGrid.diff_fn","simphox/grid.py:YeeGrid.curl_fn","simphox/utils.py:d2curl_op")
p("FDFD operators are Hermitian","Without PML, for real permittivity, mat, mat_ez and mat_hz are Hermitian, and their derivative parts are positive semidefinite.","all grids, real eps, Bloch phases",REAL,"simphox/fdfd.py:FDFD.mat","simphox/fdfd.py:FDFD.mat_ez","simphox/fdfd.py:FDFD.mat_hz")
p("Field conversions are consistent","For a source-free solution e of the FDFD operator, converting to h and back with e2h and h2e returns e.","all grids, wavelengths, source-free solutions",REAL,"simphox/fdfd.py:FDFD.e2h","simphox/fdfd.py:FDFD.h2e")
p("FDFD.solve returns Maxwell fields","If the linear solver returns an exact solution, the fields returned by FDFD.solve satisfy the discrete curl equations with the given source (3d, Ez and Hz polarisations).","all grids, sources, wavelengths",REAL,"simphox/fdfd.py:FDFD.solve")
p("Differentiable and plain FDFD solve the same system","get_fields_fn assembles (from COO entries and index arrays) exactly the matrix used by solve, in 2d TM and TE, for every permittivity.","all grids and eps",REAL,"simphox/fdfd.py:FDFD.get_fields_fn","simphox/primitives.py:TMOperator")
p("Sparse-solve VJP","The cotangents of spsolve are the exact reverse-mode derivative of x = A^-1 b with respect to the COO entries of A (including repeated indices) and b.","all sizes, index patterns, entries, right-hand sides",REAL,"simphox/primitives.py:spsolve_bwd")
p("TM operator VJP","The cotangent of TMOperator's compiled operator is the exact transpose of the linear map t -> entries of db diag(t) df.","all derivative matrices, t and cotangents",REAL,"simphox/primitives.py:TMOperator.compile_operator_along_axis")
# ---- FDTD
p("FDTD step is linear","step is linear in (state, sources): scaling and adding states and NumPy-mode sources scales and adds results, with or without PML.","all states, sources, grids",REAL,"simphox/fdtd.py:FDTD.step")
p("The zero state is fixed","Without sources the zero state stays zero after any number of steps.","all grids, step counts","Any number of steps.","simphox/fdtd.py:FDTD.zero_state","simphox/fdtd.py:FDTD.step")
p("Charge conservation","Without sources and PML, div H and div(eps E) are unchanged after any number of FDTD steps.","all states, step counts, grids, eps","Any number of steps, all states.","simphox/fdtd.py:FDTD.step")
p("Energy conservation","Without sources and PML a discrete electromagnetic energy is exactly conserved over any number of steps, with the code's time step it is nonnegative when eps >= 1, and the fields stay bounded for all time when eps exceeds 1 by a fixed amount (in vacuum, at the stability limit, they can grow linearly).","all states, step counts, grids, eps >= 1","Any number of steps, all states.","simphox/fdtd.py:FDTD.__init__","simphox/fdtd.py:FDTD.step")
p("JAX and NumPy FDTD agree","FDTD(use_jax=True) and FDTD(use_jax=False) compute the same step for every state and sources.","all states, sources","All states and sources.","simphox/fdtd.py:FDTD._step_e","simphox/fdtd.py:FDTD._step_h")
p("Synchronised CW measurement","run_cw_port measures h averaged between the step's start and end.","all runs","Aliasing of mutable state over every step.","simphox/fdtd.py:FDTD.run_cw_port")
# ---- solver caches
p("Cached factorisation is never stale","For every history of factor/solve calls, spsolve_pardiso(mat, rhs) returns the solution for mat, not for an earlier matrix.","all call histories and matrices","Depends on the whole call history and on hash collisions.","simphox/mkl.py:Pardiso.solve","simphox/mkl.py:Pardiso.factor")
p("Pardiso lifecycle","Solving after free() refactorises; a rejected matrix leaves the previous matrix solvable; solving never reads uninitialised factors.","all call histories","Depends on the whole call history.","simphox/mkl.py:Pardiso.free","simphox/mkl.py:Pardiso._set_mat","simphox/mkl.py:Pardiso.pardiso")
p("eps_t reflects eps","After any sequence of changes to eps, eps_t (and hence mat, solve) uses the current permittivity.","all histories of set_eps/fill/add/eps_t","Depends on the history of reads and writes.","simphox/grid.py:YeeGrid.eps_t","simphox/fdtd.py:FDTD.eps_t")
# ---- modes
p("Modes are sorted and matched","ModeSolver.solve returns only guided modes, propagation constants in descending order, with mode k belonging to beta k, and as many betas as modes, whatever the eigensolver's order.","all eigensolver outputs","The eigensolver's order is arbitrary.","simphox/mode.py:ModeSolver.solve")
p("Modal overlap measurement","measure_fn of a mode with nonzero flux returns (1, 0) on the mode itself and (0, 1) on its back-propagating partner (e, -h), and is linear on real combinations of these.","all modes with nonzero flux",REAL,"simphox/mode.py:ModeLibrary.measure_fn","simphox/utils.py:poynting_fn")
p("Mode evolution","evolve is linear in the weights, has period 2 pi/beta up to phase per mode, and two-mode power patterns repeat after beat_length.","all modes, lengths, weights",REAL,"simphox/mode.py:ModeLibrary.evolve","simphox/mode.py:ModeLibrary.beat_length")
p("Mode index checking","Accessing a mode index outside 0..m-1 raises instead of returning another mode.","all indices","All indices.","simphox/mode.py:ModeLibrary._check_num_modes")
# ---- sim
p("Measurements line up with ports","get_measure_fn(measure_port) returns one (out, in) pair per requested (port, mode), in request order, with direction decided by that port's own angle, whatever the iteration order of Python sets.","all port sets, requests, set iteration orders","The set iteration order varies between runs (string hashing is randomised).","simphox/sim.py:SimGrid.get_measure_fn","simphox/sim.py:SimGrid.port_modes")
p("Enough modes are solved","port_modes solves for each port at least max(requested mode index)+1 modes, so every requested (port, mode) is available in every consumer (port_source, get_measure_fn).","all excitations","All excitations.","simphox/sim.py:SimGrid.port_modes","simphox/sim.py:SimGrid.port_source")
p("Fidelity bounds","The fidelity cost lies between -|sparams|^2 and 0 (and in [-1,0] for passive sparams, any insertion weight in [0,1]), and attains the minimum exactly on multiples of the desired sparams.","all desired sparams and measurements",REAL,"simphox/sim.py:SimGrid.fidelity")
# ---- opt
p("Optimisation bookkeeping","opt_run records exactly num_iters costs, the k-th being the mean cost of all problems at the parameters before update k, and returns the parameters after num_iters updates.","all problems, iteration counts","All iteration counts and problems.","simphox/opt.py:opt_run")
p("Metrics belong to their problem","In opt_run the auxiliary data (sparams, fields) recorded for a simulation problem are that problem's own data.","all lists of problems","All lists and orders of problems.","simphox/opt.py:opt_run")
# ---- transforms
p("Averaged symmetry","get_symmetry_fn(avg=True) with one flag returns an array with that symmetry, fixes arrays that already have it, is idempotent and preserves the mean.","all array sizes and contents",REAL,"simphox/transform.py:get_symmetry_fn")
p("Copied symmetry","get_symmetry_fn(avg=False, ortho_x or ortho_y) returns an array with that mirror symmetry for every size.","all array sizes and contents","All sizes, in particular both parities.","simphox/transform.py:get_symmetry_fn")
p("Combined symmetry","With any combination of flags the result has all requested symmetries.","all flag combinations, sizes and contents",REAL,"simphox/transform.py:get_symmetry_fn")
p("Smoothing keeps densities valid","get_smooth_fn's projection maps densities in [0,1] to [0,1], is monotone, and fixes 0 and 1.","all arrays, beta > 0, eta in (0,1)",REAL,"simphox/transform.py:get_smooth_fn")
# ---- utils
p("Yee averaging","yee_avg preserves constants, stays within the min and max of its input, is linear, and yee_avg, yee_avg_jax and yee_avg_2d_z agree.","all arrays",REAL,"simphox/utils.py:yee_avg","simphox/utils.py:yee_avg_jax","simphox/utils.py:yee_avg_2d_z")
p("Splitter metrics","reflectivity + transmissivity = 1 and both lie in [0,1] whenever b0 or b1 carries power.","all sparams with nonzero output power",REAL,"simphox/utils.py:splitter_metrics")
p("shift_slice","shift_slice shifts the chosen axis of an index tuple by the given amount (ints and slices with int bounds) and leaves everything else unchanged.","all index tuples","All index tuples.","simphox/utils.py:shift_slice")
p("gaussian_fn","gaussian_fn rejects a non-positive pulse width with infinite fwidth, and otherwise returns a function that vanishes up to start_time and whose envelope peaks at t0.","all parameters and times",REAL,"simphox/utils.py:gaussian_fn")
p("PML profile","pml_sigma and scpml are zero (resp. one) outside the PML, and in the PML grow monotonically towards the edge.","all grids, thicknesses",REAL,"simphox/utils.py:pml_sigma","simphox/fdfd.py:FDFD.scpml")
p("Poynting vector along any axis","poynting_fn(axis) returns the power flow component along axis, for every axis 0, 1, 2.","all axes, all fields",REAL,"simphox/utils.py:poynting_fn")
# ---- added while modelling
p("Beamsplitter errors act on their own node","The error and loss stored in a node's errors/losses determine that node's own 2x2 block in mesh.matrix(), whatever the order in which the nodes are listed.","all meshes, all orders of the node list","All node orders; the collection order and the id order coincide in every test.",CI+"forward.py:ForwardMesh.__post_init__",CI+"forward.py:ForwardMesh.parallel_mzi",CI+"coupling.py:CouplingNode")
p("add extrudes along z","On a 3d grid, Grid.add(component, eps, zmin, thickness) changes exactly the pixels of the component's mask whose z index lies between zmin and zmin + thickness in units of the z spacing.","all 3d grids, components, zmin, thickness","All spacings, in particular anisotropic ones.","simphox/grid.py:Grid.add")
p("Aggregating leaves the parts alone","ForwardMesh.aggregate(meshes) does not change the meshes it is given, and later relabelling of the aggregate does not change them.","all lists of meshes, all later relabellings","Object sharing between meshes over all histories.","simphox/circuit/forward.py:ForwardMesh.aggregate","simphox/circuit/forward.py:ForwardMesh.__post_init__")
p("PML coefficients are absorbing","For positive exponent, time step and correction and negative log reflection, the FDTD PML recursion weights satisfy 0 < b < 1 and -1 < c <= 0, with c = 0 along other axes and outside the layer, and c < 0 inside it.","all grids, thicknesses, PML parameters, cells","Real parameters and unbounded grid sizes.","simphox/fdtd.py:FDTD._set_pml","simphox/utils.py:pml_sigma")
p("PML memory follows the documented recursion","Over any run, the PML correction applied in a step is the one documented for step: Psi_new = b * Psi_old + weighted differences, accumulated over the whole history.","all runs, fields, regions","Depends on the whole history of steps.","simphox/utils.py:curl_pml_fn","simphox/fdtd.py:FDTD._step_e","simphox/fdtd.py:FDTD._step_h")
p("step leaves the caller's state alone","FDTD is documented as stateless: step(state, sources) does not change the state passed in, so repeating the call gives the same result.","all states, sources, both array libraries","Aliasing of arrays and lists between caller and callee, over all histories.","simphox/fdtd.py:FDTD.step","simphox/fdtd.py:FDTD._step_e","simphox/fdtd.py:FDTD._step_h")
p("Two-dimensional guided modes solve Maxwell's equations","Every mode returned by a two-dimensional ModeSolver, with the e field ModeLibrary.e derives from it, satisfies the source-free discrete Maxwell equations for exp(-i beta z) on the solver's grid, and every such solution is an eigenvector of the mode operator.","all grids, permittivities, eigensolver outputs","The inputs are real/complex and the sizes unbounded; a test samples finitely many points of a continuum.","simphox/mode.py:ModeSolver.waveguide_mode_matrix","simphox/mode.py:ModeSolver.solve","simphox/mode.py:ModeSolver.h2e","simphox/mode.py:ModeLibrary.e")
p("One-dimensional mode fields solve Maxwell's equations","For a one-dimensional cross section, the e and h fields ModeLibrary returns for a mode (TE or TM) satisfy the source-free discrete Maxwell equations of the grid with flux in the +z direction.","all grids, permittivities, modes","The inputs are real/complex and the sizes unbounded; a test samples finitely many points of a continuum.","simphox/mode.py:ModeLibrary.h","simphox/mode.py:ModeLibrary.e","simphox/mode.py:ModeSolver.waveguide_mode_matrix")
p("Wavelength sweeps use the swept wavelength","update_wavelength(w) makes the library equal to a fresh library at w whatever was done before, and dispersion_sweep(wavelengths) returns for each wavelength the modes at that wavelength.","all wavelengths, histories of updates","Quantifies over histories and continuous wavelengths.","simphox/mode.py:ModeLibrary.update_wavelength","simphox/mode.py:ModeSolver.dispersion_sweep")
p("S-parameters are normalised by the source port","The sparams returned by get_sim_sparams_fn(port, mode, measure_info) are, for every measured (port, mode), the outgoing amplitude divided by the incoming amplitude at the source, for any measure_info that lists the source.","all ports, source modes, measurement infos and measured amplitudes","must hold for every port list, order of measure_info and mode index","simphox/sim.py:SimGrid.get_sim_sparams_fn")
p("Unidirectional sources are dark outside","A unidirectional port_source emits no wave towards the outside of the device (the port's own direction) and a nonzero wave into it, for every port angle, weight, spacing and propagation constant.","all angles, spacings, propagation constants and weights","must hold for all continuous parameters","simphox/sim.py:SimGrid.port_source")
p("to_2d projects 3D simulations","to_2d(wavelength) returns a two dimensional grid with the shape of the xy plane for every three dimensional grid, and refuses other grids and missing wavelengths.","all 3D grids, slab locations, wavelengths and ports","one run shows one configuration only","simphox/sim.py:SimGrid.to_2d")
p("Recorded data of one iteration belong together","The permittivity recorded by opt_run for iteration k (eps_interval) is the one whose fields, metrics and cost are recorded for iteration k.","all problems, optimisers, iteration counts and intervals","must hold for every iteration of every run","simphox/opt.py:opt_run")
p("Cosine-sine round trip","csinv(*cs(u)) returns u, with unitary blocks and angles in [0, pi/2], for every unitary u of even or odd size.","every size n >= 2, every unitary u, every correct svd and qr","The factors come from LAPACK and the inputs range over a continuum; the failing inputs (a singular value equal to 1) have measure zero, so random tests never meet them.","simphox/circuit/matrix.py:cs","simphox/circuit/matrix.py:csinv")
p("In-situ cotangent of the inputs","The cotangent in_situ_matrix_fn returns for its inputs is mesh.matrix().T @ g, so that errors propagate to a previous layer with the right scale.","all rail-disjoint TOP meshes without errors and loss, all parameters, inputs and cotangents","The inputs are real/complex and the sizes unbounded; a test samples finitely many points of a continuum.","simphox/circuit/forward.py:ForwardMesh.in_situ_matrix_fn")
p("JAX explicit propagation equals NumPy explicit propagation","propagate_matrix_fn(use_jax=True) returns the same snapshots as use_jax=False, forward and backward, whatever order JAX's scatter resolves repeated indices in.","all rail-disjoint TOP and BOTTOM meshes, parameters, errors, losses and inputs","Padding and masking depend on the widths of all columns; JAX leaves the order of duplicate scatter indices unspecified.","simphox/circuit/forward.py:ForwardMesh.propagate_matrix_fn","simphox/circuit/forward.py:ForwardMesh.idx","simphox/circuit/forward.py:_parallel_multiply","simphox/circuit/forward.py:_parallel_propagate")
p("In-situ gradient does not depend on the shape of a single input","A single input gives the same in-situ phase gradients whether it is passed as a vector (n,) or as a column (n, 1).","all meshes, parameters, inputs, cotangents","The inputs are real/complex and the sizes unbounded; a test samples finitely many points of a continuum.","simphox/circuit/forward.py:ForwardMesh.in_situ_matrix_fn")
p("Self-configuration in the DIFFERENTIAL style","vector_unit(v, phase_style=DIFFERENTIAL), which does not raise, returns a mesh that routes v to the last rail.","every vector","The inputs are complex vectors of any length; a test samples finitely many.","simphox/circuit/forward.py:ForwardMesh.parallel_nullify","simphox/circuit/vector.py:vector_unit")
p("Default output phases of grid_common_mode_flow","grid_common_mode_flow(external_phases) without gamma gives the result of passing gamma = zeros, one per rail.","every grid of external phases, of any number of rails and layers","The grids are real arrays of any shape; tests only use square ones.","simphox/circuit/rectangular.py:grid_common_mode_flow")
p("Programmable SVD","psvd(a) returns two meshes and singular values whose product left.matrix() @ diag(s) @ right.matrix() is a, for every rectangular matrix a with at least two rows and columns.","every matrix of every shape >= 2, every correct svd","The inputs are real/complex and the sizes unbounded; a test samples finitely many points of a continuum.","simphox/circuit/rectangular.py:rectangular","simphox/circuit/matrix.py:psvd")
p("Sensitivity indices of the rectangular mesh","The nodes of rectangular(u) carry the Haar sensitivity indices: beta = k occurs exactly n - k times for k = 1..n-1, no other value occurs, and alpha is 1.","every size n and unitary u","The checkerboard of indices is built by parity dependent slicing for every n.","simphox/circuit/rectangular.py:get_alpha_checkerboard","simphox/circuit/rectangular.py:rectangular")
p("random_theta follows the mesh","random_theta(n) draws one theta per node of the rectangular mesh on n rails, the k-th with the sensitivity index of the k-th node.","every n >= 2, odd and even","Holds per size; tests fix a few sizes.","simphox/circuit/rectangular.py:random_theta")
p("Rows of the rectangular mesh","rectangular_rows(mesh) splits the nodes of a rectangular mesh into its diagonal rows: every node of the mesh appears in exactly one row.","every size n","Index arithmetic over all sizes.","simphox/circuit/rectangular.py:rectangular_rows")
p("Phase shifter powers","rectangular_phase_shift_powers(prop) returns for every node of the mesh the share of the power that passes its theta and its phi phase shifter, and for every rail the output share.","every size n, all phases and inputs","The inputs are real/complex and the sizes unbounded; a test samples finitely many points of a continuum.","simphox/circuit/rectangular.py:rectangular_phase_shift_powers")
p("hessian_vector_unit returns the second derivatives","hessian_vector_unit(v, balanced) returns, for a nonzero vector v of length n>=2, the (2n-2)x(2n-2) symmetric matrix of second partial derivatives of the vector unit's error 2-2*Re(out[-1]) with respect to (thetas, phis) at the programmed phases: entry (r, c) is the derivative along phase r and phase c.","every n>=2, every nonzero complex vector, balanced and chain trees","The second derivative is a limit; a finite-difference test checks a few vectors to a tolerance, with the same index convention as the code under test.","simphox/circuit/vector.py:hessian_vector_unit","simphox/circuit/vector.py:hessian_fd")
p("CouplingNode.nullify turns the bottom rail dark","CouplingNode.nullify(vector, idx) returns the vector after a node whose bottom output is dark and whose top output carries the power of the pair (vector[idx], vector[idx+1]), all other entries unchanged, together with the unitary node matrix that does it and its phases theta in [0, 2pi), phi in [0, 2pi), with mzi_node_matrix(theta, phi) equal to that matrix; the flags lower_theta/lower_phi only move the phase shifters.","every length, index, complex vector, setting of the two flags, coupler errors and pair of rails","Continuous amplitudes and phases; the flags and non-adjacent rails have no tests at all.","simphox/circuit/coupling.py:CouplingNode.nullify")
p("hessian_fd equals hessian_vector_unit up to (sin e/e)^2","For every non-zero vector v of length n>=2, either tree, and every non-zero step e, hessian_fd(v, e) and hessian_vector_unit(v) agree entry by entry up to the single factor (sin e / e)^2, which is at most 1 and at least 1 - e^2/3; a zero vector or a zero step divides by zero.","all vectors v != 0 of all lengths n >= 2, balanced and chain trees, all steps e != 0","A test compares the two for a few random vectors and one step within a tolerance; that the discrepancy is exactly one known factor for every vector, length and step is an identity over all reals.","simphox/circuit/vector.py:hessian_fd","simphox/circuit/vector.py:hessian_vector_unit")
p("Size estimates match the meshes they size","rectangular_depth_size(n)['layers'] is the number of columns of the balanced input tree on n rails plus one rectangular mesh (two with svd, plus one attenuator layer); binary_svd_depth_size(n, k) counts k+1 balanced trees each followed by one layer; binary_equiv_cascade_size uses the least k with k*n >= n_equiv^2; in every table footprint = length * height, length = layers * device length, and the transmission is that of the layers times the splitting among the guides (and 3 dB for SVD); and for rectangular meshes layers, length, height, footprint never decrease and transmission never increases with n. (Fails for the layer count at n = 2.)","all n, k, n_equiv, all pitches, device lengths and losses","There is no test of envelope.py; agreement with the mesh generators for every n relates two programs at all sizes.","simphox/circuit/envelope.py:binary_svd_depth_size","simphox/circuit/envelope.py:rectangular_depth_size","simphox/circuit/envelope.py:binary_equiv_cascade_size")
p("Cached modes reflect the current permittivity","After every history of modes() calls and permittivity changes on any number of grids, grid.modes(center, size, wavelength, num_modes) (and hence port_modes, port_source and measurements built from it) returns the modes of the grid's current permittivity for the given arguments.","all histories of calls and permittivity changes on all grids, all arguments, all mode solvers, every cache size >= 1","The result depends on the whole history through a shared least-recently-used cache; no finite set of call sequences covers it.","simphox/sim.py:SimGrid.modes","simphox/sim.py:SimGrid.port_modes")
p("FDFD.sparams is normalised by the source port","FDFD.sparams(port, mode, measure_info) returns, for every requested (port, mode) in request order, the outgoing amplitude divided by the incoming amplitude measured for the source, for every documented measure_info format that contains the source, and by default agrees with get_sim_sparams_fn.","all port sets, measurement requests in every documented format, source ports and modes, all measured amplitudes","A test runs one two-port simulation; the format handling ranges over arbitrarily nested requests.","simphox/fdfd.py:FDFD.sparams","simphox/sim.py:SimGrid.get_measure_fn","simphox/parse.py:parse_excitation")
p("from_pattern builds the requested stack","FDFD.from_pattern / FDTD.from_pattern(component, core_eps, clad_eps, spacing, boundary, pml, ..., component_t, component_zmin, rib_t, sub_z, height, bg_eps) return a grid of the component's size plus the boundary on both sides whose permittivity is core_eps in the component between component_zmin and component_zmin + component_t, clad_eps below sub_z, core_eps in the rib layer sub_z .. sub_z + rib_t and bg_eps above, with the component at distance boundary from all four sides.","all components, materials, boundaries, spacings, thicknesses and heights; every pixel","A test builds one stack; the claim is about every pixel of every stack, including zero substrate and rib.","simphox/fdfd.py:FDFD.from_pattern","simphox/fdtd.py:FDTD.from_pattern","simphox/grid.py:Grid.fill","simphox/grid.py:Grid.add")
p("Evaluating a mesh does not change it","mesh.matrix(), mesh.matrix_fn(back)(inputs=v) and mesh.columns return the transfer of the mesh and leave all its nodes, phases and settings as they were.","all meshes, phases, inputs, both directions","A test compares a mesh before and after one evaluation; the side effects of the per-column constructors depend on the node ids.","simphox/circuit/forward.py:ForwardMesh.columns","simphox/circuit/forward.py:ForwardMesh.matrix_fn","simphox/circuit/forward.py:ForwardMesh.__post_init__")
p("Relabelled meshes can still be evaluated","After mesh.offset(k), mesh.offset_column(k) or mesh.invert_columns() the mesh can still be evaluated: offset and offset_column only relabel and leave matrix() unchanged, invert_columns reverses the order of the columns.","all meshes, offsets, inputs, both directions","Tests relabel meshes only inside aggregate, never evaluate them; the failure is for every offset.","simphox/circuit/forward.py:ForwardMesh.offset","simphox/circuit/forward.py:ForwardMesh.offset_column","simphox/circuit/forward.py:ForwardMesh.invert_columns","simphox/circuit/forward.py:ForwardMesh.matrix_fn")
p("matrix_fn is a snapshot, matrix() is current","A function returned by mesh.matrix_fn(back) keeps evaluating the mesh as it was when the function was built, whatever phase writes or relabellings happen later; mesh.matrix() evaluates the phases the mesh holds when called.","all meshes, histories of phase writes and relabellings, inputs","Histories are unbounded; a test exercises one.","simphox/circuit/forward.py:ForwardMesh.matrix_fn","simphox/circuit/forward.py:ForwardMesh.matrix","simphox/circuit/forward.py:ForwardMesh.params")
p("Bowtie mesh implements the given unitary","bowtie(u) returns a mesh whose matrix is u, for every unitary u.","every size, every unitary u, and every result scipy's svd and qr may return","the mesh is built by recursion on the size from factorisations that are not unique; a test checks some sizes and some matrices","simphox/circuit/matrix.py:bowtie","simphox/circuit/matrix.py:_bowtie","simphox/circuit/matrix.py:cs")
p("parallel_mzi describes the programmed mesh","mesh.parallel_transform(v, mesh.parallel_mzi()) followed by the output phases is what a single-column mesh does with its programmed parameters; parallel_mzi(thetas, phis) does the same for the given phases.","all single-column meshes, styles, errors, losses, parameters, inputs","The parameters are real numbers and the meshes unbounded; a test samples finitely many.","simphox/circuit/forward.py:ForwardMesh.parallel_mzi","simphox/circuit/forward.py:ForwardMesh.parallel_transform")
p("phases adds the requested error","mesh.phases(error) returns the programmed phases plus the error (a number, or one value per node as annotated), scaled by the random draws unless constant; output phases change only with gamma_error; phases() returns the programmed phases.","all meshes, errors, flags and draws","The parameters are real numbers and the meshes unbounded; a test samples finitely many.","simphox/circuit/forward.py:ForwardMesh.phases")
p("add_error_mean and add_error_variance set the requested imperfections","add_error_mean(error, loss_db, error_right) returns a mesh whose left couplers have error, whose right couplers have error_right (error if not given) and whose losses are loss_db, for numbers and for one value per node; add_error_variance moves every error and loss by the deviation times the draw and changes nothing for zero deviations.","all meshes, errors, losses and draws","The parameters are real numbers and the meshes unbounded; a test samples finitely many.","simphox/circuit/forward.py:ForwardMesh.add_error_mean","simphox/circuit/forward.py:ForwardMesh.add_error_variance")
p("Random couplings are beta distributed","For uniform draws the split ratios of rand_s follow the beta distribution with parameters (beta, alpha), the phases of rand_theta lie in [0, pi], make an ideal node send exactly the drawn ratio to the other rail, and have density proportional to beta_phase.","all positive beta and alpha, all draws, all coupler errors with reachable powers","A distribution is a statement about infinitely many draws.","simphox/circuit/forward.py:ForwardMesh.rand_s","simphox/circuit/forward.py:ForwardMesh.rand_theta","simphox/utils.py:beta_phase")
p("beta_phase is the density of the coupling phase","beta_phase(theta, a, b) is the probability density of the coupling phase on [0, pi]: nonnegative with integral one.","all positive a, b","The integral ranges over a continuum and the parameters are real.","simphox/utils.py:beta_phase","simphox/utils.py:beta_pdf")
p("A freshly built tree mesh has a Haar-random vector unit","A mesh built by tree(n) draws its initial thetas, phis and gammas so that the last row of mesh.matrix() (the unit vector the tree implements) is uniformly distributed on the complex unit sphere: every mixed moment of its entries is the moment of a row of a Haar-random unitary.","all n >= 2, both balanced and unbalanced trees without coupler errors, all exponents of the moments, every betaincinv that inverts the beta distribution function","A test can only sample; the claim is about the law of the random initialisation for every size and every moment.","simphox/circuit/forward.py:ForwardMesh.__post_init__","simphox/circuit/forward.py:ForwardMesh.rand_s","simphox/circuit/forward.py:ForwardMesh.rand_theta","simphox/circuit/vector.py:tree")
p("InSituBackpropLayer computes activation(M x) and leaves the caller's mesh alone","InSituBackpropLayer(mesh) maps every input row x to activation(mesh.matrix() x) for the phases the mesh had when the layer was built, and building, using or changing the layer does not change the caller's mesh.","all meshes, phases, batches, activations and histories of later phase changes on either object","Aliasing shows only for the histories a test happens to run, and the forward pass has to agree for every batch and phase setting.","simphox/circuit/forward.py:InSituBackpropLayer")
p("FDFD obeys Lorentz reciprocity","Exchanging source and detector of an FDFD simulation does not change the reading: the field of FDFD.solve(src1) read with src2 (weighted with the stretched cell volumes) equals the field of FDFD.solve(src2) read with src1, in 3D and for both 2D polarisations; with a Bloch phase the second run uses the opposite phase.","all grids, cell sizes (PML stretching included), complex permittivities, frequencies, Bloch factors and pairs of sources, for every solver that solves the given system","Reciprocity relates every pair of sources on every device; a test can compare a few pairs on a few devices only.","simphox/fdfd.py:FDFD.solve","simphox/fdfd.py:FDFD.mat","simphox/fdfd.py:FDFD.mat_ez","simphox/fdfd.py:FDFD.mat_hz")
p("FDFD without PML balances power and is well posed in absorbing media","Without PML the power delivered by the source of FDFD.solve is the power absorbed by the medium (zero for real permittivity). If every cell absorbs, the system has exactly one solution for every source, and the field is bounded by the source divided by k0 times the smallest absorption.","all grids, cell sizes, Bloch factors, complex permittivities, frequencies and sources","Energy balance and unique solvability are statements about every device and source; a test sees single systems.","simphox/fdfd.py:FDFD.solve","simphox/fdfd.py:FDFD.mat","simphox/fdfd.py:FDFD.mat_ez","simphox/fdfd.py:FDFD.mat_hz")
p("The PML absorbs the power that leaves the sources","A one-dimensional lossless FDFD simulation with PML has exactly one solution for every source, and the Poynting vector of the returned fields carries power away from the sources into the absorbing layers: constant between sources and PML, net outward across the source region.","all grid sizes, PML thicknesses and parameters, frequencies, real positive permittivities and sources between the layers","The direction of the net power flow has to hold for every device, frequency and source.","simphox/fdfd.py:FDFD.scpml","simphox/fdfd.py:FDFD.__init__","simphox/fdfd.py:FDFD.solve")
p("FDTD signals travel at most one cell per step","A change of the initial fields or of the sources in one place cannot be seen n + 1 or more cells away (along any axis) after n calls of step: two runs that agree in all cells within n cells of a cell agree in that cell after n steps. Started from zero, a cell stays dark until a source is within reach.","all grids, cell sizes, permittivities, PML settings, both modes, states, source schedules, cells and numbers of steps","The light cone must hold for every pair of histories; a test compares single runs.","simphox/fdtd.py:FDTD.step","simphox/fdtd.py:FDTD._step_e","simphox/fdtd.py:FDTD._step_h")
p("FDTD without PML is reversible","Without PML and sources the step loses no information: advance the electric field to the other side of the magnetic field and flip the magnetic field, run the same number of steps, reverse again, and the initial fields are back. Different fields never become equal and every field pair is reached.","all grids, cell sizes, permittivities, both modes, states and numbers of steps","Reversibility is a statement about every state and every length of run.","simphox/fdtd.py:FDTD.step")
p("FDTD and FDFD describe the same harmonic fields","Under a continuous-wave source the FDTD oscillates like exp(i k0 t) exactly in the states given by the fields e, h that FDFD.solve returns at wave number (2/dt) sin(k0 dt/2), with h half a step later; this wave number is within k0^3 dt^2/24 below k0.","all grids, cell sizes, nonzero permittivities, time steps, wave numbers, source profiles and regions, without PML and Bloch phase","The equivalence of two simulators concerns every device, source and number of steps.","simphox/fdtd.py:FDTD.run_cw_port","simphox/fdtd.py:FDTD.step","simphox/fdfd.py:FDFD.solve","simphox/fdfd.py:FDFD.e2h")
p("Phase and coupler errors are not amplified","Changing the phases and the coupler errors of a mesh changes the amplitude of the output by at most the sum over the nodes of the absolute changes of theta, phi and the two coupler errors (plus the largest change of an output phase gamma), times the input amplitude: errors add up at most linearly, no node amplifies the errors of the earlier ones; every output power changes by at most twice this bound.","every mesh shape, phase style, passive losses, direction, every two settings of phases and coupler errors, every input vector","the error bound must hold for every combination of errors in every mesh, a continuum of settings","simphox/circuit/forward.py:ForwardMesh.matrix_fn","simphox/circuit/coupling.py:CouplingNode.mzi_node_matrix")
p("Only phases modulo 2 pi matter","Adding multiples of 2 pi to the phases theta and phi of a mesh does not change the powers it outputs, so phases can be stored modulo 2 pi.","every mesh, phase style, node errors and losses, every vector of integers added to the phases","ranges over all meshes and all integer shifts of all phases","simphox/circuit/coupling.py:CouplingNode.mzi_node_matrix","simphox/circuit/forward.py:ForwardMesh.params","simphox/circuit/coupling.py:PhaseStyle")
p("Translating a simulation translates its fields","On a periodic grid without an origin (equal cells) shifting the permittivity, the sources and the initial fields by any number of cells shifts the fields that FDTD.step and FDFD.solve return by the same number of cells, and nothing else changes.","every grid shape, shift, permittivity, initial state, source sequence, number of steps, both step modes, every exact solver","ranges over all shifts, devices, sources and numbers of steps","simphox/fdtd.py:FDTD.step","simphox/fdfd.py:FDFD.solve","simphox/grid.py:YeeGrid.diff_fn")
p("Real simulations have real fields","FDTD with real permittivity, real sources and real initial fields has real fields at every step, with and without PML, so the complex arrays carry no information in their imaginary part.","every grid with real cells, real permittivity, PML from set_pml, real sources, number of steps, both step modes","must hold after any number of steps for all real inputs","simphox/fdtd.py:FDTD.step","simphox/fdtd.py:FDTD.set_pml","simphox/utils.py:curl_pml_fn")
p("The unit of length does not matter","Giving all lengths (spacing, size, wavelength) in another unit changes the fields of FDFD.solve and of an FDTD run only by the unit factor (for FDTD with currents in the new unit: not at all).","every grid, permittivity, source, unit factor, exact solver, number of steps","the scaling law must hold for every factor and every device","simphox/fdfd.py:FDFD.scpml","simphox/fdfd.py:FDFD.mat","simphox/fdfd.py:FDFD.solve","simphox/fdtd.py:FDTD.__init__")
p("Repeated and extruded devices have repeated fields","Repeating a periodic simulation (permittivity, sources, initial fields, layers) any number of times along each axis repeats the fields of FDTD.step and FDFD.solve; in particular a three dimensional simulation of a device and sources that do not change along z gives the fields of the two dimensional simulation in every layer.","every grid, numbers of repetitions, permittivity, sources, initial state, number of steps, both step modes, every exact solver","ranges over all devices, all numbers of repetitions and steps","simphox/fdtd.py:FDTD.step","simphox/fdfd.py:FDFD.solve","simphox/utils.py:yee_avg")
p("Different modes do not couple","Two modes of a lossless cross section with different propagation constants carry no mixed power: the flux along z of the electric field of one and the conjugate magnetic field of the other is zero, so measure_fn of one mode applied to another gives (0, 0).","all grid sizes, spacings, wave numbers, real non-zero permittivities and pairs of modes of ModeSolver with different positive propagation constants","A test sees a few cross sections; reciprocity is an identity over all grids and modes.","simphox/mode.py:ModeLibrary.measure_fn","simphox/mode.py:ModeSolver.wgm","simphox/utils.py:poynting_fn")
p("A lossless waveguide keeps its power","For every superposition of modes of a lossless waveguide, the total flux of the fields returned by evolve is the same at every length, and equals the sum of the powers of the modes.","all lossless cross sections, numbers of modes with distinct positive propagation constants, complex weights and lengths","A test samples lengths and weights; the claim is an identity in all of them.","simphox/mode.py:ModeLibrary.evolve","simphox/mode.py:ModeLibrary.e","simphox/utils.py:poynting_fn")
p("The effective index never exceeds the highest refractive index","Every mode that ModeSolver.solve returns for a lossless cross section has an effective index beta / k0 of at most the square root of the largest permittivity in the cross section (in two dimensions, every mode whose eigenvalue is real: solve drops imaginary parts); in one dimension all eigenvalues are real, so taking the real part loses nothing.","all grid sizes, spacings, wave numbers, real positive permittivities (1D: real), all eigenpairs, both dimensions","A test samples cross sections; the bound is an inequality over all of them, which an error of the operator would break only for some.","simphox/mode.py:ModeSolver.solve","simphox/mode.py:ModeSolver.wgm","simphox/mode.py:ModeLibrary.n")
p("The fundamental slab mode has no nodes","The mode with the largest propagation constant of a lossless one-dimensional cross section is non-degenerate, nowhere zero and, as returned by solve, real and positive in every cell; if the permittivity is mirror symmetric, so is the mode.","all numbers of cells, spacings, wave numbers, real permittivities, mirror centres","Perron-Frobenius type statements range over all permittivity profiles; no finite set of slabs can settle them.","simphox/mode.py:ModeSolver.solve","simphox/mode.py:ModeSolver.wgm")
p("The fundamental effective index grows with permittivity and frequency","For lossless one-dimensional cross sections the squared effective index of the fundamental mode lies between the mean and the largest permittivity; raising the permittivity in any cell strictly raises the propagation constant; with fixed permittivity the effective index does not decrease with the wave number.","all numbers of cells, spacings, pairs of real permittivity profiles ordered pointwise, pairs of wave numbers","Monotonicity relates all pairs of inputs.","simphox/mode.py:ModeSolver.solve","simphox/mode.py:ModeSolver.wgm","simphox/mode.py:ModeLibrary.n")
p("Plane waves obey the numerical dispersion relation","On a uniform grid without PML a discrete plane wave that fits the (Bloch) periodic boundary is advanced by FDTD into itself times a constant exactly when it is transverse on the grid and its frequency satisfies the Yee dispersion relation; the same wave solves the FDFD equation exactly when its wave number satisfies the spatial dispersion relation, and the mode operators of a uniform cross section have it as an eigenvector with the corresponding propagation constant; at the one-dimensional magic time step waves travel without dispersion.","all grid shapes, spacings, wave vectors fitting the grid, polarisations, uniform permittivities, frequencies","The relation must hold for every wave vector and grid; a test samples a few and sees rounding.","simphox/fdtd.py:FDTD.step","simphox/grid.py:YeeGrid.deriv","simphox/fdfd.py:FDFD.mat","simphox/mode.py:ModeSolver.wgm")
p("Mirroring a simulation mirrors its fields","Flipping the permittivity array and the sources along an axis flips the computed fields: FDTD and FDFD fields of the mirrored simulation are the mirror images (with the parity of polar and axial vectors on the Yee grid) of the original fields, so a mirror symmetric device driven by a symmetric source keeps a symmetric field.","all grid shapes, spacings, permittivities, sources, numbers of steps, axes, with and without PML, both polarisations","A symmetry must hold for every device and source; a test compares one device.","simphox/fdtd.py:FDTD.step","simphox/fdfd.py:FDFD.solve","simphox/utils.py:yee_avg","simphox/grid.py:YeeGrid.pml_f")
p("FDFD fields and measurements obey superposition","The fields FDFD computes for a linear combination of sources are that combination of the fields of the single sources, and a mode measurement of combined fields is the combination of the measurements; hence driving several ports at once gives the scattering matrix applied to the drive amplitudes.","all grid shapes, permittivities, PML and Bloch settings, finite families of sources, complex weights, both polarisations","Linearity relates the results of infinitely many runs.","simphox/fdfd.py:FDFD.solve","simphox/mode.py:ModeLibrary.measure_fn")
p("Sources and measurements use the simulation's wavelength","Port sources and port measurements use the modes of the port cross section at the wavelength of the simulation and with the profile size factor the caller gave.","all simulations, ports, wavelengths, size factors","A test at the default wavelength cannot tell whether the wavelength is passed on.","simphox/sim.py:SimGrid.get_sim_sparams_fn","simphox/sim.py:SimGrid.get_measure_fn","simphox/fdfd.py:FDFD.sparams","simphox/fdtd.py:FDTD.run_cw_port")
p("Component models are labelled with the ports they belong to","Component.from_fdfd returns a model whose entry at a wavelength, input port and output port is the S-parameter between these ports at this wavelength, for any choice and order of the ports, all ports by default.","all lists of ports, choices and orders of input and output ports, lists of wavelengths","Labels must be right for every choice and order of ports.","simphox/component.py:Component.from_fdfd","simphox/sim.py:SimGrid.get_sim_sparams_fn")
p("hessian_distribution returns Hessians","hessian_distribution(n, balanced, n_samples) returns for every sample the Hessian of the vector unit's cost at the phases programmed for a random unit vector.","all n, both trees, all random draws, all sample counts","The result must be right for every random draw and size.","simphox/circuit/vector.py:hessian_distribution","simphox/circuit/vector.py:hessian_vector_unit")
p("Mode polarisation","te_ratio of a two-dimensional mode is the TE share of its transverse magnetic energy: between 0 and 1, independent of amplitude and phase, 1 exactly for pure TE and 0 exactly for pure TM fields (as the library's 1D modes define them), and plot_power labels a mode TE exactly when its te_ratio is above one half.","all cross sections, modes and fields","Must hold for every field.","simphox/mode.py:ModeLibrary.te_ratio","simphox/mode.py:ModeLibrary.plot_power")
p("gaussian_fft filters the pulse","gaussian_fft applies a frequency response to a Gaussian pulse: the result is the circular convolution of the sampled pulse with the impulse response; a unit response returns the pulse, a linear phase delays it, a passive response never increases its energy; several profiles (columns) are filtered independently. The pulse has the given width, wavelength and chirp and peaks at the given time, by default at the middle sample.","all numbers of samples, responses, pulse widths, chirps, peak times, delays","Filter identities range over all responses and lengths.","simphox/utils.py:gaussian_fft")
p("Gradient optimisation of a mesh","matrix_opt: the value reported at each step is the normalized error of the mesh matrix at the phases before the step, in [0, 1], zero exactly at a solution (up to a global phase); the gradient handed to the optimiser is exact; runs can be started at, or pass through, any phases, also on lossy meshes.","all meshes, targets, initial phases, optimisers, numbers of steps","Ranges over whole optimisation histories and all meshes.","simphox/circuit/forward.py:ForwardMesh.matrix_opt","simphox/utils.py:normalized_error")
p("Bloch phase and PML arguments of the constructors","A grid constructor accepts a Bloch phase given as any number or one per axis and a PML thickness given as a number or one per axis, and the grid gets exactly these; FDTD accepts PML in one, two and three dimensions; FDFD.from_simgrid keeps them. Fields are stored as real numbers only if neither a Bloch phase nor a PML makes them complex.","all dimensions, shapes, spacings, phases, thicknesses, argument forms","Argument handling must be right for every form, size and dimension.","simphox/grid.py:YeeGrid.__init__","simphox/fdtd.py:FDTD._set_pml","simphox/fdfd.py:FDFD.from_simgrid")
p("Port planes are perpendicular to ports","A port pointing along x or y (any multiple of 90 degrees, also negative or beyond 360) has a mode plane perpendicular to its direction with the width and height of the port, its modes propagate along its direction, and other angles are refused.","all ports, angles, widths, size factors","Angles are unbounded.","simphox/grid.py:Port.size","simphox/sim.py:SimCrossSection.prop_axis","simphox/sim.py:SimGrid.port_modes")
p("Labelled results match grid and ports","decorate labels every S-parameter with the port it was measured at and every field entry with the coordinates of its cell, the magnetic field half a cell further, for grids of one to three dimensions.","all grids, port lists, measured (port, mode) lists","Must hold for every shape and port list.","simphox/sim.py:SimGrid.decorate","simphox/grid.py:Grid.__init__")
p("Vector units embedded in a larger system","tree(n, n_rails) and vector_unit(v, n_rails) with n_rails >= n act as the n-rail network on the first n rails, whatever the parameters, and leave the light on the other rails alone up to their output phase; the network they return can be evaluated; a single output phase is applied to all rails.","all n, n_rails, layouts, phase styles, vectors, parameters, inputs","The embedding must be right for every size and input.","simphox/circuit/vector.py:tree","simphox/circuit/vector.py:vector_unit","simphox/circuit/forward.py:ForwardMesh.matrix_fn")
p("cascade accepts k orthonormal vectors","cascade(u) accepts the documented k x n set of k orthonormal vectors of length n (k <= n) and returns a mesh that implements them; for k = n it implements the unitary matrix.","all k, n, layouts, sets of vectors","Shapes and values range over all sizes.","simphox/circuit/matrix.py:cascade","simphox/circuit/vector.py:vector_unit")
p("Trees analyse their vector","balanced_tree(v) and unbalanced_tree(v) compute the inner product: for every input x the amplitude on the last rail is sum_r v_r x_r / |v| (up to the regulariser), and no light is lost.","all lengths, vectors, inputs, layouts, TOP and BOTTOM phase styles","The identity is about all vectors and inputs.","simphox/circuit/vector.py:balanced_tree","simphox/circuit/vector.py:unbalanced_tree")
p("Mode libraries describe the modes they solved","The propagation constants, effective indices, profiles and fields a ModeLibrary returns are those of the modes of its cross section at the wavelength it was last solved at: other libraries built on the same solver, failed updates and later edits of the permittivity do not change them, and update_wavelength makes the library that of the solver's current permittivity at the new wavelength.","all solvers, numbers of libraries, eigensolvers and sequences of builds, updates, solves, permittivity edits and reads","A test runs one history; the claim is about every interleaving of calls on shared objects.","simphox/mode.py:ModeLibrary.update_wavelength","simphox/mode.py:ModeLibrary._update_solve","simphox/mode.py:ModeSolver.solve","simphox/grid.py:Grid.eps_t")
p("Grids own their permittivity","Changing the permittivity of one grid (fill, add, set_eps, mask) changes neither the permittivity of any other grid (also one made from it by from_simgrid) nor the array the caller passed to the constructor, and changing that array afterwards does not change the grid.","all sequences of grid constructions, edits and solves","Aliasing depends on the whole history of objects.","simphox/grid.py:Grid.__init__","simphox/grid.py:Grid.fill","simphox/grid.py:Grid.add","simphox/grid.py:Grid.set_eps","simphox/fdfd.py:FDFD.from_simgrid")
p("solve returns the modes with the largest propagation constants","Whenever ModeSolver.solve(m) returns for a lossless cross section, every guided mode is among the returned ones (in their span) or m modes are returned and none of them has a smaller propagation constant; in one dimension the first returned mode is the fundamental mode. With a float guess the returned modes are the ones closest to it in beta squared; 0.0 means no guess; other types are refused.","all lossless one- and two-dimensional cross sections, wave numbers, numbers of modes, guesses and eigensolvers that return the eigenpairs closest to their shift","It quantifies over all modes, also those that are not returned, and over all permittivity profiles.","simphox/mode.py:ModeSolver.solve")
p("Modes requested in a range of propagation constants lie in the range","solve(m, beta_guess=(lo, hi)) returns the guided modes with propagation constants between lo and hi, at most m of them: all returned propagation constants lie in the range and belong to modes, and no mode in the range is missing unless m are returned.","all cross sections, ranges, numbers of modes and behaviours of MKL's FEAST allowed by its documentation","Depends on what the library routine leaves in unused array entries, for every number of modes in the range.","simphox/mode.py:ModeSolver.solve","simphox/mkl.py:Feast.feast","simphox/mkl.py:feast_eigs")
p("Energy added to an FDTD run equals the work of its sources","In a driven FDTD run without PML (NumPy back-end, uniform cells, real permittivity), after any number of steps the discrete electromagnetic energy equals the initial energy minus the accumulated work of the fields on the sources; from the moment all sources are silent it stays constant.","every grid, permittivity, Bloch phases, initial state, every sequence of lists of electric and magnetic sources with any regions, any number of steps","An exact identity over all source histories; a test compares a few runs with a tolerance.","simphox/fdtd.py:FDTD.step","simphox/fdtd.py:FDTD._step_e","simphox/fdtd.py:FDTD._step_h")
p("FDTD signals are reciprocal","In a run without PML started from rest (NumPy back-end, uniform cells), swapping transmitter and receiver does not change the received signal: for two electric antennas with any regions and profiles driven by the same time signal, the signal B reads when A transmits equals at every step the signal A reads when B transmits.","every grid, complex permittivity without zeros, Bloch phases, regions, profiles, time signals and step numbers","Quantifies over all pairs of antennas, signals and times.","simphox/fdtd.py:FDTD.step","simphox/sim.py:SimGrid","simphox/grid.py:YeeGrid.curl_h")
p("Insertion loss of a mesh is at most the sum of its columns' worst losses","In a mesh with non-positive losses (dB), whatever the coupler errors and phase settings, at least the fraction 10^(-L/10) of the input power leaves the mesh, where L is the sum over columns of the largest node loss in the column; for a balanced tree on n inputs with at most L dB per node that is ceil(log2 n) L, for a chain (n-1) L; the bound is attained.","every well-formed mesh, errors, losses, parameters, input vector and direction of propagation","A lower bound over a continuum of settings and inputs.","simphox/circuit/forward.py:ForwardMesh.matrix_fn","simphox/circuit/coupling.py:CouplingNode","simphox/circuit/forward.py:tree")
p("Driven FDTD fields grow at most linearly","With FDTD's own time step and real permittivity above 1 (no PML, NumPy back-end), the fields of a driven run are bounded by the square root of the initial energy plus the time step times the accumulated source strengths, with constants that depend on the permittivity only; sources of bounded strength therefore give at most linear growth.","every grid shape, spacing, permittivity at least 1+m, sources and number of steps","Stability is a statement about all run lengths and excitations.","simphox/fdtd.py:FDTD.__init__","simphox/fdtd.py:FDTD.step")
p("A Box marks the pixels it covers","mask(grid) is 1 exactly at the pixels of the grid that lie in the box (a pixel belongs to the box when its upper corner does) and 0 elsewhere; the number of marked pixels of a box inside the grid is the product of shape; boxes that stick out of the grid are clipped.","every box, pixel size and array shape","Covers all rational positions and sizes, including the boundary cases.","simphox/utils.py:Box.mask","simphox/utils.py:Box.slice","simphox/utils.py:Box.shape")
p("Moving a Box affects no other Box","After any sequence of copy, translate, align, halign and valign calls on any number of boxes, a box that was not itself the receiver of a move is where it was, whatever happened to its copies and to boxes aligned to it; every box keeps its size, pixel size and material; a copy equals its original; translations add up.","every program of operations on every list of boxes","Aliasing shows only in some histories; this is for all of them.","simphox/utils.py:Box.copy","simphox/utils.py:Box.translate","simphox/utils.py:Box.align","simphox/utils.py:Box.halign","simphox/utils.py:Box.valign")
p("Numbers read off a mode library agree","For every mode i of a solved library, beta(i), n(i), ns[i] and phase(length, i) describe the same number: n(i) = ns[i] = beta(i)/k0, phase(length, i) = beta(i) * length, phases add up along the waveguide, dbeta = beta(0) - beta(1), dn = n(0) - n(1), and over one beat_length the first two modes get exactly 2 pi out of step; an index outside the library raises ValueError in all of them.","every library, mode index and length","Agreement must hold for every library and length.","simphox/mode.py:ModeLibrary.beta","simphox/mode.py:ModeLibrary.n","simphox/mode.py:ModeLibrary.ns","simphox/mode.py:ModeLibrary.dbeta","simphox/mode.py:ModeLibrary.dn","simphox/mode.py:ModeLibrary.phase","simphox/mode.py:ModeLibrary.beat_length")
p("plot_field draws the requested component","plot_field(ax, idx, axis, use_h) draws component axis of the electric (or magnetic) field of mode idx and labels it with the matching letter, whether the axis is given as a number or a letter; every other axis raises ValueError; it works for slab (1D) and cross-section (2D) libraries.","every library, mode, axis argument and field choice","All argument combinations and library dimensions.","simphox/mode.py:ModeLibrary.plot_field")
p("Vector units compensate individual splitter errors","vector_unit(v, bs_error_mean_std=(mean, std)) programs the tree so that it routes v to the last rail whatever splitting error was drawn for each node, as long as each requested splitting ratio is reachable with that node's error; the returned vector is what the programmed mesh outputs before its output phases.","every vector, tree shape, phase style TOP/BOTTOM, list of drawn errors","Errors are random; the guarantee must hold for every draw and size.","simphox/circuit/vector.py:vector_unit","simphox/circuit/vector.py:_program_vector_unit","simphox/circuit/forward.py:ForwardMesh.parallel_nullify","simphox/circuit/forward.py:ForwardMesh.add_error_variance")
p("2D and 3D plots show every pixel at its place","The plotting functions draw every entry (i, j) of a two-dimensional array, and no other value, in the rectangle [i d, (i+1) d] x [j d, (j+1) d] of the axes, where d is the spacing passed (1 if none or zero is passed), and every voxel (i, j, k) of a three-dimensional array at (i, j, k) times the spacing.","all array shapes, all array contents and all spacings","Tests of plots check at most that a figure is produced; a swapped axis or a flipped image shows only for non-square or non-symmetric arrays.","simphox/viz.py:get_extent_2d","simphox/viz.py:plot_eps_2d","simphox/viz.py:plot_field_2d","simphox/viz.py:plot_power_2d","simphox/viz.py:hv_field_2d","simphox/viz.py:hv_power_2d","simphox/viz.py:plot_power_3d","simphox/viz.py:plot_field_3d","simphox/viz.py:plot_eps_3d")
p("Plotted values are normalised","The colour scale of a field plot is symmetric about zero and reaches exactly to the largest modulus of the field; the live view of a running FDTD simulation sends permittivities in [0, 1], powers in [0, 1) and fields in (-1, 1), with the sign and the order of the values preserved.","all arrays (including uniform and all-negative ones) and all positive regularisers","The normalisation depends on the extreme values of the array; tests with one oscillating field cannot see the sign-dependent and degenerate cases.","simphox/viz.py:plot_field_2d","simphox/fdtd.py:FDTD._viz")
p("Losses cause proportionally small leakage in vector units","A vector unit programmed with lossy nodes (the same loss in both arms of every node) and equal splitter errors still focuses the programmed vector on the last rail: every other rail carries at most the amplitude sqrt(eps) + (1 - 10^(l/10)) sqrt(2) |v|, where l is the loss in dB per arm, the last output is real and nonnegative, and the total power lost is at most twice the loss of an arm per column.","all sizes, balanced or not, both external phase styles, all complex vectors, all losses, all errors for which the ratios met are reachable","The bound concerns every vector, size and loss value at once; a test with one loss value cannot tell a leakage proportional to the loss from an unbounded one.","simphox/circuit/vector.py:vector_unit","simphox/circuit/vector.py:_program_vector_unit","simphox/circuit/forward.py:ForwardMesh.parallel_nullify","simphox/circuit/forward.py:ForwardMesh.add_error_mean")
p("Matrix operators act along the right axis of flattened fields","The sparse derivative and curl matrices of a grid, applied to a flattened field, give the flattened array of neighbour differences along the named axis divided by the cell size (with the Bloch factor across the boundary, zero on axes with one cell); flattening and reshape are inverse to each other.","all grid shapes (including axes with one cell), cell sizes, PML stretchings, Bloch phases, fields and cells","The Kronecker-product and row-major conventions are right only together; on cubic or symmetric test grids a swapped axis is invisible, and only all shapes and fields settle it.","simphox/grid.py:YeeGrid.deriv","simphox/grid.py:YeeGrid.deriv_forward","simphox/grid.py:YeeGrid.deriv_backward","simphox/grid.py:Grid.reshape","simphox/utils.py:d2curl_op")
p("The flat linear system is Maxwell's equation on the grid","A flat vector solves the linear system that FDFD.solve hands to the sparse solver (matrix mat, mat_ez or mat_hz, right-hand side k0 times the flattened source) if and only if the reshaped field satisfies the discrete wave equation in every cell and component of the arrays.","all grid shapes, cell sizes and PML stretchings, permittivities, sources and flat vectors, without Bloch phase","Equivalence of a flat system and an array equation for every shape and permittivity; a test only checks the residual of the flat system itself.","simphox/fdfd.py:FDFD.mat","simphox/fdfd.py:FDFD.mat_ez","simphox/fdfd.py:FDFD.mat_hz","simphox/fdfd.py:FDFD.solve","simphox/grid.py:Grid.reshape")
p("The flat mode eigenproblem is Maxwell's equations","For a two-dimensional cross section without Bloch phases, the sparse matrix that waveguide_mode_matrix assembles from flattened permittivities has shape (2n, 2n), and for every flat vector v and every beta > 0 with C v = beta^2 v, the row that solve() builds from v (v followed by the longitudinal component), read back through ModeLibrary.h and ModeLibrary.e with their (3, nx, ny) reshape, satisfies the discrete Maxwell equations for a wave exp(-i beta z); conversely every solution of those equations, flattened, satisfies C v = beta^2 v and is returned unchanged. For one-dimensional grids C v = lam v says exactly that k0^2 eps u + D_f D_b u = lam u in every cell of the reshaped u.","all grid shapes, cell sizes, permittivities without zeros, k0, beta, flat vectors and fields","The reshape order, the block order of eps_10, vstack and hstack and the signs have to match for every grid shape; a test compares one waveguide with one tolerance.","simphox/mode.py:ModeSolver.waveguide_mode_matrix","simphox/mode.py:ModeSolver.solve","simphox/mode.py:ModeLibrary.h","simphox/mode.py:ModeLibrary.e","simphox/grid.py:YeeGrid.deriv")
p("vector_unit routes every vector its imperfect couplers can route","For a vector unit with a splitting error x per node (not exactly \u00b1\u03c0/4), balanced or linear, phase style top or bottom: some phase setting sends all the light of v to the last rail iff at every node the power of v arriving from the rails of its top subtree is at most cos\u00b2(2x) of the power from all rails of that node; and whenever any such setting exists the phases vector_unit itself programs send exactly \u2016v\u2016 to the last rail and nothing elsewhere. With one common error e and a linear chain this is: every rail r \u2265 1 carries at least sin\u00b2(2e) of the power of rails 0..r.","every number of ports n \u2265 2, both layouts, both phase styles, every list of errors, every complex input vector","Optimality over all phase settings of the mesh, and an if-and-only-if over all vectors and errors, cannot be settled by sampling.","simphox/circuit/vector.py:vector_unit","simphox/circuit/vector.py:_program_vector_unit","simphox/circuit/vector.py:tree","simphox/circuit/forward.py:ForwardMesh.parallel_nullify","simphox/circuit/coupling.py:transmissivity_to_phase")
p("cascade implements u with imperfect couplers iff every ideal theta is at least 4|e|","For a common splitting error e of all couplers with |e| < \u03c0/4, every unitary u and both layouts: the mesh cascade(u) returns, with the phases it programs, has transfer matrix exactly u if and only if every internal phase theta that cascade(u) computes for ideal couplers is at least 4|e|. Consequently a unitary implemented exactly with errors e is implemented exactly with every smaller error of either sign; for 2x2 matrices (linear layout) the condition is |u[1,0]| \u2264 cos 2e.","every size n \u2265 2, both layouts, every unitary u, every common error |e| < \u03c0/4","An if-and-only-if over all unitary matrices and errors; the failing set has thin boundary and sampled unitaries of small size almost never hit it.","simphox/circuit/matrix.py:cascade","simphox/circuit/vector.py:_program_vector_unit","simphox/circuit/forward.py:ForwardMesh.parallel_nullify","simphox/circuit/coupling.py:transmissivity_to_phase")
p("Programming a mesh with its own matrix returns its phases","If all internal phases of the mesh built by cascade lie strictly between 0 and pi (and phi in [0, 2 pi)), then cascade applied to that mesh's transfer matrix returns the same thetas, phis and output phases, so two such settings with the same matrix are the same setting; likewise vector_unit(v) returns the phases of any such setting that sends all of v to the last rail.","all numbers of rails, both layouts, all settings with generic phases, all common coupler errors e with cos 2e != 0, and for vector_unit all nonzero vectors and the styles TOP and BOTTOM","Uniqueness ranges over all pairs of settings of meshes of every size; tests can only compare a few programmed meshes within floating-point tolerance.","simphox/circuit/matrix.py:cascade","simphox/circuit/vector.py:vector_unit","simphox/circuit/vector.py:_program_vector_unit","simphox/circuit/forward.py:ForwardMesh.parallel_nullify","simphox/circuit/coupling.py:transmissivity_to_phase")
p("column_ordered sorts the nodes by column","mesh.column_ordered returns a mesh made of the same nodes, each once, sorted by column and otherwise in their old order, ready to be evaluated, and leaves the mesh as it was; a mesh already in column order keeps its order; if a column below num_columns is empty it raises ValueError.","every mesh with distinct nodes and ids","Tests check a few meshes; the order and isolation must hold for every list of nodes and columns.","simphox/circuit/forward.py:ForwardMesh.column_ordered","simphox/circuit/forward.py:ForwardMesh.columns","simphox/circuit/forward.py:ForwardMesh.aggregate")
p("column_ordered is the same circuit","mesh.column_ordered, with the phases of mesh assigned to it, has the same matrix as mesh, forwards and backwards.","every mesh, phases, inputs, both directions","A reordering bug only shows for node lists against the column order, with non-uniform errors or a non-default phase style.","simphox/circuit/forward.py:ForwardMesh.column_ordered","simphox/circuit/forward.py:ForwardMesh.aggregate")
p("Powers recorded by vector_unit","After vector_unit(v), mesh.pn of every node is the total power of v on the rails the node merges and mesh.pnsn the power of v on the rails merged into its phase-shifted arm (top arm in style TOP, bottom arm in style BOTTOM); so 0 <= pnsn <= pn <= total power. With equal coupler errors the same holds for every vector the unit can route.","every n >= 2, both layouts, styles TOP and BOTTOM, every vector, every common coupler error with cos 2e != 0","The powers are side products of a column by column nullification; that they equal sums over input rails needs an invariant over all columns.","simphox/circuit/vector.py:_program_vector_unit","simphox/circuit/vector.py:vector_unit")
p("Noise does not turn the in-situ gradient","With the noise arguments of in_situ_matrix_fn (independent standard normal draws), the mean of every gradient entry of the backward pass is the true partial derivative times one positive factor common to all entries: 1 in the digital mode and without input/output errors, E|1 + a z| exp(-(pi p)^2/2) in the analog mode with amplitude and phase error levels a and p; shot noise does not shift it. The noisy outputs have the noiseless outputs as mean up to the same factor.","all error-free TOP meshes, phases, inputs, cotangents and noise levels, both modes, every probability space with independent standard normal draws","The mean over random draws of a nonlinear measurement; a test sees finitely many samples of finitely many meshes.","simphox/circuit/forward.py:ForwardMesh.in_situ_matrix_fn")
p("Shot noise of the in-situ gradient","With shot noise s at the tap detectors, the variance of a gradient entry in the analog mode is s^2/8 times the sum over inputs of gnorm^2 |F|^2 + xnorm^2 |A|^2, where F and A are the forward field of the inputs and the backward field of the cotangent at the phase shifter; in the digital mode it is s^2/4 times the sum with the power of the interference added, so that the analog mode has at most half the variance.","all error-free TOP meshes, phases, inputs, cotangents, noise levels, every probability space with independent standard normal draws","A variance over a continuum of draws; tests estimate it for finitely many cases only.","simphox/circuit/forward.py:ForwardMesh.in_situ_matrix_fn")
p("Putting two meshes in series multiplies their matrices","Given two freshly constructed meshes a and b without common node objects (any node errors and losses, default phase style), after b.offset(len(a.nodes)), b.offset_column(a.num_columns) and c = ForwardMesh.aggregate([a, b]), with the phases of a followed by those of b and output phases g assigned to c, evaluating c gives e^{ig} B A, where A and B are the matrices a and b had before (without their own output phases); backward it gives A_back B_back e^{ig}; and c is again as freshly constructed, so the construction can be repeated.","all pairs of mesh objects in all heaps, all errors, losses and phases, both directions, all inputs","the number of nodes, columns and rails and the errors, losses and phases are unbounded; a test fixes a handful","simphox/circuit/forward.py:ForwardMesh.offset","simphox/circuit/forward.py:ForwardMesh.offset_column","simphox/circuit/forward.py:ForwardMesh.aggregate","simphox/circuit/forward.py:ForwardMesh.matrix_fn")
p("No crosstalk between disjoint sets of rails","If every node of a mesh lies entirely inside or entirely outside a set S of rails, the matrix of the mesh has no entry between S and the rest, forward and backward, and what leaves on S depends only on the inputs on S and on the nodes, errors, losses and phases of S: two meshes that agree there and differ arbitrarily elsewhere (nodes, columns, number of rails, phases) give the same output on S.","all meshes whose columns touch distinct rails, all sets of rails, all errors, losses, phases and inputs, both directions","meshes, sets of rails and phases are unbounded; the claim compares pairs of meshes","simphox/circuit/forward.py:ForwardMesh.matrix_fn","simphox/circuit/forward.py:ForwardMesh.columns")
p("The gradient of a 2D inverse design objective is the true gradient","jax.grad of any differentiable real objective of the field returned by get_fields_fn (2D, TE or TM) with respect to a real permittivity - the hand-written backward functions of spsolve and TMOperator chained with the derivatives of hstack, -1/eps and the Yee averages - is the exact derivative of the same objective of the plain solver.","all grids (TM: positive cells or PML, any Bloch phase unless an axis has two cells), wave numbers, sources, real permittivities (TM: positive) with a solvable system, all differentiable objectives and directions","tests compare one gradient with a finite difference at a few points, within a tolerance","simphox/fdfd.py:get_fields_fn","simphox/primitives.py:spsolve_bwd","simphox/primitives.py:TMOperator","simphox/utils.py:yee_avg_jax")
p("Time reversal of FDFD solutions","For any grid, permittivity and source and any solver that solves both systems, the fields the solver returns for the conjugate source on the time-reversed structure (conjugate permittivity and cell sizes, opposite Bloch phases: absorption becomes gain) are the conjugate fields (2D TE and 3D: e with the same sign, h reversed; 2D TM the reverse); the real power flow is reversed everywhere, and a closed lossless real simulation carries no power anywhere.","all shapes, cell sizes including PML, Bloch phases, complex permittivities, wave numbers, sources and solvers with a unique solution","tests solve a few sources on a few grids; time reversal relates two simulations for every structure","simphox/fdfd.py:FDFD.solve","simphox/fdfd.py:FDFD.e2h","simphox/fdfd.py:FDFD.h2e")
p("Rounding errors of a mesh propagation","However the floating-point operations of propagating a field through a mesh are rounded - relative error at most u per complex product or sum, every computed coupling-matrix entry and phase factor within eta of the exact one - the computed output is within (1+eta)(1+u)(1+delta)^C - 1, delta = 2((1+eta)(1+u)^2-1), of the exact output times the input amplitude, for C columns and any number of rails; for small u this is at most 16 (C+1) u.","all meshes, phases, splitting errors, inputs, rounding outcomes","tests compare against one tolerance at a few sizes; the bound holds for every outcome of every rounding and any size","simphox/circuit/forward.py:ForwardMesh.matrix_fn","simphox/circuit/forward.py:ForwardMesh.propagate","simphox/circuit/forward.py:ForwardMesh.matrix")
p("Rounding errors of an FDTD run add up, unamplified","For an FDTD run without PML on uniform cells with real permittivity above 1 + m (m > 0), with any sources, whatever error each stored field update carries, the computed fields after n steps differ from the exact run by at most the sum of the errors made so far times a constant depending on m only; errors of at most delta per update give an error growing at most linearly in n.","all grids, permittivities, sources, initial states, step counts and error histories","a test compares one run against a reference for a few steps; errors could be amplified after any number of steps","simphox/fdtd.py:FDTD.step","simphox/fdtd.py:FDTD._step_e","simphox/fdtd.py:FDTD._step_h")
p("How the fundamental mode responds to a change of the slab","Between two lossless 1D slabs (and two wave numbers) on the same uniform grid the squared propagation constant of the fundamental mode changes at least by the change of k0^2 eps averaged over the old mode's intensity and at most by the average over the new mode's. Hence permittivities within delta of each other give n_eff^2 within delta, adding a constant to the permittivity adds it to every n_eff^2, and n_eff is differentiable along any smooth change of the slab or of the wave number with the intensity-weighted derivative (first-order perturbation and group index formulas).","all grid lengths, permittivity profiles, wave numbers, smooth families of slabs","tests evaluate a few slabs; the bound relates every two slabs","simphox/mode.py:ModeSolver.solve","simphox/mode.py:ModeSolver.wgm")
p("The last edit of a pixel wins","After any sequence of accepted permittivity edits (set_eps, fill, add) of a grid, every pixel holds the permittivity written by the last call that covers it, or its original one if none does; shape and spacing are unchanged, the components are listed in the order they were added, and edits of disjoint regions commute.","all grids, all histories of edits, all pixels","tests add a few components; overlap and order range over all histories","simphox/grid.py:Grid.set_eps","simphox/grid.py:Grid.fill","simphox/grid.py:Grid.add")
p("A refused edit leaves the grid unchanged","A permittivity edit of a grid that raises leaves permittivity, components and ports as they were, so a caller may catch the exception and go on.","all grids and all refused edits","tests check that an error is raised, not what state the grid is left in","simphox/grid.py:Grid.add","simphox/grid.py:Grid.set_eps")
p("Second-order accuracy of the grid","For plane waves that advance by at most theta <= pi per cell on every axis the squared wave number of the grid is below the true one by at most the fraction theta^2/12; the frequency an FDTD run without PML carries the wave at is within the fraction theta^2/6 of |k|/sqrt(eps), and the amplitude FDFD computes and the propagation constant the 1D mode solver finds err accordingly.","all uniform grids, wave vectors, permittivities, Bloch phases","a convergence test measures a few resolutions; the bound holds for all of them","simphox/fdtd.py:FDTD.step","simphox/fdfd.py:FDFD.solve","simphox/mode.py:ModeSolver.solve")
p("FDTD measures a transfer function, whatever the pulse","An FDTD simulation (any grid, permittivity, Bloch phase, with or without PML) is linear and time invariant: sources delayed by d steps give the same fields d steps later and darkness before; the state under a pattern of currents driven with any waveform is the convolution of the waveform with the impulse response; and the spectrum of any linear reading divided by the spectrum of the pulse is the same for every pulse of that pattern.","all grids, PML, source patterns, waveforms, delays, step counts, linear readings, spectral variables with convergent sums","tests run a few pulses; the transfer function must not depend on which one","simphox/fdtd.py:FDTD.step","simphox/fdtd.py:FDTD.run")
p("Symmetries of the mode solver","Giving all lengths in another unit leaves the modes and effective indices of a waveguide unchanged and divides the propagation constants by the unit factor; shifting the cross-section by any number of cells or flipping it along x or y shifts or mirrors every mode (the magnetic field as an axial vector on the staggered grid) with the same propagation constant; and in a mirror symmetric waveguide every non-degenerate mode is symmetric or antisymmetric.","all grid shapes, spacings, permittivities, wave numbers, unit factors, shifts, both transverse axes, 1D and 2D cross sections","tests solve a few waveguides; the symmetry relates every waveguide to its images","simphox/mode.py:ModeSolver.wgm","simphox/mode.py:ModeSolver.solve")
p("Every butterfly entry is the product along its single path","In a butterfly mesh of 2^k rails light travels from any input to any output along exactly one path, entering column c on the rail with the output's bits below c and the input's bits from c on; the matrix entry is the output phase times the product of the k node elements on it. With perfect couplers and all thetas at pi/2 every input is split equally over all outputs, for any phis and gammas.","all k >= 1, inputs and outputs, phase styles, coupler errors, losses and phase settings","The number of entries and paths grows with 4^k and settings are continuous; tests look at one size.","simphox/circuit/vector.py:butterfly","simphox/circuit/forward.py:ForwardMesh.matrix")
p("The butterfly mesh can be programmed to the discrete Fourier transform","Setting thetas to pi/2, phis to 2 pi (top mod 2^c)/2^(c+1) for the node of column c with upper rail top and gammas to minus the accumulated twiddle phases makes the matrix of butterfly(2^k) the unitary discrete Fourier transform of the inputs taken in bit-reversed order; negated settings give the inverse transform, odd multiples every other primitive root of unity.","all k >= 1, odd multiples s, input vectors","The identity concerns every size and every input vector; a numerical test checks a few sizes to rounding error.","simphox/circuit/vector.py:butterfly","simphox/circuit/forward.py:ForwardMesh.matrix")
p("FDFD field errors are controlled by solver residual and permittivity error","In a medium where every cell absorbs at least delta, a solver stopping at relative residual tol returns an electric field within tol times the source norm over k0 delta of the exact one, and changing the permittivity by at most eta in every cell moves the field by at most eta/delta times its norm.","all grids, cell sizes, Bloch factors, absorbing permittivities, sources, tolerances and solvers; three dimensions and e_z","The bounds are uniform in grid size and medium; a test compares two runs on one structure.","simphox/fdfd.py:FDFD.solve","simphox/fdfd.py:FDFD.get_fields_fn")
p("The butterfly mesh is not a universal mesh","For every setting of phases and of all errors, the entries of the butterfly's matrix that join inputs agreeing from bit c on to outputs agreeing below bit c form a block of rank one, because all that light passes one common rail; so no setting of a butterfly with four or more rails implements a permutation that keeps rail 0 and sends rail 1 to rail 2.","all sizes 2^k, all phases and errors, all columns c and pairs of rails","The claim is that no setting exists among a continuum of settings and sizes; an optimiser that fails to find one settles nothing.","simphox/circuit/vector.py:butterfly","simphox/circuit/forward.py:ForwardMesh.matrix")
p("Mean field of a mesh with random phase errors","If a mesh is run with the parameters of mesh.phases(error=sigma), averaging over independent draws gives the output of the mesh whose nodes have their mean elements; for normal draws in the style TOP the terms carrying theta or phi are attenuated by exp(-sigma^2/2), those carrying theta + phi by exp(-2 sigma^2).","all meshes with distinct node ids, phases, losses, coupler errors, sigma, inputs, directions; all distributions of the draws (normal for the closed form)","The mean is over infinitely many draws; a Monte Carlo test has sampling error and covers one mesh.","simphox/circuit/forward.py:ForwardMesh.phases","simphox/circuit/forward.py:ForwardMesh.matrix_fn")
p("Mean field of a mesh with random coupler errors","Averaged over the draws of add_error_variance(sigma), the output of a mesh is that of the mesh with the mean coupler terms: with equal_splitter_error the interference terms shrink by exp(-2 sigma^2), without it all terms shrink by exp(-sigma^2), so that the mean matrix of a butterfly on 2^k rails is exp(-k sigma^2) times its matrix.","all meshes with distinct node ids, phases, losses, prior errors, sigma, styles, inputs, directions; both values of equal_splitter_error","The mean is over infinitely many draws of all couplers; a Monte Carlo test has sampling error and covers one mesh.","simphox/circuit/forward.py:ForwardMesh.add_error_variance","simphox/circuit/vector.py:butterfly")
p("Interference averages out in a freshly built mesh","A freshly built mesh draws its external phases uniformly from [0, 2 pi). Averaged over them, the power leaving a rail is that of particles which pass each node with its power transmissivities; so, on average, fresh meshes mix powers like a Markov chain whatever the relative phases of the inputs. (In the style SYMMETRIC the external phase is common to both arms and this is not so.)","all meshes with distinct node ids in the styles TOP, BOTTOM and DIFFERENTIAL, all thetas, gammas, losses, coupler errors, inputs and output rails","The mean is over a continuum of phases of all nodes at once; a Monte Carlo test has sampling error and covers one mesh.","simphox/circuit/forward.py:ForwardMesh.__post_init__","simphox/circuit/coupling.py:CouplingNode")
p("Random losses act as gain on average","add_error_variance(0, loss_db_std) with independent normal draws gives a mesh whose mean output field is exactly the output of the unperturbed mesh with loss_db_std^2 ln(10) / 40 dB of gain added in both arms of every node; on a lossless mesh the mean output therefore carries at least the power of the input.","all meshes, phase styles, coupler errors, losses, phases, inputs, both directions, every deviation","The mean over a continuum of random draws; a test sees a few samples.","simphox/circuit/forward.py:ForwardMesh.add_error_variance","simphox/circuit/forward.py:InSituBackpropLayer","simphox/circuit/coupling.py:CouplingNode.mzi_node_matrix")
p("Line plots show every sample at its place","With a spacing d, plot_field_1d and plot_eps_1d draw sample i at (i d, its real part), and hv_power_1d and hv_field_1d at x = i d and a height in [-1, 1] (power) or [0, 1] (field) that increases with the real part and, for real samples, reaches the edge of that range. Without a spacing (the default) all four raise TypeError; samples that are all zero have no finite height.","all lists of complex samples and all spacings","Holds for every array; tests draw a few.","simphox/viz.py:plot_eps_1d","simphox/viz.py:plot_field_1d","simphox/viz.py:hv_field_1d","simphox/viz.py:hv_power_1d")
p("Animated modes run from start to end","The frames of evolve_viz(max_length) start at 0, end exactly at max_length and are equally far apart, at least one and less than two cells, for every max_length of at least one cell; for a shorter positive length only the start is shown, and lengths of minus two cells or less raise ValueError.","all maximum lengths and spacings","Depends on how the length divides into cells; tests use round numbers.","simphox/mode.py:ModeLibrary.evolve_viz")
p("Random meshes spread the power evenly","A triangular(u) or rectangular(u) mesh of any size, or a butterfly mesh on a power of two rails (any style but SYMMETRIC), whose coupling phases are set to rand_theta() and whose external phases are drawn uniformly (as the constructor does) sends on average exactly 1/n of the power of every input, coherent or not, to every output.","all sizes, all target unitaries the mesh was built from, all input fields, all inverse beta functions scipy may return, all probability spaces carrying independent uniform draws","An expectation over a continuum of random settings, for every size; tests draw a few meshes.","simphox/circuit/forward.py:ForwardMesh.rand_theta","simphox/circuit/forward.py:ForwardMesh.rand_s","simphox/circuit/rectangular.py:get_alpha_checkerboard","simphox/circuit/vector.py:_tree","simphox/circuit/vector.py:_butterfly")
p("Sensitivity index of a rectangular mesh is a distance","In a rectangular(u) mesh the beta of a node is the distance between the input rails of the two lines that meet there when every node before it exchanges its rails (the upper line comes from the smaller rail), it is at least 1, and past the last node the lines leave in reversed order.","all sizes, all nodes","Holds for every node of a mesh of every size; tests compare a few sizes with tables.","simphox/circuit/rectangular.py:get_alpha_checkerboard","simphox/circuit/rectangular.py:rectangular")
p("A randomly set triangular mesh is Haar-random","A triangular(u) mesh of any size whose coupling phases are set to rand_theta() and whose external phases and output phases are drawn uniformly (as the constructor does) realises a Haar-random unitary matrix: the matrix is unitary for every draw, and multiplying it by any fixed unitary matrix, from the left or from the right, changes the probability of no measurable set. All random matrices with these properties have the same distribution.","all sizes from two rails, all target unitaries the mesh was built from, all fixed unitary factors, all measurable sets of matrices, all inverse beta functions scipy may return, all probability spaces carrying independent uniform draws","A statement about the joint distribution of all matrix entries, for every size; sampling only estimates single moments.","simphox/circuit/forward.py:ForwardMesh.rand_theta","simphox/circuit/forward.py:ForwardMesh.rand_s","simphox/circuit/forward.py:ForwardMesh.matrix_fn","simphox/circuit/matrix.py:triangular","simphox/circuit/vector.py:_tree")
p("A randomly set network of lines that cross once is Haar-random","A mesh (phase style top) in which every two lines cross exactly once, each node being a crossing of two lines still in their original order whose sensitivity index beta is the distance of the two lines' input rails and whose alpha is 1, set to rand_theta() with uniform external and output phases, realises a Haar-random unitary matrix, in whatever order the lines cross. In particular this holds for the mesh that rectangular(u) builds, whose distribution is then that of the triangular mesh.","all sizes, all node lists of this kind, all target unitaries the mesh was built from, all measurable sets of matrices, all inverse beta functions scipy may return, all probability spaces carrying independent uniform draws","A statement about the joint distribution of all matrix entries, for every size and every arrangement of the crossings; sampling only estimates single moments.","simphox/circuit/forward.py:ForwardMesh.rand_theta","simphox/circuit/forward.py:ForwardMesh.rand_s","simphox/circuit/forward.py:ForwardMesh.matrix_fn","simphox/circuit/rectangular.py:rectangular","simphox/circuit/rectangular.py:get_alpha_checkerboard")
p("A rectangular or other crossing mesh is determined by its matrix, and rectangular returns the phases","Two settings of one mesh of crossing lines (each node crosses two neighbouring lines that have not crossed before, as in the rectangular mesh) with the same transfer matrix are the same setting, if all internal phases of one lie strictly between 0 and pi, those of the other between 0 and pi, and all phi in [0, 2 pi); output phases agree up to multiples of 2 pi. Hence rectangular applied to the transfer matrix of a rectangular mesh in such a setting returns its thetas, phis and output phases.","all numbers of rails and nodes, all meshes whose nodes cross neighbouring lines at most once, styles TOP and BOTTOM, all common coupler errors e with cos 2e != 0, all pairs of settings","Uniqueness ranges over all pairs of settings of meshes of every size; tests can only compare a few programmed meshes within floating-point tolerance.","simphox/circuit/rectangular.py:rectangular","simphox/circuit/rectangular.py:grid_common_mode_flow","simphox/circuit/forward.py:ForwardMesh.matrix_fn")
p("The phases found for a Haar-random matrix follow the initialisation law","triangular(u) and rectangular(u) applied to a Haar-random unitary matrix u, as triangular(n) does with unitary_group.rvs, return phases that are all independent: theta of a node with sensitivity index beta has density beta cos(t/2)^(2 beta - 1) sin(t/2) on (0, pi), which is the law of rand_theta, every phi is uniform on [0, 2 pi), and the output phases are uniform over one turn ([0, 2 pi) for rectangular, [-pi, pi) for triangular).","all numbers of rails n >= 2, all Haar-random matrices on any probability space, all measurable events about the phases of finitely many nodes and rails","It is a statement about a probability distribution over all unitary matrices; tests sample a few matrices.","simphox/circuit/matrix.py:triangular","simphox/circuit/matrix.py:cascade","simphox/circuit/rectangular.py:rectangular","simphox/circuit/forward.py:ForwardMesh.rand_theta")
p("The phases of a vector unit programmed with a random vector","The entries of random_vector(n) have independent normal real and imaginary parts of one deviation, so no unitary matrix changes the law of the vector, whether it is normed or not. For every vector with such a law that is almost surely not zero, and both tree layouts, vector_unit returns phases that are independent: theta of a node that merges b inputs on its top rail with a inputs on its bottom rail has density (a+b-1)!/((a-1)!(b-1)!) cos(t/2)^(2b-1) sin(t/2)^(2a-1) between 0 and pi, every phi is uniform between 0 and 2 pi, and the phase of the last output is uniform between -pi and pi.","every number of inputs n >= 2, balanced and linear trees, every probability space and random vector of unitarily invariant law without an atom at zero (in particular independent standard normal draws, normed or not), all measurable sets of phases","The claim is about a joint probability law of continuous phases; a test can only sample it.","simphox/circuit/vector.py:vector_unit","simphox/circuit/vector.py:_program_vector_unit","simphox/utils.py:random_vector","simphox/utils.py:random_tensor")
p("A balanced cascade is Haar-random exactly when its phases follow the indices of its nodes","If the phases of the balanced cascade tree_cascade builds are independent, theta of a node that merges b inputs on its top rail with a inputs on its bottom rail with density (a+b-1)!/((a-1)!(b-1)!) cos(t/2)^(2b-1) sin(t/2)^(2a-1) between 0 and pi (the law rand_theta gives a node of beta b and alpha a), every phi uniform between 0 and 2 pi and the output phases uniform between -pi and pi, then the mesh realises a Haar-random unitary matrix. Conversely tree_cascade of a Haar-random unitary matrix, as tree_cascade(n) draws, returns phases with exactly this law.","all numbers of rails n >= 2, all target unitaries the mesh was built from, all Haar-random matrices and random phases on any probability space, all measurable sets of matrices and of phases","The claim is about the joint law of all matrix entries or of all phases, for every size; sampling estimates single moments of a few sizes.","simphox/circuit/matrix.py:tree_cascade","simphox/circuit/matrix.py:cascade","simphox/circuit/vector.py:vector_unit","simphox/circuit/forward.py:ForwardMesh.rand_theta")
p("A randomly set balanced cascade is Haar-random for two and three rails only","A tree_cascade(u) mesh whose coupling phases are set to rand_theta() and whose external and output phases are drawn uniformly (as the constructor does) realises a Haar-random unitary matrix exactly if it has two or three rails: rand_theta draws by position in the node list while nodes use phases by node id, and from four rails on the root of the largest tree is driven with the indices of another node. In particular all Haar-random matrices have one row law, which the last row of the larger cascades does not follow.","all numbers of rails n >= 2, all target unitaries the mesh was built from, all inverse beta functions scipy may return, all probability spaces carrying independent uniform draws","Whether the joint law of all matrix entries is invariant under every unitary matrix, for every size, cannot be settled by sampling.","simphox/circuit/forward.py:ForwardMesh.rand_theta","simphox/circuit/forward.py:ForwardMesh.rand_s","simphox/circuit/matrix.py:tree_cascade","simphox/circuit/vector.py:_tree")
p("No randomly set butterfly is Haar-random","From four rails on, the matrix of a butterfly mesh is not a Haar-random unitary however its phases, coupling errors, losses and phase style are drawn, independently or not: a two by two minor of the matrix vanishes in every draw. A butterfly of any size, two rails included, whose coupling phases are set to rand_theta() and whose external and output phases are drawn uniformly (as the constructor does) is not Haar-random either, since rand_theta uses indices one too large; its matrix is unitary in every draw.","all k (sizes n = 2^k), all joint laws of phases, errors and losses, all phase styles, all inverse beta functions scipy may return, all probability spaces carrying independent uniform draws","That no law of the settings whatever gives Haar-random matrices, for every size, cannot be settled by sampling.","simphox/circuit/vector.py:butterfly","simphox/circuit/vector.py:_butterfly","simphox/circuit/forward.py:ForwardMesh.rand_theta","simphox/circuit/forward.py:ForwardMesh.matrix")
p("How far a freshly drawn mesh is from its target","For every target unitary, the normalized_error of the matrix of a freshly drawn triangular or rectangular mesh (coupling phases from rand_theta, external and output phases uniform) has the mean square 1 - 1/n^2, and it is below t < 1 with a probability of at most 1/(n^2 (1 - t^2)). The law of the error depends neither on the target nor on the mesh: it is the same for all targets and for all meshes whose drawn matrix is Haar-random.","all numbers of rails n >= 2, all target unitaries, all unitaries the mesh was built from, all t in [0, 1), all inverse beta functions scipy may return, all probability spaces carrying independent uniform draws","The law of a random error over all targets and sizes cannot be established by sampling a few meshes and targets.","simphox/utils.py:normalized_error","simphox/circuit/forward.py:ForwardMesh.rand_theta","simphox/circuit/matrix.py:triangular","simphox/circuit/rectangular.py:rectangular")
p("Gradient optimisation of a mesh does not see the global phase","Shifting all output phases of a mesh by one amount changes neither the cost that matrix_opt reports nor any entry of the gradient it hands to the optimiser, for any mesh, with or without losses and coupling errors, and any target. Accordingly the entries of the gradient that belong to the output phases add up to zero whenever the gradient is a number, and entries beyond the last rail are zero: a plain gradient step does not move the mean output phase (adam, which rescales each entry, may).","all meshes of all sizes, losses, coupling errors and phase styles, all target matrices, all phases, all shifts","An invariance of cost and gradient over all meshes and phases, including lossy ones.","simphox/circuit/forward.py:ForwardMesh.matrix_opt","simphox/circuit/forward.py:ForwardMesh.matrix_fn","simphox/utils.py:normalized_error")
with open('/verif/properties.jsonl','w') as f:
    for q in P: f.write(json.dumps(q)+"\n")
print(len(P))
