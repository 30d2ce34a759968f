{
 "C04": {
  "note": "Proved for balanced trees. False for chains: beta is n-i-1 but i+1 inputs are merged (counterexample + exact characterisation)."
 },
 "C08": {
  "note": "Exact condition for lossless meshes with distinct ids (C08_iff_partial): reciprocal at all phases iff the style is not DIFFERENTIAL and every node's two coupler errors differ by a multiple of pi. With losses proved for equal errors. False otherwise: counterexamples for unequal errors and for DIFFERENTIAL."
 },
 "C09": {
  "note": "Proved for TOP meshes with arbitrary coupler errors and left losses listed in id order. Counterexample for any right loss: the mesh attenuates the node's top input, mzi_node_matrix its top output."
 },
 "C12": {
  "note": "Proved: the explicit output is the output of the mesh with negated errors (and swapped losses), hence equal for ideal couplers; false with errors (counterexample)."
 },
 "C26": {
  "note": "All node matrices proved unitary except coupling_matrix_phase (sine at [1,1]), which is refuted."
 },
 "C81": {
  "note": "False in general (arrays are in list order but indexed by id); proved when ids equal list positions."
 },
 "C34": {
  "note": "Upper boundaries proved for all boxes; false at lower boundaries (negative slice start wraps). C34_clip_iff_partial: the clipped box is painted exactly if and only if no axis has a negative slice start (LowerEndOk), for any box meeting the grid."
 },
 "C35": {
  "note": "get_mask_fn proved for all boxes; mask_fn proved unless eps is written in place afterwards, where it is refuted (the closure aliases grid.eps)."
 },
 "C37": {
  "note": "Proved for sub_height > 0; for the default sub_height = 0 refuted for every rib."
 },
 "C38": {
  "note": "Acceptance of inside components proved; the exact rejection set is characterised and is too small (operator precedence), so rejection is refuted."
 },
 "C39": {
  "note": "Proved when the safe window is nonempty; refuted on valid grids whose PML plus separation exceeds half the grid. C39_window_iff_partial: placement is safe for every request if and only if 2p is at most the extent."
 },
 "C43": {
  "note": "Validation proved; hand-over to FDFD proved for unit spacing and refuted otherwise. C43_handover_iff_partial gives the exact condition: n/(n+1) < spacing <= 1 on every axis."
 },
 "C72": {
  "note": "Odd sizes proved; exact condition for even sizes proved; refuted for even sizes in general."
 },
 "C73": {
  "note": "Proved for 12 of 16 flag combinations (averaged, or copied with odd size); the other four refuted."
 },
 "C77": {
  "note": "Int entries proved; slices with integer bounds always raise TypeError."
 },
 "C78": {
  "note": "Envelope and causality proved; the argument guard never fires."
 },
 "C80": {
  "note": "Axis 2 proved; axes 0 and 1 raise IndexError for all fields."
 },
 "C82": {
  "note": "Isotropic spacing proved; anisotropic spacing refuted. C82_add_exact_partial says exactly which voxels are painted for any spacing (the z window uses dx below and dy above)."
 },
 "C31": {
  "note": "Proved for every documented format outside the crashing shapes; one-element lists / nested single entries raise (counterexample)."
 },
 "C32": {
  "note": "Proved for all handled formats of every nesting; documented single-tuple shape raises (counterexample)."
 },
 "C59": {
  "note": "Proved for every history when the printed-and-hashed key separates the matrices used and no call failed; refuted for matrices equal in scipy print-out (truncated) and after failed calls."
 },
 "C60": {
  "note": "Rejected matrix leaves the previous one solvable and solve after a different matrix refactorises: proved. Solve after free() of the same matrix and after failed factorisation use missing factors: refuted."
 },
 "C61": {
  "note": "Proved when eps is not changed after the first read; refuted otherwise. C61_returns_last_fill gives the exact behaviour for every history."
 },
 "C14": {
  "note": "Ideal couplers and equal coupler errors (the latter when every split ratio met is reachable); explicit bound in eps = spacing(1). DIFFERENTIAL style is outside the claim; SYMMETRIC raises."
 },
 "C15": {
  "note": "Every unitary, both layouts, explicit Frobenius bound in eps = spacing(1); exact for eps = 0."
 },
 "C16": {
  "note": "Fails: aggregate builds the mesh with the default style TOP, so BOTTOM cascades implement a wrong matrix (every 2x2 unitary with nonzero first row). Partial: the phases are right in the requested style."
 },
 "C17": {
  "note": "Both layouts, every matrix u, ids, columns, disjointness, order."
 },
 "C22": {
  "note": "Heap model of node objects and arrays; all later write sequences. The params setter aliases (C22_setter_aliases), outside the claim."
 },
 "C23": {
  "note": "invert_columns, offset, offset_column, aggregate on the object model."
 },
 "C24": {
  "note": "All powers of two; legality for every size."
 },
 "C83": {
  "note": "Fails: aggregate renumbers shared node objects when all ids sum to 0, and shares nodes. Holds for distinct ids as long as the aggregate is not relabelled."
 },
 "C44": {
  "note": "All axes, all Bloch phases; uniform real cells (every grid without PML)."
 },
 "C45": {
  "note": "Matrix and functional operators, any cell sizes including PML, any Bloch phase."
 },
 "C46": {
  "note": "Any cell sizes; zero Bloch phase."
 },
 "C47": {
  "note": "No PML, every Bloch phase, real permittivity; mat_hz PSD part for nonnegative permittivity."
 },
 "C48": {
  "note": "Violated: e2h followed by h2e gives -e on source-free solutions (sign of h2e); proved as _partial, plus a concrete counterexample."
 },
 "C49": {
  "note": "3d and Ez proved for zero Bloch phase (any PML). Hz (TM): Ampere always; Faraday only for constant permittivity without PML; counterexamples for non-uniform permittivity and for Bloch phase."
 },
 "C50": {
  "note": "TE and 3d: all permittivities. TM: all positive permittivities; counterexample for mixed-sign permittivity (sparsity pattern changes)."
 },
 "C51": {
  "note": "Frechet derivative over the complex numbers; exact linear solver."
 },
 "C52": {
  "note": "Admissible grids (positive real part of 1/dx; two-cell axes need zero Bloch phase)."
 },
 "C53": {
  "note": "NumPy mode, any PML regions, one step and any run."
 },
 "C54": {
  "note": "Both modes, with PML."
 },
 "C55": {
  "note": "Any cell sizes; both modes."
 },
 "C56": {
  "note": "Conservation, nonnegativity, boundedness for eps >= 1+m, and linear growth in vacuum at the code's time step."
 },
 "C57": {
  "note": "Agree without sources; with a source the modes agree iff the field vanishes on the source region (JAX .set overwrites). Counterexample given."
 },
 "C58": {
  "note": "JAX mode synchronised; NumPy mode averages the aliased new h with itself. Counterexample given."
 },
 "C84": {
  "note": "All six regions."
 },
 "C85": {
  "note": "psi stores only the last weighted difference: memory of one step instead of the documented recursion. Counterexample given."
 },
 "C86": {
  "note": "JAX without PML leaves the caller's state alone; NumPy overwrites it (and JAX with PML overwrites the psi lists in place). Counterexample given."
 },
 "C62": {
  "note": "Proved when the eigensolver lists guided eigenvalues first; otherwise solve raises IndexError (double indexing by useful_modes), proved for every such output."
 },
 "C63": {
  "note": "Full complex linearity, the (1,0)/(0,1) values and a nonzero-flux criterion for 1D TM modes."
 },
 "C64": {
  "note": "Linearity, period and beat length."
 },
 "C65": {
  "note": "Violated for negative indices (C65_negative_counterexample); proved for non-negative ones."
 },
 "C87": {
  "note": "Both directions, plus the end-to-end statement through solve (with the C62 proviso and real eigenvalues)."
 },
 "C88": {
  "note": "Violated on the grid's own lattice and, for TM in non-uniform media, on every lattice; the partial theorems state where the fields do solve Maxwell's equations."
 },
 "C89": {
  "note": "dispersion_sweep is wrong (counterexample); update_wavelength is history independent."
 },
 "C40": {
  "note": "Permutations are inverse for every axis and the axes agree when exactly one side is zero (C40_axes_exact_partial gives the axis each of the two uses, and when each raises); signs remain for x and z (counterexample), place() addresses the component axis and does not permute components, and for a box with two zero sides profile and view_fn use different axes (counterexamples)."
 },
 "C66": {
  "note": "Iff-characterisation of when the result is right; counterexamples for set order and repeated ports."
 },
 "C67": {
  "note": "port_modes correct for all requests; port_source counterexamples for higher modes and string keys."
 },
 "C68": {
  "note": "All bounds proved; minimum is on multiples of the conjugate (counterexample for complex desired, exact for real desired)."
 },
 "C90": {
  "note": "Default measure_info proved; counterexamples for reordered measure_info and higher source modes."
 },
 "C91": {
  "note": "Exact for propagation with the mode's own constant; on the grid (numerical dispersion) the outward side is never dark (counterexample)."
 },
 "C92": {
  "note": "to_2d raises for every input (proved); refusals as documented."
 },
 "C69": {
  "note": "Complete functional correctness of well configured runs; default arguments (no pbar / no viz), problems without sim and metric_interval >= 2 always raise (counterexamples)."
 },
 "C70": {
  "note": "Proved when all problems have a source; misaligned otherwise (counterexample)."
 },
 "C93": {
  "note": "Proved to be off by one update in every run."
 },
 "C27": {
  "note": "Full. The result is defined (no nan) exactly when v[0] is not zero; other entries may vanish."
 },
 "C28": {
  "note": "Full, including the block formula and rejection of other sizes."
 },
 "C94": {
  "note": "False as stated: csinv(*cs(u)) = u iff no singular value of the top-left block is 1 (both directions proved, for any correct svd/qr with real R diagonal); fails on the 2x2 identity."
 },
 "C19": {
  "note": "Derivatives proved for every node, listed in column order (equal to parameter order when ids are column-ordered); zero cotangent gives NaN."
 },
 "C20": {
  "note": "False for tree (depth-first ids) and BOTTOM (top rail read); exact order proved."
 },
 "C95": {
  "note": "False: the cotangent is divided by its largest row norm; exact formula proved."
 },
 "C97": {
  "note": "False: the (n,1) input broadcasts to (n,n); counterexample."
 },
 "C98": {
  "note": "False: parallel_nullify uses the TOP formula for DIFFERENTIAL, where the phase acts with the opposite sign; for v = (1, i) all the power leaves on the wrong rail (counterexample theorem). C98_differential_iff_partial: a two-rail unit works exactly for the vectors whose amplitudes are in phase or in antiphase."
 },
 "C21": {
  "note": "Guard eps arbitrary for ideal targets (C21_null_basis_round_trip); error correction and recovery of the phases at eps = 0. Every column is assumed non-empty (otherwise the Python raises IndexError)."
 },
 "C100": {
  "note": "svd is a parameter assumed to return unitary factors"
 },
 "C103": {
  "note": "raises for n >= 3 (column_ordered on empty columns); off the mesh for odd n; the even case before reordering is proved"
 },
 "C104": {
  "note": "proved for even n >= 4; wrong length for odd n, IndexError for n = 2"
 },
 "C105": {
  "note": "Proved: the diagonal blocks are exact second derivatives and the matrix is symmetric; the off-diagonal block is the transpose of the documented one (row phi_i, column theta_j holds d2/dtheta_i dphi_j), for every vector and both trees. Counterexample: chain on three rails, any v with v[1] != 0. eps = np.spacing(1) is taken as 0 here."
 },
 "C106": {
  "note": "Proved with default flags for an ideal node on rails idx, idx+1, every vector. Violated otherwise: with the flags the bottom is dark only for special vectors (exact condition proved), coupler errors are ignored, and a node on non-neighbouring rails reads vector[idx+1] instead of its bottom rail."
 },
 "C107": {
  "note": "hessian_fd modelled loop by loop (four assignments per pair); err is the real part of the last output of the model mesh; machine precision eps taken 0, exact reals. The finite differences therefore reproduce the transposed off-diagonal blocks of C105."
 },
 "C108": {
  "note": "np.log2 is the exact real logarithm. At n = 2 rectangular_depth_size counts two columns per mesh where rectangular() has one (C108_rectangular_layers_counterexample)."
 },
 "C109": {
  "note": "functools.lru_cache modelled exactly (shared, identity-keyed on the grid, 128 entries as parameter cap). Violated: the answer given before a permittivity change is repeated until 128 other distinct calls have been made (C109_stale_counterexample); exact conditions for staleness and freshness are proved."
 },
 "C110": {
  "note": "Holds for flat lists of tuples and for the default; dicts (the annotated type) and name lists always raise, nested lists normalise by the wrong port. Solved fields and the overlap measurement are parameters."
 },
 "C99": {
  "note": "The default gamma of grid_common_mode_flow has the wrong length on non-square grids (counterexample); with the right length the transfer is preserved."
 },
 "C111": {
  "note": "Proved for positive sub_z, thickness and height, and for the 2D default. False for sub_z = 0 (rib and background overwritten by cladding) and for the boundary (the component is not moved); the PML check is C43. component.mask and bounds are parameters (dphox)."
 },
 "C112": {
  "note": "Proved for meshes with distinct ids. False with repeated ids: reading columns renumbers the node objects (constructor side effect)."
 },
 "C113": {
  "note": "invert_columns proved. offset(k>0) makes every evaluation raise IndexError, offset_column(k>0) ValueError, on every non-empty mesh."
 },
 "C114": {
  "note": "Heap model; NumPy mode, default arguments."
 },
 "C115": {
  "note": "False for every size. Even sizes from 4 on always raise ValueError (the column before the middle one has no node and ForwardMesh([]) raises); sizes 0 and 1 raise; for 2 modes the mesh is i exp(i theta) u when 0 < |u00| < 1 (proved), raises when u00 = 0, and never equals u; for 3 modes the left and right factors are in the wrong order, so |M01| = |u10| (a concrete orthogonal matrix is shown to be returned wrongly). For odd sizes the layout itself is proved sound (n(n-1)/2 nodes, no empty column)."
 },
 "C116": {
  "note": "parallel_mzi defaults phis to the thetas (self.params[0]): for TOP meshes the default call is right iff exp(i phi) = exp(i theta) at every node (proved). With explicit arguments it is right."
 },
 "C117": {
  "note": "Scalars proved (the same draw shifts theta and phi of a node). Arrays, the annotated type, always raise ValueError when the numbers of nodes and rails differ, e.g. on every tree with three or more inputs, because the same array is also combined with the gammas."
 },
 "C118": {
  "note": "error_right is ignored; a one-dimensional array (one error per node) raises TypeError; existing errors are replaced. Numbers and (num_nodes, 2) arrays proved."
 },
 "C119": {
  "note": "Full equality of measures for any right inverse of the beta distribution function (existence proved); C119_errors covers imperfect couplers. Which node receives which draw is C121."
 },
 "C120": {
  "note": "beta_phase integrates to 1/pi for all parameters (extra division by pi); pi * beta_phase is the density (C119)."
 },
 "C121": {
  "note": "C121_chain_haar_partial proves the claim for every unbalanced tree, C121_balanced_small_partial for balanced trees with 2 or 3 rails. It is false for every balanced tree (the default) with n >= 4 (C121_balanced_counterexample): rand_theta draws in the order of the node list (root first) while the mesh reads thetas by node_id, so the root is drawn with the parameters of another node (uniform split instead of Beta(n//2, n - n//2))."
 },
 "C122": {
  "note": "Proved: the forward pass is activation(M x) (C122_forward, for the modelled jax-order application), and with set_gammas_zero=False the layer is an independent copy (C122_copy_partial). With the default set_gammas_zero=True the constructor zeroes the output phases of the caller's own mesh (C122_default_partial, C122_caller_counterexample)."
 },
 "C123": {
  "note": "Reciprocity with complex cell volumes from a weighted discrete integration by parts (curl_by_parts); C123_points is the plain exchange of two point sources. Field read: e in 3D and e_z, h_z in 2D."
 },
 "C124": {
  "note": "Power balance proved for 3D and e_z; well-posedness for 3D, e_z and h_z. The power balance of the derived e field of the TM solver is not claimed (C49 shows that field is wrong for non-uniform permittivity)."
 },
 "C125": {
  "note": "Unique solvability and conservation of the flux between sources and layers are proved. The direction is wrong with the default pml_params: scpml stretches with 1 + i*sigma, sigma < 0, which absorbs in the convention exp(+i w t), while solve computes h = curl e/(i k0), the convention exp(-i w t); so the Poynting vector of the returned fields points from the layers to the source (C125_inward_partial, and C125_default_counterexample for every point source). With log_reflectivity > 0 the net flux is outward (C125_outward_partial). Missing: 2D and 3D."
 },
 "C126": {
  "note": "Fields and PML memory; the distance is along the axes of the periodic grid. Sources may differ outside the reach in values and in regions."
 },
 "C127": {
  "note": "Exact arithmetic; the reversal map is spelled out as timeReverse."
 },
 "C128": {
  "note": "The electric fields agree exactly (C128_oscillates_iff, C128_electric_agrees). The magnetic field does not: the oscillating state has minus the h of FDFD (C128_magnetic_sign_counterexample), because e2h divides by +i k0 (convention exp(-i w t), as in C48 and C125) while run_cw_port drives with exp(+i w t). NumPy mode; PML and Bloch phase not covered."
 },
 "C129": {
  "note": "Losses equal in the two settings and at most 0 dB (passive)."
 },
 "C130": {
  "note": "True for TOP and BOTTOM phases (C130_top_bottom). SYMMETRIC thetas and DIFFERENTIAL thetas and phis have period 4 pi (C130_periods_partial): adding 2 pi to one theta moves all light of an output (C130_symmetric_counterexample), although the code stores phases modulo 2 pi."
 },
 "C131": {
  "note": "FDTD with PML-free grids; FDFD in three dimensions with exact solvers."
 },
 "C132": {
  "note": "NumPy and JAX step; PML coefficients of set_pml are shown real."
 },
 "C133": {
  "note": "Proved without PML, and for any given complex stretching of the cells. Violated with PML: scpml divides by the absolute wave number k0 but uses relative depths, so the absorption depends on the unit of length (C133_pml_counterexample, for every PML line and every factor other than 1)."
 },
 "C134": {
  "note": "Zero Bloch phase for FDFD. FDTD with the same time step in both runs (the constructor picks a smaller one in three dimensions)."
 },
 "C135": {
  "note": "Proved for 2D cross sections when the components are multiplied where they sit on the Yee grid, and the exact crosstalk k0 beta dx^2/4 of 1D TE modes under poynting_fn. Violated for measure_fn: it averages both fields over neighbouring cells before multiplying, and the 1D TM operator lacks the permittivity weighting, so measure_fn of another mode is not (0, 0) (C135_measure_counterexample)."
 },
 "C136": {
  "note": "Proved for the flux taken on the Yee grid and modes with distinct propagation constants. Violated for the flux of poynting_fn: the power of two superposed default modes beats along a lossless guide (C136_poynting_counterexample)."
 },
 "C137": {
  "note": "2D: for real eigenvalues (solve takes the real part); from the discrete identity |curl h|^2 = |grad h|^2 for divergence-free h. The eigensolver is a parameter assumed to return eigenpairs."
 },
 "C138": {
  "note": "One line of cells with zero Bloch phase and equal cells; the eigensolver is a parameter."
 },
 "C139": {
  "note": "One line of cells with zero Bloch phase and equal cells."
 },
 "C140": {
  "note": "Proved for FDTD (travelling transverse waves, frequency, magic time step), 3D FDFD including Bloch phases, and the 1D and 2D mode operators."
 },
 "C141": {
  "note": "Holds for FDTD, 3D FDFD and 2D Ez along x and y without PML (and along z for permittivity tensors symmetric as tensors). Counterexamples: along z (yee_avg does not average along z), with PML (electric stretching factors of the two ends differ), TM FDFD (difference operators of mat_hz are on the wrong side)."
 },
 "C142": {
  "note": "Solver is a parameter with A x = b solved by a unique x (the contract of a direct solver); scattering matrix theorems use the measured amplitudes of single port runs."
 },
 "C143": {
  "note": "get_sim_fn, get_sim_sparams_fn, FDFD.sparams and the measurements of run_cw_port always use modes at the default wavelength 1.55, and measurements always use size factor 3. Counterexamples for every other wavelength and factor; exact what-is-computed theorem and the default case proved."
 },
 "C144": {
  "note": "Labels are positional: port order other than the pattern's mislabels the entries; default ports or a subset of ports raise. Proved for all ports in the pattern's order (modes as in C143)."
 },
 "C145": {
  "note": "Returns only the first row of each Hessian (proved: the second derivatives with theta_0, blocks transposed as in C105); raises for n=1."
 },
 "C146": {
  "note": "te_ratio proved in full; the label of plot_power is the opposite of the ratio for every mode."
 },
 "C147": {
  "note": "One-dimensional profiles proved in full; profiles with several columns raise or are multiplied along the wrong axis."
 },
 "C148": {
  "note": "Value and gradient proved for all lossless meshes; at a solution the gradient is nan and all later values are nan; lossy meshes have nan errors. Optimiser and JAX's derivative of the radicand are parameters."
 },
 "C149": {
  "note": "Counterexamples: integer phase (TypeError), numpy array without PML (ValueError), every 1D/2D FDTD with PML (IndexError), from_simgrid drops the Bloch phase (its PML is C43)."
 },
 "C150": {
  "note": "Counterexample: ports of default width 0 pointing along y get modes along x."
 },
 "C151": {
  "note": "Counterexample: S-parameters are labelled by port order; other measured lists raise or are mislabelled."
 },
 "C152": {
  "note": "Holds for tree. vector_unit(v, n_rails) with n_rails different from len(v) programs the nodes right but returns len(v) output phases: every evaluation raises (counterexample); proved with phases of the right length."
 },
 "C153": {
  "note": "Square unitary case proved. Counterexamples: every k x n input with k < n raises ValueError; columns (n x k) raise for k = 1 and give a mesh that cannot be evaluated for k >= 2."
 },
 "C154": {
  "note": "Proved with the regulariser eps and exactly for eps = 0 (v nonzero). SYMMETRIC raises, DIFFERENTIAL: see C98."
 },
 "C155": {
  "note": "A library keeps betas and modes but reads wavelength and eps_t of its solver live. Proved: histories that leave the solver at the same wavelength and eps_t do not change it; betas only change by its own updates; update gives the library of the current permittivity if eps_t was not cached earlier. Violated: updating another library of the same solver (or a failing update) rescales the effective indices; after an edit a 2D update solves the stale cached eps_t."
 },
 "C156": {
  "note": "Grids built from numbers own their arrays (proved for all histories) and fill allocates a new array. Grids built from an array or by from_simgrid keep a reference: edits are visible in both, and in the caller's array."
 },
 "C157": {
  "note": "Conditional on solve returning (C62 describes when it raises). SciPy's eigs is a parameter with the contract IsEigs (independent eigenpairs, closest to the shift). The default shift k0^2 max eps bounds all guided eigenvalues (C137), so closest means largest."
 },
 "C158": {
  "note": "True when FEAST finds exactly m modes or leaves no positive number in the unused entries (C158_range_partial). Violated: entries beyond the number found are treated as modes (C158_spurious_counterexample); no mode, or more than m modes, in the range raise RuntimeError (C158_count_counterexample); end points are squared, so ranges with negative ends miss modes (C158_negative_counterexample)."
 },
 "C159": {
  "note": "Discrete Poynting theorem for the leapfrog step; NumPy back-end (with use_jax=True sources overwrite fields, see the counterexample on back-ends)."
 },
 "C160": {
  "note": "One round of updates is symmetric for the bilinear form sum eps e e' - sum h h' after half a round; NumPy back-end, no PML."
 },
 "C161": {
  "note": "Lower bound on transmitted power, sharp."
 },
 "C162": {
  "note": "From C159, coercivity of the energy at FDTD's Courant step (C56) and a discrete Gronwall argument."
 },
 "C163": {
  "note": "True for boxes whose lower corner is not left of or below the origin. Violated otherwise: negative slice bounds wrap around (C163_negative_counterexample): a box from -1 to 2 marks nothing, a box from -3 to -1 marks pixels on the opposite side."
 },
 "C164": {
  "note": "Heap of box objects, induction over programs."
 },
 "C165": {
  "note": "Index arithmetic and exact real division on the library model; errors as values."
 },
 "C166": {
  "note": "Proved for every library on the component/label selection, and for 2D libraries for the whole call. False for 1D libraries: plot_field indexes a 1D profile with two indices and always raises IndexError. False for NumPy integers (label prints the digit)."
 },
 "C167": {
  "note": "Proved whenever each node's own error equals the table entry at its id (equal errors, id-ordered lists such as the balanced tree on 3 rails). False otherwise: parallel_nullify reads network.mzi_terms (list order) at the node id while the update of w uses the node's own error; on the 3-rail chain every nonzero error pair (0,x) mis-programs (1,0,1) although all ratios are reachable."
 },
 "C168": {
  "note": "Matplotlib and volume plots proved; the holoviews plots violate the property: the extent is that of the transposed array (non-square arrays get the wrong axes) and row 0 is drawn at the top (square arrays are upside down)."
 },
 "C169": {
  "note": "Still pictures, live permittivity and live power proved; uniform structures and zero fields raise/give nan, and live fields are divided by their most positive value instead of their largest modulus, so negative fields are sent with flipped sign."
 },
 "C170": {
  "note": "Phases are those of the lossless nodes (as in the code, whose nullification terms hold errors only), applied to lossy ones."
 },
 "C171": {
  "note": "Flat model of sp.diags, sp.kron, sp.eye, sp.bmat and C-order ravel/reshape on natural-number indices; connects the multi-index operators used in the other Yee/FDFD properties to the code's flat ones."
 },
 "C172": {
  "note": "Both directions; together with C48/C49 this covers what the reshaped solution satisfies."
 },
 "C173": {
  "note": "Eigenpairs are quantified over, not computed: whatever eigenpair the eigensolver returns exactly is covered. Flat index arithmetic (kron, vstack, hstack, reshape) is modelled on natural-number indices."
 },
 "C174": {
  "note": "Regulariser np.spacing(1) taken as 0, losses zero. C174_routable_iff holds for errors in any storage order; C174_programs_if_possible assumes the stored error table agrees with the node ids (TableMatches; the mismatch is the finding of C167), and C174_equal_errors / C174_chain_criterion need no such assumption."
 },
 "C175": {
  "note": "\u03b5 = np.spacing(1) taken as 0, phase style TOP (the style aggregate gives the mesh), equal errors at all couplers, no loss; C175_two_by_two is the linear layout for n = 2."
 },
 "C176": {
  "note": "Proved with np.spacing(1) taken as 0, equal coupler errors, no loss, cascade with phase style TOP. C176_bar_state_ambiguous shows that the open range of theta is needed. Output phases agree as numbers when they lie in [-pi, pi)."
 },
 "C177": {
  "note": "Healthy: distinct node objects, distinct ids below the number of nodes, one theta per node, num_columns up to date, no empty column; the empty-column case is the raise theorem."
 },
 "C178": {
  "note": "Holds in style TOP with uniform errors and losses, or if the mesh already is in column order. False otherwise: aggregate drops the phase style (forward.py:149), and the errors array is rebuilt in list order while it is indexed by node id."
 },
 "C179": {
  "note": "np.spacing(1) taken as 0."
 },
 "C180": {
  "note": "Draws of np.random.randn are modelled as independent standard normal random variables on any probability space (standardNormal_exists constructs one); C180_noiseless links the model with noise to that of C19."
 },
 "C181": {
  "note": "Positions of the fields are those of propagate (C12, C96); the variance is exact, not a bound."
 },
 "C182": {
  "note": "Compose.lean. Object level (heap of node objects and arrays): offset, offset_column and aggregate run on the heap, evaluation is matrixApply of MeshEval; C182_matrix is the same as a product of n x n matrices."
 },
 "C183": {
  "note": "Parallel.lean. Meshes as values; needs distinct rails inside a column (as all library constructors give, C01-C05)."
 },
 "C184": {
  "note": "TE on every grid, TM on every admissible grid with positive permittivity. JAX's cotangent convention (dF = Re sum cot dx) and its rules for hstack, reciprocals, sums and rolls are part of the model; complex permittivities are not covered (TMOperator's backward returns the real part)."
 },
 "C185": {
  "note": "for solvers solving both systems exactly"
 },
 "C186": {
  "note": "relative rounding per operation as in IEEE without overflow or underflow; the analysis counts complex products and sums"
 },
 "C187": {
  "note": "NumPy mode, no PML; errors of the updates are arbitrary"
 },
 "C188": {
  "note": "Variational bounds both ways from the fundamental mode being the maximiser (C138); derivative by squeezing. Witness: a concrete slab pair beside the theorem."
 },
 "C189": {
  "note": "Histories are lists of edits executed by the modelled calls; specification is the last covering edit of the list."
 },
 "C190": {
  "note": "Holds for set_eps and for the bounds check of add. Violated: 2D add of a component with ports and no zmin raises TypeError after permittivity and component list were changed; 3D raises after recording the component."
 },
 "C191": {
  "note": "sin bounds; the FDTD frequency from the dispersion relation of C140."
 },
 "C192": {
  "note": "Both modes for the delay; linear claims for NumPy mode (the JAX mode overwrites the source region, C57)."
 },
 "C193": {
  "note": "Stated for eigenpairs of the matrix handed to the eigensolver; order and phase of the returned modes are C62."
 },
 "C194": {
  "note": "C194_paths for any style, errors, losses and phases; the path's nodes exist and are unique by C24. C194_equal_splitting is the pi/2 case."
 },
 "C195": {
  "note": "Explicit settings dftParams; C195_dft_matrix gives each entry, C195_dft the transform of a vector. TOP style (what butterfly builds), perfect couplers."
 },
 "C196": {
  "note": "No PML. The solver's stopping rule enters as a hypothesis on the residual of what it returns; h_z is not covered because its form controls only gradients."
 },
 "C197": {
  "note": "ButterflyLimits.lean: C197_rank_one is the 2x2 minor identity for all settings (errors included, as the mesh record is arbitrary apart from its nodes); C197_not_universal names unreachable permutations."
 },
 "C198": {
  "note": "MeshNoise.lean: C198_mean_field for every distribution and style; C198_gaussian gives the closed form for TOP forward; C198_case evaluates it on one node; normal_draws_exist shows the hypotheses can be met."
 },
 "C199": {
  "note": "MeshNoise.lean: C199_coupler_noise on the mesh returned by addErrorVariance (loss_db_std = 0); C199_butterfly the attenuation; normal_pairs_exist shows the hypotheses can be met."
 },
 "C200": {
  "note": "MeshClassical.lean: C200_classical for uniform independent phases; C200_symmetric shows why that style is left out."
 },
 "C201": {
  "note": "MeshLossNoise.lean: C201_loss_noise is the exact mean, C201_gain the consequence, C201_case one node; normal_pairs_exist (C199) shows the draws exist."
 },
 "C202": {
  "note": "Viz1d.lean: C202_plot (matplotlib), C202_holoviews, C202_degenerate."
 },
 "C203": {
  "note": "Viz1d.lean: C203_frames, C203_short."
 },
 "C204": {
  "note": "Proved for the exact expectation. The draws are independent, theta from rand_theta (scipy's betaincinv is a parameter), phi uniform; the proof follows the mean powers, which a uniform external phase makes a classical transport (see C200), and a Yang-Baxter labelling of crossing lines shows the transport is uniform."
 },
 "C205": {
  "note": "Proved for every node of every size; lineOn is the specification of where a line comes from."
 },
 "C206": {
  "note": "Random draws are arguments: independent uniform numbers, two per node and one per rail. The spec HaarRandom (unitary, invariant from both sides) determines the distribution (C206_unique). Proof: row by row, all mixed moments of a linear form of the last row of each subunit depend on the length of the form only (from the beta law of C119), so the row's law is invariant; one subunit more keeps right invariance; right invariance of a law on the unitary group gives left invariance. C206_case gives a betaincinv and draws. The phase style is TOP, which is what cascade builds."
 },
 "C207": {
  "note": "Random draws are arguments: independent uniform numbers, two per node and one per rail. The distance condition is stated with lineOn, which follows the lines through nodes that exchange their rails; C207_rectangular instantiates the network theorem with the mesh of rectangular(u), C207_same_law compares it with triangular(u)."
 },
 "C208": {
  "note": "C208_network: errorMesh with a common splitting error, styles TOP and BOTTOM, hypothesis on the execution order that each node joins neighbouring rails whose lines (lineOn, C205) are still in their original order; P generic (thetas in (0, pi)), Q in the closed ranges. C208_rectangular_identifiable: rectangular meshes satisfy it. C208_rectangular: the program applied to the matrix returns thetas, phis and (modulo 2 pi, exactly if in [0, 2 pi)) gammas. The bar and cross states are excluded for a reason (C176_bar_state_ambiguous)."
 },
 "C209": {
  "note": "Exact arithmetic, eps = 0 in the nullification (np.spacing), no coupler errors, style TOP. HaarRandom is the specification of C206 (unitary, law invariant under multiplication by fixed unitary matrices from both sides), which C206_unique shows determines the law; that scipy's unitary_group.rvs has this law is an assumption about scipy. The events range over all measurable rectangles of phases, which determine the joint law. C209_theta_cdf: distribution function 1 - cos(t/2)^(2 beta)."
 },
 "C210": {
  "note": "Style top, no errors, eps = 0 (exact splitting ratios). The joint law is stated as the probability of every rectangle of measurable sets, which fixes it. The numbers of inputs merged into a node are counted along the execution order by mergedCount, not read from the node. The same law is the one rand_theta should draw from: it does for the linear tree and does not for the balanced one of 5 or more inputs (C121). C210_random_vector instantiates C210_vector_unit with the normal draws of random_vector."
 },
 "C211": {
  "note": "Exact reals; the cascade is the model of C15, styles TOP, no coupler errors or losses. NaturalPhases is a specification: the joint law of the phases as a product over nodes. The converse direction uses that tree_cascade recovers the phases of a balanced cascade (C176) and that probability measures on the (standard Borel) phases are carried by injective measurable maps. rand_theta itself pairs its draws with nodes by list position, not by node id, which C121 shows to disagree for balanced cascades; the law is therefore stated per node."
 },
 "C212": {
  "note": "Exact reals. Positive half: for two and three rails position and id carry the same indices, so the induction of C211 applies. Negative half: the last row of a Haar-random matrix has the moments of C121 (all random directions have one law), the last row of the cascade is the row of its largest unit, and C121 shows its moments differ from four rails on. A finding about the code: tree_cascade meshes initialised with rand_theta are not Haar-random, unlike triangular and rectangular ones (C206, C207)."
 },
 "C213": {
  "note": "C213_never_haar: from C197_rank_one, the minor of rows 0, 2 and columns 0, 1 vanishes in every draw; a Haar-random matrix with this property would have, by invariance under row and column exchanges, all minors zero in column pair 0, 1 almost surely, against E|u|^2 = 1/n. C213_fresh: for two rails the mesh equals a tree driven with indices 2, 2, the fourth moment of an entry is 3/10, not 1/3. C213_unitary: the matrix is unitary. C213_case: the hypotheses can be met."
 },
 "C214": {
  "note": "C214_haar: for any Haar-random matrix (C206, C207, C211). C214_triangular, C214_rectangular: the freshly drawn meshes. C214_one_law: the law of the error is the same for all targets and all Haar-random matrices. C214_case: an 8-rail mesh comes within 1/2 of a given target with a probability below 1/47. The meshes are ideal (no losses or coupling errors); for lossy meshes normalized_error is not a norm (C29)."
 },
 "C215": {
  "note": "C215_shift: cost and gradient at shifted output phases are the same (both may be nan). C215_sum: the gradient of the output phases adds up to zero; entries beyond the last rail vanish. C215_case: the hypothesis can be met. Gradient as in C148 (JAX's contract: derivative of the radicand over twice the error)."
 }
}