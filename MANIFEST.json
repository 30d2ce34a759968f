{
 "claims": [
  {
   "property": "C01",
   "status": "proved",
   "theorems": [
    "Simphox.C01_tree_wellformed"
   ],
   "note": ""
  },
  {
   "property": "C02",
   "status": "proved",
   "theorems": [
    "Simphox.C02_tree_columns_disjoint"
   ],
   "note": ""
  },
  {
   "property": "C03",
   "status": "proved",
   "theorems": [
    "Simphox.C03_tree_depth"
   ],
   "note": ""
  },
  {
   "property": "C04",
   "status": "partial",
   "theorems": [
    "Simphox.C04_balanced_counts_partial",
    "Simphox.C04_chain_counterexample",
    "Simphox.C04_chain_counts_partial"
   ],
   "note": "Proved for balanced trees. False for chains: beta is n-i-1 but i+1 inputs are merged (counterexample + exact characterisation)."
  },
  {
   "property": "C05",
   "status": "proved",
   "theorems": [
    "Simphox.C05_tree_dark_rails",
    "Simphox.C05_null_stays"
   ],
   "note": ""
  },
  {
   "property": "C06",
   "status": "proved",
   "theorems": [
    "Simphox.C06_lossless_unitary"
   ],
   "note": ""
  },
  {
   "property": "C07",
   "status": "proved",
   "theorems": [
    "Simphox.C07_lossy_passive",
    "Simphox.C07_positive_loss_amplifies"
   ],
   "note": ""
  },
  {
   "property": "C08",
   "status": "partial",
   "theorems": [
    "Simphox.C08_reciprocity_partial",
    "Simphox.C08_unequal_errors_counterexample",
    "Simphox.C08_differential_counterexample",
    "Simphox.C08_iff_partial"
   ],
   "note": "Exact condition for lossless meshes with distinct ids (C08_iff_partial): reciprocal at all phases iff the style is not DIFFERENTIAL and every node's two coupler errors differ by a multiple of pi. With losses proved for equal errors. False otherwise: counterexamples for unequal errors and for DIFFERENTIAL."
  },
  {
   "property": "C09",
   "status": "partial",
   "theorems": [
    "Simphox.C09_matrix_product_partial",
    "Simphox.C09_right_loss_counterexample"
   ],
   "note": "Proved for TOP meshes with arbitrary coupler errors and left losses listed in id order. Counterexample for any right loss: the mesh attenuates the node's top input, mzi_node_matrix its top output."
  },
  {
   "property": "C10",
   "status": "proved",
   "theorems": [
    "Simphox.C10_column_order_irrelevant"
   ],
   "note": ""
  },
  {
   "property": "C11",
   "status": "proved",
   "theorems": [
    "Simphox.C11_jax_eq_numpy"
   ],
   "note": ""
  },
  {
   "property": "C12",
   "status": "partial",
   "theorems": [
    "Simphox.C12_explicit_output_partial",
    "Simphox.C12_explicit_ideal",
    "Simphox.C12_errors_counterexample"
   ],
   "note": "Proved: the explicit output is the output of the mesh with negated errors (and swapped losses), hence equal for ideal couplers; false with errors (counterexample)."
  },
  {
   "property": "C13",
   "status": "proved",
   "theorems": [
    "Simphox.C13_implicit_snapshots"
   ],
   "note": ""
  },
  {
   "property": "C14",
   "status": "proved",
   "theorems": [
    "Simphox.C14_vector_unit",
    "Simphox.C14_vector_unit_exact",
    "Simphox.C14_vector_unit_errors",
    "Simphox.C14_symmetric_raises"
   ],
   "note": "Ideal couplers and equal coupler errors (the latter when every split ratio met is reachable); explicit bound in eps = spacing(1). DIFFERENTIAL style is outside the claim; SYMMETRIC raises."
  },
  {
   "property": "C15",
   "status": "proved",
   "theorems": [
    "Simphox.C15_cascade",
    "Simphox.C15_cascade_exact"
   ],
   "note": "Every unitary, both layouts, explicit Frobenius bound in eps = spacing(1); exact for eps = 0."
  },
  {
   "property": "C16",
   "status": "partial",
   "theorems": [
    "Simphox.C16_phases_partial",
    "Simphox.C16_bottom_counterexample",
    "Simphox.C16_symmetric_raises"
   ],
   "note": "Fails: aggregate builds the mesh with the default style TOP, so BOTTOM cascades implement a wrong matrix (every 2x2 unitary with nonzero first row). Partial: the phases are right in the requested style."
  },
  {
   "property": "C17",
   "status": "proved",
   "theorems": [
    "Simphox.C17_triangular_layout",
    "Simphox.C17_tree_cascade_layout"
   ],
   "note": "Both layouts, every matrix u, ids, columns, disjointness, order."
  },
  {
   "property": "C18",
   "status": "proved",
   "theorems": [
    "Simphox.C18_rectangular_matrix",
    "Simphox.C18_rectangular_grid"
   ],
   "note": ""
  },
  {
   "property": "C19",
   "status": "partial",
   "theorems": [
    "Simphox.C19_gradient_partial",
    "Simphox.C19_vector_gradient_partial",
    "Simphox.C19_ordered_gradient_partial",
    "Simphox.C19_zero_cotangent_counterexample"
   ],
   "note": "Derivatives proved for every node, listed in column order (equal to parameter order when ids are column-ordered); zero cotangent gives NaN."
  },
  {
   "property": "C20",
   "status": "partial",
   "theorems": [
    "Simphox.C20_localize_order_partial",
    "Simphox.C20_parameter_order_partial",
    "Simphox.C20_tree_counterexample",
    "Simphox.C20_bottom_counterexample"
   ],
   "note": "False for tree (depth-first ids) and BOTTOM (top rail read); exact order proved."
  },
  {
   "property": "C21",
   "status": "proved",
   "theorems": [
    "Simphox.C21_null_basis_round_trip",
    "Simphox.C21_error_correction",
    "Simphox.C21_thetas",
    "Simphox.C21_phases",
    "Simphox.C21_symmetric_raises"
   ],
   "note": "Guard eps arbitrary for ideal targets (C21_null_basis_round_trip); error correction and recovery of the phases at eps = 0. Every column is assumed non-empty (otherwise the Python raises IndexError)."
  },
  {
   "property": "C22",
   "status": "proved",
   "theorems": [
    "Simphox.C22_params_copies",
    "Simphox.C22_add_error_independent",
    "Simphox.C22_setter_aliases"
   ],
   "note": "Heap model of node objects and arrays; all later write sequences. The params setter aliases (C22_setter_aliases), outside the claim."
  },
  {
   "property": "C23",
   "status": "proved",
   "theorems": [
    "Simphox.C23_offset",
    "Simphox.C23_invert_involution",
    "Simphox.C23_aggregate"
   ],
   "note": "invert_columns, offset, offset_column, aggregate on the object model."
  },
  {
   "property": "C24",
   "status": "proved",
   "theorems": [
    "Simphox.C24_butterfly",
    "Simphox.C24_any_size"
   ],
   "note": "All powers of two; legality for every size."
  },
  {
   "property": "C25",
   "status": "proved",
   "theorems": [
    "Simphox.C25_transmissivity_to_phase",
    "Simphox.C25_reachable"
   ],
   "note": ""
  },
  {
   "property": "C26",
   "status": "partial",
   "theorems": [
    "Simphox.C26_node_matrices_unitary_partial",
    "Simphox.C26_mmi_counterexample"
   ],
   "note": "All node matrices proved unitary except coupling_matrix_phase (sine at [1,1]), which is refuted."
  },
  {
   "property": "C27",
   "status": "proved",
   "theorems": [
    "Simphox.C27_unitary",
    "Simphox.C27_defined_iff",
    "Simphox.C27_last_column",
    "Simphox.C27_analyses",
    "Simphox.C27_embed"
   ],
   "note": "Full. The result is defined (no nan) exactly when v[0] is not zero; other entries may vanish."
  },
  {
   "property": "C28",
   "status": "proved",
   "theorems": [
    "Simphox.C28_unitary",
    "Simphox.C28_blocks",
    "Simphox.C28_rejects"
   ],
   "note": "Full, including the block formula and rejection of other sizes."
  },
  {
   "property": "C29",
   "status": "proved",
   "theorems": [
    "Simphox.C29_normalized_error",
    "Simphox.C29_nonunitary_radicand"
   ],
   "note": ""
  },
  {
   "property": "C30",
   "status": "proved",
   "theorems": [
    "Simphox.C30_flow_preserves_transfer",
    "Simphox.C30_flow_top_only"
   ],
   "note": ""
  },
  {
   "property": "C31",
   "status": "partial",
   "theorems": [
    "Simphox.C31_excitation_formats_partial",
    "Simphox.C31_documented_raises_counterexample",
    "Simphox.C31_long_refused_partial"
   ],
   "note": "Proved for every documented format outside the crashing shapes; one-element lists / nested single entries raise (counterexample)."
  },
  {
   "property": "C32",
   "status": "partial",
   "theorems": [
    "Simphox.C32_source_formats_partial",
    "Simphox.C32_documented",
    "Simphox.C32_raises_counterexample"
   ],
   "note": "Proved for all handled formats of every nesting; documented single-tuple shape raises (counterexample)."
  },
  {
   "property": "C33",
   "status": "proved",
   "theorems": [
    "Simphox.C33_set_eps_exact",
    "Simphox.C33_geometry",
    "Simphox.C33_singleton_axis_dropped"
   ],
   "note": ""
  },
  {
   "property": "C34",
   "status": "partial",
   "theorems": [
    "Simphox.C34_clip_iff_partial",
    "Simphox.C34_clip_upper_partial",
    "Simphox.C34_lower_counterexample"
   ],
   "note": "Upper boundaries proved for all boxes; false at lower boundaries (negative slice start wraps). C34_clip_iff_partial: the clipped box is painted exactly if and only if no axis has a negative slice start (LowerEndOk), for any box meeting the grid."
  },
  {
   "property": "C35",
   "status": "partial",
   "theorems": [
    "Simphox.C35_mask_fn_partial",
    "Simphox.C35_mask_box_partial",
    "Simphox.C35_alias_counterexample",
    "Simphox.C35_get_mask_fn"
   ],
   "note": "get_mask_fn proved for all boxes; mask_fn proved unless eps is written in place afterwards, where it is refuted (the closure aliases grid.eps)."
  },
  {
   "property": "C36",
   "status": "proved",
   "theorems": [
    "Simphox.C36_fill_prefix"
   ],
   "note": ""
  },
  {
   "property": "C37",
   "status": "partial",
   "theorems": [
    "Simphox.C37_rib_partial",
    "Simphox.C37_no_substrate_counterexample"
   ],
   "note": "Proved for sub_height > 0; for the default sub_height = 0 refuted for every rib."
  },
  {
   "property": "C38",
   "status": "partial",
   "theorems": [
    "Simphox.C38_add_partial",
    "Simphox.C38_outside_accepted_counterexample"
   ],
   "note": "Acceptance of inside components proved; the exact rejection set is characterised and is too small (operator precedence), so rejection is refuted."
  },
  {
   "property": "C39",
   "status": "partial",
   "theorems": [
    "Simphox.C39_window_iff_partial",
    "Simphox.C39_safe_placement_partial",
    "Simphox.C39_idempotent",
    "Simphox.C39_empty_window_counterexample"
   ],
   "note": "Proved when the safe window is nonempty; refuted on valid grids whose PML plus separation exceeds half the grid. C39_window_iff_partial: placement is safe for every request if and only if 2p is at most the extent."
  },
  {
   "property": "C40",
   "status": "partial",
   "theorems": [
    "Simphox.C40_axes_exact_partial",
    "Simphox.C40_line_counterexample",
    "Simphox.C40_view_profile_partial",
    "Simphox.C40_view_profile_y_partial",
    "Simphox.C40_axes_agree_partial",
    "Simphox.C40_sign_counterexample",
    "Simphox.C40_place_components_counterexample",
    "Simphox.C40_place_x_counterexample",
    "Simphox.C40_place_y_counterexample"
   ],
   "note": "Permutations are inverse for every axis and the axes agree when exactly one side is zero (C40_axes_exact_partial gives the axis each of the two uses, and when each raises); signs remain for x and z (counterexample), place() addresses the component axis and does not permute components, and for a box with two zero sides profile and view_fn use different axes (counterexamples)."
  },
  {
   "property": "C41",
   "status": "proved",
   "theorems": [
    "Simphox.C41_box_alignment"
   ],
   "note": ""
  },
  {
   "property": "C42",
   "status": "proved",
   "theorems": [
    "Simphox.C42_construction"
   ],
   "note": ""
  },
  {
   "property": "C43",
   "status": "partial",
   "theorems": [
    "Simphox.C43_handover_iff_partial",
    "Simphox.C43_pml_partial",
    "Simphox.C43_handover_counterexample"
   ],
   "note": "Validation proved; hand-over to FDFD proved for unit spacing and refuted otherwise. C43_handover_iff_partial gives the exact condition: n/(n+1) < spacing <= 1 on every axis."
  },
  {
   "property": "C44",
   "status": "proved",
   "theorems": [
    "Simphox.C44_adjoint",
    "Simphox.C44_adjoint_uniform",
    "Simphox.C44_integration_by_parts"
   ],
   "note": "All axes, all Bloch phases; uniform real cells (every grid without PML)."
  },
  {
   "property": "C45",
   "status": "proved",
   "theorems": [
    "Simphox.C45_matrix_identities",
    "Simphox.C45_functional_identities"
   ],
   "note": "Matrix and functional operators, any cell sizes including PML, any Bloch phase."
  },
  {
   "property": "C46",
   "status": "proved",
   "theorems": [
    "Simphox.C46_functional_eq_matrix"
   ],
   "note": "Any cell sizes; zero Bloch phase."
  },
  {
   "property": "C47",
   "status": "proved",
   "theorems": [
    "Simphox.C47_mat",
    "Simphox.C47_mat_ez",
    "Simphox.C47_mat_hz"
   ],
   "note": "No PML, every Bloch phase, real permittivity; mat_hz PSD part for nonnegative permittivity."
  },
  {
   "property": "C48",
   "status": "partial",
   "theorems": [
    "Simphox.C48_roundtrip_partial",
    "Simphox.C48_sign_counterexample"
   ],
   "note": "Violated: e2h followed by h2e gives -e on source-free solutions (sign of h2e); proved as _partial, plus a concrete counterexample."
  },
  {
   "property": "C49",
   "status": "partial",
   "theorems": [
    "Simphox.C49_solve3d_partial",
    "Simphox.C49_solve_ez_partial",
    "Simphox.C49_solve_hz_partial",
    "Simphox.C49_tm_counterexample",
    "Simphox.C49_bloch_counterexample"
   ],
   "note": "3d and Ez proved for zero Bloch phase (any PML). Hz (TM): Ampere always; Faraday only for constant permittivity without PML; counterexamples for non-uniform permittivity and for Bloch phase."
  },
  {
   "property": "C50",
   "status": "partial",
   "theorems": [
    "Simphox.C50_tm_partial",
    "Simphox.C50_te",
    "Simphox.C50_three_d",
    "Simphox.C50_pattern_counterexample"
   ],
   "note": "TE and 3d: all permittivities. TM: all positive permittivities; counterexample for mixed-sign permittivity (sparsity pattern changes)."
  },
  {
   "property": "C51",
   "status": "proved",
   "theorems": [
    "Simphox.C51_spsolve_vjp"
   ],
   "note": "Frechet derivative over the complex numbers; exact linear solver."
  },
  {
   "property": "C52",
   "status": "proved",
   "theorems": [
    "Simphox.C52_tm_vjp"
   ],
   "note": "Admissible grids (positive real part of 1/dx; two-cell axes need zero Bloch phase)."
  },
  {
   "property": "C53",
   "status": "proved",
   "theorems": [
    "Simphox.C53_step_linear",
    "Simphox.C53_run_linear"
   ],
   "note": "NumPy mode, any PML regions, one step and any run."
  },
  {
   "property": "C54",
   "status": "proved",
   "theorems": [
    "Simphox.C54_zero_fixed"
   ],
   "note": "Both modes, with PML."
  },
  {
   "property": "C55",
   "status": "proved",
   "theorems": [
    "Simphox.C55_charge"
   ],
   "note": "Any cell sizes; both modes."
  },
  {
   "property": "C56",
   "status": "proved",
   "theorems": [
    "Simphox.C56_energy_conserved",
    "Simphox.C56_energy_formula",
    "Simphox.C56_energy_nonneg",
    "Simphox.C56_bounded",
    "Simphox.C56_vacuum_growth"
   ],
   "note": "Conservation, nonnegativity, boundedness for eps >= 1+m, and linear growth in vacuum at the code's time step."
  },
  {
   "property": "C57",
   "status": "partial",
   "theorems": [
    "Simphox.C57_agree_partial",
    "Simphox.C57_source_iff",
    "Simphox.C57_counterexample"
   ],
   "note": "Agree without sources; with a source the modes agree iff the field vanishes on the source region (JAX .set overwrites). Counterexample given."
  },
  {
   "property": "C58",
   "status": "partial",
   "theorems": [
    "Simphox.C58_jax_partial",
    "Simphox.C58_numpy_partial",
    "Simphox.C58_counterexample"
   ],
   "note": "JAX mode synchronised; NumPy mode averages the aliased new h with itself. Counterexample given."
  },
  {
   "property": "C59",
   "status": "partial",
   "theorems": [
    "Simphox.C59_no_stale_partial",
    "Simphox.C59_truncated_hash_counterexample",
    "Simphox.C59_failed_call_counterexample"
   ],
   "note": "Proved for every history when the printed-and-hashed key separates the matrices used and no call failed; refuted for matrices equal in scipy print-out (truncated) and after failed calls."
  },
  {
   "property": "C60",
   "status": "partial",
   "theorems": [
    "Simphox.C60_lifecycle_partial",
    "Simphox.C60_free_counterexample",
    "Simphox.C60_failed_factorisation_counterexample",
    "Simphox.C60_zero_hash_raises"
   ],
   "note": "Rejected matrix leaves the previous one solvable and solve after a different matrix refactorises: proved. Solve after free() of the same matrix and after failed factorisation use missing factors: refuted."
  },
  {
   "property": "C61",
   "status": "partial",
   "theorems": [
    "Simphox.C61_eps_t_partial",
    "Simphox.C61_returns_last_fill",
    "Simphox.C61_stale_counterexample"
   ],
   "note": "Proved when eps is not changed after the first read; refuted otherwise. C61_returns_last_fill gives the exact behaviour for every history."
  },
  {
   "property": "C62",
   "status": "partial",
   "theorems": [
    "Simphox.C62_solve_partial",
    "Simphox.C62_unguided_first_counterexample",
    "Simphox.C62_phase_reference"
   ],
   "note": "Proved when the eigensolver lists guided eigenvalues first; otherwise solve raises IndexError (double indexing by useful_modes), proved for every such output."
  },
  {
   "property": "C63",
   "status": "proved",
   "theorems": [
    "Simphox.C63_linear",
    "Simphox.C63_overlap",
    "Simphox.C63_orthogonal",
    "Simphox.C63_tm_flux"
   ],
   "note": "Full complex linearity, the (1,0)/(0,1) values and a nonzero-flux criterion for 1D TM modes."
  },
  {
   "property": "C64",
   "status": "proved",
   "theorems": [
    "Simphox.C64_linear",
    "Simphox.C64_phase",
    "Simphox.C64_period",
    "Simphox.C64_beat"
   ],
   "note": "Linearity, period and beat length."
  },
  {
   "property": "C65",
   "status": "partial",
   "theorems": [
    "Simphox.C65_index_partial",
    "Simphox.C65_negative_counterexample"
   ],
   "note": "Violated for negative indices (C65_negative_counterexample); proved for non-negative ones."
  },
  {
   "property": "C66",
   "status": "partial",
   "theorems": [
    "Simphox.C66_measure_partial",
    "Simphox.C66_request_order_partial",
    "Simphox.C66_set_order_counterexample",
    "Simphox.C66_missing_counterexample"
   ],
   "note": "Iff-characterisation of when the result is right; counterexamples for set order and repeated ports."
  },
  {
   "property": "C67",
   "status": "partial",
   "theorems": [
    "Simphox.C67_port_modes_partial",
    "Simphox.C67_source_partial",
    "Simphox.C67_source_counterexample",
    "Simphox.C67_name_counterexample"
   ],
   "note": "port_modes correct for all requests; port_source counterexamples for higher modes and string keys."
  },
  {
   "property": "C68",
   "status": "partial",
   "theorems": [
    "Simphox.C68_fidelity_partial",
    "Simphox.C68_real_desired",
    "Simphox.C68_passive_bounds",
    "Simphox.C68_conjugate_counterexample",
    "Simphox.C68_desired_vector"
   ],
   "note": "All bounds proved; minimum is on multiples of the conjugate (counterexample for complex desired, exact for real desired)."
  },
  {
   "property": "C69",
   "status": "partial",
   "theorems": [
    "Simphox.C69_run_partial",
    "Simphox.C69_pbar_counterexample",
    "Simphox.C69_viz_counterexample",
    "Simphox.C69_no_sim_counterexample",
    "Simphox.C69_interval_counterexample"
   ],
   "note": "Complete functional correctness of well configured runs; default arguments (no pbar / no viz), problems without sim and metric_interval >= 2 always raise (counterexamples)."
  },
  {
   "property": "C70",
   "status": "partial",
   "theorems": [
    "Simphox.C70_own_data_partial",
    "Simphox.C70_misaligned_counterexample"
   ],
   "note": "Proved when all problems have a source; misaligned otherwise (counterexample)."
  },
  {
   "property": "C71",
   "status": "proved",
   "theorems": [
    "Simphox.C71_averaged_symmetry"
   ],
   "note": ""
  },
  {
   "property": "C72",
   "status": "partial",
   "theorems": [
    "Simphox.C72_copied_symmetry_partial",
    "Simphox.C72_even_iff_partial",
    "Simphox.C72_even_counterexample"
   ],
   "note": "Odd sizes proved; exact condition for even sizes proved; refuted for even sizes in general."
  },
  {
   "property": "C73",
   "status": "partial",
   "theorems": [
    "Simphox.C73_combined_symmetry_partial",
    "Simphox.C73_mixed_counterexample"
   ],
   "note": "Proved for 12 of 16 flag combinations (averaged, or copied with odd size); the other four refuted."
  },
  {
   "property": "C74",
   "status": "proved",
   "theorems": [
    "Simphox.C74_smooth_valid",
    "Simphox.C74_border_darkens"
   ],
   "note": ""
  },
  {
   "property": "C75",
   "status": "proved",
   "theorems": [
    "Simphox.C75_yee_avg"
   ],
   "note": ""
  },
  {
   "property": "C76",
   "status": "proved",
   "theorems": [
    "Simphox.C76_splitter_metrics"
   ],
   "note": ""
  },
  {
   "property": "C77",
   "status": "partial",
   "theorems": [
    "Simphox.C77_shift_slice_partial",
    "Simphox.C77_slice_counterexample"
   ],
   "note": "Int entries proved; slices with integer bounds always raise TypeError."
  },
  {
   "property": "C78",
   "status": "partial",
   "theorems": [
    "Simphox.C78_gaussian_partial",
    "Simphox.C78_guard_counterexample"
   ],
   "note": "Envelope and causality proved; the argument guard never fires."
  },
  {
   "property": "C79",
   "status": "proved",
   "theorems": [
    "Simphox.C79_pml_profile"
   ],
   "note": ""
  },
  {
   "property": "C80",
   "status": "partial",
   "theorems": [
    "Simphox.C80_poynting_partial",
    "Simphox.C80_axis_counterexample"
   ],
   "note": "Axis 2 proved; axes 0 and 1 raise IndexError for all fields."
  },
  {
   "property": "C81",
   "status": "partial",
   "theorems": [
    "Simphox.C81_errors_follow_list_order_counterexample",
    "Simphox.C81_errors_own_partial"
   ],
   "note": "False in general (arrays are in list order but indexed by id); proved when ids equal list positions."
  },
  {
   "property": "C82",
   "status": "partial",
   "theorems": [
    "Simphox.C82_add_exact_partial",
    "Simphox.C82_add_extrudes_partial",
    "Simphox.C82_anisotropic_counterexample"
   ],
   "note": "Isotropic spacing proved; anisotropic spacing refuted. C82_add_exact_partial says exactly which voxels are painted for any spacing (the z window uses dx below and dy above)."
  },
  {
   "property": "C83",
   "status": "partial",
   "theorems": [
    "Simphox.C83_aggregate_keeps_partial",
    "Simphox.C83_aggregate_renumbers_counterexample",
    "Simphox.C83_aggregate_shares_counterexample"
   ],
   "note": "Fails: aggregate renumbers shared node objects when all ids sum to 0, and shares nodes. Holds for distinct ids as long as the aggregate is not relabelled."
  },
  {
   "property": "C84",
   "status": "proved",
   "theorems": [
    "Simphox.C84_pml_coefficients",
    "Simphox.C84_regions"
   ],
   "note": "All six regions."
  },
  {
   "property": "C85",
   "status": "partial",
   "theorems": [
    "Simphox.C85_stored",
    "Simphox.C85_memory_partial",
    "Simphox.C85_counterexample",
    "Simphox.C85_update_partial"
   ],
   "note": "psi stores only the last weighted difference: memory of one step instead of the documented recursion. Counterexample given."
  },
  {
   "property": "C86",
   "status": "partial",
   "theorems": [
    "Simphox.C86_jax_partial",
    "Simphox.C86_numpy_partial",
    "Simphox.C86_counterexample"
   ],
   "note": "JAX without PML leaves the caller's state alone; NumPy overwrites it (and JAX with PML overwrites the psi lists in place). Counterexample given."
  },
  {
   "property": "C87",
   "status": "proved",
   "theorems": [
    "Simphox.C87_mode_maxwell",
    "Simphox.C87_mode_complete",
    "Simphox.C87_solve_maxwell"
   ],
   "note": "Both directions, plus the end-to-end statement through solve (with the C62 proviso and real eigenvalues)."
  },
  {
   "property": "C88",
   "status": "partial",
   "theorems": [
    "Simphox.C88_te_partial",
    "Simphox.C88_tm_partial",
    "Simphox.C88_lattice_counterexample",
    "Simphox.C88_tm_counterexample",
    "Simphox.C88_te_flux_counterexample"
   ],
   "note": "Violated on the grid's own lattice and, for TM in non-uniform media, on every lattice; the partial theorems state where the fields do solve Maxwell's equations."
  },
  {
   "property": "C89",
   "status": "partial",
   "theorems": [
    "Simphox.C89_update_partial",
    "Simphox.C89_sweep_counterexample"
   ],
   "note": "dispersion_sweep is wrong (counterexample); update_wavelength is history independent."
  },
  {
   "property": "C90",
   "status": "partial",
   "theorems": [
    "Simphox.C90_default_partial",
    "Simphox.C90_default_source_partial",
    "Simphox.C90_measure_info_counterexample",
    "Simphox.C90_mode_counterexample"
   ],
   "note": "Default measure_info proved; counterexamples for reordered measure_info and higher source modes."
  },
  {
   "property": "C91",
   "status": "partial",
   "theorems": [
    "Simphox.C91_unidirectional_partial",
    "Simphox.C91_emits_partial",
    "Simphox.C91_grid_counterexample"
   ],
   "note": "Exact for propagation with the mode's own constant; on the grid (numerical dispersion) the outward side is never dark (counterexample)."
  },
  {
   "property": "C92",
   "status": "partial",
   "theorems": [
    "Simphox.C92_to2d_counterexample",
    "Simphox.C92_default_counterexample",
    "Simphox.C92_refuses_partial"
   ],
   "note": "to_2d raises for every input (proved); refusals as documented."
  },
  {
   "property": "C93",
   "status": "partial",
   "theorems": [
    "Simphox.C93_eps_shift_counterexample"
   ],
   "note": "Proved to be off by one update in every run."
  },
  {
   "property": "C94",
   "status": "partial",
   "theorems": [
    "Simphox.C94_roundtrip_iff_partial",
    "Simphox.C94_blocks_partial",
    "Simphox.C94_identity_counterexample"
   ],
   "note": "False as stated: csinv(*cs(u)) = u iff no singular value of the top-left block is 1 (both directions proved, for any correct svd/qr with real R diagonal); fails on the 2x2 identity."
  },
  {
   "property": "C95",
   "status": "partial",
   "theorems": [
    "Simphox.C95_input_cotangent_partial",
    "Simphox.C95_unit_cotangent_partial",
    "Simphox.C95_norm_counterexample"
   ],
   "note": "False: the cotangent is divided by its largest row norm; exact formula proved."
  },
  {
   "property": "C96",
   "status": "proved",
   "theorems": [
    "Simphox.C96_jax_explicit",
    "Simphox.C96_other_styles"
   ],
   "note": ""
  },
  {
   "property": "C97",
   "status": "partial",
   "theorems": [
    "Simphox.C97_column_counterexample"
   ],
   "note": "False: the (n,1) input broadcasts to (n,n); counterexample."
  },
  {
   "property": "C98",
   "status": "partial",
   "theorems": [
    "Simphox.C98_differential_iff_partial",
    "Simphox.C98_differential_counterexample"
   ],
   "note": "False: parallel_nullify uses the TOP formula for DIFFERENTIAL, where the phase acts with the opposite sign; for v = (1, i) all the power leaves on the wrong rail (counterexample theorem). C98_differential_iff_partial: a two-rail unit works exactly for the vectors whose amplitudes are in phase or in antiphase."
  },
  {
   "property": "C99",
   "status": "partial",
   "theorems": [
    "Simphox.C99_default_gamma_partial",
    "Simphox.C99_default_gamma_counterexample"
   ],
   "note": "The default gamma of grid_common_mode_flow has the wrong length on non-square grids (counterexample); with the right length the transfer is preserved."
  },
  {
   "property": "C100",
   "status": "proved",
   "theorems": [
    "Simphox.C100_psvd"
   ],
   "note": "svd is a parameter assumed to return unitary factors"
  },
  {
   "property": "C101",
   "status": "proved",
   "theorems": [
    "Simphox.C101_sensitivity_counts"
   ],
   "note": ""
  },
  {
   "property": "C102",
   "status": "proved",
   "theorems": [
    "Simphox.C102_random_theta"
   ],
   "note": ""
  },
  {
   "property": "C103",
   "status": "partial",
   "theorems": [
    "Simphox.C103_rectangular_rows_counterexample",
    "Simphox.C103_rows_off_mesh_counterexample",
    "Simphox.C103_rectangular_rows_partial"
   ],
   "note": "raises for n >= 3 (column_ordered on empty columns); off the mesh for odd n; the even case before reordering is proved"
  },
  {
   "property": "C104",
   "status": "partial",
   "theorems": [
    "Simphox.C104_phase_shift_powers_partial",
    "Simphox.C104_odd_counterexample",
    "Simphox.C104_two_rails_counterexample"
   ],
   "note": "proved for even n >= 4; wrong length for odd n, IndexError for n = 2"
  },
  {
   "property": "C105",
   "status": "partial",
   "theorems": [
    "Simphox.C105_hessian_partial",
    "Simphox.C105_zero_vector",
    "Simphox.C105_counterexample"
   ],
   "note": "Proved: the diagonal blocks are exact second derivatives and the matrix is symmetric; the off-diagonal block is the transpose of the documented one (row phi_i, column theta_j holds d2/dtheta_i dphi_j), for every vector and both trees. Counterexample: chain on three rails, any v with v[1] != 0. eps = np.spacing(1) is taken as 0 here."
  },
  {
   "property": "C106",
   "status": "partial",
   "theorems": [
    "Simphox.C106_nullify_partial",
    "Simphox.C106_flags_counterexample",
    "Simphox.C106_errors_counterexample",
    "Simphox.C106_rails_counterexample"
   ],
   "note": "Proved with default flags for an ideal node on rails idx, idx+1, every vector. Violated otherwise: with the flags the bottom is dark only for special vectors (exact condition proved), coupler errors are ignored, and a node on non-neighbouring rails reads vector[idx+1] instead of its bottom rail."
  },
  {
   "property": "C107",
   "status": "proved",
   "theorems": [
    "Simphox.C107_fd_scaled",
    "Simphox.C107_factor",
    "Simphox.C107_undefined"
   ],
   "note": "hessian_fd modelled loop by loop (four assignments per pair); err is the real part of the last output of the model mesh; machine precision eps taken 0, exact reals. The finite differences therefore reproduce the transposed off-diagonal blocks of C105."
  },
  {
   "property": "C108",
   "status": "partial",
   "theorems": [
    "Simphox.C108_rectangular_layers_partial",
    "Simphox.C108_rectangular_layers_counterexample",
    "Simphox.C108_binary_svd_layers",
    "Simphox.C108_equiv_layers",
    "Simphox.C108_footprint",
    "Simphox.C108_rectangular_monotone",
    "Simphox.C108_losses"
   ],
   "note": "np.log2 is the exact real logarithm. At n = 2 rectangular_depth_size counts two columns per mesh where rectangular() has one (C108_rectangular_layers_counterexample)."
  },
  {
   "property": "C109",
   "status": "partial",
   "theorems": [
    "Simphox.C109_own_modes_partial",
    "Simphox.C109_unchanged_partial",
    "Simphox.C109_evicted_partial",
    "Simphox.C109_stale_counterexample",
    "Simphox.C109_set_eps_counterexample"
   ],
   "note": "functools.lru_cache modelled exactly (shared, identity-keyed on the grid, 128 entries as parameter cap). Violated: the answer given before a permittivity change is repeated until 128 other distinct calls have been made (C109_stale_counterexample); exact conditions for staleness and freshness are proved."
  },
  {
   "property": "C110",
   "status": "partial",
   "theorems": [
    "Simphox.C110_list_partial",
    "Simphox.C110_default_partial",
    "Simphox.C110_agrees_default_partial",
    "Simphox.C110_dict_counterexample",
    "Simphox.C110_names_counterexample",
    "Simphox.C110_nested_counterexample"
   ],
   "note": "Holds for flat lists of tuples and for the default; dicts (the annotated type) and name lists always raise, nested lists normalise by the wrong port. Solved fields and the overlap measurement are parameters."
  },
  {
   "property": "C111",
   "status": "partial",
   "theorems": [
    "Simphox.C111_stack_partial",
    "Simphox.C111_flat",
    "Simphox.C111_no_substrate_counterexample",
    "Simphox.C111_dimension_mismatch",
    "Simphox.C111_boundary_counterexample"
   ],
   "note": "Proved for positive sub_z, thickness and height, and for the 2D default. False for sub_z = 0 (rib and background overwritten by cladding) and for the boundary (the component is not moved); the PML check is C43. component.mask and bounds are parameters (dphox)."
  },
  {
   "property": "C112",
   "status": "partial",
   "theorems": [
    "Simphox.C112_evaluation_pure_partial",
    "Simphox.C112_reading_renumbers_counterexample"
   ],
   "note": "Proved for meshes with distinct ids. False with repeated ids: reading columns renumbers the node objects (constructor side effect)."
  },
  {
   "property": "C113",
   "status": "partial",
   "theorems": [
    "Simphox.C113_offset_counterexample",
    "Simphox.C113_offset_column_counterexample",
    "Simphox.C113_invert_partial"
   ],
   "note": "invert_columns proved. offset(k>0) makes every evaluation raise IndexError, offset_column(k>0) ValueError, on every non-empty mesh."
  },
  {
   "property": "C114",
   "status": "proved",
   "theorems": [
    "Simphox.C114_matrix_fn_snapshot",
    "Simphox.C114_matrix_is_current",
    "Simphox.C114_matrix_after_writes"
   ],
   "note": "Heap model; NumPy mode, default arguments."
  },
  {
   "property": "C115",
   "status": "partial",
   "theorems": [
    "Simphox.C115_even_counterexample",
    "Simphox.C115_small_counterexample",
    "Simphox.C115_two_partial",
    "Simphox.C115_two_counterexample",
    "Simphox.C115_three_counterexample",
    "Simphox.C115_odd_layout_partial"
   ],
   "note": "False for every size. Even sizes from 4 on always raise ValueError (the column before the middle one has no node and ForwardMesh([]) raises); sizes 0 and 1 raise; for 2 modes the mesh is i exp(i theta) u when 0 < |u00| < 1 (proved), raises when u00 = 0, and never equals u; for 3 modes the left and right factors are in the wrong order, so |M01| = |u10| (a concrete orthogonal matrix is shown to be returned wrongly). For odd sizes the layout itself is proved sound (n(n-1)/2 nodes, no empty column)."
  },
  {
   "property": "C116",
   "status": "partial",
   "theorems": [
    "Simphox.C116_given_partial",
    "Simphox.C116_default_iff_partial",
    "Simphox.C116_default_counterexample"
   ],
   "note": "parallel_mzi defaults phis to the thetas (self.params[0]): for TOP meshes the default call is right iff exp(i phi) = exp(i theta) at every node (proved). With explicit arguments it is right."
  },
  {
   "property": "C117",
   "status": "partial",
   "theorems": [
    "Simphox.C117_scalar_partial",
    "Simphox.C117_array_counterexample",
    "Simphox.C117_tree_counterexample"
   ],
   "note": "Scalars proved (the same draw shifts theta and phi of a node). Arrays, the annotated type, always raise ValueError when the numbers of nodes and rails differ, e.g. on every tree with three or more inputs, because the same array is also combined with the gammas."
  },
  {
   "property": "C118",
   "status": "partial",
   "theorems": [
    "Simphox.C118_scalar_partial",
    "Simphox.C118_rows_partial",
    "Simphox.C118_error_right_counterexample",
    "Simphox.C118_vector_counterexample",
    "Simphox.C118_short_partial",
    "Simphox.C118_variance"
   ],
   "note": "error_right is ignored; a one-dimensional array (one error per node) raises TypeError; existing errors are replaced. Numbers and (num_nodes, 2) arrays proved."
  },
  {
   "property": "C119",
   "status": "proved",
   "theorems": [
    "Simphox.C119_rand_s_law",
    "Simphox.C119_rand_theta_law",
    "Simphox.C119_errors"
   ],
   "note": "Full equality of measures for any right inverse of the beta distribution function (existence proved); C119_errors covers imperfect couplers. Which node receives which draw is C121."
  },
  {
   "property": "C120",
   "status": "partial",
   "theorems": [
    "Simphox.C120_beta_pdf",
    "Simphox.C120_beta_phase_counterexample",
    "Simphox.C120_beta_phase_partial"
   ],
   "note": "beta_phase integrates to 1/pi for all parameters (extra division by pi); pi * beta_phase is the density (C119)."
  },
  {
   "property": "C121",
   "status": "partial",
   "theorems": [
    "Simphox.C121_chain_haar_partial",
    "Simphox.C121_balanced_counterexample",
    "Simphox.C121_balanced_small_partial"
   ],
   "note": "C121_chain_haar_partial proves the claim for every unbalanced tree, C121_balanced_small_partial for balanced trees with 2 or 3 rails. It is false for every balanced tree (the default) with n >= 4 (C121_balanced_counterexample): rand_theta draws in the order of the node list (root first) while the mesh reads thetas by node_id, so the root is drawn with the parameters of another node (uniform split instead of Beta(n//2, n - n//2))."
  },
  {
   "property": "C122",
   "status": "partial",
   "theorems": [
    "Simphox.C122_forward",
    "Simphox.C122_copy_partial",
    "Simphox.C122_default_partial",
    "Simphox.C122_caller_counterexample"
   ],
   "note": "Proved: the forward pass is activation(M x) (C122_forward, for the modelled jax-order application), and with set_gammas_zero=False the layer is an independent copy (C122_copy_partial). With the default set_gammas_zero=True the constructor zeroes the output phases of the caller's own mesh (C122_default_partial, C122_caller_counterexample)."
  },
  {
   "property": "C123",
   "status": "proved",
   "theorems": [
    "Simphox.C123_3d",
    "Simphox.C123_2d",
    "Simphox.C123_points"
   ],
   "note": "Reciprocity with complex cell volumes from a weighted discrete integration by parts (curl_by_parts); C123_points is the plain exchange of two point sources. Field read: e in 3D and e_z, h_z in 2D."
  },
  {
   "property": "C124",
   "status": "proved",
   "theorems": [
    "Simphox.C124_power_3d",
    "Simphox.C124_power_ez",
    "Simphox.C124_lossless",
    "Simphox.C124_unique",
    "Simphox.C124_bound"
   ],
   "note": "Power balance proved for 3D and e_z; well-posedness for 3D, e_z and h_z. The power balance of the derived e field of the TM solver is not claimed (C49 shows that field is wrong for non-uniform permittivity)."
  },
  {
   "property": "C125",
   "status": "partial",
   "theorems": [
    "Simphox.C125_unique",
    "Simphox.C125_conserved_partial",
    "Simphox.C125_outward_partial",
    "Simphox.C125_inward_partial",
    "Simphox.C125_default_counterexample"
   ],
   "note": "Unique solvability and conservation of the flux between sources and layers are proved. The direction is wrong with the default pml_params: scpml stretches with 1 + i*sigma, sigma < 0, which absorbs in the convention exp(+i w t), while solve computes h = curl e/(i k0), the convention exp(-i w t); so the Poynting vector of the returned fields points from the layers to the source (C125_inward_partial, and C125_default_counterexample for every point source). With log_reflectivity > 0 the net flux is outward (C125_outward_partial). Missing: 2D and 3D."
  },
  {
   "property": "C126",
   "status": "proved",
   "theorems": [
    "Simphox.C126_causal",
    "Simphox.C126_dark"
   ],
   "note": "Fields and PML memory; the distance is along the axes of the periodic grid. Sources may differ outside the reach in values and in regions."
  },
  {
   "property": "C127",
   "status": "proved",
   "theorems": [
    "Simphox.C127_time_reversal",
    "Simphox.C127_injective",
    "Simphox.C127_surjective"
   ],
   "note": "Exact arithmetic; the reversal map is spelled out as timeReverse."
  },
  {
   "property": "C128",
   "status": "partial",
   "theorems": [
    "Simphox.C128_oscillates_iff",
    "Simphox.C128_fdfd_continues_partial",
    "Simphox.C128_electric_agrees",
    "Simphox.C128_magnetic_sign_counterexample",
    "Simphox.C128_dispersed_bounds"
   ],
   "note": "The electric fields agree exactly (C128_oscillates_iff, C128_electric_agrees). The magnetic field does not: the oscillating state has minus the h of FDFD (C128_magnetic_sign_counterexample), because e2h divides by +i k0 (convention exp(-i w t), as in C48 and C125) while run_cw_port drives with exp(+i w t). NumPy mode; PML and Bloch phase not covered."
  },
  {
   "property": "C129",
   "status": "proved",
   "theorems": [
    "Simphox.C129_errors_add_up",
    "Simphox.C129_output_power"
   ],
   "note": "Losses equal in the two settings and at most 0 dB (passive)."
  },
  {
   "property": "C130",
   "status": "partial",
   "theorems": [
    "Simphox.C130_periods_partial",
    "Simphox.C130_top_bottom",
    "Simphox.C130_symmetric_counterexample"
   ],
   "note": "True for TOP and BOTTOM phases (C130_top_bottom). SYMMETRIC thetas and DIFFERENTIAL thetas and phis have period 4 pi (C130_periods_partial): adding 2 pi to one theta moves all light of an output (C130_symmetric_counterexample), although the code stores phases modulo 2 pi."
  },
  {
   "property": "C131",
   "status": "proved",
   "theorems": [
    "Simphox.C131_fdtd",
    "Simphox.C131_fdtd_eps",
    "Simphox.C131_fdtd_invariant",
    "Simphox.C131_fdfd"
   ],
   "note": "FDTD with PML-free grids; FDFD in three dimensions with exact solvers."
  },
  {
   "property": "C132",
   "status": "proved",
   "theorems": [
    "Simphox.C132_stays_real",
    "Simphox.C132_constructed"
   ],
   "note": "NumPy and JAX step; PML coefficients of set_pml are shown real."
  },
  {
   "property": "C133",
   "status": "partial",
   "theorems": [
    "Simphox.C133_fdfd_partial",
    "Simphox.C133_fdfd_2d_partial",
    "Simphox.C133_fdtd_partial",
    "Simphox.C133_time_step",
    "Simphox.C133_pml_counterexample"
   ],
   "note": "Proved without PML, and for any given complex stretching of the cells. Violated with PML: scpml divides by the absolute wave number k0 but uses relative depths, so the absorption depends on the unit of length (C133_pml_counterexample, for every PML line and every factor other than 1)."
  },
  {
   "property": "C134",
   "status": "proved",
   "theorems": [
    "Simphox.C134_fdtd",
    "Simphox.C134_fdfd",
    "Simphox.C134_fdfd_2d",
    "Simphox.C134_extrude"
   ],
   "note": "Zero Bloch phase for FDFD. FDTD with the same time step in both runs (the constructor picks a smaller one in three dimensions)."
  },
  {
   "property": "C135",
   "status": "partial",
   "theorems": [
    "Simphox.C135_orthogonal_partial",
    "Simphox.C135_te_crosstalk_partial",
    "Simphox.C135_measure_counterexample"
   ],
   "note": "Proved for 2D cross sections when the components are multiplied where they sit on the Yee grid, and the exact crosstalk k0 beta dx^2/4 of 1D TE modes under poynting_fn. Violated for measure_fn: it averages both fields over neighbouring cells before multiplying, and the 1D TM operator lacks the permittivity weighting, so measure_fn of another mode is not (0, 0) (C135_measure_counterexample)."
  },
  {
   "property": "C136",
   "status": "partial",
   "theorems": [
    "Simphox.C136_power_partial",
    "Simphox.C136_poynting_counterexample"
   ],
   "note": "Proved for the flux taken on the Yee grid and modes with distinct propagation constants. Violated for the flux of poynting_fn: the power of two superposed default modes beats along a lossless guide (C136_poynting_counterexample)."
  },
  {
   "property": "C137",
   "status": "proved",
   "theorems": [
    "Simphox.C137_solve_2d",
    "Simphox.C137_solve_1d",
    "Simphox.C137_real_1d"
   ],
   "note": "2D: for real eigenvalues (solve takes the real part); from the discrete identity |curl h|^2 = |grad h|^2 for divergence-free h. The eigensolver is a parameter assumed to return eigenpairs."
  },
  {
   "property": "C138",
   "status": "proved",
   "theorems": [
    "Simphox.C138_nodeless",
    "Simphox.C138_symmetric",
    "Simphox.C138_solve"
   ],
   "note": "One line of cells with zero Bloch phase and equal cells; the eigensolver is a parameter."
  },
  {
   "property": "C139",
   "status": "proved",
   "theorems": [
    "Simphox.C139_mean",
    "Simphox.C139_monotone",
    "Simphox.C139_dispersion"
   ],
   "note": "One line of cells with zero Bloch phase and equal cells."
  },
  {
   "property": "C140",
   "status": "proved",
   "theorems": [
    "Simphox.C140_fdtd_dispersion",
    "Simphox.C140_travelling_is_transverse",
    "Simphox.C140_fdtd_frequency",
    "Simphox.C140_fdtd_magic",
    "Simphox.C140_fdfd",
    "Simphox.C140_mode_1d",
    "Simphox.C140_mode_2d"
   ],
   "note": "Proved for FDTD (travelling transverse waves, frequency, magic time step), 3D FDFD including Bloch phases, and the 1D and 2D mode operators."
  },
  {
   "property": "C141",
   "status": "partial",
   "theorems": [
    "Simphox.C141_fdtd_partial",
    "Simphox.C141_fdtd_eps_partial",
    "Simphox.C141_fdfd_partial",
    "Simphox.C141_symmetric_device_partial",
    "Simphox.C141_ez_partial",
    "Simphox.C141_z_counterexample",
    "Simphox.C141_pml_counterexample",
    "Simphox.C141_tm_counterexample"
   ],
   "note": "Holds for FDTD, 3D FDFD and 2D Ez along x and y without PML (and along z for permittivity tensors symmetric as tensors). Counterexamples: along z (yee_avg does not average along z), with PML (electric stretching factors of the two ends differ), TM FDFD (difference operators of mat_hz are on the wrong side)."
  },
  {
   "property": "C142",
   "status": "proved",
   "theorems": [
    "Simphox.C142_3d",
    "Simphox.C142_2d",
    "Simphox.C142_measure",
    "Simphox.C142_scattering_3d",
    "Simphox.C142_scattering_2d"
   ],
   "note": "Solver is a parameter with A x = b solved by a unique x (the contract of a direct solver); scattering matrix theorems use the measured amplitudes of single port runs."
  },
  {
   "property": "C143",
   "status": "partial",
   "theorems": [
    "Simphox.C143_sim_sparams_partial",
    "Simphox.C143_source_exact_partial",
    "Simphox.C143_default_partial",
    "Simphox.C143_ignored_counterexample",
    "Simphox.C143_wavelength_counterexample",
    "Simphox.C143_size_factor_counterexample",
    "Simphox.C143_cw_sources_partial"
   ],
   "note": "get_sim_fn, get_sim_sparams_fn, FDFD.sparams and the measurements of run_cw_port always use modes at the default wavelength 1.55, and measurements always use size factor 3. Counterexamples for every other wavelength and factor; exact what-is-computed theorem and the default case proved."
  },
  {
   "property": "C144",
   "status": "partial",
   "theorems": [
    "Simphox.C144_positional_partial",
    "Simphox.C144_own_order_partial",
    "Simphox.C144_default_ports_counterexample",
    "Simphox.C144_order_counterexample",
    "Simphox.C144_subset_counterexample"
   ],
   "note": "Labels are positional: port order other than the pattern's mislabels the entries; default ports or a subset of ports raise. Proved for all ports in the pattern's order (modes as in C143)."
  },
  {
   "property": "C145",
   "status": "partial",
   "theorems": [
    "Simphox.C145_rows_partial",
    "Simphox.C145_shape_counterexample",
    "Simphox.C145_one_rail_counterexample"
   ],
   "note": "Returns only the first row of each Hessian (proved: the second derivatives with theta_0, blocks transposed as in C105); raises for n=1."
  },
  {
   "property": "C146",
   "status": "partial",
   "theorems": [
    "Simphox.C146_ratio_partial",
    "Simphox.C146_scale_partial",
    "Simphox.C146_pure_partial",
    "Simphox.C146_ndim_partial",
    "Simphox.C146_label_counterexample",
    "Simphox.C146_pure_label_counterexample"
   ],
   "note": "te_ratio proved in full; the label of plot_power is the opposite of the ratio for every mode."
  },
  {
   "property": "C147",
   "status": "partial",
   "theorems": [
    "Simphox.C147_convolution_partial",
    "Simphox.C147_delay_partial",
    "Simphox.C147_identity_partial",
    "Simphox.C147_passive_partial",
    "Simphox.C147_columns_counterexample",
    "Simphox.C147_square_counterexample",
    "Simphox.C147_pulse_partial",
    "Simphox.C147_empty_partial"
   ],
   "note": "One-dimensional profiles proved in full; profiles with several columns raise or are multiplied along the wrong axis."
  },
  {
   "property": "C148",
   "status": "partial",
   "theorems": [
    "Simphox.C148_value_partial",
    "Simphox.C148_gradient_partial",
    "Simphox.C148_start_partial",
    "Simphox.C148_solution_counterexample",
    "Simphox.C148_lossy_counterexample"
   ],
   "note": "Value and gradient proved for all lossless meshes; at a solution the gradient is nan and all later values are nan; lossy meshes have nan errors. Optimiser and JAX's derivative of the radicand are parameters."
  },
  {
   "property": "C149",
   "status": "partial",
   "theorems": [
    "Simphox.C149_pml_partial",
    "Simphox.C149_pml_scalar_partial",
    "Simphox.C149_bloch_partial",
    "Simphox.C149_bloch_length_partial",
    "Simphox.C149_int_phase_counterexample",
    "Simphox.C149_array_phase_counterexample",
    "Simphox.C149_fdtd_partial",
    "Simphox.C149_fdtd_counterexample",
    "Simphox.C149_from_simgrid_counterexample",
    "Simphox.C149_dtype_partial"
   ],
   "note": "Counterexamples: integer phase (TypeError), numpy array without PML (ValueError), every 1D/2D FDTD with PML (IndexError), from_simgrid drops the Bloch phase (its PML is C43)."
  },
  {
   "property": "C150",
   "status": "partial",
   "theorems": [
    "Simphox.C150_size_partial",
    "Simphox.C150_axis_partial",
    "Simphox.C150_default_width_counterexample"
   ],
   "note": "Counterexample: ports of default width 0 pointing along y get modes along x."
  },
  {
   "property": "C151",
   "status": "partial",
   "theorems": [
    "Simphox.C151_fields_partial",
    "Simphox.C151_sparams_partial",
    "Simphox.C151_order_counterexample"
   ],
   "note": "Counterexample: S-parameters are labelled by port order; other measured lists raise or are mislabelled."
  },
  {
   "property": "C152",
   "status": "partial",
   "theorems": [
    "Simphox.C152_tree_partial",
    "Simphox.C152_one_phase_partial",
    "Simphox.C152_vector_unit_partial",
    "Simphox.C152_vector_unit_counterexample"
   ],
   "note": "Holds for tree. vector_unit(v, n_rails) with n_rails different from len(v) programs the nodes right but returns len(v) output phases: every evaluation raises (counterexample); proved with phases of the right length."
  },
  {
   "property": "C153",
   "status": "partial",
   "theorems": [
    "Simphox.C153_rows_counterexample",
    "Simphox.C153_columns_counterexample",
    "Simphox.C153_square_partial"
   ],
   "note": "Square unitary case proved. Counterexamples: every k x n input with k < n raises ValueError; columns (n x k) raise for k = 1 and give a mesh that cannot be evaluated for k >= 2."
  },
  {
   "property": "C154",
   "status": "proved",
   "theorems": [
    "Simphox.C154_inner_product",
    "Simphox.C154_inner_product_exact"
   ],
   "note": "Proved with the regulariser eps and exactly for eps = 0 (v nonzero). SYMMETRIC raises, DIFFERENTIAL: see C98."
  },
  {
   "property": "C155",
   "status": "partial",
   "theorems": [
    "Simphox.C155_history_partial",
    "Simphox.C155_betas_partial",
    "Simphox.C155_update_partial",
    "Simphox.C155_build_partial",
    "Simphox.C155_nonempty_partial",
    "Simphox.C155_cached_partial",
    "Simphox.C155_shared_counterexample",
    "Simphox.C155_failed_update_counterexample",
    "Simphox.C155_edit_counterexample"
   ],
   "note": "A library keeps betas and modes but reads wavelength and eps_t of its solver live. Proved: histories that leave the solver at the same wavelength and eps_t do not change it; betas only change by its own updates; update gives the library of the current permittivity if eps_t was not cached earlier. Violated: updating another library of the same solver (or a failing update) rescales the effective indices; after an edit a 2D update solves the stale cached eps_t."
  },
  {
   "property": "C156",
   "status": "partial",
   "theorems": [
    "Simphox.C156_numbers_partial",
    "Simphox.C156_refill_partial",
    "Simphox.C156_shared_counterexample",
    "Simphox.C156_caller_counterexample"
   ],
   "note": "Grids built from numbers own their arrays (proved for all histories) and fill allocates a new array. Grids built from an array or by from_simgrid keep a reference: edits are visible in both, and in the caller's array."
  },
  {
   "property": "C157",
   "status": "proved",
   "theorems": [
    "Simphox.C157_largest_1d",
    "Simphox.C157_largest_2d",
    "Simphox.C157_fundamental_1d",
    "Simphox.C157_guess_1d",
    "Simphox.C157_argument"
   ],
   "note": "Conditional on solve returning (C62 describes when it raises). SciPy's eigs is a parameter with the contract IsEigs (independent eigenpairs, closest to the shift). The default shift k0^2 max eps bounds all guided eigenvalues (C137), so closest means largest."
  },
  {
   "property": "C158",
   "status": "partial",
   "theorems": [
    "Simphox.C158_range_partial",
    "Simphox.C158_spurious_counterexample",
    "Simphox.C158_count_counterexample",
    "Simphox.C158_negative_counterexample"
   ],
   "note": "True when FEAST finds exactly m modes or leaves no positive number in the unused entries (C158_range_partial). Violated: entries beyond the number found are treated as modes (C158_spurious_counterexample); no mode, or more than m modes, in the range raise RuntimeError (C158_count_counterexample); end points are squared, so ranges with negative ends miss modes (C158_negative_counterexample)."
  },
  {
   "property": "C159",
   "status": "proved",
   "theorems": [
    "Simphox.C159_power_balance",
    "Simphox.C159_silent"
   ],
   "note": "Discrete Poynting theorem for the leapfrog step; NumPy back-end (with use_jax=True sources overwrite fields, see the counterexample on back-ends)."
  },
  {
   "property": "C160",
   "status": "proved",
   "theorems": [
    "Simphox.C160_reciprocity",
    "Simphox.C160_points"
   ],
   "note": "One round of updates is symmetric for the bilinear form sum eps e e' - sum h h' after half a round; NumPy back-end, no PML."
  },
  {
   "property": "C161",
   "status": "proved",
   "theorems": [
    "Simphox.C161_insertion_loss",
    "Simphox.C161_uniform",
    "Simphox.C161_tree",
    "Simphox.C161_sharp"
   ],
   "note": "Lower bound on transmitted power, sharp."
  },
  {
   "property": "C162",
   "status": "proved",
   "theorems": [
    "Simphox.C162_driven_bounded",
    "Simphox.C162_linear_growth"
   ],
   "note": "From C159, coercivity of the energy at FDTD's Courant step (C56) and a discrete Gronwall argument."
  },
  {
   "property": "C163",
   "status": "partial",
   "theorems": [
    "Simphox.C163_mask_partial",
    "Simphox.C163_count_partial",
    "Simphox.C163_aligned_partial",
    "Simphox.C163_negative_counterexample"
   ],
   "note": "True for boxes whose lower corner is not left of or below the origin. Violated otherwise: negative slice bounds wrap around (C163_negative_counterexample): a box from -1 to 2 marks nothing, a box from -3 to -1 marks pixels on the opposite side."
  },
  {
   "property": "C164",
   "status": "proved",
   "theorems": [
    "Simphox.C164_isolation",
    "Simphox.C164_copy",
    "Simphox.C164_translations",
    "Simphox.C164_aligned"
   ],
   "note": "Heap of box objects, induction over programs."
  },
  {
   "property": "C165",
   "status": "proved",
   "theorems": [
    "Simphox.C165_accessors",
    "Simphox.C165_splitting",
    "Simphox.C165_phase_additive"
   ],
   "note": "Index arithmetic and exact real division on the library model; errors as values."
  },
  {
   "property": "C166",
   "status": "partial",
   "theorems": [
    "Simphox.C166_component_partial",
    "Simphox.C166_plot2d_partial",
    "Simphox.C166_plot1d_counterexample",
    "Simphox.C166_npint_counterexample"
   ],
   "note": "Proved for every library on the component/label selection, and for 2D libraries for the whole call. False for 1D libraries: plot_field indexes a 1D profile with two indices and always raises IndexError. False for NumPy integers (label prints the digit)."
  },
  {
   "property": "C167",
   "status": "partial",
   "theorems": [
    "Simphox.C167_compensates_partial",
    "Simphox.C167_list_order_counterexample",
    "Simphox.C167_equal_errors"
   ],
   "note": "Proved whenever each node's own error equals the table entry at its id (equal errors, id-ordered lists such as the balanced tree on 3 rails). False otherwise: parallel_nullify reads network.mzi_terms (list order) at the node id while the update of w uses the node's own error; on the 3-rail chain every nonzero error pair (0,x) mis-programs (1,0,1) although all ratios are reachable."
  },
  {
   "property": "C168",
   "status": "partial",
   "theorems": [
    "Simphox.C168_plot2d_partial",
    "Simphox.C168_plot3d",
    "Simphox.C168_hv_axes_counterexample",
    "Simphox.C168_hv_flipped_counterexample"
   ],
   "note": "Matplotlib and volume plots proved; the holoviews plots violate the property: the extent is that of the transposed array (non-square arrays get the wrong axes) and row 0 is drawn at the top (square arrays are upside down)."
  },
  {
   "property": "C169",
   "status": "partial",
   "theorems": [
    "Simphox.C169_field_scale_partial",
    "Simphox.C169_live_power_partial",
    "Simphox.C169_live_eps_partial",
    "Simphox.C169_uniform_counterexample",
    "Simphox.C169_live_field_partial",
    "Simphox.C169_live_field_counterexample"
   ],
   "note": "Still pictures, live permittivity and live power proved; uniform structures and zero fields raise/give nan, and live fields are divided by their most positive value instead of their largest modulus, so negative fields are sent with flipped sign."
  },
  {
   "property": "C170",
   "status": "proved",
   "theorems": [
    "Simphox.C170_lossy_vector_unit"
   ],
   "note": "Phases are those of the lossless nodes (as in the code, whose nullification terms hold errors only), applied to lossy ones."
  },
  {
   "property": "C171",
   "status": "proved",
   "theorems": [
    "Simphox.C171_reshape",
    "Simphox.C171_deriv",
    "Simphox.C171_curl"
   ],
   "note": "Flat model of sp.diags, sp.kron, sp.eye, sp.bmat and C-order ravel/reshape on natural-number indices; connects the multi-index operators used in the other Yee/FDFD properties to the code's flat ones."
  },
  {
   "property": "C172",
   "status": "proved",
   "theorems": [
    "Simphox.C172_solve3d",
    "Simphox.C172_solve2d"
   ],
   "note": "Both directions; together with C48/C49 this covers what the reshaped solution satisfies."
  },
  {
   "property": "C173",
   "status": "proved",
   "theorems": [
    "Simphox.C173_flat_modes",
    "Simphox.C173_flat_modes_1d"
   ],
   "note": "Eigenpairs are quantified over, not computed: whatever eigenpair the eigensolver returns exactly is covered. Flat index arithmetic (kron, vstack, hstack, reshape) is modelled on natural-number indices."
  },
  {
   "property": "C174",
   "status": "proved",
   "theorems": [
    "Simphox.C174_routable_iff",
    "Simphox.C174_programs_if_possible",
    "Simphox.C174_equal_errors",
    "Simphox.C174_chain_criterion"
   ],
   "note": "Regulariser np.spacing(1) taken as 0, losses zero. C174_routable_iff holds for errors in any storage order; C174_programs_if_possible assumes the stored error table agrees with the node ids (TableMatches; the mismatch is the finding of C167), and C174_equal_errors / C174_chain_criterion need no such assumption."
  },
  {
   "property": "C175",
   "status": "proved",
   "theorems": [
    "Simphox.C175_cascade_errors_iff",
    "Simphox.C175_smaller_errors",
    "Simphox.C175_two_by_two"
   ],
   "note": "\u03b5 = np.spacing(1) taken as 0, phase style TOP (the style aggregate gives the mesh), equal errors at all couplers, no loss; C175_two_by_two is the linear layout for n = 2."
  },
  {
   "property": "C176",
   "status": "proved",
   "theorems": [
    "Simphox.C176_vector_unit_recovers",
    "Simphox.C176_cascade_recovers",
    "Simphox.C176_identifiable",
    "Simphox.C176_bar_state_ambiguous"
   ],
   "note": "Proved with np.spacing(1) taken as 0, equal coupler errors, no loss, cascade with phase style TOP. C176_bar_state_ambiguous shows that the open range of theta is needed. Output phases agree as numbers when they lie in [-pi, pi)."
  },
  {
   "property": "C177",
   "status": "proved",
   "theorems": [
    "Simphox.C177_column_ordered",
    "Simphox.C177_empty_column_raises",
    "Simphox.C177_node_list"
   ],
   "note": "Healthy: distinct node objects, distinct ids below the number of nodes, one theta per node, num_columns up to date, no empty column; the empty-column case is the raise theorem."
  },
  {
   "property": "C178",
   "status": "partial",
   "theorems": [
    "Simphox.C178_same_matrix_partial",
    "Simphox.C178_style_counterexample",
    "Simphox.C178_errors_counterexample"
   ],
   "note": "Holds in style TOP with uniform errors and losses, or if the mesh already is in column order. False otherwise: aggregate drops the phase style (forward.py:149), and the errors array is rebuilt in list order while it is indexed by node id."
  },
  {
   "property": "C179",
   "status": "proved",
   "theorems": [
    "Simphox.C179_recorded_powers",
    "Simphox.C179_ideal"
   ],
   "note": "np.spacing(1) taken as 0."
  },
  {
   "property": "C180",
   "status": "proved",
   "theorems": [
    "Simphox.C180_mean_gradient",
    "Simphox.C180_gain",
    "Simphox.C180_mean_output",
    "Simphox.C180_noiseless"
   ],
   "note": "Draws of np.random.randn are modelled as independent standard normal random variables on any probability space (standardNormal_exists constructs one); C180_noiseless links the model with noise to that of C19."
  },
  {
   "property": "C181",
   "status": "proved",
   "theorems": [
    "Simphox.C181_shot_variance",
    "Simphox.C181_analog_half"
   ],
   "note": "Positions of the fields are those of propagate (C12, C96); the variance is exact, not a bound."
  },
  {
   "property": "C182",
   "status": "proved",
   "theorems": [
    "Simphox.C182_series",
    "Simphox.C182_matrix"
   ],
   "note": "Compose.lean. Object level (heap of node objects and arrays): offset, offset_column and aggregate run on the heap, evaluation is matrixApply of MeshEval; C182_matrix is the same as a product of n x n matrices."
  },
  {
   "property": "C183",
   "status": "proved",
   "theorems": [
    "Simphox.C183_no_crosstalk",
    "Simphox.C183_blocks"
   ],
   "note": "Parallel.lean. Meshes as values; needs distinct rails inside a column (as all library constructors give, C01-C05)."
  },
  {
   "property": "C184",
   "status": "proved",
   "theorems": [
    "Simphox.C184_te",
    "Simphox.C184_tm"
   ],
   "note": "TE on every grid, TM on every admissible grid with positive permittivity. JAX's cotangent convention (dF = Re sum cot dx) and its rules for hstack, reciprocals, sums and rolls are part of the model; complex permittivities are not covered (TMOperator's backward returns the real part)."
  },
  {
   "property": "C185",
   "status": "proved",
   "theorems": [
    "Simphox.C185_two_d",
    "Simphox.C185_three_d",
    "Simphox.C185_standing_wave",
    "Simphox.C185_power_reversed"
   ],
   "note": "for solvers solving both systems exactly"
  },
  {
   "property": "C186",
   "status": "proved",
   "theorems": [
    "Simphox.C186_rounding",
    "Simphox.C186_linear",
    "Simphox.C186_power"
   ],
   "note": "relative rounding per operation as in IEEE without overflow or underflow; the analysis counts complex products and sums"
  },
  {
   "property": "C187",
   "status": "proved",
   "theorems": [
    "Simphox.C187_errors_add",
    "Simphox.C187_linear_growth"
   ],
   "note": "NumPy mode, no PML; errors of the updates are arbitrary"
  },
  {
   "property": "C188",
   "status": "proved",
   "theorems": [
    "Simphox.C188_bounds",
    "Simphox.C188_stable",
    "Simphox.C188_offset",
    "Simphox.C188_derivative",
    "Simphox.C188_neff",
    "Simphox.C188_group_index"
   ],
   "note": "Variational bounds both ways from the fundamental mode being the maximiser (C138); derivative by squeezing. Witness: a concrete slab pair beside the theorem."
  },
  {
   "property": "C189",
   "status": "proved",
   "theorems": [
    "Simphox.C189_last_edit_wins",
    "Simphox.C189_disjoint_commute"
   ],
   "note": "Histories are lists of edits executed by the modelled calls; specification is the last covering edit of the list."
  },
  {
   "property": "C190",
   "status": "partial",
   "theorems": [
    "Simphox.C190_refused_partial",
    "Simphox.C190_ports_counterexample",
    "Simphox.C190_components_counterexample"
   ],
   "note": "Holds for set_eps and for the bounds check of add. Violated: 2D add of a component with ports and no zmin raises TypeError after permittivity and component list were changed; 3D raises after recording the component."
  },
  {
   "property": "C191",
   "status": "proved",
   "theorems": [
    "Simphox.C191_wave_number",
    "Simphox.C191_fdtd_frequency",
    "Simphox.C191_fdfd",
    "Simphox.C191_mode_1d"
   ],
   "note": "sin bounds; the FDTD frequency from the dispersion relation of C140."
  },
  {
   "property": "C192",
   "status": "proved",
   "theorems": [
    "Simphox.C192_convolution",
    "Simphox.C192_delay",
    "Simphox.C192_same_device",
    "Simphox.C192_spectrum"
   ],
   "note": "Both modes for the delay; linear claims for NumPy mode (the JAX mode overwrites the source region, C57)."
  },
  {
   "property": "C193",
   "status": "proved",
   "theorems": [
    "Simphox.C193_units",
    "Simphox.C193_units_slab",
    "Simphox.C193_translate",
    "Simphox.C193_mirror",
    "Simphox.C193_parity",
    "Simphox.C193_slab"
   ],
   "note": "Stated for eigenpairs of the matrix handed to the eigensolver; order and phase of the returned modes are C62."
  },
  {
   "property": "C194",
   "status": "proved",
   "theorems": [
    "Simphox.C194_paths",
    "Simphox.C194_equal_splitting"
   ],
   "note": "C194_paths for any style, errors, losses and phases; the path's nodes exist and are unique by C24. C194_equal_splitting is the pi/2 case."
  },
  {
   "property": "C195",
   "status": "proved",
   "theorems": [
    "Simphox.C195_dft_matrix",
    "Simphox.C195_dft"
   ],
   "note": "Explicit settings dftParams; C195_dft_matrix gives each entry, C195_dft the transform of a vector. TOP style (what butterfly builds), perfect couplers."
  },
  {
   "property": "C196",
   "status": "proved",
   "theorems": [
    "Simphox.C196_residual_3d",
    "Simphox.C196_residual_ez",
    "Simphox.C196_medium_3d",
    "Simphox.C196_medium_ez"
   ],
   "note": "No PML. The solver's stopping rule enters as a hypothesis on the residual of what it returns; h_z is not covered because its form controls only gradients."
  },
  {
   "property": "C197",
   "status": "proved",
   "theorems": [
    "Simphox.C197_rank_one",
    "Simphox.C197_not_universal"
   ],
   "note": "ButterflyLimits.lean: C197_rank_one is the 2x2 minor identity for all settings (errors included, as the mesh record is arbitrary apart from its nodes); C197_not_universal names unreachable permutations."
  },
  {
   "property": "C198",
   "status": "proved",
   "theorems": [
    "Simphox.C198_mean_field",
    "Simphox.C198_gaussian",
    "Simphox.C198_case"
   ],
   "note": "MeshNoise.lean: C198_mean_field for every distribution and style; C198_gaussian gives the closed form for TOP forward; C198_case evaluates it on one node; normal_draws_exist shows the hypotheses can be met."
  },
  {
   "property": "C199",
   "status": "proved",
   "theorems": [
    "Simphox.C199_coupler_noise",
    "Simphox.C199_butterfly"
   ],
   "note": "MeshNoise.lean: C199_coupler_noise on the mesh returned by addErrorVariance (loss_db_std = 0); C199_butterfly the attenuation; normal_pairs_exist shows the hypotheses can be met."
  },
  {
   "property": "C200",
   "status": "proved",
   "theorems": [
    "Simphox.C200_classical",
    "Simphox.C200_symmetric"
   ],
   "note": "MeshClassical.lean: C200_classical for uniform independent phases; C200_symmetric shows why that style is left out."
  },
  {
   "property": "C201",
   "status": "proved",
   "theorems": [
    "Simphox.C201_loss_noise",
    "Simphox.C201_gain",
    "Simphox.C201_case"
   ],
   "note": "MeshLossNoise.lean: C201_loss_noise is the exact mean, C201_gain the consequence, C201_case one node; normal_pairs_exist (C199) shows the draws exist."
  },
  {
   "property": "C202",
   "status": "proved",
   "theorems": [
    "Simphox.C202_plot",
    "Simphox.C202_holoviews",
    "Simphox.C202_degenerate"
   ],
   "note": "Viz1d.lean: C202_plot (matplotlib), C202_holoviews, C202_degenerate."
  },
  {
   "property": "C203",
   "status": "proved",
   "theorems": [
    "Simphox.C203_frames",
    "Simphox.C203_short"
   ],
   "note": "Viz1d.lean: C203_frames, C203_short."
  },
  {
   "property": "C204",
   "status": "proved",
   "theorems": [
    "Simphox.C204_triangular",
    "Simphox.C204_rectangular",
    "Simphox.C204_butterfly",
    "Simphox.C204_case"
   ],
   "note": "Proved for the exact expectation. The draws are independent, theta from rand_theta (scipy's betaincinv is a parameter), phi uniform; the proof follows the mean powers, which a uniform external phase makes a classical transport (see C200), and a Yang-Baxter labelling of crossing lines shows the transport is uniform."
  },
  {
   "property": "C205",
   "status": "proved",
   "theorems": [
    "Simphox.C205_distance",
    "Simphox.C205_case"
   ],
   "note": "Proved for every node of every size; lineOn is the specification of where a line comes from."
  },
  {
   "property": "C206",
   "status": "proved",
   "theorems": [
    "Simphox.C206_triangular",
    "Simphox.C206_unique",
    "Simphox.C206_case"
   ],
   "note": "Random draws are arguments: independent uniform numbers, two per node and one per rail. The spec HaarRandom (unitary, invariant from both sides) determines the distribution (C206_unique). Proof: row by row, all mixed moments of a linear form of the last row of each subunit depend on the length of the form only (from the beta law of C119), so the row's law is invariant; one subunit more keeps right invariance; right invariance of a law on the unitary group gives left invariance. C206_case gives a betaincinv and draws. The phase style is TOP, which is what cascade builds."
  },
  {
   "property": "C207",
   "status": "proved",
   "theorems": [
    "Simphox.C207_network",
    "Simphox.C207_rectangular",
    "Simphox.C207_same_law",
    "Simphox.C207_case"
   ],
   "note": "Random draws are arguments: independent uniform numbers, two per node and one per rail. The distance condition is stated with lineOn, which follows the lines through nodes that exchange their rails; C207_rectangular instantiates the network theorem with the mesh of rectangular(u), C207_same_law compares it with triangular(u)."
  },
  {
   "property": "C208",
   "status": "proved",
   "theorems": [
    "Simphox.C208_network",
    "Simphox.C208_rectangular_identifiable",
    "Simphox.C208_rectangular",
    "Simphox.C208_case"
   ],
   "note": "C208_network: errorMesh with a common splitting error, styles TOP and BOTTOM, hypothesis on the execution order that each node joins neighbouring rails whose lines (lineOn, C205) are still in their original order; P generic (thetas in (0, pi)), Q in the closed ranges. C208_rectangular_identifiable: rectangular meshes satisfy it. C208_rectangular: the program applied to the matrix returns thetas, phis and (modulo 2 pi, exactly if in [0, 2 pi)) gammas. The bar and cross states are excluded for a reason (C176_bar_state_ambiguous)."
  },
  {
   "property": "C209",
   "status": "proved",
   "theorems": [
    "Simphox.C209_rectangular",
    "Simphox.C209_triangular",
    "Simphox.C209_theta_cdf",
    "Simphox.C209_case"
   ],
   "note": "Exact arithmetic, eps = 0 in the nullification (np.spacing), no coupler errors, style TOP. HaarRandom is the specification of C206 (unitary, law invariant under multiplication by fixed unitary matrices from both sides), which C206_unique shows determines the law; that scipy's unitary_group.rvs has this law is an assumption about scipy. The events range over all measurable rectangles of phases, which determine the joint law. C209_theta_cdf: distribution function 1 - cos(t/2)^(2 beta)."
  },
  {
   "property": "C210",
   "status": "proved",
   "theorems": [
    "Simphox.C210_random_vector",
    "Simphox.C210_case",
    "Simphox.C210_vector_unit"
   ],
   "note": "Style top, no errors, eps = 0 (exact splitting ratios). The joint law is stated as the probability of every rectangle of measurable sets, which fixes it. The numbers of inputs merged into a node are counted along the execution order by mergedCount, not read from the node. The same law is the one rand_theta should draw from: it does for the linear tree and does not for the balanced one of 5 or more inputs (C121). C210_random_vector instantiates C210_vector_unit with the normal draws of random_vector."
  },
  {
   "property": "C211",
   "status": "proved",
   "theorems": [
    "Simphox.C211_haar",
    "Simphox.C211_tree_cascade",
    "Simphox.C211_case"
   ],
   "note": "Exact reals; the cascade is the model of C15, styles TOP, no coupler errors or losses. NaturalPhases is a specification: the joint law of the phases as a product over nodes. The converse direction uses that tree_cascade recovers the phases of a balanced cascade (C176) and that probability measures on the (standard Borel) phases are carried by injective measurable maps. rand_theta itself pairs its draws with nodes by list position, not by node id, which C121 shows to disagree for balanced cascades; the law is therefore stated per node."
  },
  {
   "property": "C212",
   "status": "proved",
   "theorems": [
    "Simphox.C212_haar_iff",
    "Simphox.C212_case"
   ],
   "note": "Exact reals. Positive half: for two and three rails position and id carry the same indices, so the induction of C211 applies. Negative half: the last row of a Haar-random matrix has the moments of C121 (all random directions have one law), the last row of the cascade is the row of its largest unit, and C121 shows its moments differ from four rails on. A finding about the code: tree_cascade meshes initialised with rand_theta are not Haar-random, unlike triangular and rectangular ones (C206, C207)."
  },
  {
   "property": "C213",
   "status": "proved",
   "theorems": [
    "Simphox.C213_never_haar",
    "Simphox.C213_fresh",
    "Simphox.C213_unitary",
    "Simphox.C213_case"
   ],
   "note": "C213_never_haar: from C197_rank_one, the minor of rows 0, 2 and columns 0, 1 vanishes in every draw; a Haar-random matrix with this property would have, by invariance under row and column exchanges, all minors zero in column pair 0, 1 almost surely, against E|u|^2 = 1/n. C213_fresh: for two rails the mesh equals a tree driven with indices 2, 2, the fourth moment of an entry is 3/10, not 1/3. C213_unitary: the matrix is unitary. C213_case: the hypotheses can be met."
  },
  {
   "property": "C214",
   "status": "proved",
   "theorems": [
    "Simphox.C214_haar",
    "Simphox.C214_one_law",
    "Simphox.C214_triangular",
    "Simphox.C214_rectangular",
    "Simphox.C214_case"
   ],
   "note": "C214_haar: for any Haar-random matrix (C206, C207, C211). C214_triangular, C214_rectangular: the freshly drawn meshes. C214_one_law: the law of the error is the same for all targets and all Haar-random matrices. C214_case: an 8-rail mesh comes within 1/2 of a given target with a probability below 1/47. The meshes are ideal (no losses or coupling errors); for lossy meshes normalized_error is not a norm (C29)."
  },
  {
   "property": "C215",
   "status": "proved",
   "theorems": [
    "Simphox.C215_shift",
    "Simphox.C215_sum",
    "Simphox.C215_case"
   ],
   "note": "C215_shift: cost and gradient at shifted output phases are the same (both may be nan). C215_sum: the gradient of the output phases adds up to zero; entries beyond the last rail vanish. C215_case: the hypothesis can be met. Gradient as in C148 (JAX's contract: derivative of the radicand over twice the error)."
  }
 ]
}