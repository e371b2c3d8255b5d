{
 "claims": [
  {
   "property": "C01",
   "status": "proved",
   "theorems": [
    "Mtln.C01_run_frames",
    "Mtln.C01_run_succeeds_iff"
   ],
   "note": "All step counts, probes and starting states. C01_run_succeeds_iff gives the exact conditions of success."
  },
  {
   "property": "C02",
   "status": "proved",
   "theorems": [
    "Mtln.C02_run_frames",
    "Mtln.C02_time_step"
   ],
   "note": "Every run of the manager, any size and number of steps; frames, times and values of every probe."
  },
  {
   "property": "C03",
   "status": "partial",
   "theorems": [
    "Mtln.C03_half_step_partial",
    "Mtln.C03_probe_dt",
    "Mtln.C03_override_fails"
   ],
   "note": "False of the code when dt changes after the probes were added (C03_override_fails); proved when the probe's dt is the run's (C03_half_step_partial)."
  },
  {
   "property": "C04",
   "status": "proved",
   "theorems": [
    "Mtln.C04_runs_compose"
   ],
   "note": "Fields, clock and probe frames of split runs."
  },
  {
   "property": "C05",
   "status": "partial",
   "theorems": [
    "Mtln.C05_manual_steps_partial",
    "Mtln.C05_after_run",
    "Mtln.C05_virgin_probe",
    "Mtln.C05_append_fails",
    "Mtln.C05_seen"
   ],
   "note": "False of the code for a probe that never took part in a run (C05_virgin_probe, C05_append_fails); proved for probes that own their samples, as after any run."
  },
  {
   "property": "C06",
   "status": "proved",
   "theorems": [
    "Mtln.C06_accepted",
    "Mtln.C06_valid_never_raise",
    "Mtln.C06_unknown_probe_raises"
   ],
   "note": "All strings, all lines, all runs."
  },
  {
   "property": "C07",
   "status": "proved",
   "theorems": [
    "Mtln.C07_current_equation"
   ],
   "note": "For every step of every run; equation and uniqueness."
  },
  {
   "property": "C08",
   "status": "proved",
   "theorems": [
    "Mtln.C08_voltage_equation",
    "Mtln.C08_voltage_equation_no_field"
   ],
   "note": "For every step of every run; equation and uniqueness; general version includes the transverse field as coded."
  },
  {
   "property": "C09",
   "status": "proved",
   "theorems": [
    "Mtln.C09_terminal_equations",
    "Mtln.C09_constructed_consistent",
    "Mtln.C09_consistent_preserved"
   ],
   "note": "For every step of every run of a line whose terminal terms belong to its dt; shown for constructed lines and preserved by runs."
  },
  {
   "property": "C10",
   "status": "proved",
   "theorems": [
    "Mtln.C10_superposition"
   ],
   "note": "Any two runs combined with any real weights, any number of steps."
  },
  {
   "property": "C11",
   "status": "proved",
   "theorems": [
    "Mtln.C11_rest"
   ],
   "note": "Any number of steps."
  },
  {
   "property": "C12",
   "status": "proved",
   "theorems": [
    "Mtln.C12_dependence_right",
    "Mtln.C12_dependence_left",
    "Mtln.C12_one_cell_per_step_left",
    "Mtln.C12_one_cell_per_step_right"
   ],
   "note": "Any number of steps, both directions."
  },
  {
   "property": "C13",
   "status": "partial",
   "theorems": [
    "Mtln.C13_interior_no_effect",
    "Mtln.C13_same_success",
    "Mtln.C13_fails",
    "Mtln.C13_end_source_partial",
    "Mtln.C13_interior_sources_ignored"
   ],
   "note": "False of the code for every source whose nearest node is not an end (C13_interior_no_effect, C13_fails); proved for the two end nodes."
  },
  {
   "property": "C14",
   "status": "proved",
   "theorems": [
    "Mtln.C14_mirror",
    "Mtln.C14_terminal_coefficients",
    "Mtln.C14_symmetric_line"
   ],
   "note": "Any number of steps, non-symmetric lines too."
  },
  {
   "property": "C15",
   "status": "proved",
   "theorems": [
    "Mtln.C15_passivity_any_dt",
    "Mtln.C15_passivity",
    "Mtln.C15_passivity_run"
   ],
   "note": "Every step of every run; pole-free connectors; general version for terminal coefficients of another dt."
  },
  {
   "property": "C16",
   "status": "proved",
   "theorems": [
    "Mtln.C16_constructed",
    "Mtln.C16_energy_nonneg",
    "Mtln.C16_bounded_any_dt",
    "Mtln.C16_bounded",
    "Mtln.C16_bounded_reduced_dt"
   ],
   "note": "Bounds independent of the duration, for lines built by the constructor from physical parameters and any dt below the automatic one."
  },
  {
   "property": "C17",
   "status": "proved",
   "theorems": [
    "Mtln.C17_causality"
   ],
   "note": "Any number of steps."
  },
  {
   "property": "C18",
   "status": "proved",
   "theorems": [
    "Mtln.C18_time_shift"
   ],
   "note": "Any time shift."
  },
  {
   "property": "C19",
   "status": "proved",
   "theorems": [
    "Mtln.C19_uncoupled"
   ],
   "note": "Any subset of conductors uncoupled from the rest."
  },
  {
   "property": "C20",
   "status": "proved",
   "theorems": [
    "Mtln.C20_renumbering",
    "Mtln.C20_terminal_coefficients"
   ],
   "note": "Any permutation, including probes and errors."
  },
  {
   "property": "C21",
   "status": "proved",
   "theorems": [
    "Mtln.C21_constructed",
    "Mtln.C21_one_conductor",
    "Mtln.C21_courant"
   ],
   "note": "Every line the constructor accepts."
  },
  {
   "property": "C22",
   "status": "proved",
   "theorems": [
    "Mtln.C22_set_time_step"
   ],
   "note": "Exact real arithmetic."
  },
  {
   "property": "C23",
   "status": "partial",
   "theorems": [
    "Mtln.C23_terminal_fails",
    "Mtln.C23_interior_partial",
    "Mtln.C23_recompute_partial"
   ],
   "note": "False of the code for the boundary condition (C23_terminal_fails); proved for the interior equations, and for the boundary after recomputing the terminal terms."
  },
  {
   "property": "C24",
   "status": "partial",
   "theorems": [
    "Mtln.C24_contiguity_fails",
    "Mtln.C24_index_error",
    "Mtln.C24_mesh_partial"
   ],
   "note": "False of the code for segments with different numbers of divisions (C24_contiguity_fails, C24_index_error); proved when all segments have the same number (C24_mesh_partial)."
  },
  {
   "property": "C25",
   "status": "proved",
   "theorems": [
    "Mtln.C25_nearest",
    "Mtln.C25_exact_node"
   ],
   "note": "All meshes and positions; ties go to the first node."
  },
  {
   "property": "C26",
   "status": "partial",
   "theorems": [
    "Mtln.C26_box",
    "Mtln.C26_rejects_on_line",
    "Mtln.C26_accepts_off_line",
    "Mtln.C26_axis_partial"
   ],
   "note": "False of the code in both directions (C26_rejects_on_line, C26_accepts_off_line); the exact acceptance box is proved, and the property for increasing axis-parallel lines."
  },
  {
   "property": "C27",
   "status": "partial",
   "theorems": [
    "Mtln.C27_accepts_partial",
    "Mtln.C27_rejects_partial",
    "Mtln.C27_accepts_beyond_end",
    "Mtln.C27_beyond_end_example"
   ],
   "note": "False of the code (C27_accepts_beyond_end); acceptance of points on segments and rejection of points off the lines through the segments are proved."
  },
  {
   "property": "C28",
   "status": "proved",
   "theorems": [
    "Mtln.C28_segment",
    "Mtln.C28_symmetric",
    "Mtln.C28_far",
    "Mtln.C28_off_line",
    "Mtln.C28_exact"
   ],
   "note": "The segment found is the one whose distance sum is the length, exact characterisation."
  },
  {
   "property": "C29",
   "status": "partial",
   "theorems": [
    "Mtln.C29_iff",
    "Mtln.C29_point_iff",
    "Mtln.C29_point_other",
    "Mtln.C29_effect",
    "Mtln.C29_off_diagonal",
    "Mtln.C29_total_fails",
    "Mtln.C29_one_cell_partial"
   ],
   "note": "False of the code (C29_total_fails, C29_off_diagonal); the exact effect is proved for all lines, and the property for one conductor and a region of one cell."
  },
  {
   "property": "C30",
   "status": "partial",
   "theorems": [
    "Mtln.C30_iff",
    "Mtln.C30_point_iff",
    "Mtln.C30_effect",
    "Mtln.C30_misplaced",
    "Mtln.C30_first_node_partial"
   ],
   "note": "False of the code (C30_misplaced); the exact effect on default-geometry lines is proved, and the property at the first node."
  },
  {
   "property": "C31",
   "status": "proved",
   "theorems": [
    "Mtln.C31_source",
    "Mtln.C31_replaces",
    "Mtln.C31_independent"
   ],
   "note": "All histories of calls."
  },
  {
   "property": "C32",
   "status": "proved",
   "theorems": [
    "Mtln.C32_constructor",
    "Mtln.C32_contents",
    "Mtln.C32_physical_accepted"
   ],
   "note": "Exact acceptance condition and contents; physical parameters are accepted."
  },
  {
   "property": "C33",
   "status": "proved",
   "theorems": [
    "Mtln.C33_coefficients",
    "Mtln.C33_kernel_shift"
   ],
   "note": "All poles, residues, steps and linear currents; closed form of the integral."
  },
  {
   "property": "C34",
   "status": "partial",
   "theorems": [
    "Mtln.C34_connector_row",
    "Mtln.C34_step_error",
    "Mtln.C34_memory_partial",
    "Mtln.C34_linear_fails"
   ],
   "note": "False of the code (C34_linear_fails): i_prev is an alias of the new current. Exact error per step (C34_step_error); the memory is the convolution with the staircase history (C34_memory_partial)."
  },
  {
   "property": "C35",
   "status": "proved",
   "theorems": [
    "Mtln.C35_placement",
    "Mtln.C35_outside",
    "Mtln.C35_second_refused",
    "Mtln.C35_sums_elsewhere"
   ],
   "note": "Exact success condition and effect; rejection outside the box; second connector always refused."
  },
  {
   "property": "C36",
   "status": "proved",
   "theorems": [
    "Mtln.C36_lumped"
   ],
   "note": "Every step of every run of any line with a pole-free connector; equation and uniqueness."
  },
  {
   "property": "C37",
   "status": "partial",
   "theorems": [
    "Mtln.C37_in_partial",
    "Mtln.C37_out_partial",
    "Mtln.C37_both_does_nothing"
   ],
   "note": "Proved for in and out; false for both, which does nothing (C37_both_does_nothing)."
  },
  {
   "property": "C38",
   "status": "partial",
   "theorems": [
    "Mtln.C38_one_pole_partial",
    "Mtln.C38_pole_count_refused",
    "Mtln.C38_poles_spread_over_cells"
   ],
   "note": "False of the code: other pole counts are refused (C38_pole_count_refused) or distributed one per cell (C38_poles_spread_over_cells); proved for one pole."
  },
  {
   "property": "C39",
   "status": "partial",
   "theorems": [
    "Mtln.C39_oneWay",
    "Mtln.C39_no_memory",
    "Mtln.C39_history_ignored",
    "Mtln.C39_convolution_remembers",
    "Mtln.C39_convolution_example",
    "Mtln.C39_last_step_partial"
   ],
   "note": "False of the code: there is no memory at all (C39_no_memory, C39_history_ignored); the last-step contribution is proved exact."
  },
  {
   "property": "C40",
   "status": "proved",
   "theorems": [
    "Mtln.C40_trivial",
    "Mtln.C40_trivial_at",
    "Mtln.C40_illegal"
   ],
   "note": "Trivial impedances and illegal levels, for add and set at an end."
  },
  {
   "property": "C41",
   "status": "proved",
   "theorems": [
    "Mtln.C41_row_lt",
    "Mtln.C41_injective",
    "Mtln.C41_surjective",
    "Mtln.C41_rows_of_bundle"
   ],
   "note": "The row numbering is a bijection onto the rows, in order of levels."
  },
  {
   "property": "C42",
   "status": "proved",
   "theorems": [
    "Mtln.C42_coefficient_sums",
    "Mtln.C42_history",
    "Mtln.C42_new",
    "Mtln.C42_connector"
   ],
   "note": "Every state of every run; closure under adding connectors."
  },
  {
   "property": "C43",
   "status": "proved",
   "theorems": [
    "Mtln.C43_same_as_line",
    "Mtln.C43_example"
   ],
   "note": "Every line of a bundle without transfer impedances evolves as the line alone, for every number of steps."
  },
  {
   "property": "C44",
   "status": "proved",
   "theorems": [
    "Mtln.C44_unconnected_ends"
   ],
   "note": "Any network, any run."
  },
  {
   "property": "C45",
   "status": "partial",
   "theorems": [
    "Mtln.C45_planewave_partial",
    "Mtln.C45_planewave_example",
    "Mtln.C45_errors_partial",
    "Mtln.C45_weights_partial",
    "Mtln.C45_example",
    "Mtln.C45_first_cell_wrong"
   ],
   "note": "False of the code in the first cell (C45_first_cell_wrong); the exact weights are proved elsewhere on uniform straight lines."
  },
  {
   "property": "C46",
   "status": "proved",
   "theorems": [
    "Mtln.C46_node_equations",
    "Mtln.C46_unique",
    "Mtln.C46_prepared",
    "Mtln.C46_ohm"
   ],
   "note": "The node and state equations hold after a step and determine it; Ohm's law for resistive terminations follows."
  },
  {
   "property": "C47",
   "status": "partial",
   "theorems": [
    "Mtln.C47_order_matters",
    "Mtln.C47_order_partial"
   ],
   "note": "False of the code (C47_order_matters): calls to ground overwrite what branches add. Proved for sequences in which any two calls are branches or name different nodes."
  },
  {
   "property": "C48",
   "status": "proved",
   "theorems": [
    "Mtln.C48_symmetric",
    "Mtln.C48_symmetric_new"
   ],
   "note": "For all sequences of calls."
  },
  {
   "property": "C49",
   "status": "partial",
   "theorems": [
    "Mtln.C49_passive_partial",
    "Mtln.C49_active"
   ],
   "note": "False of the code (C49_active): a call to ground after a branch at the same node makes an active network. Proved when no call to ground names a node of an earlier branch."
  },
  {
   "property": "C50",
   "status": "proved",
   "theorems": [
    "Mtln.C50_conserved",
    "Mtln.C50_sources"
   ],
   "note": "For all sequences of branches."
  },
  {
   "property": "C51",
   "status": "partial",
   "theorems": [
    "Mtln.C51_single_source_partial",
    "Mtln.C51_cross_terms"
   ],
   "note": "False of the code (C51_cross_terms): two sourced branches at a node give cross terms. Proved for nodes named by one sourced call."
  },
  {
   "property": "C52",
   "status": "proved",
   "theorems": [
    "Mtln.C52_succeeds_iff",
    "Mtln.C52_voltages",
    "Mtln.C52_currents",
    "Mtln.C52_voltage_errors",
    "Mtln.C52_current_errors",
    "Mtln.C52_errors_example",
    "Mtln.C52_advance_errors"
   ],
   "note": "Exact success conditions and effect of both exchanges; an entry written by several nodes of one network keeps the last value."
  },
  {
   "property": "C53",
   "status": "proved",
   "theorems": [
    "Mtln.C53_order",
    "Mtln.C53_sorted",
    "Mtln.C53_slots",
    "Mtln.C53_disjoint",
    "Mtln.C53_ids",
    "Mtln.C53_rejects",
    "Mtln.C53_assertion",
    "Mtln.C53_unknown_node"
   ],
   "note": "For all descriptions."
  },
  {
   "property": "C54",
   "status": "partial",
   "theorems": [
    "Mtln.C54_first_line_partial",
    "Mtln.C54_different_rows_partial",
    "Mtln.C54_refuted"
   ],
   "note": "False of the code for several lines in a level (C54_refuted); proved for the first line of each level, hence for one line per level."
  },
  {
   "property": "C55",
   "status": "partial",
   "theorems": [
    "Mtln.C55_level_zero_partial",
    "Mtln.C55_shift",
    "Mtln.C55_refuted"
   ],
   "note": "False of the code for inner levels (C55_refuted); proved for networks of level 0."
  },
  {
   "property": "C56",
   "status": "proved",
   "theorems": [
    "Mtln.C56_capacitor"
   ],
   "note": "With or without a source in series, for a node that no other call names."
  },
  {
   "property": "C57",
   "status": "partial",
   "theorems": [
    "Mtln.C57_refuted",
    "Mtln.C57_current_and_inductor_partial",
    "Mtln.C57_errors_partial",
    "Mtln.C57_capacitor_sign"
   ],
   "note": "False of the code (C57_refuted, C57_capacitor_sign): the capacitor equation has the wrong sign of the resistor current. The current and the inductor equation are proved."
  },
  {
   "property": "C58",
   "status": "partial",
   "theorems": [
    "Mtln.C58_refuted",
    "Mtln.C58_refuted_ohm",
    "Mtln.C58_resistor_partial",
    "Mtln.C58_refuted_example"
   ],
   "note": "False: the inductance and capacitance of Conn_sRLC are not used, the termination obeys Ohm's law with the resistance alone; witness with R = L = C = 1. Proved when there is no inductor and no capacitor."
  },
  {
   "property": "C59",
   "status": "proved",
   "theorems": [
    "Mtln.C59_add_bundles",
    "Mtln.C59_fresh_manager",
    "Mtln.C59_duplicate"
   ],
   "note": "Exact characterisation of adding any list of bundles; duplicate names raise AssertionError."
  },
  {
   "property": "C60",
   "status": "partial",
   "theorems": [
    "Mtln.C60_explicit_dt_partial",
    "Mtln.C60_default_dt_partial",
    "Mtln.C60_refuted"
   ],
   "note": "False without explicit dt: a bundle's coefficients use its own dt (C60_refuted). With an explicit dt all coefficients use it, except those of dispersive elements, which are not recomputed."
  },
  {
   "property": "C61",
   "status": "proved",
   "theorems": [
    "Mtln.C61_run",
    "Mtln.C61_construction",
    "Mtln.C61_order",
    "Mtln.C61_add_networks"
   ],
   "note": "Any permutation of bundles and networks, through the constructor and a run of any length; results equal including probe records."
  },
  {
   "property": "C62",
   "status": "proved",
   "theorems": [
    "Mtln.C62_superposition",
    "Mtln.C62_rest"
   ],
   "note": "Superposition (linear combinations of state and excitations) for runs of any length of managers with any bundles and networks, and quiescence as the zero case."
  },
  {
   "property": "C63",
   "status": "proved",
   "theorems": [
    "Mtln.C63_terminations"
   ],
   "note": "Line at rest with dt at most 1e10 (a bundle never has a larger step) and consistent terminal terms; the manager and its networks come from their constructors and connect_to_ground calls, in any order of the conductors."
  },
  {
   "property": "C64",
   "status": "partial",
   "theorems": [
    "Mtln.C64_no_conductance_partial",
    "Mtln.C64_refuted"
   ],
   "note": "False: networks do not use the conductances of the lines at all (C64_no_conductance_partial, C64_refuted)."
  },
  {
   "property": "C65",
   "status": "partial",
   "theorems": [
    "Mtln.C65_clean_copy_partial",
    "Mtln.C65_no_connectors_partial",
    "Mtln.C65_memory_leaks"
   ],
   "note": "False of the code with dispersive connectors (C65_memory_leaks); proved exactly when the memory is unchanged, in particular without connectors."
  },
  {
   "property": "C66",
   "status": "partial",
   "theorems": [
    "Mtln.C66_add_pointwise",
    "Mtln.C66_commutative_associative",
    "Mtln.C66_multiply",
    "Mtln.C66_rejects",
    "Mtln.C66_refuted"
   ],
   "note": "Pointwise sum and scaling, commutativity, associativity and the neutral element are proved; rejection of functions without a parameter t is false of the code (co_varnames also lists local variables), see C66_refuted."
  },
  {
   "property": "C67",
   "status": "partial",
   "theorems": [
    "Mtln.C67_period",
    "Mtln.C67_shape_partial",
    "Mtln.C67_refuted"
   ],
   "note": "The period is proved for all parameters; the shape and the bounds everywhere except at the two ends of the plateau, where the wave is 2A (C67_refuted)."
  },
  {
   "property": "C68",
   "status": "partial",
   "theorems": [
    "Mtln.C68_ramp_partial",
    "Mtln.C68_refuted"
   ],
   "note": "Proved except at x = x0, where the ramp is 2A (C68_refuted)."
  },
  {
   "property": "C69",
   "status": "proved",
   "theorems": [
    "Mtln.C69_square",
    "Mtln.C69_triangle",
    "Mtln.C69_sin_sq"
   ],
   "note": "All amplitudes A >= 0 and all nonzero parameters."
  },
  {
   "property": "C70",
   "status": "partial",
   "theorems": [
    "Mtln.C70_trapezoidal_partial",
    "Mtln.C70_ramp_partial",
    "Mtln.C70_refuted"
   ],
   "note": "Equal except at the ends of the plateau, at x0 and at negative times, where they differ for every amplitude (C70_refuted)."
  },
  {
   "property": "C71",
   "status": "partial",
   "theorems": [
    "Mtln.C71_trapezoidal_travels",
    "Mtln.C71_double_exp_travels",
    "Mtln.C71_refuted",
    "Mtln.C71_ramp_partial"
   ],
   "note": "True of the trapezoidal and double exponential waves, false of the ramps (C71_refuted)."
  },
  {
   "property": "C72",
   "status": "proved",
   "theorems": [
    "Mtln.C72_transverse"
   ],
   "note": "All angles."
  },
  {
   "property": "C73",
   "status": "proved",
   "theorems": [
    "Mtln.C73_travelling",
    "Mtln.C73_raises"
   ],
   "note": "Including that the velocity is the largest phase velocity of the line and the polarisation is transverse."
  },
  {
   "property": "C74",
   "status": "partial",
   "theorems": [
    "Mtln.C74_direction_partial",
    "Mtln.C74_undefined_partial",
    "Mtln.C74_refuted",
    "Mtln.C74_refuted_down"
   ],
   "note": "False of the code (C74_refuted: two opposite waves get the same direction; C74_refuted_down: segments pointing down); for every segment not along the x axis the wave is turned by one rotation, which takes the segment to the z axis exactly if it does not point down, unless the rotated direction lies on the negative y side of the x-y plane; for segments along the x axis the angles are not numbers."
  },
  {
   "property": "C75",
   "status": "proved",
   "theorems": [
    "Mtln.C75_projection",
    "Mtln.C75_linear",
    "Mtln.C75_length"
   ],
   "note": "Also: rejects exactly the segments of length zero."
  },
  {
   "property": "C76",
   "status": "partial",
   "theorems": [
    "Mtln.C76_line_partial",
    "Mtln.C76_bundle_partial",
    "Mtln.C76_refuted_oblique",
    "Mtln.C76_refuted_last",
    "Mtln.C76_example"
   ],
   "note": "False of the code for oblique offsets (C76_refuted_oblique) and at the last node (C76_refuted_last); proved for offsets along an axis at every other node, with the exact value at the last node."
  },
  {
   "property": "C77",
   "status": "partial",
   "theorems": [
    "Mtln.C77_line",
    "Mtln.C77_bundle_partial",
    "Mtln.C77_refuted_bundle",
    "Mtln.C77_example",
    "Mtln.C77_errors_partial"
   ],
   "note": "Proved for lines; false for bundles, where the cell after the localization is changed too (C77_refuted_bundle), with the exact range of changed cells proved."
  },
  {
   "property": "C78",
   "status": "partial",
   "theorems": [
    "Mtln.C78_at_construction_partial",
    "Mtln.C78_refuted_always",
    "Mtln.C78_refuted"
   ],
   "note": "False of the code (C78_refuted, C78_refuted_always); proved that each node takes the transverse voltage its line has when the network is made."
  },
  {
   "property": "C79",
   "status": "partial",
   "theorems": [
    "Mtln.C79_waves_partial",
    "Mtln.C79_energy_partial",
    "Mtln.C79_refuted",
    "Mtln.C79_example"
   ],
   "note": "Proved for ports whose first voltage probe holds a float position, including the energy balance over all frequencies (Parseval). False for probes of a line: their positions are arrays and reading the waves raises ValueError (C79_refuted)."
  },
  {
   "property": "C80",
   "status": "partial",
   "theorems": [
    "Mtln.C80_refuted",
    "Mtln.C80_refuted_attribute",
    "Mtln.C80_probes_partial"
   ],
   "note": "False: add_port_probe reads self.z, which no line has, and raises AttributeError on every line (C80_refuted). The three probes can be added one by one (C80_probes_partial)."
  },
  {
   "property": "C81",
   "status": "proved",
   "theorems": [
    "Mtln.C81_errors",
    "Mtln.C81_coordinates",
    "Mtln.C81_elements",
    "Mtln.C81_cables",
    "Mtln.C81_connectors",
    "Mtln.C81_example"
   ],
   "note": "Coordinates: the last line with the id, KeyError if there is none. Elements, cables and connectors: the first match; the element and connector look-ups raise Exception and the cable look-up TypeError when nothing matches. Elements assume the well-formed lines stated in File.WellFormed."
  },
  {
   "property": "C82",
   "status": "proved",
   "theorems": [
    "Mtln.C82_errors",
    "Mtln.C82_groups",
    "Mtln.C82_partition",
    "Mtln.C82_total",
    "Mtln.C82_example"
   ],
   "note": "The groups are the fibres of the position, each in file order; nothing is lost or duplicated. C82_errors: the exact exceptions of the grouping."
  },
  {
   "property": "C83",
   "status": "proved",
   "theorems": [
    "Mtln.C83_root_errors",
    "Mtln.C83_inside_errors",
    "Mtln.C83_graph",
    "Mtln.C83_vertex",
    "Mtln.C83_levels",
    "Mtln.C83_total",
    "Mtln.C83_example"
   ],
   "note": "Vertices and edges are exactly the elements and containments of the nesting; levels are depths and edges lead to the next level. C83_root_errors, C83_inside_errors: the exact exceptions."
  },
  {
   "property": "C84",
   "status": "partial",
   "theorems": [
    "Mtln.C84_errors",
    "Mtln.C84_refuted",
    "Mtln.C84_refuted_second",
    "Mtln.C84_first_partial",
    "Mtln.C84_example"
   ],
   "note": "False: once the file has a lumped element every cable without one raises IndexError, and only the first element of a cable is placed. Proved: that first one is placed as described, and files without lumped elements."
  },
  {
   "property": "C85",
   "status": "partial",
   "theorems": [
    "Mtln.C85_single_errors",
    "Mtln.C85_multi_errors",
    "Mtln.C85_group_errors",
    "Mtln.C85_ordered_partial",
    "Mtln.C85_refuted_swap",
    "Mtln.C85_refuted_index",
    "Mtln.C85_refuted_example"
   ],
   "note": "False: connectors and sources are taken at the position given by the conductor number; nodes listed in reverse swap sources, short groups raise IndexError. Proved for groups that list conductors 0, 1, ... in order. C85_single_errors, C85_multi_errors, C85_group_errors: the exact exceptions."
  },
  {
   "property": "C86",
   "status": "partial",
   "theorems": [
    "Mtln.C86_refuted_example",
    "Mtln.C86_refuted",
    "Mtln.C86_levels_partial"
   ],
   "note": "False: of two joints at one position with one level the second replaces the first; witness is a whole file. Proved when the levels are different."
  },
  {
   "property": "C87",
   "status": "partial",
   "theorems": [
    "Mtln.C87_refuted",
    "Mtln.C87_refuted_error",
    "Mtln.C87_flat_partial",
    "Mtln.C87_example"
   ],
   "note": "False: a nesting is accepted only if every outer cable has a transfer impedance. Proved for bundles without nesting, in files without cable ends."
  },
  {
   "property": "C88",
   "status": "partial",
   "theorems": [
    "Mtln.C88_exp_partial",
    "Mtln.C88_gaussian_partial",
    "Mtln.C88_gaussian2_partial",
    "Mtln.C88_sin_partial",
    "Mtln.C88_sin_sq_partial",
    "Mtln.C88_ramp_partial",
    "Mtln.C88_trapezoidal_partial",
    "Mtln.C88_refuted",
    "Mtln.C88_example"
   ],
   "note": "False for unknown types: the function returns None, not 0. The seven known types are proved under conditions on their parameters; ramp and trapezoidal leave out the points where C68 and C67 are false, and gaussian ignores the amplitude of the file."
  },
  {
   "property": "C89",
   "status": "partial",
   "theorems": [
    "Mtln.C89_single_partial",
    "Mtln.C89_refuted"
   ],
   "note": "False: witness is a whole file with two wires in one level, whose rows differ between two orders. Proved when each level has one cable."
  },
  {
   "property": "C90",
   "status": "partial",
   "theorems": [
    "Mtln.C90_refuted",
    "Mtln.C90_empty_partial"
   ],
   "note": "False of the code: every manager with a bundle raises AttributeError (C90_refuted)."
  },
  {
   "property": "C91",
   "status": "partial",
   "theorems": [
    "Mtln.C91_line_partial",
    "Mtln.C91_refuted",
    "Mtln.C91_refuted_example"
   ],
   "note": "Proved for lines; false for bundles, which never accept a localization ending at the last node (C91_refuted)."
  },
  {
   "property": "C92",
   "status": "partial",
   "theorems": [
    "Mtln.C92_refuted_last_wins",
    "Mtln.C92_refuted"
   ],
   "note": "False of the code: only the last field remains (C92_refuted_last_wins, C92_refuted)."
  },
  {
   "property": "C93",
   "status": "proved",
   "theorems": [
    "Mtln.C93_linear",
    "Mtln.C93_example"
   ],
   "note": "For fields whose components are continuous in the variable of integration."
  },
  {
   "property": "C94",
   "status": "proved",
   "theorems": [
    "Mtln.C94_delay"
   ],
   "note": "All fields and delays."
  },
  {
   "property": "C95",
   "status": "partial",
   "theorems": [
    "Mtln.C95_refuted_always",
    "Mtln.C95_refuted"
   ],
   "note": "False of the code: bundles start without fields (C95_refuted, C95_refuted_always)."
  },
  {
   "property": "C96",
   "status": "proved",
   "theorems": [
    "Mtln.C96_effect",
    "Mtln.C96_sides",
    "Mtln.C96_example"
   ],
   "note": "Location, values (signs as the code stores them), poles, and that nothing else changes; every other side raises."
  },
  {
   "property": "C97",
   "status": "partial",
   "theorems": [
    "Mtln.C97_refuted",
    "Mtln.C97_nonzero_partial"
   ],
   "note": "False: a zero model returns early and leaves the coupling of the cable (C97_refuted). Any non-zero model replaces the coupling (C97_nonzero_partial)."
  },
  {
   "property": "C98",
   "status": "proved",
   "theorems": [
    "Mtln.C98_labels",
    "Mtln.C98_port",
    "Mtln.C98_example"
   ],
   "note": "For every record length and every entry; fft, fftshift and fftfreq are modelled by their definitions."
  },
  {
   "property": "C99",
   "status": "partial",
   "theorems": [
    "Mtln.C99_refuted",
    "Mtln.C99_refuted_attribute",
    "Mtln.C99_assembly_partial",
    "Mtln.C99_undefined_partial",
    "Mtln.C99_mismatch_partial",
    "Mtln.C99_band_partial",
    "Mtln.C99_same_port"
   ],
   "note": "False: the extraction reads line1.x, which no line has, and fails for every line (C99_refuted). The assembly of the two runs gives S under the stated conditions, and the band keeps frequencies and matrices together."
  },
  {
   "property": "C100",
   "status": "proved",
   "theorems": [
    "Mtln.C100_null",
    "Mtln.C100_exp",
    "Mtln.C100_gaussian",
    "Mtln.C100_gaussian2",
    "Mtln.C100_double_exp",
    "Mtln.C100_symbolic"
   ],
   "note": "Differential equations and initial values, for nonzero x0 and s0; symbolic forms proved for gaussian_2 and double_exp."
  },
  {
   "property": "C101",
   "status": "proved",
   "theorems": [
    "Mtln.C101_sum",
    "Mtln.C101_assoc",
    "Mtln.C101_accepts"
   ],
   "note": "Sums are pointwise, commutative and associative; C101_accepts gives functions of x that add_t_functions rejects."
  },
  {
   "property": "C102",
   "status": "proved",
   "theorems": [
    "Mtln.C102_unknown",
    "Mtln.C102_known",
    "Mtln.C102_example"
   ],
   "note": "KeyError without a bundle of the name; otherwise only bundles of that name change, as by their own method."
  },
  {
   "property": "C103",
   "status": "partial",
   "theorems": [
    "Mtln.C103_every_partial",
    "Mtln.C103_every_example",
    "Mtln.C103_refuted_single",
    "Mtln.C103_refuted_several",
    "Mtln.C103_single_partial"
   ],
   "note": "False: a single node with any connector but five types, and several nodes without MultiwireConnector, stay open. Proved for four single types with all values given; Conn_sRLC is C58."
  },
  {
   "property": "C104",
   "status": "partial",
   "theorems": [
    "Mtln.C104_refuted",
    "Mtln.C104_refuted_source",
    "Mtln.C104_refuted_open",
    "Mtln.C104_small_partial"
   ],
   "note": "False: a resistance of 0 leaves the node open, and raises ZeroDivisionError with a source. Proved for resistances that are not 0."
  },
  {
   "property": "C105",
   "status": "proved",
   "theorems": [
    "Mtln.VF.C105_RL_parallel",
    "Mtln.VF.C105_RC_parallel",
    "Mtln.VF.C105_RL_defined",
    "Mtln.VF.C105_series_defined",
    "Mtln.VF.C105_RL_series",
    "Mtln.VF.C105_RL_admittance",
    "Mtln.VF.C105_Zw_admittance",
    "Mtln.VF.C105_example"
   ],
   "note": "Exact reciprocals and parallel admittances; RLpar for nonzero frequency, RLseriesDisp with n = 1 for frequencies that are not negative."
  },
  {
   "property": "C106",
   "status": "proved",
   "theorems": [
    "Mtln.VF.C106_missing",
    "Mtln.VF.C106_rational",
    "Mtln.VF.C106_passive",
    "Mtln.VF.C106_error",
    "Mtln.VF.C106_exact",
    "Mtln.VF.C106_static",
    "Mtln.VF.C106_example"
   ],
   "note": "Any number of terms; also IndexError for missing times and the static value."
  },
  {
   "property": "C107",
   "status": "partial",
   "theorems": [
    "Mtln.VF.C107_partial",
    "Mtln.VF.C107_corner",
    "Mtln.VF.C107_refuted"
   ],
   "note": "False at the corner frequency, where both parts are added and the value doubles (C107_corner, C107_refuted: no continuous extension from below). Proved below and above it."
  },
  {
   "property": "C108",
   "status": "partial",
   "theorems": [
    "Mtln.VF.C108_partial",
    "Mtln.VF.C108_refuted",
    "Mtln.VF.C108_refuted_example",
    "Mtln.VF.C108_example",
    "Mtln.VF.C108_refuted_error"
   ],
   "note": "False: the index is i times the number of poles, which is the diagonal only when there is one pole more than ports (C108_partial). Otherwise other responses are written (C108_refuted) or IndexError is raised (C108_refuted_error)."
  },
  {
   "property": "C109",
   "status": "proved",
   "theorems": [
    "Mtln.VF.C109_sum",
    "Mtln.VF.C109_terms",
    "Mtln.VF.C109_missing",
    "Mtln.VF.C109_conjugate",
    "Mtln.VF.C109_example"
   ],
   "note": "Away from the poles; IndexError is shown when residues are missing, conjugate symmetry for any pairing of poles and residues."
  },
  {
   "property": "C110",
   "status": "proved",
   "theorems": [
    "Mtln.C110_sections",
    "Mtln.C110_missing",
    "Mtln.C110_example"
   ],
   "note": ""
  },
  {
   "property": "C111",
   "status": "proved",
   "theorems": [
    "Mtln.C111_node",
    "Mtln.C111_line",
    "Mtln.C111_material",
    "Mtln.C111_cable",
    "Mtln.C111_transfer",
    "Mtln.C111_coordinates",
    "Mtln.C111_example"
   ],
   "note": ""
  },
  {
   "property": "C112",
   "status": "partial",
   "theorems": [
    "Mtln.C112_errors",
    "Mtln.C112_common",
    "Mtln.C112_one_partial",
    "Mtln.C112_several_partial",
    "Mtln.C112_refuted_integer",
    "Mtln.C112_refuted_resistance",
    "Mtln.C112_refuted_list",
    "Mtln.C112_accepted_partial",
    "Mtln.C112_example_a",
    "Mtln.C112_example_b",
    "Mtln.C112_refuted_number"
   ],
   "note": "False: of a one-conductor wire a number written without decimal point (an int) is refused with ValueError (C112_refuted_integer); a one-dimensional list of inductances is never accepted (C112_refuted_list); the entries of a resistance matrix off the diagonal are dropped (C112_refuted_resistance, C112_example_b). Partial: floats, and matrices with a resistance on the diagonal; accepted for physical parameters. C112_errors: the exact exceptions."
  },
  {
   "property": "C113",
   "status": "partial",
   "theorems": [
    "Mtln.C113_errors",
    "Mtln.C113_number",
    "Mtln.C113_range_partial",
    "Mtln.C113_distinct_partial",
    "Mtln.C113_refuted"
   ],
   "note": "False: a cable may list more elements than its wire has conductors, and the extra elements get numbers of the next line (C113_refuted). Partial: when every line has a conductor for every element of its cable, numbers lie in the line and are distinct."
  },
  {
   "property": "C117",
   "status": "proved",
   "theorems": [
    "Mtln.C117_source",
    "Mtln.C117_example"
   ],
   "note": ""
  },
  {
   "property": "C120",
   "status": "partial",
   "theorems": [
    "Mtln.C120_errors",
    "Mtln.C120_graph",
    "Mtln.C120_unique_partial",
    "Mtln.C120_refuted"
   ],
   "note": "False: when two cables list an element, the graph records the last one and the look-up by element returns the first one (C120_refuted). Partial: they agree when only one cable lists the element. C120_errors: the exact exceptions of the graph's look-up."
  },
  {
   "property": "C121",
   "status": "partial",
   "theorems": [
    "Mtln.C121_errors",
    "Mtln.C121_effect_partial",
    "Mtln.C121_refuted",
    "Mtln.C121_refuted_row",
    "Mtln.C121_one_end_partial",
    "Mtln.C121_none",
    "Mtln.C121_example"
   ],
   "note": "False: the position of the element in its cable is passed as the conductor, which `set_resistance_in_region` uses to index the cells of the region, so a connector at the end of a later element of a cable raises IndexError (C121_refuted); and the whole matrix row of conductor 0, mutual terms included, is overwritten (C121_refuted_row). Partial: an end at the first element puts the resistance of its connector into the cell of the node, all other ends do nothing."
  },
  {
   "property": "C122",
   "status": "partial",
   "theorems": [
    "Mtln.C122_edge_errors",
    "Mtln.C122_edge_partial",
    "Mtln.C122_edges_partial",
    "Mtln.C122_refuted",
    "Mtln.C122_C123_example"
   ],
   "note": "False for the direction both, which does nothing (C122_refuted). Proved for the directions in and out, for any graph and number of edges."
  },
  {
   "property": "C123",
   "status": "partial",
   "theorems": [
    "Mtln.C123_end_partial",
    "Mtln.C123_refuted"
   ],
   "note": "False for a connector with transfer impedance 0, which leaves the coupling of the cable in place (C123_refuted), and for the direction both. Proved for every other impedance, for any graph."
  },
  {
   "property": "C118",
   "status": "proved",
   "theorems": [
    "Mtln.C118_run",
    "Mtln.C118_probes",
    "Mtln.C118_field",
    "Mtln.C118_localized",
    "Mtln.C118_C126_example",
    "Mtln.C118_manager"
   ],
   "note": "For any parser; the frames of the probes are those of C02."
  },
  {
   "property": "C124",
   "status": "proved",
   "theorems": [
    "Mtln.C124_bundles",
    "Mtln.C124_names",
    "Mtln.C124_one_line_per_cable",
    "Mtln.C124_C125_example"
   ],
   "note": "For any file and any enumeration order of the sets of cables without repetitions."
  },
  {
   "property": "C125",
   "status": "partial",
   "theorems": [
    "Mtln.C125_dictionaries",
    "Mtln.C125_first",
    "Mtln.C125_last",
    "Mtln.C125_agree_partial",
    "Mtln.C125_refuted"
   ],
   "note": "False when two bundles share a cable: the search gives the first bundle, the dictionary the last one (C125_refuted, C124_C125_example). Proved when no two bundles share the cable; the look-ups themselves are characterised in general."
  },
  {
   "property": "C126",
   "status": "partial",
   "theorems": [
    "Mtln.C126_rows",
    "Mtln.C126_level_zero_partial",
    "Mtln.C126_refuted"
   ],
   "note": "False for networks inside a shield: every run registers the networks again and shifts their rows again, so that a second run may fail (C126_rows, C126_refuted). Proved for networks of level 0: the second run starts from exactly what the first one has left, at time 0."
  },
  {
   "property": "C114",
   "status": "partial",
   "theorems": [
    "Mtln.C114_errors",
    "Mtln.C114_source",
    "Mtln.C114_effect",
    "Mtln.C114_first_cable_partial",
    "Mtln.C114_all",
    "Mtln.C114_refuted"
   ],
   "note": "The number of the conductor of a source is used as a row of the whole bundle (C114_source, C114_effect: exact). It is the row of the conductor of the cable only if the cable is the first line of the outermost level (C114_first_cable_partial); C114_refuted: the source of a wire inside a shield drives the shield. C114_all: the longitudinal fields of other rows, and everything else, are unchanged. C114_errors: the exact exceptions, in the order of their tests."
  },
  {
   "property": "C115",
   "status": "proved",
   "theorems": [
    "Mtln.C115_bundle_errors",
    "Mtln.C115_element_errors",
    "Mtln.C115_errors",
    "Mtln.C115_probe",
    "Mtln.C115_all",
    "Mtln.C115_by_name",
    "Mtln.C115_example"
   ],
   "note": "C115_probe (exact for one probe), C115_all (all probes: places, order, nothing else changes), C115_by_name (the probe found by a name); two probes with one name: only the last is found. C115_errors, C115_element_errors, C115_bundle_errors: the exact exceptions."
  },
  {
   "property": "C116",
   "status": "partial",
   "theorems": [
    "Mtln.C116_every",
    "Mtln.C116_resistance_errors",
    "Mtln.C116_errors",
    "Mtln.C116_join",
    "Mtln.C116_rejects",
    "Mtln.C116_resistors_partial",
    "Mtln.C116_refuted",
    "Mtln.C116_refuted_series",
    "Mtln.C116_refuted_example",
    "Mtln.C116_example"
   ],
   "note": "False of the code: capacitors and inductances of the connectors are ignored, so that a capacitor in a junction is a short circuit (C116_refuted, C116_refuted_example) and a series RLC connector is its resistance (C116_refuted_series). C116_join is the exact effect; proved for two resistors at nodes without other sources (C116_resistors_partial), pairs of another size are rejected (C116_rejects). C116_errors, C116_resistance_errors: the exact exceptions."
  },
  {
   "property": "C119",
   "status": "partial",
   "theorems": [
    "Mtln.C119_groups",
    "Mtln.C119_level_errors",
    "Mtln.C119_nodes",
    "Mtln.C119_ends_partial",
    "Mtln.C119_refuted"
   ],
   "note": "False of the code: the end is stored once for each cable, so a node at the other end of a cable that is already in the joint is put at the end of the first one (C119_refuted: both ends of one wire). C119_nodes is the exact statement; proved as stated if the coordinates of one cable in the joint are on one side (C119_ends_partial). C119_level_errors: the exact exceptions of the level of a cable."
  },
  {
   "property": "C127",
   "status": "partial",
   "theorems": [
    "Mtln.C127_level_partial",
    "Mtln.C127_refuted"
   ],
   "note": "False of the code: the level is that of the cable of the last coordinate (C127_refuted: a junction of a shield and a wire in it). C127_level_partial: exactly the level of the last cable, hence the level of all if they have the same."
  },
  {
   "property": "C128",
   "status": "proved",
   "theorems": [
    "Mtln.C128_networks",
    "Mtln.C128_example"
   ],
   "note": "Every network of the parser is a new network followed by connection calls, so C48, C49 and C50 apply; passivity for resistances that are not negative."
  },
  {
   "property": "C129",
   "status": "proved",
   "theorems": [
    "Mtln.C129_bounce",
    "Mtln.C129_matched",
    "Mtln.C129_mild",
    "Mtln.C129_exact",
    "Mtln.C129_solution",
    "Mtln.C129_unique",
    "Mtln.C129_program"
   ],
   "note": "Closed form with both reflection coefficients (C129_bounce, C129_matched) and agreement with the solution of the telegrapher's equations at nodes and cell centres, in the integrated sense (C129_mild, C129_program from the arguments of the constructor) and for every classical solution (C129_exact). The solution in the integrated sense exists for every source that is off before the initial time (C129_solution, a sum of images) and is unique (C129_unique)."
  },
  {
   "property": "C130",
   "status": "partial",
   "theorems": [
    "Mtln.C130_delay_partial",
    "Mtln.C130_refuted"
   ],
   "note": "False: all recorded values are one time step late, because the sources are evaluated at the beginning of the step and the value is stamped with its end (C130_refuted). Proved: the value stamped t is the exact value at t - dt, for voltages at the node and for currents in the middle of the cell (C130_delay_partial)."
  },
  {
   "property": "C131",
   "status": "proved",
   "theorems": [
    "Mtln.C131_step_iff",
    "Mtln.C131_steady",
    "Mtln.C131_series"
   ],
   "note": "Both directions (C131_step_iff, C131_steady) and the explicit series circuit (C131_series)."
  },
  {
   "property": "C132",
   "status": "proved",
   "theorems": [
    "Mtln.C132_settles"
   ],
   "note": "Explicit bound after q round trips and proof that the product of the reflection coefficients is smaller than one (C132_settles)."
  },
  {
   "property": "C133",
   "status": "proved",
   "theorems": [
    "Mtln.C133_step",
    "Mtln.C133_energy",
    "Mtln.C133_elements"
   ],
   "note": "C133_step and C133_energy for single steps and whole runs; C133_elements derives the network hypothesis from the calls made (resistors and capacitors)."
  },
  {
   "property": "C134",
   "status": "proved",
   "theorems": [
    "Mtln.C134_bounded"
   ],
   "note": "C134_bounded; demoCharged and demoChargedC show that the hypotheses can be met by charged managers, with a resistor and with a capacitor."
  },
  {
   "property": "C135",
   "status": "proved",
   "theorems": [
    "Mtln.C135_run",
    "Mtln.C135_network"
   ],
   "note": "C135_run for runs; C135_network derives the hypothesis on networks from the calls made."
  },
  {
   "property": "C136",
   "status": "proved",
   "theorems": [
    "Mtln.C136_converges",
    "Mtln.C136_program"
   ],
   "note": "Theorems C136_converges, C136_program. The second order is lost (first order remains) when the time step is changed after construction, as the tests of the project do, because the coefficients of the ends are not recomputed; the bound shows the term (1 - dt/tau) dx this costs."
  },
  {
   "property": "C137",
   "status": "proved",
   "theorems": [
    "Mtln.C137_program",
    "Mtln.C137_converges_at_limit"
   ],
   "note": "Theorems C137_converges_at_limit, C137_program."
  },
  {
   "property": "C138",
   "status": "proved",
   "theorems": [
    "Mtln.C138_forget",
    "Mtln.C138_relax",
    "Mtln.C138_short",
    "Mtln.C138_courant",
    "Mtln.C138_program"
   ],
   "note": "C138_relax, C138_forget, C138_program for lines from the constructor; C138_short and C138_courant show that the two conditions cannot be dropped."
  },
  {
   "property": "C139",
   "status": "proved",
   "theorems": [
    "Mtln.C139_unique",
    "Mtln.C139_exists",
    "Mtln.C139_settles",
    "Mtln.C139_program"
   ],
   "note": "C139_unique, C139_exists, C139_settles; C139_program from the arguments of the constructor."
  },
  {
   "property": "C140",
   "status": "partial",
   "theorems": [
    "Mtln.C140_resistance_iff",
    "Mtln.C140_conductance_iff",
    "Mtln.C140_last_node",
    "Mtln.C140_one_cell_partial",
    "Mtln.C140_one_node_partial",
    "Mtln.C140_refuted",
    "Mtln.C140_order",
    "Mtln.C140_order_kinds",
    "Mtln.C140_order_resistance",
    "Mtln.C140_order_example"
   ],
   "note": "False. For every bundle, region and conductor the exact effect is proved: one row of one matrix is written (row `conductor` of cell or node `i1 + conductor`), with the total divided by the distance of the nodes nearest to the ends; the calls succeed exactly under the stated conditions. So on a bundle of two cells of length 1 the total over the whole bundle is half of the argument, and at the last node both calls raise IndexError, while the version for lines moves the resistance into the last cell. Proved part: conductor 0 and a region that ends at most one node after its start."
  },
  {
   "property": "C141",
   "status": "proved",
   "theorems": [
    "Mtln.C141_reciprocity",
    "Mtln.C141_ports",
    "Mtln.C141_voltages",
    "Mtln.C141_field",
    "Mtln.C141_program"
   ],
   "note": "The convolution identity for arbitrary excitations, its consequences for two ports (currents and voltages) and for an end and a field inside, and the statement for programs that construct one line and run it twice."
  },
  {
   "property": "C142",
   "status": "proved",
   "theorems": [
    "Mtln.C142_accepted",
    "Mtln.C142_simulation",
    "Mtln.C142_exact",
    "Mtln.C142_example"
   ],
   "note": "C142_accepted and C142_simulation for cables of any number of conductors; C142_exact for straight lossless cables of one conductor, with the solution in the integrated sense (exists and is unique for each source that is off before time zero: C129_solution, C129_unique). Time steps above 1e10 are excluded in (b) and (c), because the manager starts from that number."
  },
  {
   "property": "C143",
   "status": "partial",
   "theorems": [
    "Mtln.C143_cells_partial",
    "Mtln.C143_last_node",
    "Mtln.C143_refuted"
   ],
   "note": "False on bent lines: when the first node is nearest to the end position, the code compares with the last cell (index -1), and a position next to the first node, off the line but in the direction of the last cell, drives the last cell (C143_refuted). Proved in all other cases (C143_cells_partial); a start position for which the last node is nearest, but off it, raises IndexError although it may be on the line (C143_last_node)."
  },
  {
   "property": "C144",
   "status": "proved",
   "theorems": [
    "Mtln.C144_losses",
    "Mtln.C144_program",
    "Mtln.C144_lossless",
    "Mtln.C144_two",
    "Mtln.C144_runs"
   ],
   "note": "The Fortran solvers are modelled in Model/Fortran.lean, with real numbers for single precision."
  },
  {
   "property": "C145",
   "status": "partial",
   "theorems": [
    "Mtln.C145_refuted",
    "Mtln.C145_settles_partial",
    "Mtln.C145_uncoupled",
    "Mtln.C145_homogeneous_partial",
    "Mtln.C145_pair_partial",
    "Mtln.C145_shipped_losses",
    "Mtln.C145_shipped_three",
    "Mtln.C145_shipped_two"
   ],
   "note": "False in general: the time step is 0.95 cells divided by the velocity of the fastest conductor by itself, which can be slower than the fastest mode; the arrays for two strongly coupled conductors in a homogeneous medium grow beyond every bound (C145_refuted). Proved when the modes are slower than W / 0.95 (C145_settles_partial), always without coupling (C145_uncoupled), for two equal conductors with a mutual inductance below 0.312 times the inductance (C145_pair_partial), and for the data of the three programs that are shipped (C145_shipped_losses, C145_shipped_three, C145_shipped_two)."
  },
  {
   "property": "C146",
   "status": "partial",
   "theorems": [
    "Mtln.C146_refuted",
    "Mtln.C146_fast_partial",
    "Mtln.C146_kept"
   ],
   "note": "False: the largest velocity is kept between calls, and a call for a slower line uses the time step of the fastest line so far (C146_refuted). A call for a line with a conductor at least as fast as all before is that of a fresh program (C146_fast_partial); what is kept after any sequence of calls is the largest velocity in the calls of each solver (C146_kept)."
  },
  {
   "property": "C147",
   "status": "partial",
   "theorems": [
    "Mtln.C147_refuted",
    "Mtln.C147_nodes_partial",
    "Mtln.C147_one_node_partial"
   ],
   "note": "get_max_timestep never returns a value: it reads x(0), which is outside the bounds of x, and velocities that have no values (C147_refuted). The nodes are as stated for at least one cell (C147_nodes_partial)."
  },
  {
   "property": "C148",
   "status": "proved",
   "theorems": [
    "Mtln.C148_part",
    "Mtln.C148_succeeds",
    "Mtln.C148_program"
   ],
   "note": "C148_part is the exact equality of runs, C148_succeeds the equivalence of success, C148_program the statement for programs that call the constructor."
  },
  {
   "property": "C149",
   "status": "proved",
   "theorems": [
    "Mtln.C149_cone",
    "Mtln.C149_causality",
    "Mtln.C149_front",
    "Mtln.C149_delay"
   ],
   "note": "Causality, the front and the delay are instances of C149_cone, a relation that one step raises by one; distances may be any real-valued function of slope at most one, so meshes of bundles joined by networks are included."
  },
  {
   "property": "C150",
   "status": "partial",
   "theorems": [
    "Mtln.C150_refuted",
    "Mtln.C150_refuted_free",
    "Mtln.C150_rc_partial"
   ],
   "note": "False for connect_to_ground_LCpRs, because of the sign of C57: C150_refuted (from rest, constant source of 1 V, half the stability limit) and C150_refuted_free (no source; the voltage of the end is 12\u00b72^k after k steps). Proved for networks of resistors and capacitors (C150_rc_partial)."
  },
  {
   "property": "C151",
   "status": "proved",
   "theorems": [
    "Mtln.C151_growth",
    "Mtln.C151_sharp"
   ],
   "note": "C151_growth; C151_sharp shows that linear growth occurs."
  },
  {
   "property": "C152",
   "status": "proved",
   "theorems": [
    "Mtln.C152_pulse"
   ],
   "note": "C152_pulse."
  },
  {
   "property": "C153",
   "status": "proved",
   "theorems": [
    "Mtln.C153_keeps",
    "Mtln.C153_steady"
   ],
   "note": "C153_steady is the equivalence, C153_keeps the part that needs no assumption that the manager can be started. Bundles of dispersive transfer impedances (convolution memory) are excluded by the hypothesis Lumped."
  },
  {
   "property": "C154",
   "status": "proved",
   "theorems": [
    "Mtln.C154_split",
    "Mtln.C154_join"
   ],
   "note": "C154_split and C154_join are the two directions; Twin says what is equal."
  },
  {
   "property": "C155",
   "status": "proved",
   "theorems": [
    "Mtln.C155_necessary",
    "Mtln.C155_sufficient",
    "Mtln.C155_bounded"
   ],
   "note": "As in C153 the circuit has no conductance in the half cells at the ends, because networks ignore it (C64)."
  },
  {
   "property": "C156",
   "status": "proved",
   "theorems": [
    "Mtln.C156_reciprocity",
    "Mtln.C156_ports"
   ],
   "note": "`C156_reciprocity` covers distributed fields as well as sources, `C156_ports` single sources (the waveform must not vanish at all sampled pairs). The convolutions are written out in Spec/ManagerReciprocity."
  },
  {
   "property": "C157",
   "status": "proved",
   "theorems": [
    "Mtln.C157_relax",
    "Mtln.C157_solution",
    "Mtln.C157_settles",
    "Mtln.C157_forget"
   ],
   "note": "`C157_relax` is the case of sources that end, `C157_solution` existence and uniqueness of the direct current solution, `C157_settles` convergence to it, `C157_forget` arbitrary sources. The condition `MTLN.Dissipates` is a property of the resistor matrices and the way the nodes are attached (Spec/ManagerRelax); without it lossless bundles ring forever."
  },
  {
   "property": "C158",
   "status": "proved",
   "theorems": [
    "Mtln.C158_timestep",
    "Mtln.C158_proper",
    "Mtln.C158_stable",
    "Mtln.C158_line"
   ],
   "note": "Props/BundleStep.lean, Lemmas/BlockSum.lean. C158_timestep (the automatic step of the bundle's matrices is the smallest of its lines' and the one it gets), C158_proper (positive definiteness, symmetry and dissipation pass from the lines to the bundle), C158_stable (the hypotheses of C134, C151-C157 hold for time steps below those of the lines), C158_line (lines made by the constructor from physical data with equally divided segments meet the hypotheses; for other meshes see C24)."
  },
  {
   "property": "C159",
   "status": "proved",
   "theorems": [
    "Mtln.C159_matched",
    "Mtln.C159_rest",
    "Mtln.C159_program",
    "Mtln.C159_runs",
    "Mtln.C159_startable",
    "Mtln.C159_dissipates",
    "Mtln.C159_growth",
    "Mtln.C159_settles",
    "Mtln.C159_reciprocal",
    "Mtln.C159_sources",
    "Mtln.C159_constant",
    "Mtln.C159_silent",
    "Mtln.C159_bounded",
    "Mtln.C159_stable_program",
    "Mtln.C159_settles_program",
    "Mtln.C159_example"
   ],
   "note": "C159_matched, C159_rest and C159_program show that programs satisfy the hypotheses of the manager theorems; C159_runs, C159_startable, C159_growth, C159_settles, C159_reciprocal draw the conclusions. C159_sources, C159_constant, C159_silent, C159_bounded lift the conditions on sources to programs, and C159_stable_program and C159_settles_program are stated for the program alone; C159_example."
  },
  {
   "property": "C160",
   "status": "proved",
   "theorems": [
    "Mtln.C160_network",
    "Mtln.C160_plan",
    "Mtln.C160_bundle",
    "Mtln.C160_program",
    "Mtln.C160_example"
   ],
   "note": "C160_network, C160_plan, C160_bundle, C160_program; C160_example."
  },
  {
   "property": "C161",
   "status": "proved",
   "theorems": [
    "Mtln.C161_program",
    "Mtln.C161_lines",
    "Mtln.C161_runs",
    "Mtln.C161_stable",
    "Mtln.C161_settles",
    "Mtln.C161_example"
   ],
   "note": "C161_program gives the program, C161_runs, C161_stable and C161_settles its consequences; C161_lines derives proper lines from the cables of the file. Exact real arithmetic."
  },
  {
   "property": "C162",
   "status": "proved",
   "theorems": [
    "Mtln.C162_accepted",
    "Mtln.C162_lines",
    "Mtln.C162_point",
    "Mtln.C162_runs",
    "Mtln.C162_settles",
    "Mtln.C162_example"
   ],
   "note": "Distributed sources and shields are excluded."
  },
  {
   "property": "C163",
   "status": "proved",
   "theorems": [
    "Mtln.C163_response",
    "Mtln.C163_real",
    "Mtln.C163_steady",
    "Mtln.C163_fit"
   ],
   "note": "C163_response, C163_real and C163_steady. The wrong previous current in the update of the memory (C34) changes the impedance for a positive time step but neither its limit nor its value at direct current."
  },
  {
   "property": "C164",
   "status": "partial",
   "theorems": [
    "Mtln.Text.C164_fields",
    "Mtln.Text.C164_int",
    "Mtln.Text.C164_float",
    "Mtln.Text.C164_coordinates",
    "Mtln.Text.C164_elementOfNode_partial",
    "Mtln.Text.C164_nodeCoordId_partial",
    "Mtln.Text.C164_lineElemId_partial",
    "Mtln.Text.C164_listOfCoordinates_partial",
    "Mtln.Text.C164_isAtNode_partial",
    "Mtln.Text.C164_terminalSource_partial",
    "Mtln.Text.C164_refuted_zeros",
    "Mtln.Text.C164_natural_error",
    "Mtln.Text.C164_int_error"
   ],
   "note": "False of the code: an id written as 03 is the number 3 when the line is built (`_getListOfCoordinates`), but not when the element at a coordinate is looked for (`_getElementOfNode`, `_getLineElemIdFromCoordId`), which compare texts (C164_refuted_zeros). Proved for ids written as Python writes them (theorems ending in _partial); blanks, int, float and coordinates without condition."
  },
  {
   "property": "C165",
   "status": "partial",
   "theorems": [
    "Mtln.C165_agrees_partial",
    "Mtln.C165_same_order_partial",
    "Mtln.C165_run_partial",
    "Mtln.C165_fails_raises",
    "Mtln.C165_fails_repeated",
    "Mtln.C165_fails_repeated_second",
    "Mtln.C165_refuted"
   ],
   "note": "False: a product of the number 0 with the array of another conductor is an array of zeros, which is added and broadcast. With different orders, none of which is one, the second step raises ValueError; the history of a model with one pole is multiplied by the order of the model on the other conductor, and lost if that is a resistance or an inductance (C165_fails_raises, C165_fails_repeated, C165_refuted). Proved: with equal orders in a cell the objects compute exactly the history terms of the models in any number of steps, also along runs of lines, which justifies the vectors of poles in the rest of the model."
  },
  {
   "property": "C166",
   "status": "partial",
   "theorems": [
    "Mtln.C166_emf_partial",
    "Mtln.C166_example",
    "Mtln.C166_response_partial",
    "Mtln.C166_limit_partial",
    "Mtln.C166_no_poles_partial",
    "Mtln.C166_refuted"
   ],
   "note": "False of the code for models with poles. C166_emf_partial gives exactly what a step computes: the induced voltage depends on the new and the old outer current only (the memory of the poles is attached to the inner row and read with the outer one, see C39), C166_response_partial gives the impedance that is realised, and C166_limit_partial shows that it tends to (cte + prop z)/factor when the time step goes to zero: the poles vanish. C166_refuted: for the model 1/(s+1) the limit at direct current is 0 and not 1. Without poles the property holds (C166_no_poles_partial). C166_emf_partial is for one call; several poles raise a ValueError or are spread over the cells (C38), so with poles the pole count is 1 there. C166_example shows that the hypotheses hold for a bundle with a pole."
  },
  {
   "property": "C167",
   "status": "partial",
   "theorems": [
    "Mtln.C167_energy_partial",
    "Mtln.C167_energy_run_partial",
    "Mtln.C167_bounded_partial",
    "Mtln.C167_refuted"
   ],
   "note": "False: the automatic time step ignores connectors. `C167_refuted`: a shorted loop of one cell, run with half of its automatic time step, grows without bound when 100 ohm in parallel with 0.01 F are added, although line and connector are passive. Proved instead, for connectors made of resistances, inductances and parallel RC or RL circuits (`Foster`, proved positive real): an energy that includes the memories of the connectors never increases (`C167_energy_partial`), and all voltages and currents are bounded for all time if the time step is below the automatic one of the inductances from which `dt\u00b2/4` times the residues is taken (`C167_bounded_partial`); the same loop with 1 ohm meets that. Complex pairs of poles are not covered."
  },
  {
   "property": "C168",
   "status": "partial",
   "theorems": [
    "Mtln.C168_count_partial",
    "Mtln.C168_refuted"
   ],
   "note": "False of the code: a termination of type Conn_LCpRs counts 0 but gets two state variables, and for connectors of several wires the function looks at the position in the list and the constructor at the conductor (C168_refuted). Proved: for connections ordered by conductor, none of type Conn_LCpRs, each connector of several wires at the place of its conductor, the count is exactly what the constructor adds (C168_count_partial)."
  },
  {
   "property": "C169",
   "status": "proved",
   "theorems": [
    "Mtln.C169_outside",
    "Mtln.C169_built",
    "Mtln.C169_out"
   ],
   "note": "C169_outside is the statement about runs: MTLN.Shows is a relation that says the matrices are block triangular, and that the fields, excitations and probes of the outer rows agree. C169_built shows that bundles built from levels and any sequence of inward transfer impedances (on the line or on a connector), transfer impedances between outer levels, localized fields and probes satisfy it, provided that the smallest time step is that of an outer line (otherwise the automatic step of the run depends on the inside). C169_out: with direction out the hypothesis fails. Regional resistances and external fields are not among the calls of C169_built, but C169_outside applies to any bundle they leave."
  },
  {
   "property": "C170",
   "status": "proved",
   "theorems": [
    "Mtln.C170_periodic",
    "Mtln.C170_unique",
    "Mtln.C170_program"
   ],
   "note": "Existence is proved by linear algebra (injective implies surjective on the finite-dimensional space of states inside the line), approach by the decay of free motions. `C170_program` is the statement for lines of the constructor. The period must be a whole number of time steps. Lines with dispersive connectors are not covered."
  },
  {
   "property": "C171",
   "status": "proved",
   "theorems": [
    "Mtln.C171_wave",
    "Mtln.C171_only",
    "Mtln.C171_relation",
    "Mtln.C171_mode",
    "Mtln.C171_velocity",
    "Mtln.C171_exists",
    "Mtln.C171_program"
   ],
   "note": "`C171_wave` and `C171_only` are the two directions, `C171_velocity` and `C171_exists` concern one conductor, `C171_program` is the statement for lines of the constructor. Lines with losses are not covered."
  },
  {
   "property": "C172",
   "status": "proved",
   "theorems": [
    "Mtln.C172_run",
    "Mtln.C172_terminal",
    "Mtln.C172_modes",
    "Mtln.C172_decoupled"
   ],
   "note": "`C172_run` is the statement about runs, `C172_terminal` the one about terminal coefficients, `C172_modes` and `C172_decoupled` the modal decomposition."
  },
  {
   "property": "C173",
   "status": "proved",
   "theorems": [
    "Mtln.C173_run",
    "Mtln.C173_source",
    "Mtln.C173_probe",
    "Mtln.C173_time_step",
    "Mtln.C173_resistance",
    "Mtln.C173_conductance",
    "Mtln.C173_connector",
    "Mtln.C173_copy",
    "Mtln.C173_new",
    "Mtln.C173_call",
    "Mtln.C173_calls",
    "Mtln.C173_program",
    "Mtln.C173_readings"
   ],
   "note": "`C173_program` is the statement for whole programs, `C173_readings` reads off the probes. `add_external_field` is not among the calls, since waveforms of plane waves contain the speed of light in metres per second."
  },
  {
   "property": "C174",
   "status": "proved",
   "theorems": [
    "Mtln.C174_periodic",
    "Mtln.C174_always",
    "Mtln.C174_unique",
    "Mtln.C174_program"
   ],
   "note": "C174_periodic, C174_always, C174_unique, C174_program; the demo manager with a sinusoidal source and a resistor (demoSine_periodic) shows the hypotheses can be met."
  },
  {
   "property": "C175",
   "status": "proved",
   "theorems": [
    "Mtln.C175_steady",
    "Mtln.C175_response",
    "Mtln.C175_unique",
    "Mtln.C175_program"
   ],
   "note": "C175_steady, C175_response, C175_unique, C175_program; demoDriven_sinus shows the hypotheses can be met."
  },
  {
   "property": "C176",
   "status": "proved",
   "theorems": [
    "Mtln.VF.C176_medium",
    "Mtln.VF.C176_four",
    "Mtln.VF.C176_one",
    "Mtln.VF.C176_lines",
    "Mtln.VF.C176_z",
    "Mtln.VF.C176_recovered",
    "Mtln.VF.C176_eps",
    "Mtln.VF.C176_example"
   ],
   "note": "The fit itself is skrf's and is an argument; numbers written as text are the numbers; the frequencies are exact powers of ten."
  },
  {
   "property": "C177",
   "status": "proved",
   "theorems": [
    "Mtln.VF.C177_f",
    "Mtln.VF.C177_junction",
    "Mtln.VF.C177_unknown",
    "Mtln.VF.C177_error",
    "Mtln.VF.C177_fields",
    "Mtln.VF.C177_example"
   ],
   "note": "The keys that `_f` collects are not part of the model because they are never returned."
  },
  {
   "property": "C178",
   "status": "proved",
   "theorems": [
    "Mtln.C178_circuit",
    "Mtln.C178_response",
    "Mtln.C178_program"
   ],
   "note": "General form with the terminal coefficients of another time step (as the code leaves them when dt is changed), incident fields and connectors of resistances and inductances; C178_program starts from the constructor."
  },
  {
   "property": "C179",
   "status": "proved",
   "theorems": [
    "Mtln.C179_reciprocal",
    "Mtln.C179_power",
    "Mtln.C179_passive",
    "Mtln.C179_program",
    "Mtln.C179_transfer"
   ],
   "note": "C179_reciprocal and C179_transfer (reciprocity), C179_power (exact balance of mean power), C179_passive (non-negative), C179_program (for lines made by the constructor and any time step). Lines without external fields."
  },
  {
   "property": "C180",
   "status": "proved",
   "theorems": [
    "Mtln.C180_spectrum",
    "Mtln.C180_fft",
    "Mtln.C180_program"
   ],
   "note": "For pulses from voltage sources at the ends without external fields, in exact arithmetic; the transform is the model's dft of the recorded rows."
  },
  {
   "property": "C181",
   "status": "proved",
   "theorems": [
    "Mtln.C181_waves",
    "Mtln.C181_attenuation",
    "Mtln.C181_cutoff",
    "Mtln.C181_program"
   ],
   "note": "For one conductor and equal cells; lines of several conductors reduce to their modes by C172."
  },
  {
   "property": "C182",
   "status": "proved",
   "theorems": [
    "Mtln.C182_circuit",
    "Mtln.C182_settles",
    "Mtln.C182_amplitudes",
    "Mtln.C182_unique",
    "Mtln.C182_program"
   ],
   "note": "C182_circuit: a solution of the circuit exists and the runs settle on it. C182_settles: the runs settle on every solution, for every step below the automatic one. C182_amplitudes, C182_unique: the amplitudes are determined, so the solution is unique on the bundles. C182_program: all of it from the calls of a program. The capacitors of networks enter with a difference over two steps, half a step late (`lag`), which is the discretisation of the code. Example: the demo line with a sinusoidal source."
  },
  {
   "property": "C183",
   "status": "proved",
   "theorems": [
    "Mtln.C183_reciprocity",
    "Mtln.C183_power",
    "Mtln.C183_passive",
    "Mtln.C183_ports",
    "Mtln.C183_program"
   ],
   "note": "C183_power, C183_passive, C183_reciprocity, C183_ports, C183_program; non-vacuity: demoBoth_reciprocal (explicit solutions for a line with a source at each end, at every frequency below Nyquist)."
  },
  {
   "property": "C184",
   "status": "proved",
   "theorems": [
    "Mtln.C184_fft",
    "Mtln.C184_fft_current",
    "Mtln.C184_spectrum",
    "Mtln.C184_solution",
    "Mtln.C184_program"
   ],
   "note": "Fields along the bundles must be zero because the code samples them at half steps; fields across the bundles and the voltage sources are general pulses."
  },
  {
   "property": "C185",
   "status": "proved",
   "theorems": [
    "Mtln.C185_pulse",
    "Mtln.C185_ends",
    "Mtln.C185_impedance",
    "Mtln.C185_passive",
    "Mtln.C185_response",
    "Mtln.C185_matched",
    "Mtln.C185_matched_exists",
    "Mtln.C185_program"
   ],
   "note": "Props/Reflection.lean. The bound on the reflection factor is for ends built for the step of the run (C185_passive); reactive loads on lossy lines may reflect more, as on real lines."
  },
  {
   "property": "C186",
   "status": "proved",
   "theorems": [
    "Mtln.C186_limit",
    "Mtln.C186_solution",
    "Mtln.C186_program"
   ],
   "note": "Lemmas/TelegraphLimit.lean, Props/Telegraph.lean. The order of limits is: for each line the run settles, and the lines converge as the number of cells grows."
  },
  {
   "property": "C187",
   "status": "proved",
   "theorems": [
    "Mtln.C187_ends_solution",
    "Mtln.C187_ends_program",
    "Mtln.C187_any_solution",
    "Mtln.C187_ends_limit",
    "Mtln.C187_any_limit",
    "Mtln.C187_any_program",
    "Mtln.C187_medium",
    "Mtln.C187_medium_program",
    "Mtln.C187_modes",
    "Mtln.C187_solution",
    "Mtln.C187_limit",
    "Mtln.C187_program"
   ],
   "note": "C187_modes, C187_solution, C187_limit, C187_program, C187_medium, C187_medium_program; two equal coupled conductors with their even and odd modes as example. C187_any_solution, C187_any_limit and C187_any_program for matrices without common modes, with two unlike conductors as example; C187_ends_solution, C187_ends_limit and C187_ends_program with sources at both ends."
  },
  {
   "property": "C188",
   "status": "proved",
   "theorems": [
    "Mtln.C188_pulse_ends",
    "Mtln.C188_matched",
    "Mtln.C188_fft",
    "Mtln.C188_fft_current",
    "Mtln.C188_pulse"
   ],
   "note": "C188_pulse, C188_pulse_ends with pulses at both ends, C188_fft and C188_fft_current for the transforms of probes, C188_matched for one conductor with a matched end; riemann shows that sums over the samples of a continuous function with bounded support tend to its integral."
  }
 ]
}