PROVED={
"C188":"C188_pulse, C188_pulse_ends with pulses at both ends, C188_fft and C188_fft_current for the transforms of probes, C188_matched for one conductor with a matched end; riemann shows that sums over the samples of a continuous function with bounded support tend to its integral.",
"C187":"C187_modes, C187_solution, C187_limit, C187_program, C187_medium, C187_medium_program; two equal coupled conductors with their even and odd modes as example. C187_any_solution, C187_any_limit and C187_any_program for matrices without common modes, with two unlike conductors as example; C187_ends_solution, C187_ends_limit and C187_ends_program with sources at both ends.",
"C186":"Lemmas/TelegraphLimit.lean, Props/Telegraph.lean. The order of limits is: for each line the run settles, and the lines converge as the number of cells grows.",
"C185":"Props/Reflection.lean. The bound on the reflection factor is for ends built for the step of the run (C185_passive); reactive loads on lossy lines may reflect more, as on real lines.",
"C184":"Fields along the bundles must be zero because the code samples them at half steps; fields across the bundles and the voltage sources are general pulses.",
"C183":"C183_power, C183_passive, C183_reciprocity, C183_ports, C183_program; non-vacuity: demoBoth_reciprocal (explicit solutions for a line with a source at each end, at every frequency below Nyquist).",
"C182":"C182_circuit: a solution of the circuit exists and the runs settle on it. C182_settles: the runs settle on every solution, for every step below the automatic one. C182_amplitudes, C182_unique: the amplitudes are determined, so the solution is unique on the bundles. C182_program: all of it from the calls of a program. The capacitors of networks enter with a difference over two steps, half a step late (`lag`), which is the discretisation of the code. Example: the demo line with a sinusoidal source.",
"C181":"For one conductor and equal cells; lines of several conductors reduce to their modes by C172.",
"C180":"For pulses from voltage sources at the ends without external fields, in exact arithmetic; the transform is the model's dft of the recorded rows.",
"C179":"C179_reciprocal and C179_transfer (reciprocity), C179_power (exact balance of mean power), C179_passive (non-negative), C179_program (for lines made by the constructor and any time step). Lines without external fields.",
"C178":"General form with the terminal coefficients of another time step (as the code leaves them when dt is changed), incident fields and connectors of resistances and inductances; C178_program starts from the constructor.",
"C177":"The keys that `_f` collects are not part of the model because they are never returned.",
"C176":"The fit itself is skrf's and is an argument; numbers written as text are the numbers; the frequencies are exact powers of ten.",
"C175":"C175_steady, C175_response, C175_unique, C175_program; demoDriven_sinus shows the hypotheses can be met.",
"C174":"C174_periodic, C174_always, C174_unique, C174_program; the demo manager with a sinusoidal source and a resistor (demoSine_periodic) shows the hypotheses can be met.",
"C173":"`C173_program` is the statement for whole programs, `C173_readings` reads off the probes. `add_external_field` is not among the calls, since waveforms of plane waves contain the speed of light in metres per second.",
"C172":"`C172_run` is the statement about runs, `C172_terminal` the one about terminal coefficients, `C172_modes` and `C172_decoupled` the modal decomposition.",
"C171":"`C171_wave` and `C171_only` are the two directions, `C171_velocity` and `C171_exists` concern one conductor, `C171_program` is the statement for lines of the constructor. Lines with losses are not covered.",
"C170":"Existence is proved by linear algebra (injective implies surjective on the finite-dimensional space of states inside the line), approach by the decay of free motions. `C170_program` is the statement for lines of the constructor. The period must be a whole number of time steps. Lines with dispersive connectors are not covered.",
"C169":"C169_outside is the statement about runs: MTLN.Shows is a relation that says the matrices are block triangular, and that the fields, excitations and probes of the outer rows agree. C169_built shows that bundles built from levels and any sequence of inward transfer impedances (on the line or on a connector), transfer impedances between outer levels, localized fields and probes satisfy it, provided that the smallest time step is that of an outer line (otherwise the automatic step of the run depends on the inside). C169_out: with direction out the hypothesis fails. Regional resistances and external fields are not among the calls of C169_built, but C169_outside applies to any bundle they leave.",
"C163":"C163_response, C163_real and C163_steady. The wrong previous current in the update of the memory (C34) changes the impedance for a positive time step but neither its limit nor its value at direct current.",
"C162":"Distributed sources and shields are excluded.",
"C161":"C161_program gives the program, C161_runs, C161_stable and C161_settles its consequences; C161_lines derives proper lines from the cables of the file. Exact real arithmetic.",
"C160":"C160_network, C160_plan, C160_bundle, C160_program; C160_example.",
"C159":"C159_matched, C159_rest and C159_program show that programs satisfy the hypotheses of the manager theorems; C159_runs, C159_startable, C159_growth, C159_settles, C159_reciprocal draw the conclusions. C159_sources, C159_constant, C159_silent, C159_bounded lift the conditions on sources to programs, and C159_stable_program and C159_settles_program are stated for the program alone; C159_example.",
"C158":"Props/BundleStep.lean, Lemmas/BlockSum.lean. C158_timestep (the automatic step of the bundle's matrices is the smallest of its lines' and the one it gets), C158_proper (positive definiteness, symmetry and dissipation pass from the lines to the bundle), C158_stable (the hypotheses of C134, C151-C157 hold for time steps below those of the lines), C158_line (lines made by the constructor from physical data with equally divided segments meet the hypotheses; for other meshes see C24).",
"C157":"`C157_relax` is the case of sources that end, `C157_solution` existence and uniqueness of the direct current solution, `C157_settles` convergence to it, `C157_forget` arbitrary sources. The condition `MTLN.Dissipates` is a property of the resistor matrices and the way the nodes are attached (Spec/ManagerRelax); without it lossless bundles ring forever.",
"C156":"`C156_reciprocity` covers distributed fields as well as sources, `C156_ports` single sources (the waveform must not vanish at all sampled pairs). The convolutions are written out in Spec/ManagerReciprocity.",
"C155":"As in C153 the circuit has no conductance in the half cells at the ends, because networks ignore it (C64).",
"C154":"C154_split and C154_join are the two directions; Twin says what is equal.",
"C153":"C153_steady is the equivalence, C153_keeps the part that needs no assumption that the manager can be started. Bundles of dispersive transfer impedances (convolution memory) are excluded by the hypothesis Lumped.",
"C152":"C152_pulse.",
"C151":"C151_growth; C151_sharp shows that linear growth occurs.",
"C149":"Causality, the front and the delay are instances of C149_cone, a relation that one step raises by one; distances may be any real-valued function of slope at most one, so meshes of bundles joined by networks are included.",
"C148":"C148_part is the exact equality of runs, C148_succeeds the equivalence of success, C148_program the statement for programs that call the constructor.",
"C144":"The Fortran solvers are modelled in Model/Fortran.lean, with real numbers for single precision.",
"C142":"C142_accepted and C142_simulation for cables of any number of conductors; C142_exact for straight lossless cables of one conductor, with the solution in the integrated sense (exists and is unique for each source that is off before time zero: C129_solution, C129_unique). Time steps above 1e10 are excluded in (b) and (c), because the manager starts from that number.",
"C141":"The convolution identity for arbitrary excitations, its consequences for two ports (currents and voltages) and for an end and a field inside, and the statement for programs that construct one line and run it twice.",
"C139":"C139_unique, C139_exists, C139_settles; C139_program from the arguments of the constructor.",
"C138":"C138_relax, C138_forget, C138_program for lines from the constructor; C138_short and C138_courant show that the two conditions cannot be dropped.",
"C137":"Theorems C137_converges_at_limit, C137_program.",
"C136":"Theorems C136_converges, C136_program. The second order is lost (first order remains) when the time step is changed after construction, as the tests of the project do, because the coefficients of the ends are not recomputed; the bound shows the term (1 - dt/tau) dx this costs.",
"C135":"C135_run for runs; C135_network derives the hypothesis on networks from the calls made.",
"C134":"C134_bounded; demoCharged and demoChargedC show that the hypotheses can be met by charged managers, with a resistor and with a capacitor.",
"C133":"C133_step and C133_energy for single steps and whole runs; C133_elements derives the network hypothesis from the calls made (resistors and capacitors).",
"C132":"Explicit bound after q round trips and proof that the product of the reflection coefficients is smaller than one (C132_settles).",
"C131":"Both directions (C131_step_iff, C131_steady) and the explicit series circuit (C131_series).",
"C129":"Closed form with both reflection coefficients (C129_bounce, C129_matched) and agreement with the solution of the telegrapher's equations at nodes and cell centres, in the integrated sense (C129_mild, C129_program from the arguments of the constructor) and for every classical solution (C129_exact). The solution in the integrated sense exists for every source that is off before the initial time (C129_solution, a sum of images) and is unique (C129_unique).",
"C128":"Every network of the parser is a new network followed by connection calls, so C48, C49 and C50 apply; passivity for resistances that are not negative.",
"C115":"C115_probe (exact for one probe), C115_all (all probes: places, order, nothing else changes), C115_by_name (the probe found by a name); two probes with one name: only the last is found. C115_errors, C115_element_errors, C115_bundle_errors: the exact exceptions.",
"C124":"For any file and any enumeration order of the sets of cables without repetitions.",
"C118":"For any parser; the frames of the probes are those of C02.",
"C117":"",
"C111":"",
"C110":"",
"C109":"Away from the poles; IndexError is shown when residues are missing, conjugate symmetry for any pairing of poles and residues.",
"C106":"Any number of terms; also IndexError for missing times and the static value.",
"C105":"Exact reciprocals and parallel admittances; RLpar for nonzero frequency, RLseriesDisp with n = 1 for frequencies that are not negative.",
"C102":"KeyError without a bundle of the name; otherwise only bundles of that name change, as by their own method.",
"C101":"Sums are pointwise, commutative and associative; C101_accepts gives functions of x that add_t_functions rejects.",
"C100":"Differential equations and initial values, for nonzero x0 and s0; symbolic forms proved for gaussian_2 and double_exp.",
"C83":"Vertices and edges are exactly the elements and containments of the nesting; levels are depths and edges lead to the next level. C83_root_errors, C83_inside_errors: the exact exceptions.",
"C82":"The groups are the fibres of the position, each in file order; nothing is lost or duplicated. C82_errors: the exact exceptions of the grouping.",
"C81":"Coordinates: the last line with the id, KeyError if there is none. Elements, cables and connectors: the first match; the element and connector look-ups raise Exception and the cable look-up TypeError when nothing matches. Elements assume the well-formed lines stated in File.WellFormed.",
"C98":"For every record length and every entry; fft, fftshift and fftfreq are modelled by their definitions.",
"C96":"Location, values (signs as the code stores them), poles, and that nothing else changes; every other side raises.",
"C94":"All fields and delays.",
"C93":"For fields whose components are continuous in the variable of integration.",
"C75":"Also: rejects exactly the segments of length zero.",
"C73":"Including that the velocity is the largest phase velocity of the line and the polarisation is transverse.",
"C72":"All angles.",
"C69":"All amplitudes A >= 0 and all nonzero parameters.",
"C63":"Line at rest with dt at most 1e10 (a bundle never has a larger step) and consistent terminal terms; the manager and its networks come from their constructors and connect_to_ground calls, in any order of the conductors.",
"C61":"Any permutation of bundles and networks, through the constructor and a run of any length; results equal including probe records.",
"C62":"Superposition (linear combinations of state and excitations) for runs of any length of managers with any bundles and networks, and quiescence as the zero case.",
"C59":"Exact characterisation of adding any list of bundles; duplicate names raise AssertionError.",
"C52":"Exact success conditions and effect of both exchanges; an entry written by several nodes of one network keeps the last value.",
"C44":"Any network, any run.",
"C02":"Every run of the manager, any size and number of steps; frames, times and values of every probe.",
"C56":"With or without a source in series, for a node that no other call names.",
"C53":"For all descriptions.",
"C50":"For all sequences of branches.",
"C48":"For all sequences of calls.",
"C46":"The node and state equations hold after a step and determine it; Ohm's law for resistive terminations follows.",
"C40":"Trivial impedances and illegal levels, for add and set at an end.",
"C43":"Every line of a bundle without transfer impedances evolves as the line alone, for every number of steps.",
"C41":"The row numbering is a bijection onto the rows, in order of levels.",
"C28":"The segment found is the one whose distance sum is the length, exact characterisation.",
"C42":"Every state of every run; closure under adding connectors.",
"C36":"Every step of every run of any line with a pole-free connector; equation and uniqueness.",
"C35":"Exact success condition and effect; rejection outside the box; second connector always refused.",
"C33":"All poles, residues, steps and linear currents; closed form of the integral.",
"C06":"All strings, all lines, all runs.",
"C31":"All histories of calls.",
"C01":"All step counts, probes and starting states. C01_run_succeeds_iff gives the exact conditions of success.",
"C04":"Fields, clock and probe frames of split runs.",
"C07":"For every step of every run; equation and uniqueness.",
"C08":"For every step of every run; equation and uniqueness; general version includes the transverse field as coded.",
"C09":"For every step of every run of a line whose terminal terms belong to its dt; shown for constructed lines and preserved by runs.",
"C10":"Any two runs combined with any real weights, any number of steps.",
"C11":"Any number of steps.",
"C12":"Any number of steps, both directions.",
"C14":"Any number of steps, non-symmetric lines too.",
"C17":"Any number of steps.",
"C18":"Any time shift.",
"C19":"Any subset of conductors uncoupled from the rest.",
"C20":"Any permutation, including probes and errors.",
"C15":"Every step of every run; pole-free connectors; general version for terminal coefficients of another dt.",
"C16":"Bounds independent of the duration, for lines built by the constructor from physical parameters and any dt below the automatic one.",
"C21":"Every line the constructor accepts.",
"C25":"All meshes and positions; ties go to the first node.",
"C32":"Exact acceptance condition and contents; physical parameters are accepted.",
"C22":"Exact real arithmetic.",
}
PARTIAL={
"C168":"False of the code: a termination of type Conn_LCpRs counts 0 but gets two state variables, and for connectors of several wires the function looks at the position in the list and the constructor at the conductor (C168_refuted). Proved: for connections ordered by conductor, none of type Conn_LCpRs, each connector of several wires at the place of its conductor, the count is exactly what the constructor adds (C168_count_partial).",
"C167":"False: the automatic time step ignores connectors. `C167_refuted`: a shorted loop of one cell, run with half of its automatic time step, grows without bound when 100 ohm in parallel with 0.01 F are added, although line and connector are passive. Proved instead, for connectors made of resistances, inductances and parallel RC or RL circuits (`Foster`, proved positive real): an energy that includes the memories of the connectors never increases (`C167_energy_partial`), and all voltages and currents are bounded for all time if the time step is below the automatic one of the inductances from which `dt²/4` times the residues is taken (`C167_bounded_partial`); the same loop with 1 ohm meets that. Complex pairs of poles are not covered.",
"C166":"False of the code for models with poles. C166_emf_partial gives exactly what a step computes: the induced voltage depends on the new and the old outer current only (the memory of the poles is attached to the inner row and read with the outer one, see C39), C166_response_partial gives the impedance that is realised, and C166_limit_partial shows that it tends to (cte + prop z)/factor when the time step goes to zero: the poles vanish. C166_refuted: for the model 1/(s+1) the limit at direct current is 0 and not 1. Without poles the property holds (C166_no_poles_partial). C166_emf_partial is for one call; several poles raise a ValueError or are spread over the cells (C38), so with poles the pole count is 1 there. C166_example shows that the hypotheses hold for a bundle with a pole.",
"C165":"False: a product of the number 0 with the array of another conductor is an array of zeros, which is added and broadcast. With different orders, none of which is one, the second step raises ValueError; the history of a model with one pole is multiplied by the order of the model on the other conductor, and lost if that is a resistance or an inductance (C165_fails_raises, C165_fails_repeated, C165_refuted). Proved: with equal orders in a cell the objects compute exactly the history terms of the models in any number of steps, also along runs of lines, which justifies the vectors of poles in the rest of the model.",
"C164":"False of the code: an id written as 03 is the number 3 when the line is built (`_getListOfCoordinates`), but not when the element at a coordinate is looked for (`_getElementOfNode`, `_getLineElemIdFromCoordId`), which compare texts (C164_refuted_zeros). Proved for ids written as Python writes them (theorems ending in _partial); blanks, int, float and coordinates without condition.",
"C150":"False for connect_to_ground_LCpRs, because of the sign of C57: C150_refuted (from rest, constant source of 1 V, half the stability limit) and C150_refuted_free (no source; the voltage of the end is 12·2^k after k steps). Proved for networks of resistors and capacitors (C150_rc_partial).",
"C147":"get_max_timestep never returns a value: it reads x(0), which is outside the bounds of x, and velocities that have no values (C147_refuted). The nodes are as stated for at least one cell (C147_nodes_partial).",
"C146":"False: the largest velocity is kept between calls, and a call for a slower line uses the time step of the fastest line so far (C146_refuted). A call for a line with a conductor at least as fast as all before is that of a fresh program (C146_fast_partial); what is kept after any sequence of calls is the largest velocity in the calls of each solver (C146_kept).",
"C145":"False in general: the time step is 0.95 cells divided by the velocity of the fastest conductor by itself, which can be slower than the fastest mode; the arrays for two strongly coupled conductors in a homogeneous medium grow beyond every bound (C145_refuted). Proved when the modes are slower than W / 0.95 (C145_settles_partial), always without coupling (C145_uncoupled), for two equal conductors with a mutual inductance below 0.312 times the inductance (C145_pair_partial), and for the data of the three programs that are shipped (C145_shipped_losses, C145_shipped_three, C145_shipped_two).",
"C143":"False on bent lines: when the first node is nearest to the end position, the code compares with the last cell (index -1), and a position next to the first node, off the line but in the direction of the last cell, drives the last cell (C143_refuted). Proved in all other cases (C143_cells_partial); a start position for which the last node is nearest, but off it, raises IndexError although it may be on the line (C143_last_node).",
"C140":"False. For every bundle, region and conductor the exact effect is proved: one row of one matrix is written (row `conductor` of cell or node `i1 + conductor`), with the total divided by the distance of the nodes nearest to the ends; the calls succeed exactly under the stated conditions. So on a bundle of two cells of length 1 the total over the whole bundle is half of the argument, and at the last node both calls raise IndexError, while the version for lines moves the resistance into the last cell. Proved part: conductor 0 and a region that ends at most one node after its start.",
"C130":"False: all recorded values are one time step late, because the sources are evaluated at the beginning of the step and the value is stamped with its end (C130_refuted). Proved: the value stamped t is the exact value at t - dt, for voltages at the node and for currents in the middle of the cell (C130_delay_partial).",
"C127":"False of the code: the level is that of the cable of the last coordinate (C127_refuted: a junction of a shield and a wire in it). C127_level_partial: exactly the level of the last cable, hence the level of all if they have the same.",
"C119":"False of the code: the end is stored once for each cable, so a node at the other end of a cable that is already in the joint is put at the end of the first one (C119_refuted: both ends of one wire). C119_nodes is the exact statement; proved as stated if the coordinates of one cable in the joint are on one side (C119_ends_partial). C119_level_errors: the exact exceptions of the level of a cable.",
"C116":"False of the code: capacitors and inductances of the connectors are ignored, so that a capacitor in a junction is a short circuit (C116_refuted, C116_refuted_example) and a series RLC connector is its resistance (C116_refuted_series). C116_join is the exact effect; proved for two resistors at nodes without other sources (C116_resistors_partial), pairs of another size are rejected (C116_rejects). C116_errors, C116_resistance_errors: the exact exceptions.",
"C114":"The number of the conductor of a source is used as a row of the whole bundle (C114_source, C114_effect: exact). It is the row of the conductor of the cable only if the cable is the first line of the outermost level (C114_first_cable_partial); C114_refuted: the source of a wire inside a shield drives the shield. C114_all: the longitudinal fields of other rows, and everything else, are unchanged. C114_errors: the exact exceptions, in the order of their tests.",
"C126":"False for networks inside a shield: every run registers the networks again and shifts their rows again, so that a second run may fail (C126_rows, C126_refuted). Proved for networks of level 0: the second run starts from exactly what the first one has left, at time 0.",
"C125":"False when two bundles share a cable: the search gives the first bundle, the dictionary the last one (C125_refuted, C124_C125_example). Proved when no two bundles share the cable; the look-ups themselves are characterised in general.",
"C123":"False for a connector with transfer impedance 0, which leaves the coupling of the cable in place (C123_refuted), and for the direction both. Proved for every other impedance, for any graph.",
"C122":"False for the direction both, which does nothing (C122_refuted). Proved for the directions in and out, for any graph and number of edges.",
"C121":"False: the position of the element in its cable is passed as the conductor, which `set_resistance_in_region` uses to index the cells of the region, so a connector at the end of a later element of a cable raises IndexError (C121_refuted); and the whole matrix row of conductor 0, mutual terms included, is overwritten (C121_refuted_row). Partial: an end at the first element puts the resistance of its connector into the cell of the node, all other ends do nothing.",
"C120":"False: when two cables list an element, the graph records the last one and the look-up by element returns the first one (C120_refuted). Partial: they agree when only one cable lists the element. C120_errors: the exact exceptions of the graph's look-up.",
"C113":"False: a cable may list more elements than its wire has conductors, and the extra elements get numbers of the next line (C113_refuted). Partial: when every line has a conductor for every element of its cable, numbers lie in the line and are distinct.",
"C112":"False: of a one-conductor wire a number written without decimal point (an int) is refused with ValueError (C112_refuted_integer); a one-dimensional list of inductances is never accepted (C112_refuted_list); the entries of a resistance matrix off the diagonal are dropped (C112_refuted_resistance, C112_example_b). Partial: floats, and matrices with a resistance on the diagonal; accepted for physical parameters. C112_errors: the exact exceptions.",
"C108":"False: the index is i times the number of poles, which is the diagonal only when there is one pole more than ports (C108_partial). Otherwise other responses are written (C108_refuted) or IndexError is raised (C108_refuted_error).",
"C107":"False at the corner frequency, where both parts are added and the value doubles (C107_corner, C107_refuted: no continuous extension from below). Proved below and above it.",
"C104":"False: a resistance of 0 leaves the node open, and raises ZeroDivisionError with a source. Proved for resistances that are not 0.",
"C103":"False: a single node with any connector but five types, and several nodes without MultiwireConnector, stay open. Proved for four single types with all values given; Conn_sRLC is C58.",
"C89":"False: witness is a whole file with two wires in one level, whose rows differ between two orders. Proved when each level has one cable.",
"C87":"False: a nesting is accepted only if every outer cable has a transfer impedance. Proved for bundles without nesting, in files without cable ends.",
"C86":"False: of two joints at one position with one level the second replaces the first; witness is a whole file. Proved when the levels are different.",
"C85":"False: connectors and sources are taken at the position given by the conductor number; nodes listed in reverse swap sources, short groups raise IndexError. Proved for groups that list conductors 0, 1, ... in order. C85_single_errors, C85_multi_errors, C85_group_errors: the exact exceptions.",
"C84":"False: once the file has a lumped element every cable without one raises IndexError, and only the first element of a cable is placed. Proved: that first one is placed as described, and files without lumped elements.",
"C58":"False: the inductance and capacitance of Conn_sRLC are not used, the termination obeys Ohm's law with the resistance alone; witness with R = L = C = 1. Proved when there is no inductor and no capacitor.",
"C88":"False for unknown types: the function returns None, not 0. The seven known types are proved under conditions on their parameters; ramp and trapezoidal leave out the points where C68 and C67 are false, and gaussian ignores the amplitude of the file.",
"C99":"False: the extraction reads line1.x, which no line has, and fails for every line (C99_refuted). The assembly of the two runs gives S under the stated conditions, and the band keeps frequencies and matrices together.",
"C80":"False: add_port_probe reads self.z, which no line has, and raises AttributeError on every line (C80_refuted). The three probes can be added one by one (C80_probes_partial).",
"C79":"Proved for ports whose first voltage probe holds a float position, including the energy balance over all frequencies (Parseval). False for probes of a line: their positions are arrays and reading the waves raises ValueError (C79_refuted).",
"C97":"False: a zero model returns early and leaves the coupling of the cable (C97_refuted). Any non-zero model replaces the coupling (C97_nonzero_partial).",
"C95":"False of the code: bundles start without fields (C95_refuted, C95_refuted_always).",
"C92":"False of the code: only the last field remains (C92_refuted_last_wins, C92_refuted).",
"C91":"Proved for lines; false for bundles, which never accept a localization ending at the last node (C91_refuted).",
"C90":"False of the code: every manager with a bundle raises AttributeError (C90_refuted).",
"C78":"False of the code (C78_refuted, C78_refuted_always); proved that each node takes the transverse voltage its line has when the network is made.",
"C77":"Proved for lines; false for bundles, where the cell after the localization is changed too (C77_refuted_bundle), with the exact range of changed cells proved.",
"C76":"False of the code for oblique offsets (C76_refuted_oblique) and at the last node (C76_refuted_last); proved for offsets along an axis at every other node, with the exact value at the last node.",
"C74":"False of the code (C74_refuted: two opposite waves get the same direction; C74_refuted_down: segments pointing down); for every segment not along the x axis the wave is turned by one rotation, which takes the segment to the z axis exactly if it does not point down, unless the rotated direction lies on the negative y side of the x-y plane; for segments along the x axis the angles are not numbers.",
"C71":"True of the trapezoidal and double exponential waves, false of the ramps (C71_refuted).",
"C70":"Equal except at the ends of the plateau, at x0 and at negative times, where they differ for every amplitude (C70_refuted).",
"C68":"Proved except at x = x0, where the ramp is 2A (C68_refuted).",
"C67":"The period is proved for all parameters; the shape and the bounds everywhere except at the two ends of the plateau, where the wave is 2A (C67_refuted).",
"C66":"Pointwise sum and scaling, commutativity, associativity and the neutral element are proved; rejection of functions without a parameter t is false of the code (co_varnames also lists local variables), see C66_refuted.",
"C64":"False: networks do not use the conductances of the lines at all (C64_no_conductance_partial, C64_refuted).",
"C60":"False without explicit dt: a bundle's coefficients use its own dt (C60_refuted). With an explicit dt all coefficients use it, except those of dispersive elements, which are not recomputed.",
"C57":"False of the code (C57_refuted, C57_capacitor_sign): the capacitor equation has the wrong sign of the resistor current. The current and the inductor equation are proved.",
"C55":"False of the code for inner levels (C55_refuted); proved for networks of level 0.",
"C54":"False of the code for several lines in a level (C54_refuted); proved for the first line of each level, hence for one line per level.",
"C51":"False of the code (C51_cross_terms): two sourced branches at a node give cross terms. Proved for nodes named by one sourced call.",
"C49":"False of the code (C49_active): a call to ground after a branch at the same node makes an active network. Proved when no call to ground names a node of an earlier branch.",
"C47":"False of the code (C47_order_matters): calls to ground overwrite what branches add. Proved for sequences in which any two calls are branches or name different nodes.",
"C39":"False of the code: there is no memory at all (C39_no_memory, C39_history_ignored); the last-step contribution is proved exact.",
"C38":"False of the code: other pole counts are refused (C38_pole_count_refused) or distributed one per cell (C38_poles_spread_over_cells); proved for one pole.",
"C37":"Proved for in and out; false for both, which does nothing (C37_both_does_nothing).",
"C45":"False of the code in the first cell (C45_first_cell_wrong); the exact weights are proved elsewhere on uniform straight lines.",
"C27":"False of the code (C27_accepts_beyond_end); acceptance of points on segments and rejection of points off the lines through the segments are proved.",
"C65":"False of the code with dispersive connectors (C65_memory_leaks); proved exactly when the memory is unchanged, in particular without connectors.",
"C34":"False of the code (C34_linear_fails): i_prev is an alias of the new current. Exact error per step (C34_step_error); the memory is the convolution with the staircase history (C34_memory_partial).",
"C03":"False of the code when dt changes after the probes were added (C03_override_fails); proved when the probe's dt is the run's (C03_half_step_partial).",
"C05":"False of the code for a probe that never took part in a run (C05_virgin_probe, C05_append_fails); proved for probes that own their samples, as after any run.",
"C13":"False of the code for every source whose nearest node is not an end (C13_interior_no_effect, C13_fails); proved for the two end nodes.",
"C23":"False of the code for the boundary condition (C23_terminal_fails); proved for the interior equations, and for the boundary after recomputing the terminal terms.",
"C26":"False of the code in both directions (C26_rejects_on_line, C26_accepts_off_line); the exact acceptance box is proved, and the property for increasing axis-parallel lines.",
"C29":"False of the code (C29_total_fails, C29_off_diagonal); the exact effect is proved for all lines, and the property for one conductor and a region of one cell.",
"C30":"False of the code (C30_misplaced); the exact effect on default-geometry lines is proved, and the property at the first node.",
"C24":"False of the code for segments with different numbers of divisions (C24_contiguity_fails, C24_index_error); proved when all segments have the same number (C24_mesh_partial).",
}
