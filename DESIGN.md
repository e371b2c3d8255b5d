# Formal model of OpenSEMBA/mtln: design

Everything lives in the Lean 4 project `lean/`. `Verif/Model/*` is the model of the Python
and Fortran code, `Verif/Spec/*` contains the small independent specifications, `Verif/Props/*` the
property theorems (named `Cnn_...`) with non-vacuity examples, `Verif/Lemmas/*` helper lemmas.

## Trusted base

* Lean 4.33.0's kernel and the axioms `propext`, `Classical.choice`, `Quot.sound`. No other axiom, no
  `sorry`, `native_decide` or `bv_decide`.
* The reading of the Python sources into `Verif/Model` (every definition cites file and lines).
* Numbers: Python/numpy floats are modelled by exact real numbers (complex numbers for poles).
  Rounding, NaN and infinity are outside the model; where the code would divide by zero the model
  returns an explicit error.
* numpy primitives are modelled by their documented mathematical meaning: `linalg.inv`/`solve` is the
  matrix inverse and raises `LinAlgError` iff the determinant is zero; `argmin` is the first minimiser;
  `linalg.eigvals` is the multiset of roots of the characteristic polynomial over C;
  conversion complex -> float drops the imaginary part.
* Exceptions are values (`Except PyErr`). The state left behind by a call that raises half way is not
  modelled unless a property says so.
* Fortran: `F A = Except FErr A` with `stop` and reads outside the bounds of an array as errors; `maxV` keeps its value between
  calls, as the standard requires of local variables with an initial value (`Saved`).
* sympy expressions are modelled by the functions they denote, `sp.Integral` by the interval integral.

## Modelling decisions

* `Py A = Except PyErr A` is the result of a Python call. Exceptions the code raises itself, assertions and the exceptions
  of the operations it uses (`KeyError`, `IndexError`, `AttributeError`, ...) are distinct values. `NotModelled` marks
  runs that leave the model: division by zero of numpy numbers, uninitialised memory, shapes that numpy would broadcast.
  Theorems about success say that these do not occur; no theorem concludes anything good from `NotModelled`.
  `_addSources` builds the function of a source before it looks for its cable; the model does it after that, so in a file
  with two mistakes another exception may be reported.
* The number of conductors `n` and the number of poles `p` are parameters of the types; a bundle of any size is a pair of
  its size and a value of that type (`AnyLine`, `AnyBundle`, `AnyNetwork`). All rational models of a line or bundle have `p`
  poles; the arrays of Python objects in dispersive.py are modelled in Model/Broadcast, and C165 shows that they compute the same
  if the models of a cell have equal orders, and what happens otherwise.
* Arrays over the cells and nodes of a line are total functions of natural numbers together with the number of cells; every
  definition that reads them does so within the bounds that the code uses. Statements about fields of a line say at which
  nodes they hold.
* numpy views that the code shares on purpose or by accident are modelled where they matter: a probe that never recorded
  shares the array of the line (`ProbeVal.view`), `i_prev` of the dispersive elements is the array of the new currents.
* Iteration over a Python `set` of strings has an arbitrary order, which is a parameter of the parser (`order`).
* Strings of the input file are split into fields already; the JSON values are Lean data. The look-ups in the texts of elements and
  coordinates are modelled in Model/Text and shown to be those in the numbers (C164); decoding JSON is not modelled.
* A sympy expression is a function of the coordinates, time and the symbols that occur.

## What is modelled

| file | modelled in | not modelled |
| --- | --- | --- |
| mtl.py, class MTL | Model/Line, Model/LineApi, Model/Construct, Model/Probe | commented-out code; the first `update_sources`, which the second one replaces |
| mtl.py, class MTLD | Model/Bundle, Model/Transfer, Model/Field | |
| mtl.py, Field and PlaneWave | Model/Field | |
| dispersive.py | Model/Dispersive, Model/Transfer, Model/Broadcast | |
| networks.py | Model/Network, Model/StateVars | |
| mtln.py | Model/Manager | |
| probes.py | Model/Probe, Model/Port | |
| networkExtraction.py | Model/Port | scikit-rf's network object beyond its frequencies and matrices |
| utils.py, waveforms.py | Model/Utils, Model/Waveforms | |
| jsonParser.py | Model/Parser, Model/Text, Model/Scripts (what is never called) | decoding JSON |
| VF/utils.py, VF_eps.py, VF_z.py | Model/VectorFit, Model/Scripts | the distribution of the noise of `epsDebyeErr`; scikit-rf's fit, figures |
| fortran/old/*.f90, fortran/src/*.f90 | Model/Fortran | the output files; coaxial.f90, which uses an undeclared variable; single precision |

## How properties that are false of the code are handled

The statement in `properties.jsonl` says what a user of the code expects. Where the code does something else, the negation is
proved from a concrete execution of the model (theorems with `refuted`, `fails` or the name of the defect in their names), and
what remains true is proved with the suffix `_partial` under an explicit condition. The status in `MANIFEST.json` is then
`partial`. The section "Disagreements" lists them.

## Plan and outcome per property

* **C01 MTL.run_until records one complete frame per time step** (proved). Model Probe, MTL.step, MTL.run_until; induction over steps; spec = list of frames computed by iterating the step.
* **C02 MTLN.run_until records one complete frame per time step in every bundle** (proved). Same for MTLN.run_until with lists of bundles.
* **C03 Current probes are stamped half a time step after voltage probes** (partial). Refuted for explicit dt override (probe.dt is captured by add_probe): witness; partial theorem when probe.dt = running dt.
* **C04 run_until is additive in the number of steps** (proved). Semigroup property of iteration lifted through run_until (coefficients are recomputed identically).
* **C05 Recording beyond the preallocated frames appends in order** (partial). Model val aliasing explicitly; prove appending after run_until; refute for never-resized probes (frame 0 is a live view).
* **C06 Unknown probe types are reported** (proved). Case analysis on the type string.
* **C07 The current update solves the discretised telegrapher equation** (proved). Algebra on inverse matrices, plus uniqueness by injectivity.
* **C08 The voltage update solves the discretised telegrapher equation** (proved). As C07.
* **C09 Terminals obey the Thevenin boundary condition** (proved). As C07, for invariant 'terminal terms match dt'.
* **C10 Superposition** (proved). Relational invariant LinComb preserved by step, induction.
* **C11 A line at rest stays at rest** (proved). Invariant 'everything zero'.
* **C12 Signals travel at most one cell per time step** (proved). Invariant: v_k=0 for k >= j, i_k=0 for k >= j after j steps.
* **C13 A voltage source acts where it is placed** (partial). Refuted: interior sources are ignored; theorem that results do not depend on interior sources; partial: end positions work.
* **C14 Mirror symmetry** (proved). Mirror bisimulation.
* **C15 Passivity of the lossy line** (proved). Discrete energy identity by summation by parts.
* **C16 Stability at the automatically chosen time step** (proved). CFL via eigenvalues of L C; coercivity of energy.
* **C17 Causality** (proved). Relational induction.
* **C18 Time-shift invariance** (proved). Relational induction.
* **C19 Uncoupled conductors do not interact** (proved). Projection bisimulation along an embedding of conductors.
* **C20 Conductor numbering is immaterial** (proved). Permutation bisimulation.
* **C21 The automatic time step is the Courant limit** (proved). Model eigvals as roots of the characteristic polynomial over C.
* **C22 set_time_step(NDT, T) yields exactly NDT steps** (proved). Floor arithmetic over exact reals.
* **C23 Changing dt keeps the scheme consistent** (partial). Refuted by witness; partial for the interior equations.
* **C24 The mesh is a contiguous subdivision of the given polyline** (partial). Memory model of the mesh loop; partial: equal divisions; witness of failure for unequal ones.
* **C25 Probes, sources and connectors snap to the nearest node** (proved). Specification of argmin.
* **C26 MTL.add_probe accepts exactly positions on the line** (partial). Partial: axis-ordered lines; witness of rejection on decreasing lines.
* **C27 MTLD.add_probe accepts exactly positions on the line** (partial). Soundness/completeness with the phantom segment exhibited.
* **C28 point_in_line recognises segment points** (proved). Vector algebra in R^3.
* **C29 set_resistance_in_region puts the given total resistance on the given conductor** (partial). Model chained indexing; refuted for general regions; partial for one conductor.
* **C30 add_conductance_in_region puts the given conductance at the given place** (partial). As C29 with flattened argmin.
* **C31 add_voltage_source replaces the source of one node and conductor** (proved). Frame property of Function.update.
* **C32 Constructor validates its inputs** (proved). Iff-characterisation of constructor success.
* **C33 Recursive-convolution coefficients are exact** (proved). Interval integral of exp times linear function.
* **C34 Dispersive memory is the convolution with the computed current** (partial). Refuted as piecewise linear (aliasing of i_prev); proved: staircase convolution closed form.
* **C35 Connector placement** (proved). Case analysis.
* **C36 A pole-free connector is a lumped series resistance and inductance** (proved). Algebra.
* **C37 Transfer impedance direction** (partial). 'both' refuted; in/out proved.
* **C38 Transfer impedances may have any number of poles** (partial). Refuted; partial for one pole.
* **C39 Transfer-impedance poles have memory** (partial). Refuted for two-level 'in'; partial closed form.
* **C40 Trivial and illegal transfer impedances** (proved). Case analysis.
* **C41 Level numbering of conductors is a bijection** (proved). Arithmetic of prefix sums.
* **C42 Conjugate pole pairs give real results** (proved). Conjugation invariance.
* **C43 A bundle without transfer impedance behaves as its separate lines** (proved). Block projection bisimulation.
* **C44 Unconnected bundle ends are shorted** (proved). Frame property, induction.
* **C45 Localized field covers the requested length** (partial). Model on the coordinate axis; partial and refutation.
* **C46 Network nodes obey Kirchhoff's current law** (proved). Matrix algebra with solve = inverse.
* **C47 Connections commute** (partial). Permutations of call lists; refuted with ground+branch; partial.
* **C48 The conductance matrix is always symmetric** (proved). Invariant by induction over calls.
* **C49 Resistive networks are passive** (partial). Invariant; refuted with overwriting; partial.
* **C50 Current is conserved in junctions** (proved). Invariant.
* **C51 Sources of several branches superpose** (partial). Refuted; partial for single source.
* **C52 Networks and bundles exchange exactly the connected quantities** (proved). Frame reasoning.
* **C53 Node bookkeeping** (proved). Induction over description.
* **C54 Different conductors map to different bundle rows** (partial). Refuted for several lines in a level; partial.
* **C55 Adding a network twice is harmless** (partial). Refuted for level >= 1; proved for level 0.
* **C56 A capacitor termination draws C*dV/dt** (proved). Algebra.
* **C57 The LCpRs termination obeys the circuit equations** (partial). Refuted (sign); the coded equations proved.
* **C58 Conn_sRLC terminations include their L and C** (partial). Refuted; behaves as R.
* **C59 add_bundle keeps the smallest dt and unique names** (proved). Induction over bundle list.
* **C60 All bundles are advanced with the manager's dt** (partial). Refuted without explicit dt; proved with.
* **C61 Order of bundles and networks is immaterial** (proved). Permutation invariance of folds.
* **C62 Superposition and quiescence of networks** (proved). Relational induction.
* **C63 Line terminations and network terminations agree** (proved). Bisimulation MTL/MTLN.
* **C64 Network terminations account for the line's conductance** (partial). Refuted; independence of g.
* **C65 create_clean_copy gives a line at rest** (partial). Refuted for dispersive memory; proved without poles.
* **C66 add_t_functions and multiply are pointwise** (partial). Functions as values.
* **C67 The trapezoidal wave is periodic and stays between 0 and A** (partial). Periodicity, bounds off break points; refuted at break points.
* **C68 The ramp pulse saturates at A** (partial). As C67.
* **C69 Pulses are causal and bounded** (proved). Case analysis.
* **C70 Symbolic and numeric waveforms agree** (partial). Off break points / t>=0.
* **C71 Travelling waveforms travel** (partial). Algebra; refuted for ramp_pulse_x_sp.
* **C72 Plane waves are transverse and unit-polarised** (proved). Trigonometry.
* **C73 Plane waves travel with the given velocity** (proved). Algebra.
* **C74 rotate_to_segment keeps the incidence direction** (partial). Trigonometry; refuted in one half-plane.
* **C75 compute_eL_at_segment is the tangential field** (proved). Cauchy-Schwarz.
* **C76 Transverse voltage is the line integral of the field** (partial). Axis offsets proved; oblique refuted.
* **C77 Uniform fields induce no longitudinal excitation; localization touches only its cells** (partial). Algebra.
* **C78 Networks see fields added to their lines** (partial). Refuted by order of calls.
* **C79 Power waves** (partial). Complex algebra.
* **C80 Port probes can be added to a line** (partial). Refuted: AttributeError always.
* **C81 Parser lookups** (proved). List.find lemmas.
* **C82 Terminations and junctions are partitioned by position** (proved). Grouping by induction.
* **C83 Nesting depth is the level** (proved). Induction on the nested structure.
* **C84 Lumped elements are placed on their own cable** (partial). Refuted, witness.
* **C85 Multiwire terminations use each node's own connector and source** (partial). Refuted, witness; partial.
* **C86 No termination is lost** (partial). Refuted, witness; partial.
* **C87 Bundles without transfer impedance can be nested** (partial). Refuted: AttributeError.
* **C88 Source types** (partial). Case analysis; unknown type refuted.
* **C89 Order of lines inside a level is immaterial** (partial). Refuted: row collision; partial.
* **C90 A plane wave can be added to a manager** (partial). Refuted: AttributeError always.
* **C91 Localizing a field on the whole line changes nothing** (partial). Floor arithmetic of the end index; refuted for bundles.
* **C92 Fields add up** (partial). Refuted: the last call wins; partial for one field.
* **C93 Excitations are linear in the field** (proved). Interval integrals of continuous functions.
* **C94 Delayed fields give delayed excitations** (proved). Change of variables in the stored excitation.
* **C95 Fields of lines survive bundling** (partial). Refuted: bundles start without fields.
* **C96 The transfer impedance of a connector is set on its end cell only** (proved). Frame property of the arrays of couplings.
* **C97 A perfect connector removes the coupling of its cell** (partial). Refuted for zero models; proved for the others.
* **C98 Spectra are labelled with their frequencies** (proved). Geometric sums of roots of unity.
* **C99 extract_2p_network returns the scattering matrix** (partial). Refuted: AttributeError; the assembly step alone is proved.
* **C100 Smooth waveforms solve their defining equations** (proved). Derivatives; uniqueness of the initial value problem is not claimed.
* **C101 Sums of SFunction objects** (proved). Functions as values.
* **C102 A localized external field needs a bundle of the manager** (proved). List lemmas on the bundles of the manager.
* **C103 Every node listed in a termination is terminated** (partial). Refuted, witnesses; partial for the supported types.
* **C104 A termination of zero resistance is a short** (partial). Refuted, witnesses; partial for non-zero resistances.
* **C105 Impedance functions are those of the circuits they are named after** (proved). Complex algebra.
* **C106 The Debye permittivity is a rational function of a passive medium** (proved). Induction over the terms.
* **C107 The skin effect impedance is continuous at the corner frequency** (partial). Refuted at one point; limits from below.
* **C108 serializeJSON writes the diagonal responses** (partial). Refuted, witnesses; partial when the index happens to be the diagonal.
* **C109 vf is the sum of partial fractions** (proved). Sums over finite lists.
* **C110 Sections of the input file** (proved). Computation of `read`, membership in filtered lists.
* **C111 Look-ups by node, coordinate, material and name** (proved). Induction over the entries; FirstMatch.
* **C112 The line of a cable has the parameters of the file** (partial). From C111 and C32; refutations for integers, lists and off-diagonal resistances; partial for floats and matrices.
* **C113 Conductors of a level are numbered without overlap** (partial). Splitting of the level at the cable; refuted when a cable lists more elements than it has conductors.
* **C117 Sources at a terminal** (proved). Induction over sources and nodes.
* **C120 All look-ups agree on the cable of an element** (partial). FirstMatch against last write of a dictionary; refuted when two cables list the element.
* **C121 The resistance of the connector at a cable end is in the line** (partial). Effect of `set_resistance_in_region` at one point; refuted for a later element of a cable and for mutual resistances.
* **C122 The transfer impedance of each nesting acts between its two elements** (partial). C37 for one edge, induction over the edges; direction `both` excluded, see C37.
* **C123 The transfer impedance of the connector at a cable end replaces the coupling in the end cell** (partial). C96 for one edge, induction over the edges of the element; zero impedances excluded, see C97.
* **C118 A run of the parser simulates all its bundles and networks** (proved). Explicit form of the manager of a run (C59 and the registration of networks); C02 for the frames.
* **C124 Every bundle of the file is built** (proved). Induction over the bundles with an explicit description of one bundle.
* **C125 All look-ups agree on the bundle of a cable** (partial). First match for the search, last match for the dictionary; refuted for a cable in two bundles.
* **C126 A second run of a parser uses the connections of the first one** (partial). A run keeps the wiring; the registration of the second run shifts the rows again, identity for level 0.
* **C114 A distributed source acts on the conductor of its cable** (partial). Exact effect of one source, induction over the sources; refuted with a wire inside a shield.
* **C115 Each probe of the file is on the bundle of its cable at its node** (proved). Exact effect of one probe, induction over the probes with the list of their places.
* **C116 A junction joins two nodes through their connectors** (partial). Exact effect of `join`; refuted for capacitors and for coils, which are not seen.
* **C119 Each node of the network of a joint is at the end its coordinate is at** (partial). Induction over the coordinates with an invariant of the description; refuted for a wire whose ends are joined.
* **C127 The network of a joint is registered at the level of its cables** (partial). The same induction; refuted for a junction of a shield and a wire.
* **C128 The networks of a file are reciprocal and dissipate** (proved). Every network is a new one followed by calls (C48, C49, C50).
* **C129 At the automatic time step a lossless line is solved exactly** (proved). The four update equations become recurrences of waves; closed form by induction; classical solutions satisfy the same recurrences by the method of characteristics, which determine all values.
* **C130 A recorded value belongs to the time it is stamped with** (partial). From C129 and the time stamps of C01; refuted by a smooth source on the demo line.
* **C131 Steady states are the solutions of the direct current circuit** (proved). The unique solutions of C07-C09 with equal old and new values; induction over cells for the series circuit.
* **C132 The response to a step settles at the voltage divider** (proved). Contraction of the closed form of C129 per round trip.
* **C133 Networks of bundles joined by resistors and capacitors never gain energy** (proved). Per-bundle energy balance with the work done at its two ends, per-network balance of the implicit half cells, and cancellation of the exchanged power because each end belongs to at most one node.
* **C134 Networks of bundles joined by resistors and capacitors stay bounded for stable time steps** (proved). The energy of C133 is the sum of the full energies of the bundles; each is bounded below by a positive multiple of the squared norm of its state under the stability bound.
* **C135 Runs with physical data never raise** (proved). Quadratic forms of all matrices that are inverted are positive, so their determinants do not vanish; everything else a run needs is kept by steps.
* **C136 Convergence to smooth solutions when the time step is reduced** (proved). Errors satisfy the equations of the scheme up to residuals of second order (Taylor); energy estimate for the weighted energy; discrete Gronwall.
* **C137 Convergence at the automatic time step** (proved). Energy after whole steps and between the halves of a step; averages are bounded by the energy and the residuals; growth in two halves.
* **C138 Transients die out and initial states are forgotten** (proved). Energy loses at least what the end impedances take; it is bounded below, so the end currents vanish; the equations then make all values alternate in the limit, and alternating values have no energy.
* **C139 Lines settle at the direct current solution** (proved). The distance to a solution of the circuit moves freely (C138); the circuit is linear and has only the zero solution without voltages.
* **C140 Resistances and conductances of regions of bundles** (partial). Exact success conditions and effect of both calls, counterexample on a bundle of two cells, the case of neighbouring nodes as the part that holds.
* **C141 Lines are reciprocal** (proved). Take generating functions in the number of steps: the scheme becomes a chain of linear equations over formal power series with symmetric matrices. Summation by parts along the chain shows that the bilinear concomitant of two solutions at the two ends equals that of their sources. The ring of power series has no zero divisors, so a common waveform cancels.
* **C142 Files with one cable are simulated as the line a program builds** (proved). Follow the parser from the file to the manager; show that networks of resistances at both ends reproduce the terminations of a line (as C63) and that a bundle with one line steps as the line (as C62); compose with C129.
* **C143 A localized field acts between its two positions** (partial). Follow the keys of the dictionary of weights; a bent line as a witness of the wrapped index.
* **C144 The Fortran solvers compute the same as the Python lines** (proved). One pass of the Fortran loop is one step of the Python line; induction over steps.
* **C145 The Fortran solvers settle at the direct current solution** (partial). Transfer the relaxation of Python lines; find two coupled conductors for which the time step is too large.
* **C146 Calls of the Fortran solvers are independent of each other** (partial). maxV has an initial value in its declaration, so that it keeps its value between calls.
* **C147 Lines of the Fortran class have equidistant nodes and a largest time step** (partial). Unfold linspace; the index 0 is outside of x.
* **C148 Parts of a manager that no network joins do not interact** (proved). Filtering bundles and networks commutes with every stage of a step: lookup of bundles by name, write lists, advance, current reads. Induct over steps; the converse glues the two successful runs.
* **C149 Managers are causal, time-invariant and have finite signal speed** (proved). A relation between two managers indexed by a distance function; one step keeps it with the index raised by one; the three statements are instances.
* **C150 Terminations of resistors, inductors and capacitors cannot make a stable line grow without bound** (partial). Refutation: for a two-cell lossless line with 1 Ω in series with 26 H parallel to 1/2 F a left eigenvector of the implicit step has eigenvalue 2; from rest with 1 V no bound can hold, from the eigenstate without sources the end voltage is 12·2^k. Positive part: C133 and C134 for resistors and capacitors.
* **C151 Bounded sources make fields grow at most linearly with the simulated time** (proved). Energy balance with delivered power; the root of the energy grows by at most a constant per step.
* **C152 Excitations of finite duration leave fields that stay bounded for ever** (proved). C151's growth bound until the sources vanish, C133's decrease of the energy afterwards.
* **C153 Steady states of managers are the direct current solutions** (proved). Write the step as equations; with equal voltages and currents before and after, the terms with the time step cancel and the direct current equations remain, and conversely; carry the invariant along the run.
* **C154 Runs of managers can be split** (proved). Managers that differ in the records of probes step alike; a manager after a run is left as it is by the preparation of another run; iterate.
* **C155 With constant sources a network of lines stays bounded exactly if its direct current circuit has a solution** (proved). Means of the trace along an ultrafilter solve the circuit; conversely split the run into the steady solution (C153) and the response to a pulse (C152) by superposition (C62).
* **C156 Networks of lines are reciprocal** (proved). Generating series of the steps of two runs; summation by parts of the ladder equations of every bundle, symmetric solves of the networks, cancellation of the end currents; division by the series of the waveform.
* **C157 Networks of lines with resistors settle at the direct current solution, whatever they start from** (proved). Energy decreases by the loss in the resistors, so the currents in the resistors tend to zero; ends whose voltage the resistors determine tend to alternate with a decreasing amplitude; along a bundle alternation at one end fixes the whole bundle, and its energy then tends to zero below the stability limit. Existence of the solution: as many equations as unknowns, and the homogeneous circuit has the zero solution only, since a solution is a state that a run keeps.
* **C158 The time step of a bundle is the stable one of its block matrices** (proved). The characteristic polynomial of a block-diagonal matrix is the product of those of its blocks, by induction on the list of lines; quadratic forms add up.
* **C159 Well-formed programs build managers that run, stay stable, settle and are reciprocal** (proved). Describe the layout of the networks the constructor builds, compare it with the blocks of the bundle's matrices, and apply C133, C135, C151, C152, C156, C157.
* **C160 Exactly which programs are accepted** (proved). Induction over connections, descriptions and calls with the characterisations of single steps.
* **C161 Files of cables without shields run, are stable and settle** (proved). Show by induction over the folds of the parser that bundles and networks come from plans of a program (C159), with the layout fixed by the cables of the file; then transfer the theorems of C159 along C118.
* **C162 Files of cables without shields are accepted, run and settle** (proved). acceptance of each phase of the constructor: bundles from the look-ups, probes from the mesh of the lines, networks from the characterisation of accepted networks (C160) and of accepted calls; then C161
* **C163 A dispersive connector has the impedance of its rational model** (proved). Coefficients of a line with connectors as a function of the placed models; the memory under an exponential current in closed form; the limit of the closed form; at rest the memory is -(residue/pole) i.
* **C164 The text of elements and coordinates is read as the numbers it shows** (partial). str.split as a loop over characters, characterised by an inductive description of texts; digits of integers; each look-up by induction over the rows. Refuted for a leading zero: some look-ups compare texts and some compare numbers.
* **C165 Connectors of any orders may share a cell** (partial). Model the arithmetic of numpy with object arrays; relate it to the vectors of poles of the model; compute the second step with two models of different orders.
* **C166 A transfer impedance has the impedance of its rational model** (partial). Coefficients after the call from the theorems on pairs; discretised current equation of a step; the memory term vanishes because only outer rows would have memory; limits of coefA and coefB.
* **C167 Connectors with passive impedances keep a stable line stable** (partial). Energy balance of one real pole with the memory of the code, summed over poles, cells and nodes; lower bound by the Courant condition with the inductance that is left.
* **C168 The two ways of counting state variables agree** (partial). Model the function as a fold over the enumerated connections; compare one pass with the counting inside the constructor; induction over the connections.
* **C169 What is inside of a shield does not act on what is outside** (proved). Relate the bundle to the bundle of its first rows: all matrices are block triangular, so are their inverses; the relation is kept by every step and by the networks; then show that constructor and methods establish it.
* **C170 With periodic sources a line approaches a periodic steady state** (proved). The change of the state over a period is an affine map of a finite-dimensional space. By the decay of free motions (C138) no state but rest returns after a period without sources, so identity minus the linear part is injective, hence surjective, on the states whose end voltages no short keeps.
* **C171 Waves inside a line follow the numerical dispersion relation and are never too fast** (proved). Write the updates of nodes and cells as equivalences with the difference equations, insert the wave with the formulas for differences of cosines, induct over the steps with a cone that loses a node per step; strict concavity of the sine for the velocity.
* **C172 Runs do not depend on the variables: any invertible change of voltages and currents, and the modes of a line** (proved). Define the relation between a line and itself in new variables, prove that inverses, products and updates respect it, carry it through one step and iterate; spectral theorem for the modes.
* **C173 The interface of lines has no units of its own** (proved). Specialise C172 to multiples of the identity, prove for each method that arguments in the new units give the same line in the new units, and compose.
* **C174 Managers with periodic sources approach a periodic steady state** (proved). The readings of managers without sources form a vector space that is finite-dimensional, since two consecutive readings determine the rest; they fade, so that the shift by P steps minus the identity is injective, hence surjective; this gives the initial state for which the change over one period vanishes.
* **C175 Managers have a frequency response** (proved). Shifting a sinusoid by one step rotates the pair of the sinusoid and its quarter-period shift; the readings of managers without sources are a finite-dimensional space that fades, on which the shift minus the rotation is injective, hence surjective; this gives a pair of starts that rotate exactly.
* **C176 The vector-fit scripts write the matrices they compute and print the parameters of the medium** (proved). Read back a line of the file as a matrix. For the fit, multiply the difference by all denominators: a polynomial with infinitely many roots is zero, and its values at the poles are the coefficients.
* **C177 The parser's unused helpers** (proved). Induction over the lists.
* **C178 The sinusoidal steady state of a line is the solution of its circuit for alternating current** (proved). The real parts of e^{iwt} times a solution fulfil the equations of a step with the sources (phasor_sum, phasor_diff); differences of driven steps are free steps, which die out (C138). The homogeneous circuit has no other solution than zero because its real parts would not die out; a linear injective map of a finite-dimensional space is surjective.
* **C179 A line in the sinusoidal steady state is a reciprocal, passive network between its sources** (proved). Tellegen's identity for sequences, applied to the equations of C178 with the second solution and with the complex conjugate of the solution.
* **C180 The recorded response to a pulse has the spectrum that the circuit for alternating current gives** (proved). Multiply the step equations by exp(-i omega t) and sum: the sums satisfy the equations of the circuit up to the last frames, which die out by C152; invert the circuit by C178 with a continuous inverse.
* **C181 In the sinusoidal steady state a lossy line carries two waves that decay in the direction they travel in** (proved). Eliminate the currents from the circuit for alternating current, solve the linear recurrence with constant coefficients and study the roots of its quadratic equation.
* **C182 The circuit of a manager for alternating current** (proved). The steady state of C175 is exact, so each step equation of its trace is an equation between sinusoids; two phases determine the complex amplitudes.
* **C183 Managers with sinusoidal sources balance power and are reciprocal** (proved). Tellegen's identity per bundle, Kirchhoff's current law per network, and matching of nodes with ends over the whole manager.
* **C184 The spectrum of a manager's response to a pulse solves its circuit for alternating current** (proved). drive the manager with the sinusoid whose amplitude is the spectrum of the samples so far; superposition, delay and rest give a recursion for its response; it settles by C182 and the response to the pulse fades by C157
* **C185 The ends of a line reflect by their impedance, and the response of a lossy line has a closed form** (proved). Insert the waves of C181 into the equations of the end nodes; the half cells make the current through a node the antisymmetric wave over W. The echo factor cannot vanish because the power along the line only falls and the ends do not deliver any. The closed form is the solution of the two equations of the ends, and C178 carries it to the runs.
* **C186 With more cells the sinusoidal steady state of a line tends to the solution of the telegrapher's equations** (proved). The two waves of C185 have a limit: m (1 - x) tends to the propagation constant, with losses because its square does and its real part is not negative, without losses by an explicit root, so x^k follows exp(-gamma z) uniformly by log(1+u) ~ u; impedance and reflection factors follow. The limit solves the boundary value problem, whose solutions are sums of two exponentials by the waves v + W i and v - W i. C178 carries it to the runs.
* **C187 A line of several conductors responds as one line for each of its modes, and tends to the telegrapher's equations of all conductors** (proved). A change of variables per mode of the circuit for alternating current of C178; each mode is an even line of one conductor, whose limit is C186; the automatic time steps tend to zero by the Courant bound of C21; the amplitudes are sums of the modes. Without common modes: the states of neighbouring cells differ by a step 1 + h S, whose powers tend to the exponential function (power_limit); the ends are linear equations for the first state which tend to those of the telegrapher's equations, solvable as without sources no power can enter (telegraph_zero).
* **C188 The Fourier transforms of the response of a line to pulses tend to the telegrapher's equations with the Fourier integrals of the pulses** (proved). The spectrum of the response solves the circuit for alternating current with the spectrum of the samples (C180); times the time step these are Riemann sums of the Fourier integrals; the limit of C187 for sources that tend to a limit.

## Disagreements between the code and the properties

* **C03 Current probes are stamped half a time step after voltage probes.** False of the code when dt changes after the probes were added (C03_override_fails); proved when the probe's dt is the run's (C03_half_step_partial).
* **C05 Recording beyond the preallocated frames appends in order.** False of the code for a probe that never took part in a run (C05_virgin_probe, C05_append_fails); proved for probes that own their samples, as after any run.
* **C13 A voltage source acts where it is placed.** False of the code for every source whose nearest node is not an end (C13_interior_no_effect, C13_fails); proved for the two end nodes.
* **C23 Changing dt keeps the scheme consistent.** False of the code for the boundary condition (C23_terminal_fails); proved for the interior equations, and for the boundary after recomputing the terminal terms.
* **C24 The mesh is a contiguous subdivision of the given polyline.** False of the code for segments with different numbers of divisions (C24_contiguity_fails, C24_index_error); proved when all segments have the same number (C24_mesh_partial).
* **C26 MTL.add_probe accepts exactly positions on the line.** False of the code in both directions (C26_rejects_on_line, C26_accepts_off_line); the exact acceptance box is proved, and the property for increasing axis-parallel lines.
* **C27 MTLD.add_probe accepts exactly positions on the line.** False of the code (C27_accepts_beyond_end); acceptance of points on segments and rejection of points off the lines through the segments are proved.
* **C29 set_resistance_in_region puts the given total resistance on the given conductor.** False of the code (C29_total_fails, C29_off_diagonal); the exact effect is proved for all lines, and the property for one conductor and a region of one cell.
* **C30 add_conductance_in_region puts the given conductance at the given place.** False of the code (C30_misplaced); the exact effect on default-geometry lines is proved, and the property at the first node.
* **C34 Dispersive memory is the convolution with the computed current.** False of the code (C34_linear_fails): i_prev is an alias of the new current. Exact error per step (C34_step_error); the memory is the convolution with the staircase history (C34_memory_partial).
* **C37 Transfer impedance direction.** Proved for in and out; false for both, which does nothing (C37_both_does_nothing).
* **C38 Transfer impedances may have any number of poles.** False of the code: other pole counts are refused (C38_pole_count_refused) or distributed one per cell (C38_poles_spread_over_cells); proved for one pole.
* **C39 Transfer-impedance poles have memory.** False of the code: there is no memory at all (C39_no_memory, C39_history_ignored); the last-step contribution is proved exact.
* **C45 Localized field covers the requested length.** False of the code in the first cell (C45_first_cell_wrong); the exact weights are proved elsewhere on uniform straight lines.
* **C47 Connections commute.** False of the code (C47_order_matters): calls to ground overwrite what branches add. Proved for sequences in which any two calls are branches or name different nodes.
* **C49 Resistive networks are passive.** False of the code (C49_active): a call to ground after a branch at the same node makes an active network. Proved when no call to ground names a node of an earlier branch.
* **C51 Sources of several branches superpose.** False of the code (C51_cross_terms): two sourced branches at a node give cross terms. Proved for nodes named by one sourced call.
* **C54 Different conductors map to different bundle rows.** False of the code for several lines in a level (C54_refuted); proved for the first line of each level, hence for one line per level.
* **C55 Adding a network twice is harmless.** False of the code for inner levels (C55_refuted); proved for networks of level 0.
* **C57 The LCpRs termination obeys the circuit equations.** False of the code (C57_refuted, C57_capacitor_sign): the capacitor equation has the wrong sign of the resistor current. The current and the inductor equation are proved.
* **C58 Conn_sRLC terminations include their L and C.** False: the inductance and capacitance of Conn_sRLC are not used, the termination obeys Ohm's law with the resistance alone; witness with R = L = C = 1. Proved when there is no inductor and no capacitor.
* **C60 All bundles are advanced with the manager's dt.** False without explicit dt: a bundle's coefficients use its own dt (C60_refuted). With an explicit dt all coefficients use it, except those of dispersive elements, which are not recomputed.
* **C64 Network terminations account for the line's conductance.** False: networks do not use the conductances of the lines at all (C64_no_conductance_partial, C64_refuted).
* **C65 create_clean_copy gives a line at rest.** False of the code with dispersive connectors (C65_memory_leaks); proved exactly when the memory is unchanged, in particular without connectors.
* **C66 add_t_functions and multiply are pointwise.** Pointwise sum and scaling, commutativity, associativity and the neutral element are proved; rejection of functions without a parameter t is false of the code (co_varnames also lists local variables), see C66_refuted.
* **C67 The trapezoidal wave is periodic and stays between 0 and A.** The period is proved for all parameters; the shape and the bounds everywhere except at the two ends of the plateau, where the wave is 2A (C67_refuted).
* **C68 The ramp pulse saturates at A.** Proved except at x = x0, where the ramp is 2A (C68_refuted).
* **C70 Symbolic and numeric waveforms agree.** Equal except at the ends of the plateau, at x0 and at negative times, where they differ for every amplitude (C70_refuted).
* **C71 Travelling waveforms travel.** True of the trapezoidal and double exponential waves, false of the ramps (C71_refuted).
* **C74 rotate_to_segment keeps the incidence direction.** False of the code (C74_refuted: two opposite waves get the same direction; C74_refuted_down: segments pointing down); for every segment not along the x axis the wave is turned by one rotation, which takes the segment to the z axis exactly if it does not point down, unless the rotated direction lies on the negative y side of the x-y plane; for segments along the x axis the angles are not numbers.
* **C76 Transverse voltage is the line integral of the field.** False of the code for oblique offsets (C76_refuted_oblique) and at the last node (C76_refuted_last); proved for offsets along an axis at every other node, with the exact value at the last node.
* **C77 Uniform fields induce no longitudinal excitation; localization touches only its cells.** Proved for lines; false for bundles, where the cell after the localization is changed too (C77_refuted_bundle), with the exact range of changed cells proved.
* **C78 Networks see fields added to their lines.** False of the code (C78_refuted, C78_refuted_always); proved that each node takes the transverse voltage its line has when the network is made.
* **C79 Power waves.** Proved for ports whose first voltage probe holds a float position, including the energy balance over all frequencies (Parseval). False for probes of a line: their positions are arrays and reading the waves raises ValueError (C79_refuted).
* **C80 Port probes can be added to a line.** False: add_port_probe reads self.z, which no line has, and raises AttributeError on every line (C80_refuted). The three probes can be added one by one (C80_probes_partial).
* **C84 Lumped elements are placed on their own cable.** False: once the file has a lumped element every cable without one raises IndexError, and only the first element of a cable is placed. Proved: that first one is placed as described, and files without lumped elements.
* **C85 Multiwire terminations use each node's own connector and source.** False: connectors and sources are taken at the position given by the conductor number; nodes listed in reverse swap sources, short groups raise IndexError. Proved for groups that list conductors 0, 1, ... in order. C85_single_errors, C85_multi_errors, C85_group_errors: the exact exceptions.
* **C86 No termination is lost.** False: of two joints at one position with one level the second replaces the first; witness is a whole file. Proved when the levels are different.
* **C87 Bundles without transfer impedance can be nested.** False: a nesting is accepted only if every outer cable has a transfer impedance. Proved for bundles without nesting, in files without cable ends.
* **C88 Source types.** False for unknown types: the function returns None, not 0. The seven known types are proved under conditions on their parameters; ramp and trapezoidal leave out the points where C68 and C67 are false, and gaussian ignores the amplitude of the file.
* **C89 Order of lines inside a level is immaterial.** False: witness is a whole file with two wires in one level, whose rows differ between two orders. Proved when each level has one cable.
* **C90 A plane wave can be added to a manager.** False of the code: every manager with a bundle raises AttributeError (C90_refuted).
* **C91 Localizing a field on the whole line changes nothing.** Proved for lines; false for bundles, which never accept a localization ending at the last node (C91_refuted).
* **C92 Fields add up.** False of the code: only the last field remains (C92_refuted_last_wins, C92_refuted).
* **C95 Fields of lines survive bundling.** False of the code: bundles start without fields (C95_refuted, C95_refuted_always).
* **C97 A perfect connector removes the coupling of its cell.** False: a zero model returns early and leaves the coupling of the cable (C97_refuted). Any non-zero model replaces the coupling (C97_nonzero_partial).
* **C99 extract_2p_network returns the scattering matrix.** False: the extraction reads line1.x, which no line has, and fails for every line (C99_refuted). The assembly of the two runs gives S under the stated conditions, and the band keeps frequencies and matrices together.
* **C103 Every node listed in a termination is terminated.** False: a single node with any connector but five types, and several nodes without MultiwireConnector, stay open. Proved for four single types with all values given; Conn_sRLC is C58.
* **C104 A termination of zero resistance is a short.** False: a resistance of 0 leaves the node open, and raises ZeroDivisionError with a source. Proved for resistances that are not 0.
* **C107 The skin effect impedance is continuous at the corner frequency.** False at the corner frequency, where both parts are added and the value doubles (C107_corner, C107_refuted: no continuous extension from below). Proved below and above it.
* **C108 serializeJSON writes the diagonal responses.** False: the index is i times the number of poles, which is the diagonal only when there is one pole more than ports (C108_partial). Otherwise other responses are written (C108_refuted) or IndexError is raised (C108_refuted_error).
* **C112 The line of a cable has the parameters of the file.** False: of a one-conductor wire a number written without decimal point (an int) is refused with ValueError (C112_refuted_integer); a one-dimensional list of inductances is never accepted (C112_refuted_list); the entries of a resistance matrix off the diagonal are dropped (C112_refuted_resistance, C112_example_b). Partial: floats, and matrices with a resistance on the diagonal; accepted for physical parameters. C112_errors: the exact exceptions.
* **C113 Conductors of a level are numbered without overlap.** False: a cable may list more elements than its wire has conductors, and the extra elements get numbers of the next line (C113_refuted). Partial: when every line has a conductor for every element of its cable, numbers lie in the line and are distinct.
* **C120 All look-ups agree on the cable of an element.** False: when two cables list an element, the graph records the last one and the look-up by element returns the first one (C120_refuted). Partial: they agree when only one cable lists the element. C120_errors: the exact exceptions of the graph's look-up.
* **C121 The resistance of the connector at a cable end is in the line.** False: the position of the element in its cable is passed as the conductor, which `set_resistance_in_region` uses to index the cells of the region, so a connector at the end of a later element of a cable raises IndexError (C121_refuted); and the whole matrix row of conductor 0, mutual terms included, is overwritten (C121_refuted_row). Partial: an end at the first element puts the resistance of its connector into the cell of the node, all other ends do nothing.
* **C122 The transfer impedance of each nesting acts between its two elements.** False for the direction both, which does nothing (C122_refuted). Proved for the directions in and out, for any graph and number of edges.
* **C123 The transfer impedance of the connector at a cable end replaces the coupling in the end cell.** False for a connector with transfer impedance 0, which leaves the coupling of the cable in place (C123_refuted), and for the direction both. Proved for every other impedance, for any graph.
* **C125 All look-ups agree on the bundle of a cable.** False when two bundles share a cable: the search gives the first bundle, the dictionary the last one (C125_refuted, C124_C125_example). Proved when no two bundles share the cable; the look-ups themselves are characterised in general.
* **C126 A second run of a parser uses the connections of the first one.** False for networks inside a shield: every run registers the networks again and shifts their rows again, so that a second run may fail (C126_rows, C126_refuted). Proved for networks of level 0: the second run starts from exactly what the first one has left, at time 0.
* **C114 A distributed source acts on the conductor of its cable.** The number of the conductor of a source is used as a row of the whole bundle (C114_source, C114_effect: exact). It is the row of the conductor of the cable only if the cable is the first line of the outermost level (C114_first_cable_partial); C114_refuted: the source of a wire inside a shield drives the shield. C114_all: the longitudinal fields of other rows, and everything else, are unchanged. C114_errors: the exact exceptions, in the order of their tests.
* **C116 A junction joins two nodes through their connectors.** False of the code: capacitors and inductances of the connectors are ignored, so that a capacitor in a junction is a short circuit (C116_refuted, C116_refuted_example) and a series RLC connector is its resistance (C116_refuted_series). C116_join is the exact effect; proved for two resistors at nodes without other sources (C116_resistors_partial), pairs of another size are rejected (C116_rejects). C116_errors, C116_resistance_errors: the exact exceptions.
* **C119 Each node of the network of a joint is at the end its coordinate is at.** False of the code: the end is stored once for each cable, so a node at the other end of a cable that is already in the joint is put at the end of the first one (C119_refuted: both ends of one wire). C119_nodes is the exact statement; proved as stated if the coordinates of one cable in the joint are on one side (C119_ends_partial). C119_level_errors: the exact exceptions of the level of a cable.
* **C127 The network of a joint is registered at the level of its cables.** False of the code: the level is that of the cable of the last coordinate (C127_refuted: a junction of a shield and a wire in it). C127_level_partial: exactly the level of the last cable, hence the level of all if they have the same.
* **C130 A recorded value belongs to the time it is stamped with.** False: all recorded values are one time step late, because the sources are evaluated at the beginning of the step and the value is stamped with its end (C130_refuted). Proved: the value stamped t is the exact value at t - dt, for voltages at the node and for currents in the middle of the cell (C130_delay_partial).
* **C140 Resistances and conductances of regions of bundles.** False. For every bundle, region and conductor the exact effect is proved: one row of one matrix is written (row `conductor` of cell or node `i1 + conductor`), with the total divided by the distance of the nodes nearest to the ends; the calls succeed exactly under the stated conditions. So on a bundle of two cells of length 1 the total over the whole bundle is half of the argument, and at the last node both calls raise IndexError, while the version for lines moves the resistance into the last cell. Proved part: conductor 0 and a region that ends at most one node after its start.
* **C143 A localized field acts between its two positions.** False on bent lines: when the first node is nearest to the end position, the code compares with the last cell (index -1), and a position next to the first node, off the line but in the direction of the last cell, drives the last cell (C143_refuted). Proved in all other cases (C143_cells_partial); a start position for which the last node is nearest, but off it, raises IndexError although it may be on the line (C143_last_node).
* **C145 The Fortran solvers settle at the direct current solution.** False in general: the time step is 0.95 cells divided by the velocity of the fastest conductor by itself, which can be slower than the fastest mode; the arrays for two strongly coupled conductors in a homogeneous medium grow beyond every bound (C145_refuted). Proved when the modes are slower than W / 0.95 (C145_settles_partial), always without coupling (C145_uncoupled), for two equal conductors with a mutual inductance below 0.312 times the inductance (C145_pair_partial), and for the data of the three programs that are shipped (C145_shipped_losses, C145_shipped_three, C145_shipped_two).
* **C146 Calls of the Fortran solvers are independent of each other.** False: the largest velocity is kept between calls, and a call for a slower line uses the time step of the fastest line so far (C146_refuted). A call for a line with a conductor at least as fast as all before is that of a fresh program (C146_fast_partial); what is kept after any sequence of calls is the largest velocity in the calls of each solver (C146_kept).
* **C147 Lines of the Fortran class have equidistant nodes and a largest time step.** get_max_timestep never returns a value: it reads x(0), which is outside the bounds of x, and velocities that have no values (C147_refuted). The nodes are as stated for at least one cell (C147_nodes_partial).
* **C150 Terminations of resistors, inductors and capacitors cannot make a stable line grow without bound.** False for connect_to_ground_LCpRs, because of the sign of C57: C150_refuted (from rest, constant source of 1 V, half the stability limit) and C150_refuted_free (no source; the voltage of the end is 12·2^k after k steps). Proved for networks of resistors and capacitors (C150_rc_partial).
* **C164 The text of elements and coordinates is read as the numbers it shows.** False of the code: an id written as 03 is the number 3 when the line is built (`_getListOfCoordinates`), but not when the element at a coordinate is looked for (`_getElementOfNode`, `_getLineElemIdFromCoordId`), which compare texts (C164_refuted_zeros). Proved for ids written as Python writes them (theorems ending in _partial); blanks, int, float and coordinates without condition.
* **C165 Connectors of any orders may share a cell.** False: a product of the number 0 with the array of another conductor is an array of zeros, which is added and broadcast. With different orders, none of which is one, the second step raises ValueError; the history of a model with one pole is multiplied by the order of the model on the other conductor, and lost if that is a resistance or an inductance (C165_fails_raises, C165_fails_repeated, C165_refuted). Proved: with equal orders in a cell the objects compute exactly the history terms of the models in any number of steps, also along runs of lines, which justifies the vectors of poles in the rest of the model.
* **C166 A transfer impedance has the impedance of its rational model.** False of the code for models with poles. C166_emf_partial gives exactly what a step computes: the induced voltage depends on the new and the old outer current only (the memory of the poles is attached to the inner row and read with the outer one, see C39), C166_response_partial gives the impedance that is realised, and C166_limit_partial shows that it tends to (cte + prop z)/factor when the time step goes to zero: the poles vanish. C166_refuted: for the model 1/(s+1) the limit at direct current is 0 and not 1. Without poles the property holds (C166_no_poles_partial). C166_emf_partial is for one call; several poles raise a ValueError or are spread over the cells (C38), so with poles the pole count is 1 there. C166_example shows that the hypotheses hold for a bundle with a pole.
* **C167 Connectors with passive impedances keep a stable line stable.** False: the automatic time step ignores connectors. `C167_refuted`: a shorted loop of one cell, run with half of its automatic time step, grows without bound when 100 ohm in parallel with 0.01 F are added, although line and connector are passive. Proved instead, for connectors made of resistances, inductances and parallel RC or RL circuits (`Foster`, proved positive real): an energy that includes the memories of the connectors never increases (`C167_energy_partial`), and all voltages and currents are bounded for all time if the time step is below the automatic one of the inductances from which `dt²/4` times the residues is taken (`C167_bounded_partial`); the same loop with 1 ohm meets that. Complex pairs of poles are not covered.
* **C168 The two ways of counting state variables agree.** False of the code: a termination of type Conn_LCpRs counts 0 but gets two state variables, and for connectors of several wires the function looks at the position in the list and the constructor at the conductor (C168_refuted). Proved: for connections ordered by conductor, none of type Conn_LCpRs, each connector of several wires at the place of its conductor, the count is exactly what the constructor adds (C168_count_partial).

## Tests with wrong programs

`seeded/LOG.jsonl` has one line for every wrong version of a definition that was tried in a copy of the project: the edit, the
claim it breaks, the theorems that no longer hold, and the theorems that were added when nothing had failed.
