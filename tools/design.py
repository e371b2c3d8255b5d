import json
props=[json.loads(l) for l in open('/verif/properties.jsonl')]
plan={
"C01":"Model Probe, MTL.step, MTL.run_until; induction over steps; spec = list of frames computed by iterating the step.",
"C02":"Same for MTLN.run_until with lists of bundles.",
"C03":"Refuted for explicit dt override (probe.dt is captured by add_probe): witness; partial theorem when probe.dt = running dt.",
"C04":"Semigroup property of iteration lifted through run_until (coefficients are recomputed identically).",
"C05":"Model val aliasing explicitly; prove appending after run_until; refute for never-resized probes (frame 0 is a live view).",
"C06":"Case analysis on the type string.",
"C07":"Algebra on inverse matrices, plus uniqueness by injectivity.","C08":"As C07.","C09":"As C07, for invariant 'terminal terms match dt'.",
"C10":"Relational invariant LinComb preserved by step, induction.","C11":"Invariant 'everything zero'.",
"C12":"Invariant: v_k=0 for k >= j, i_k=0 for k >= j after j steps.",
"C13":"Refuted: interior sources are ignored; theorem that results do not depend on interior sources; partial: end positions work.",
"C14":"Mirror bisimulation.","C15":"Discrete energy identity by summation by parts.","C16":"CFL via eigenvalues of L C; coercivity of energy.",
"C17":"Relational induction.","C18":"Relational induction.","C19":"Projection bisimulation along an embedding of conductors.","C20":"Permutation bisimulation.",
"C21":"Model eigvals as roots of the characteristic polynomial over C.","C22":"Floor arithmetic over exact reals.","C23":"Refuted by witness; partial for the interior equations.",
"C24":"Memory model of the mesh loop; partial: equal divisions; witness of failure for unequal ones.",
"C25":"Specification of argmin.","C26":"Partial: axis-ordered lines; witness of rejection on decreasing lines.","C27":"Soundness/completeness with the phantom segment exhibited.",
"C28":"Vector algebra in R^3.","C29":"Model chained indexing; refuted for general regions; partial for one conductor.","C30":"As C29 with flattened argmin.",
"C31":"Frame property of Function.update.","C32":"Iff-characterisation of constructor success.","C33":"Interval integral of exp times linear function.",
"C34":"Refuted as piecewise linear (aliasing of i_prev); proved: staircase convolution closed form.","C35":"Case analysis.","C36":"Algebra.",
"C37":"'both' refuted; in/out proved.","C38":"Refuted; partial for one pole.","C39":"Refuted for two-level 'in'; partial closed form.","C40":"Case analysis.","C41":"Arithmetic of prefix sums.",
"C42":"Conjugation invariance.","C43":"Block projection bisimulation.","C44":"Frame property, induction.","C45":"Model on the coordinate axis; partial and refutation.",
"C46":"Matrix algebra with solve = inverse.","C47":"Permutations of call lists; refuted with ground+branch; partial.","C48":"Invariant by induction over calls.","C49":"Invariant; refuted with overwriting; partial.",
"C50":"Invariant.","C51":"Refuted; partial for single source.","C52":"Frame reasoning.","C53":"Induction over description.","C54":"Refuted for several lines in a level; partial.","C55":"Refuted for level >= 1; proved for level 0.",
"C56":"Algebra.","C57":"Refuted (sign); the coded equations proved.","C58":"Refuted; behaves as R.","C59":"Induction over bundle list.","C60":"Refuted without explicit dt; proved with.",
"C61":"Permutation invariance of folds.","C62":"Relational induction.","C63":"Bisimulation MTL/MTLN.","C64":"Refuted; independence of g.",
"C65":"Refuted for dispersive memory; proved without poles.","C66":"Functions as values.","C67":"Periodicity, bounds off break points; refuted at break points.","C68":"As C67.","C69":"Case analysis.","C70":"Off break points / t>=0.","C71":"Algebra; refuted for ramp_pulse_x_sp.",
"C72":"Trigonometry.","C73":"Algebra.","C74":"Trigonometry; refuted in one half-plane.","C75":"Cauchy-Schwarz.","C76":"Axis offsets proved; oblique refuted.","C77":"Algebra.","C78":"Refuted by order of calls.",
"C79":"Complex algebra.","C80":"Refuted: AttributeError always.","C81":"List.find lemmas.","C82":"Grouping by induction.","C83":"Induction on the nested structure.","C84":"Refuted, witness.","C85":"Refuted, witness; partial.","C86":"Refuted, witness; partial.","C87":"Refuted: AttributeError.","C88":"Case analysis; unknown type refuted.","C89":"Refuted: row collision; partial.",
"C90":"Refuted: AttributeError always.","C91":"Floor arithmetic of the end index; refuted for bundles.","C92":"Refuted: the last call wins; partial for one field.","C93":"Interval integrals of continuous functions.","C94":"Change of variables in the stored excitation.","C95":"Refuted: bundles start without fields.",
"C96":"Frame property of the arrays of couplings.","C97":"Refuted for zero models; proved for the others.","C98":"Geometric sums of roots of unity.","C99":"Refuted: AttributeError; the assembly step alone is proved.","C100":"Derivatives; uniqueness of the initial value problem is not claimed.","C101":"Functions as values.","C102":"List lemmas on the bundles of the manager.",
"C103":"Refuted, witnesses; partial for the supported types.","C104":"Refuted, witnesses; partial for non-zero resistances.",
"C105":"Complex algebra.","C106":"Induction over the terms.","C107":"Refuted at one point; limits from below.","C108":"Refuted, witnesses; partial when the index happens to be the diagonal.","C109":"Sums over finite lists.",
"C110":"Computation of `read`, membership in filtered lists.","C111":"Induction over the entries; FirstMatch.","C112":"From C111 and C32; refutations for integers, lists and off-diagonal resistances; partial for floats and matrices.","C113":"Splitting of the level at the cable; refuted when a cable lists more elements than it has conductors.","C117":"Induction over sources and nodes.","C120":"FirstMatch against last write of a dictionary; refuted when two cables list the element.",
"C121":"Effect of `set_resistance_in_region` at one point; refuted for a later element of a cable and for mutual resistances.","C122":"C37 for one edge, induction over the edges; direction `both` excluded, see C37.","C123":"C96 for one edge, induction over the edges of the element; zero impedances excluded, see C97.",
"C114":"Exact effect of one source, induction over the sources; refuted with a wire inside a shield.","C115":"Exact effect of one probe, induction over the probes with the list of their places.",
"C129":"The four update equations become recurrences of waves; closed form by induction; classical solutions satisfy the same recurrences by the method of characteristics, which determine all values.",
"C130":"From C129 and the time stamps of C01; refuted by a smooth source on the demo line.",
"C131":"The unique solutions of C07-C09 with equal old and new values; induction over cells for the series circuit.",
"C132":"Contraction of the closed form of C129 per round trip.",
"C133":"Per-bundle energy balance with the work done at its two ends, per-network balance of the implicit half cells, and cancellation of the exchanged power because each end belongs to at most one node.",
"C134":"The energy of C133 is the sum of the full energies of the bundles; each is bounded below by a positive multiple of the squared norm of its state under the stability bound.",
"C135":"Quadratic forms of all matrices that are inverted are positive, so their determinants do not vanish; everything else a run needs is kept by steps.",
"C136":"Errors satisfy the equations of the scheme up to residuals of second order (Taylor); energy estimate for the weighted energy; discrete Gronwall.",
"C137":"Energy after whole steps and between the halves of a step; averages are bounded by the energy and the residuals; growth in two halves.",
"C138":"Energy loses at least what the end impedances take; it is bounded below, so the end currents vanish; the equations then make all values alternate in the limit, and alternating values have no energy.",
"C139":"The distance to a solution of the circuit moves freely (C138); the circuit is linear and has only the zero solution without voltages.",
"C140":"Exact success conditions and effect of both calls, counterexample on a bundle of two cells, the case of neighbouring nodes as the part that holds.",
"C141":"Take generating functions in the number of steps: the scheme becomes a chain of linear equations over formal power series with symmetric matrices. Summation by parts along the chain shows that the bilinear concomitant of two solutions at the two ends equals that of their sources. The ring of power series has no zero divisors, so a common waveform cancels.",
"C142":"Follow the parser from the file to the manager; show that networks of resistances at both ends reproduce the terminations of a line (as C63) and that a bundle with one line steps as the line (as C62); compose with C129.",
"C143":"Follow the keys of the dictionary of weights; a bent line as a witness of the wrapped index.",
"C144":"One pass of the Fortran loop is one step of the Python line; induction over steps.",
"C145":"Transfer the relaxation of Python lines; find two coupled conductors for which the time step is too large.",
"C146":"maxV has an initial value in its declaration, so that it keeps its value between calls.",
"C147":"Unfold linspace; the index 0 is outside of x.",
"C148":"Filtering bundles and networks commutes with every stage of a step: lookup of bundles by name, write lists, advance, current reads. Induct over steps; the converse glues the two successful runs.",
"C149":"A relation between two managers indexed by a distance function; one step keeps it with the index raised by one; the three statements are instances.",
"C150":"Refutation: for a two-cell lossless line with 1 Ω in series with 26 H parallel to 1/2 F a left eigenvector of the implicit step has eigenvalue 2; from rest with 1 V no bound can hold, from the eigenstate without sources the end voltage is 12·2^k. Positive part: C133 and C134 for resistors and capacitors.",
"C151":"Energy balance with delivered power; the root of the energy grows by at most a constant per step.",
"C152":"C151's growth bound until the sources vanish, C133's decrease of the energy afterwards.",
"C153":"Write the step as equations; with equal voltages and currents before and after, the terms with the time step cancel and the direct current equations remain, and conversely; carry the invariant along the run.",
"C154":"Managers that differ in the records of probes step alike; a manager after a run is left as it is by the preparation of another run; iterate.",
"C155":"Means of the trace along an ultrafilter solve the circuit; conversely split the run into the steady solution (C153) and the response to a pulse (C152) by superposition (C62).",
"C156":"Generating series of the steps of two runs; summation by parts of the ladder equations of every bundle, symmetric solves of the networks, cancellation of the end currents; division by the series of the waveform.",
"C157":"Energy decreases by the loss in the resistors, so the currents in the resistors tend to zero; ends whose voltage the resistors determine tend to alternate with a decreasing amplitude; along a bundle alternation at one end fixes the whole bundle, and its energy then tends to zero below the stability limit. Existence of the solution: as many equations as unknowns, and the homogeneous circuit has the zero solution only, since a solution is a state that a run keeps.",
"C158":"The characteristic polynomial of a block-diagonal matrix is the product of those of its blocks, by induction on the list of lines; quadratic forms add up.",
"C159":"Describe the layout of the networks the constructor builds, compare it with the blocks of the bundle's matrices, and apply C133, C135, C151, C152, C156, C157.",
"C160":"Induction over connections, descriptions and calls with the characterisations of single steps.",
"C161":"Show by induction over the folds of the parser that bundles and networks come from plans of a program (C159), with the layout fixed by the cables of the file; then transfer the theorems of C159 along C118.",
"C162":"acceptance of each phase of the constructor: bundles from the look-ups, probes from the mesh of the lines, networks from the characterisation of accepted networks (C160) and of accepted calls; then C161",
"C163":"Coefficients of a line with connectors as a function of the placed models; the memory under an exponential current in closed form; the limit of the closed form; at rest the memory is -(residue/pole) i.",
"C164":"str.split as a loop over characters, characterised by an inductive description of texts; digits of integers; each look-up by induction over the rows. Refuted for a leading zero: some look-ups compare texts and some compare numbers.",
"C165":"Model the arithmetic of numpy with object arrays; relate it to the vectors of poles of the model; compute the second step with two models of different orders.",
"C166":"Coefficients after the call from the theorems on pairs; discretised current equation of a step; the memory term vanishes because only outer rows would have memory; limits of coefA and coefB.",
"C167":"Energy balance of one real pole with the memory of the code, summed over poles, cells and nodes; lower bound by the Courant condition with the inductance that is left.",
"C168":"Model the function as a fold over the enumerated connections; compare one pass with the counting inside the constructor; induction over the connections.",
"C169":"Relate the bundle to the bundle of its first rows: all matrices are block triangular, so are their inverses; the relation is kept by every step and by the networks; then show that constructor and methods establish it.",
"C170":"The change of the state over a period is an affine map of a finite-dimensional space. By the decay of free motions (C138) no state but rest returns after a period without sources, so identity minus the linear part is injective, hence surjective, on the states whose end voltages no short keeps.",
"C171":"Write the updates of nodes and cells as equivalences with the difference equations, insert the wave with the formulas for differences of cosines, induct over the steps with a cone that loses a node per step; strict concavity of the sine for the velocity.",
"C172":"Define the relation between a line and itself in new variables, prove that inverses, products and updates respect it, carry it through one step and iterate; spectral theorem for the modes.",
"C173":"Specialise C172 to multiples of the identity, prove for each method that arguments in the new units give the same line in the new units, and compose.",
"C174":"The readings of managers without sources form a vector space that is finite-dimensional, since two consecutive readings determine the rest; they fade, so that the shift by P steps minus the identity is injective, hence surjective; this gives the initial state for which the change over one period vanishes.",
"C175":"Shifting a sinusoid by one step rotates the pair of the sinusoid and its quarter-period shift; the readings of managers without sources are a finite-dimensional space that fades, on which the shift minus the rotation is injective, hence surjective; this gives a pair of starts that rotate exactly.",
"C176":"Read back a line of the file as a matrix. For the fit, multiply the difference by all denominators: a polynomial with infinitely many roots is zero, and its values at the poles are the coefficients.",
"C177":"Induction over the lists.",
"C178":"The real parts of e^{iwt} times a solution fulfil the equations of a step with the sources (phasor_sum, phasor_diff); differences of driven steps are free steps, which die out (C138). The homogeneous circuit has no other solution than zero because its real parts would not die out; a linear injective map of a finite-dimensional space is surjective.",
"C179":"Tellegen's identity for sequences, applied to the equations of C178 with the second solution and with the complex conjugate of the solution.",
"C180":"Multiply the step equations by exp(-i omega t) and sum: the sums satisfy the equations of the circuit up to the last frames, which die out by C152; invert the circuit by C178 with a continuous inverse.",
"C181":"Eliminate the currents from the circuit for alternating current, solve the linear recurrence with constant coefficients and study the roots of its quadratic equation.",
"C182":"The steady state of C175 is exact, so each step equation of its trace is an equation between sinusoids; two phases determine the complex amplitudes.",
"C183":"Tellegen's identity per bundle, Kirchhoff's current law per network, and matching of nodes with ends over the whole manager.",
"C184":"drive the manager with the sinusoid whose amplitude is the spectrum of the samples so far; superposition, delay and rest give a recursion for its response; it settles by C182 and the response to the pulse fades by C157",
"C185":"Insert the waves of C181 into the equations of the end nodes; the half cells make the current through a node the antisymmetric wave over W. The echo factor cannot vanish because the power along the line only falls and the ends do not deliver any. The closed form is the solution of the two equations of the ends, and C178 carries it to the runs.",
"C186":"The two waves of C185 have a limit: m (1 - x) tends to the propagation constant, with losses because its square does and its real part is not negative, without losses by an explicit root, so x^k follows exp(-gamma z) uniformly by log(1+u) ~ u; impedance and reflection factors follow. The limit solves the boundary value problem, whose solutions are sums of two exponentials by the waves v + W i and v - W i. C178 carries it to the runs.",
"C187":"A change of variables per mode of the circuit for alternating current of C178; each mode is an even line of one conductor, whose limit is C186; the automatic time steps tend to zero by the Courant bound of C21; the amplitudes are sums of the modes. Without common modes: the states of neighbouring cells differ by a step 1 + h S, whose powers tend to the exponential function (power_limit); the ends are linear equations for the first state which tend to those of the telegrapher's equations, solvable as without sources no power can enter (telegraph_zero).",
"C188":"The spectrum of the response solves the circuit for alternating current with the spectrum of the samples (C180); times the time step these are Riemann sums of the Fourier integrals; the limit of C187 for sources that tend to a limit.",
"C116":"Exact effect of `join`; refuted for capacitors and for coils, which are not seen.","C119":"Induction over the coordinates with an invariant of the description; refuted for a wire whose ends are joined.","C127":"The same induction; refuted for a junction of a shield and a wire.","C128":"Every network is a new one followed by calls (C48, C49, C50).",
"C118":"Explicit form of the manager of a run (C59 and the registration of networks); C02 for the frames.","C124":"Induction over the bundles with an explicit description of one bundle.","C125":"First match for the search, last match for the dictionary; refuted for a cable in two bundles.","C126":"A run keeps the wiring; the registration of the second run shifts the rows again, identity for level 0.",
}
out=["""# Formal model of OpenSEMBA/mtln: design

Everything lives in the Lean 4 project `lean/`. `Verif/Model/*` is the model of the Python
and Fortran code, `Verif/Spec/*` contains the small independent specifications, `Verif/Props/*` the
property theorems (named `Cnn_...`) with non-vacuity examples, `Verif/Lemmas/*` helper lemmas.

## Trusted base

* Lean 4.33.0's kernel and the axioms `propext`, `Classical.choice`, `Quot.sound`. No other axiom, no
  `sorry`, `native_decide` or `bv_decide`.
* The reading of the Python sources into `Verif/Model` (every definition cites file and lines).
* Numbers: Python/numpy floats are modelled by exact real numbers (complex numbers for poles).
  Rounding, NaN and infinity are outside the model; where the code would divide by zero the model
  returns an explicit error.
* numpy primitives are modelled by their documented mathematical meaning: `linalg.inv`/`solve` is the
  matrix inverse and raises `LinAlgError` iff the determinant is zero; `argmin` is the first minimiser;
  `linalg.eigvals` is the multiset of roots of the characteristic polynomial over C;
  conversion complex -> float drops the imaginary part.
* Exceptions are values (`Except PyErr`). The state left behind by a call that raises half way is not
  modelled unless a property says so.
* Fortran: `F A = Except FErr A` with `stop` and reads outside the bounds of an array as errors; `maxV` keeps its value between
  calls, as the standard requires of local variables with an initial value (`Saved`).
* sympy expressions are modelled by the functions they denote, `sp.Integral` by the interval integral.

## Modelling decisions

* `Py A = Except PyErr A` is the result of a Python call. Exceptions the code raises itself, assertions and the exceptions
  of the operations it uses (`KeyError`, `IndexError`, `AttributeError`, ...) are distinct values. `NotModelled` marks
  runs that leave the model: division by zero of numpy numbers, uninitialised memory, shapes that numpy would broadcast.
  Theorems about success say that these do not occur; no theorem concludes anything good from `NotModelled`.
  `_addSources` builds the function of a source before it looks for its cable; the model does it after that, so in a file
  with two mistakes another exception may be reported.
* The number of conductors `n` and the number of poles `p` are parameters of the types; a bundle of any size is a pair of
  its size and a value of that type (`AnyLine`, `AnyBundle`, `AnyNetwork`). All rational models of a line or bundle have `p`
  poles; the arrays of Python objects in dispersive.py are modelled in Model/Broadcast, and C165 shows that they compute the same
  if the models of a cell have equal orders, and what happens otherwise.
* Arrays over the cells and nodes of a line are total functions of natural numbers together with the number of cells; every
  definition that reads them does so within the bounds that the code uses. Statements about fields of a line say at which
  nodes they hold.
* numpy views that the code shares on purpose or by accident are modelled where they matter: a probe that never recorded
  shares the array of the line (`ProbeVal.view`), `i_prev` of the dispersive elements is the array of the new currents.
* Iteration over a Python `set` of strings has an arbitrary order, which is a parameter of the parser (`order`).
* Strings of the input file are split into fields already; the JSON values are Lean data. The look-ups in the texts of elements and
  coordinates are modelled in Model/Text and shown to be those in the numbers (C164); decoding JSON is not modelled.
* A sympy expression is a function of the coordinates, time and the symbols that occur.

## What is modelled

| file | modelled in | not modelled |
| --- | --- | --- |
| mtl.py, class MTL | Model/Line, Model/LineApi, Model/Construct, Model/Probe | commented-out code; the first `update_sources`, which the second one replaces |
| mtl.py, class MTLD | Model/Bundle, Model/Transfer, Model/Field | |
| mtl.py, Field and PlaneWave | Model/Field | |
| dispersive.py | Model/Dispersive, Model/Transfer, Model/Broadcast | |
| networks.py | Model/Network, Model/StateVars | |
| mtln.py | Model/Manager | |
| probes.py | Model/Probe, Model/Port | |
| networkExtraction.py | Model/Port | scikit-rf's network object beyond its frequencies and matrices |
| utils.py, waveforms.py | Model/Utils, Model/Waveforms | |
| jsonParser.py | Model/Parser, Model/Text, Model/Scripts (what is never called) | decoding JSON |
| VF/utils.py, VF_eps.py, VF_z.py | Model/VectorFit, Model/Scripts | the distribution of the noise of `epsDebyeErr`; scikit-rf's fit, figures |
| fortran/old/*.f90, fortran/src/*.f90 | Model/Fortran | the output files; coaxial.f90, which uses an undeclared variable; single precision |

## How properties that are false of the code are handled

The statement in `properties.jsonl` says what a user of the code expects. Where the code does something else, the negation is
proved from a concrete execution of the model (theorems with `refuted`, `fails` or the name of the defect in their names), and
what remains true is proved with the suffix `_partial` under an explicit condition. The status in `MANIFEST.json` is then
`partial`. The section "Disagreements" lists them.

## Plan and outcome per property
"""]
exec(open('/verif/tools/status.py').read())
for p in props:
    i=p['id']
    st='proved' if i in PROVED else 'partial' if i in PARTIAL else 'open'
    out.append(f"* **{i} {p['title']}** ({st}). {plan[i]}")
out.append("")
out.append("## Disagreements between the code and the properties")
out.append("")
for p in props:
    i=p['id']
    if i in PARTIAL: out.append(f"* **{i} {p['title']}.** {PARTIAL[i]}")
out.append("")
out.append("""## Tests with wrong programs

`seeded/LOG.jsonl` has one line for every wrong version of a definition that was tried in a copy of the project: the edit, the
claim it breaks, the theorems that no longer hold, and the theorems that were added when nothing had failed.
""")
open('/verif/DESIGN.md','w').write("\n".join(out))
