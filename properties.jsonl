{"id": "C01", "title": "MTL.run_until records one complete frame per time step", "statement": "After MTL.run_until(T) every probe of the line holds exactly max(0, floor(T/dt)) frames; frame j carries the time t0+(j+1)*dt (plus half the probe's dt for a current probe) and the row of voltages/currents the line really has at the probe's index after j+1 steps; no zero-filled frame is left over.", "quantifier": "every line, every final time, every set of valid probes, every starting state", "why_tests_cant": "the claim is about every number of steps and every frame index; a test fixes one final time", "anchors": ["python/src/mtl.py:MTL.run_until", "python/src/mtl.py:MTL.step", "python/src/probes.py:Probe"]}
{"id": "C02", "title": "MTLN.run_until records one complete frame per time step in every bundle", "statement": "After MTLN.run_until(T, dt) every probe of every bundle holds exactly max(0, floor(T/dt)) frames whose times advance by the network's dt and whose values are the bundle's fields after each step.", "quantifier": "every network of bundles, every final time, every dt", "why_tests_cant": "ranges over all networks and all step counts", "anchors": ["python/src/mtln.py:MTLN.run_until", "python/src/mtln.py:MTLN.update_probes", "python/src/probes.py:Probe"]}
{"id": "C03", "title": "Current probes are stamped half a time step after voltage probes", "statement": "In a run with time step dt the k-th sample of a current probe is stamped exactly dt/2 later than the k-th sample of a voltage probe.", "quantifier": "every run, with or without an explicit dt override", "why_tests_cant": "needs every combination of construction dt and run dt; tests always compare shapes of curves", "anchors": ["python/src/probes.py:Probe.update", "python/src/mtln.py:MTLN.run_until", "python/src/mtl.py:MTL.add_probe"]}
{"id": "C04", "title": "run_until is additive in the number of steps", "statement": "Running floor(T1/dt) steps and then floor(T2/dt) steps leaves the line's voltages, currents, dispersive memory and clock exactly as one run of floor(T1/dt)+floor(T2/dt) steps; the final time is relative to the current clock and the probes keep only the last run.", "quantifier": "every pair of final times and every line", "why_tests_cant": "all ways of splitting a run cannot be enumerated", "anchors": ["python/src/mtl.py:MTL.run_until", "python/src/probes.py:Probe.resize_frames"]}
{"id": "C05", "title": "Recording beyond the preallocated frames appends in order", "statement": "Calling step() by hand after (or without) run_until appends one frame per call, in order, without disturbing earlier frames.", "quantifier": "every number of manual steps after every run", "why_tests_cant": "unbounded number of steps; the first frame may alias live data, which only shows up after later steps", "anchors": ["python/src/probes.py:Probe.__save_frame", "python/src/mtl.py:MTL.step"]}
{"id": "C06", "title": "Unknown probe types are reported", "statement": "A probe whose type is neither 'voltage' nor 'current' is accepted by add_probe but makes the first step of any run raise ValueError; valid probes never raise.", "quantifier": "every string used as a probe type, every line", "why_tests_cant": "ranges over all strings and all runs", "anchors": ["python/src/probes.py:Probe.update", "python/src/mtl.py:MTL.add_probe"]}
{"id": "C07", "title": "The current update solves the discretised telegrapher equation", "statement": "Whenever update_lr_terms succeeds, each step's new currents satisfy, in every cell, du*(L+E)(i'-i)/dt + du*(R+D)(i'+i)/2 + du*(Q1 i' + Q2 i + hist) = -(v[k+1]-v[k]) - (eT[k+1]-eT[k]) + du*(eL_now+eL_prev)/2, and they are the only currents that do.", "quantifier": "every cell, every number of conductors, all matrices, all states", "why_tests_cant": "tests compare a few waveforms to references within a tolerance", "anchors": ["python/src/mtl.py:MTL.update_lr_terms", "python/src/mtl.py:MTL.advance_current", "python/src/mtl.py:MTLD.advance_current"]}
{"id": "C08", "title": "The voltage update solves the discretised telegrapher equation", "statement": "Whenever update_cg_terms succeeds, each step's new interior voltages satisfy h*C(v'-v)/dt + h*G(v'+v)/2 = -(i[k]-i[k-1]) at every interior node when no transverse field is applied (h the mean of the two cell lengths), and end nodes are not touched.", "quantifier": "every interior node, every number of conductors, all matrices, all states", "why_tests_cant": "tests compare a few waveforms within a tolerance", "anchors": ["python/src/mtl.py:MTL.update_cg_terms", "python/src/mtl.py:MTL.advance_voltage", "python/src/mtl.py:MTLD.advance_voltage"]}
{"id": "C09", "title": "Terminals obey the Thevenin boundary condition", "statement": "With the terminal coefficients computed for the running dt, every step's new end voltages satisfy v'+v = (Vs_now+Vs_prev) - Z*(2*I_out + du*C(v'-v)/dt + du*G(v'+v)/2 + du*C*(eT_now-eT_prev)/dt), with I_out the current leaving the node into the line, at both ends, for matrix Zs and Zl including short circuits (Z=0).", "quantifier": "all impedance matrices, states and sources", "why_tests_cant": "tests sample a few loads", "anchors": ["python/src/mtl.py:MTL.compute_terminal_terms", "python/src/mtl.py:MTL.advance_left_terminal", "python/src/mtl.py:MTL.advance_right_terminal"]}
{"id": "C10", "title": "Superposition", "statement": "The voltages and currents of a line (and hence every probe value) are linear in (initial state, voltage sources, external fields): a run with a*s1+b*s2 equals a times the run with s1 plus b times the run with s2, at every step.", "quantifier": "all sources, all states, all coefficients, every number of steps", "why_tests_cant": "linearity over all inputs and step counts", "anchors": ["python/src/mtl.py:MTL.step", "python/src/mtl.py:MTL.run_until"]}
{"id": "C11", "title": "A line at rest stays at rest", "statement": "With zero initial state and zero sources and fields every probe of every run reads exactly zero.", "quantifier": "every line, every number of steps", "why_tests_cant": "every line and every length of run", "anchors": ["python/src/mtl.py:MTL.step", "python/src/mtln.py:MTLN.step"]}
{"id": "C12", "title": "Signals travel at most one cell per time step", "statement": "If a line is at rest and only its left-end source acts, the voltage at node k and the current in cell k are exactly zero until more than k steps were made (and symmetrically from the right).", "quantifier": "every node, every step count, every line", "why_tests_cant": "quantifies over all positions and times; a test checks a delay at one probe", "anchors": ["python/src/mtl.py:MTL.advance_voltage", "python/src/mtl.py:MTL.advance_current"]}
{"id": "C13", "title": "A voltage source acts where it is placed", "statement": "A voltage source added at any position on the line excites the line at the nearest node.", "quantifier": "every position, conductor and waveform", "why_tests_cant": "must hold for all positions", "anchors": ["python/src/mtl.py:MTL.add_voltage_source", "python/src/mtl.py:MTL.advance_left_terminal", "python/src/mtl.py:MTL.advance_right_terminal"]}
{"id": "C14", "title": "Mirror symmetry", "statement": "Exchanging the two ends of a line (mesh, matrices, terminations, sources and initial state) mirrors the voltages and mirrors and negates the currents at every step; in particular exciting a symmetric line from S or from L gives identical probe readings.", "quantifier": "every line, every source, every number of steps", "why_tests_cant": "the repo tests one line and one pulse; the claim is for all", "anchors": ["python/src/mtl.py:MTL.step", "python/test/mtl_test.py:test_symmetry_in_voltage_excitation"]}
{"id": "C15", "title": "Passivity of the lossy line", "statement": "For symmetric L and C, positive semidefinite R, G, Zs and Zl and no sources, the discrete energy of the line never increases from one step to the next.", "quantifier": "all such lines, all states, all steps", "why_tests_cant": "an inequality over all states and all matrices", "anchors": ["python/src/mtl.py:MTL.step"]}
{"id": "C16", "title": "Stability at the automatically chosen time step", "statement": "With L and C symmetric positive definite, R, G, Zs, Zl positive semidefinite and no sources, with any dt not larger than the automatically chosen one the discrete energy is non-negative for all states, and with any strictly smaller dt all voltages and currents stay bounded for all time by a bound that depends only on the initial state.", "quantifier": "all such lines, all initial states, all times", "why_tests_cant": "boundedness for all time cannot be tested", "anchors": ["python/src/mtl.py:MTL.get_max_timestep", "python/src/mtl.py:MTL.get_phase_velocities", "python/src/mtl.py:MTL.step"]}
{"id": "C17", "title": "Causality", "statement": "The state after k steps depends only on the values the sources take at times up to the last sampled instant of step k; sources that agree up to then give identical results.", "quantifier": "all pairs of sources, all step counts", "why_tests_cant": "all pairs of waveforms", "anchors": ["python/src/mtl.py:MTL.update_sources", "python/src/mtl.py:MTL.step"]}
{"id": "C18", "title": "Time-shift invariance", "statement": "Delaying all sources by tau and starting the clock tau later gives exactly the same voltages and currents.", "quantifier": "all sources, all tau, all step counts", "why_tests_cant": "all shifts", "anchors": ["python/src/mtl.py:MTL.update_sources", "python/src/mtl.py:MTL.step"]}
{"id": "C19", "title": "Uncoupled conductors do not interact", "statement": "If the matrices of a line have no entries between two groups of conductors, what one group does never depends on the state or sources of the other group.", "quantifier": "all splits of conductors into groups, all states, all steps", "why_tests_cant": "all partitions and all runs", "anchors": ["python/src/mtl.py:MTL.step"]}
{"id": "C20", "title": "Conductor numbering is immaterial", "statement": "Renumbering the conductors of a line by any permutation renumbers all results by the same permutation.", "quantifier": "all permutations, lines, sources, steps", "why_tests_cant": "all permutations", "anchors": ["python/src/mtl.py:MTL.step"]}
{"id": "C21", "title": "The automatic time step is the Courant limit", "statement": "The dt chosen by the constructor satisfies dt*v <= du for every cell and every phase velocity of the line, with equality for the smallest cell and fastest mode; for a one-conductor line it is min(du)*sqrt(l*c).", "quantifier": "all lines with positive cell lengths and positive definite L, C", "why_tests_cant": "all matrices; tests check one value", "anchors": ["python/src/mtl.py:MTL.get_max_timestep", "python/src/mtl.py:MTL.get_phase_velocities"]}
{"id": "C22", "title": "set_time_step(NDT, T) yields exactly NDT steps", "statement": "After set_time_step(NDT, T) with T>0, get_time_range(T) has exactly NDT entries.", "quantifier": "all NDT>=1, all T>0", "why_tests_cant": "all values", "anchors": ["python/src/mtl.py:MTL.set_time_step", "python/src/mtl.py:MTL.get_time_range"]}
{"id": "C23", "title": "Changing dt keeps the scheme consistent", "statement": "After dt is changed on a built line (set_time_step or assignment), a run satisfies the boundary condition C09 and the recursive-convolution coefficients for the new dt.", "quantifier": "all lines and all new dt", "why_tests_cant": "all pairs of old/new dt", "anchors": ["python/src/mtl.py:MTL.set_time_step", "python/src/mtl.py:MTL.run_until", "python/src/mtl.py:MTL.compute_terminal_terms"]}
{"id": "C24", "title": "The mesh is a contiguous subdivision of the given polyline", "statement": "For every list of node positions and divisions the mesh goes from the first to the last position through all of them, u[k+1]=u[k]+du[k] for every cell, and each cell of a segment has the same length.", "quantifier": "all numbers of segments, all divisions", "why_tests_cant": "all lists of divisions", "anchors": ["python/src/mtl.py:MTL.__init__"]}
{"id": "C25", "title": "Probes, sources and connectors snap to the nearest node", "statement": "The index used for a position is the first node whose distance to the position is minimal among all nodes.", "quantifier": "all meshes, all positions", "why_tests_cant": "all positions", "anchors": ["python/src/probes.py:Probe.__init__", "python/src/mtl.py:MTL.add_voltage_source", "python/src/dispersive.py:DispersiveConnector.add_dispersive_connector"]}
{"id": "C26", "title": "MTL.add_probe accepts exactly positions on the line", "statement": "MTL.add_probe accepts a position if and only if it lies on the line, otherwise raises ValueError and leaves the line unchanged.", "quantifier": "all lines, all positions", "why_tests_cant": "all lines and positions", "anchors": ["python/src/mtl.py:MTL.add_probe"]}
{"id": "C27", "title": "MTLD.add_probe accepts exactly positions on the line", "statement": "MTLD.add_probe accepts every position on the meshed polyline and rejects positions off it (up to the documented tolerance).", "quantifier": "all bundles, all positions", "why_tests_cant": "all polylines and positions", "anchors": ["python/src/mtl.py:MTLD.add_probe", "python/src/utils.py:point_in_line"]}
{"id": "C28", "title": "point_in_line recognises segment points", "statement": "point_in_line is true for every point of the segment, is symmetric in the two endpoints, and is false for every point farther than the segment's length from either endpoint or off the supporting line by more than the tolerance.", "quantifier": "all points and segments in space", "why_tests_cant": "continuum of inputs", "anchors": ["python/src/utils.py:point_in_line"]}
{"id": "C29", "title": "set_resistance_in_region puts the given total resistance on the given conductor", "statement": "After set_resistance_in_region(start,end,conductor,R) the series resistance of that conductor over the region is R, and nothing else changed.", "quantifier": "all lines, regions, conductors", "why_tests_cant": "all regions and conductors", "anchors": ["python/src/mtl.py:MTL.set_resistance_in_region", "python/src/mtl.py:MTLD.set_resistance_in_region", "python/src/mtl.py:MTL.set_resistance_at_point"]}
{"id": "C30", "title": "add_conductance_in_region puts the given conductance at the given place", "statement": "After MTL.add_conductance_in_region the conductance is placed at the nodes nearest to the region, on the given conductor, and nothing else changed.", "quantifier": "all lines, regions, conductors", "why_tests_cant": "all regions and conductors", "anchors": ["python/src/mtl.py:MTL.add_conductance_in_region", "python/src/mtl.py:MTL.add_conductance_at_point"]}
{"id": "C31", "title": "add_voltage_source replaces the source of one node and conductor", "statement": "add_voltage_source changes only the source of the nearest node of the given conductor, and a later source at the same place replaces the earlier one.", "quantifier": "all lines, positions, conductors", "why_tests_cant": "all histories of calls", "anchors": ["python/src/mtl.py:MTL.add_voltage_source"]}
{"id": "C32", "title": "Constructor validates its inputs", "statement": "The MTL constructor succeeds on per-unit-length data exactly when L and C are both floats or both square matrices of one size, R and G are floats (non-zero only for one conductor) or matrices of that size, and Zs and Zl are both scalars or both vectors of that size; otherwise it raises; on success all cells carry the given matrices and Zs, Zl are the diagonal matrices of the given values.", "quantifier": "all argument shapes and values", "why_tests_cant": "all shapes", "anchors": ["python/src/mtl.py:MTL.init_LC", "python/src/mtl.py:MTL.init_RG", "python/src/mtl.py:MTL.init_Zt"]}
{"id": "C33", "title": "Recursive-convolution coefficients are exact", "statement": "For every non-zero pole, residue and dt the coefficients q1, q2, q3 stored for a dispersive connector advance the convolution of residue*exp(pole*t) with any current that is linear over the time step exactly.", "quantifier": "all complex poles and residues, all dt, all currents", "why_tests_cant": "continuum of parameters", "anchors": ["python/src/dispersive.py:DispersiveConnector.add_dispersive_connector"]}
{"id": "C34", "title": "Dispersive memory is the convolution with the computed current", "statement": "After k steps the memory of a dispersive connector equals the convolution of the kernel with the (piecewise linear) history of the currents actually computed.", "quantifier": "all connectors, all current histories, all step counts", "why_tests_cant": "all histories", "anchors": ["python/src/dispersive.py:Dispersive.update_phi", "python/src/mtl.py:MTL.advance_current"]}
{"id": "C35", "title": "Connector placement", "statement": "add_dispersive_connector rejects positions outside the line's coordinate box, refuses a second connector with a non-zero coefficient on the same cell and conductor, and on success changes only the coefficients of the nearest cell's diagonal entry of that conductor.", "quantifier": "all lines, positions, conductors, models, histories", "why_tests_cant": "all histories of calls", "anchors": ["python/src/dispersive.py:DispersiveConnector.add_dispersive_connector"]}
{"id": "C36", "title": "A pole-free connector is a lumped series resistance and inductance", "statement": "A connector with cte=D, prop=E and no poles adds exactly D*(i'+i)/2 + E*(i'-i)/dt to the voltage drop of its cell, independently of the cell length.", "quantifier": "all D, E, meshes, states", "why_tests_cant": "all meshes", "anchors": ["python/src/dispersive.py:DispersiveConnector.add_dispersive_connector", "python/src/mtl.py:MTL.update_lr_terms"]}
{"id": "C37", "title": "Transfer impedance direction", "statement": "add_transfer_impedance with direction 'in' couples the outer current into the inner conductor only, with 'out' the inner current into the outer conductor only, and with 'both' does both.", "quantifier": "all bundles, levels, conductors, impedances", "why_tests_cant": "all bundles", "anchors": ["python/src/dispersive.py:TransferImpedance.add_transfer_impedance", "python/src/dispersive.py:TransferImpedance.set_transfer_impedance_at_index"]}
{"id": "C38", "title": "Transfer impedances may have any number of poles", "statement": "add_transfer_impedance stores every pole of the given rational model in every cell.", "quantifier": "all pole counts, all meshes", "why_tests_cant": "all pairs (poles, cells)", "anchors": ["python/src/dispersive.py:TransferImpedance.add_transfer_impedance"]}
{"id": "C39", "title": "Transfer-impedance poles have memory", "statement": "The voltage induced through a transfer impedance with poles is the convolution of the impedance with the past currents.", "quantifier": "all histories", "why_tests_cant": "all histories", "anchors": ["python/src/dispersive.py:Dispersive.update_phi", "python/src/dispersive.py:Dispersive.update_q3_phi_term"]}
{"id": "C40", "title": "Trivial and illegal transfer impedances", "statement": "add_transfer_impedance with zero cte, zero prop and no poles changes nothing; levels that are not adjacent are rejected by AssertionError before anything changes.", "quantifier": "all bundles and levels", "why_tests_cant": "all levels", "anchors": ["python/src/dispersive.py:TransferImpedance.add_transfer_impedance"]}
{"id": "C41", "title": "Level numbering of conductors is a bijection", "statement": "(level, conductor in level) -> bundle row, computed as the number of conductors in outer levels plus the conductor index, is a bijection between the valid pairs and the rows of the bundle.", "quantifier": "all level structures", "why_tests_cant": "all level structures", "anchors": ["python/src/mtl.py:MTLD.__init__", "python/src/dispersive.py:TransferImpedance.add_transfer_impedance", "python/src/networks.py:NetworkD.update_index_numbers"]}
{"id": "C42", "title": "Conjugate pole pairs give real results", "statement": "If poles and residues come in conjugate pairs, the sums of q1 and q2 over the poles, and the history term at every step, have zero imaginary part, so taking the real part loses nothing.", "quantifier": "all conjugate-closed models, all histories", "why_tests_cant": "all models", "anchors": ["python/src/dispersive.py:Dispersive.v_sum"]}
{"id": "C43", "title": "A bundle without transfer impedance behaves as its separate lines", "statement": "A bundle made of several lines, with no coupling added, evolves in each block of conductors exactly as the line alone (same dt, same end voltages).", "quantifier": "all lists of lines, all states, all steps", "why_tests_cant": "all bundles", "anchors": ["python/src/mtl.py:MTLD.__init__", "python/src/mtl.py:MTLD.update_lr_terms", "python/src/mtl.py:MTLD.advance_voltage", "python/src/mtl.py:MTLD.advance_current"]}
{"id": "C44", "title": "Unconnected bundle ends are shorted", "statement": "The end voltages of a bundle conductor to which no network node is attached never change.", "quantifier": "all networks, all steps", "why_tests_cant": "all runs", "anchors": ["python/src/mtl.py:MTLD.advance_voltage", "python/src/networks.py:Network.update_voltages"]}
{"id": "C45", "title": "Localized field covers the requested length", "statement": "add_localized_longitudinal_field applies the magnitude with weights whose sum over cells times cell length equals the length between start and end.", "quantifier": "all straight uniform lines, all start and end positions on it", "why_tests_cant": "continuum of positions", "anchors": ["python/src/mtl.py:MTLD.add_localized_longitudinal_field"]}
{"id": "C46", "title": "Network nodes obey Kirchhoff's current law", "statement": "Each step's new node voltages v' and state variables X' satisfy dx*C(v'-v)/dt = P1(v'+v)+O(X'+X)+Ps(s+s_prev)+Q1(v'-v_prev)/dt+Qs(s-s_prev2)/dt-2i-dx*C(eT-eT_prev)/dt and X' = X+dt(M X'+N1 v'+Ns s), and are the only solution; a resistor to ground draws ((v'+v)/2-(V+V_prev)/2)/R.", "quantifier": "all networks, all states", "why_tests_cant": "all networks", "anchors": ["python/src/networks.py:Network.advance_voltage", "python/src/networks.py:Network.compute_v_terms"]}
{"id": "C47", "title": "Connections commute", "statement": "The network obtained from a set of connections does not depend on the order in which they are made.", "quantifier": "all sequences of connection calls", "why_tests_cant": "all permutations of calls", "anchors": ["python/src/networks.py:Network.connect_nodes", "python/src/networks.py:Network.connect_to_ground", "python/src/networks.py:Network.short_nodes"]}
{"id": "C48", "title": "The conductance matrix is always symmetric", "statement": "After any sequence of connection calls the matrix P1 of a network is symmetric (reciprocal).", "quantifier": "all sequences of calls", "why_tests_cant": "all histories", "anchors": ["python/src/networks.py:Network.connect_nodes", "python/src/networks.py:Network.connect_to_ground", "python/src/networks.py:Network.short_nodes", "python/src/networks.py:Network.short_to_ground", "python/src/networks.py:Network.connect_to_ground_LCpRs"]}
{"id": "C49", "title": "Resistive networks are passive", "statement": "After any sequence of calls with positive resistances, the network dissipates: v.P1 v <= 0 for all v.", "quantifier": "all sequences of calls, all voltages", "why_tests_cant": "all histories and all voltages", "anchors": ["python/src/networks.py:Network.connect_nodes", "python/src/networks.py:Network.connect_to_ground", "python/src/networks.py:Network.short_nodes"]}
{"id": "C50", "title": "Current is conserved in junctions", "statement": "A network built only by connect_nodes and short_nodes has zero total current for all node voltages, and zero source current in total when the sources of the two ends of each branch agree.", "quantifier": "all such sequences, all voltages", "why_tests_cant": "all histories", "anchors": ["python/src/networks.py:Network.connect_nodes", "python/src/networks.py:Network.short_nodes"]}
{"id": "C51", "title": "Sources of several branches superpose", "statement": "If several branches with sources meet in a node, the injected current is the sum of V/R over the branches.", "quantifier": "all sequences of sourced connections", "why_tests_cant": "all histories", "anchors": ["python/src/networks.py:Network.connect_nodes", "python/src/networks.py:Network.connect_to_ground"]}
{"id": "C52", "title": "Networks and bundles exchange exactly the connected quantities", "statement": "After update_voltages every connected bundle end carries its node's voltage and all other bundle voltages are unchanged; update_currents reads the end current with positive sign at side S and negative sign at side L.", "quantifier": "all networks and bundles", "why_tests_cant": "all layouts", "anchors": ["python/src/networks.py:Network.update_voltages", "python/src/networks.py:Network.update_currents", "python/src/networks.py:Network.i_factor"]}
{"id": "C53", "title": "Node bookkeeping", "statement": "Building a network numbers its nodes 0..n-1 in order of line and conductor, gives disjoint consecutive state slots, and rejects duplicate or negative node ids.", "quantifier": "all descriptions", "why_tests_cant": "all descriptions", "anchors": ["python/src/networks.py:Network.__init__", "python/src/networks.py:Network._add_nodes_in_line", "python/src/networks.py:Network._add_node"]}
{"id": "C54", "title": "Different conductors map to different bundle rows", "statement": "Two network nodes at the same side of a bundle that belong to different conductors are connected to different rows of the bundle.", "quantifier": "all bundles with any number of lines per level", "why_tests_cant": "all level structures", "anchors": ["python/src/networks.py:NetworkD.update_index_numbers", "python/src/networks.py:Network._add_node"]}
{"id": "C55", "title": "Adding a network twice is harmless", "statement": "Registering the same NetworkD in a second manager (as a second Parser.run does) leaves its node-to-row mapping unchanged.", "quantifier": "all networks, any number of registrations", "why_tests_cant": "any number of registrations", "anchors": ["python/src/mtln.py:MTLN.add_network", "python/src/networks.py:NetworkD.update_index_numbers", "python/src/jsonParser.py:Parser.run"]}
{"id": "C56", "title": "A capacitor termination draws C*dV/dt", "statement": "With connect_to_ground_C and no source the node current equals C times the central difference of the node voltage.", "quantifier": "all C, states", "why_tests_cant": "all states", "anchors": ["python/src/networks.py:Network.connect_to_ground_C", "python/src/networks.py:Network.advance_voltage"]}
{"id": "C57", "title": "The LCpRs termination obeys the circuit equations", "statement": "The state variables of connect_to_ground_LCpRs follow the circuit equations of R in series with parallel L and C.", "quantifier": "all R, L, C, states", "why_tests_cant": "all states and values", "anchors": ["python/src/networks.py:Network.connect_to_ground_LCpRs", "python/src/networks.py:Network.compute_v_terms"]}
{"id": "C58", "title": "Conn_sRLC terminations include their L and C", "statement": "A termination declared as Conn_sRLC with inductance or capacitance behaves as a series RLC.", "quantifier": "all values", "why_tests_cant": "all values", "anchors": ["python/src/networks.py:Network._get_number_of_state_vars_in_connector", "python/src/networks.py:Network.connect_to_ground", "python/src/jsonParser.py:Parser._buildTerminations"]}
{"id": "C59", "title": "add_bundle keeps the smallest dt and unique names", "statement": "After adding bundles, the manager's dt is the minimum of 1e10 and the bundles' dts, names are unique, and a duplicate name raises AssertionError without changing the manager.", "quantifier": "all sequences of bundles", "why_tests_cant": "all sequences", "anchors": ["python/src/mtln.py:MTLN.add_bundle"]}
{"id": "C60", "title": "All bundles are advanced with the manager's dt", "statement": "In a run every bundle's update coefficients are computed with the time step by which the manager advances time.", "quantifier": "all networks, with or without explicit dt", "why_tests_cant": "all networks", "anchors": ["python/src/mtln.py:MTLN.run_until", "python/src/mtln.py:MTLN.add_bundle", "python/src/mtl.py:MTLD.update_lr_terms"]}
{"id": "C61", "title": "Order of bundles and networks is immaterial", "statement": "Adding bundles or networks in another order gives the same voltages and currents, provided no two networks write the same bundle end.", "quantifier": "all permutations, all steps", "why_tests_cant": "all permutations", "anchors": ["python/src/mtln.py:MTLN.step"]}
{"id": "C62", "title": "Superposition and quiescence of networks", "statement": "The state of a whole MTLN is linear in initial state and all sources; in particular at rest without sources it stays zero.", "quantifier": "all networks, all sources, all steps", "why_tests_cant": "all networks", "anchors": ["python/src/mtln.py:MTLN.step", "python/src/networks.py:Network.advance_voltage"]}
{"id": "C63", "title": "Line terminations and network terminations agree", "statement": "A line with diagonal positive Zs and Zl and zero terminal conductance, and the same line in a manager with connect_to_ground(R, Vt) networks at both ends, started at rest, have identical voltages and currents at every step.", "quantifier": "all numbers of conductors, all lines, all sources, all steps", "why_tests_cant": "bisimulation over all runs", "anchors": ["python/src/mtl.py:MTL.step", "python/src/mtln.py:MTLN.step", "python/src/networks.py:Network.connect_to_ground"]}
{"id": "C64", "title": "Network terminations account for the line's conductance", "statement": "The node equation of a network includes the shunt conductance G of the half cell at the line end, as MTL terminals do.", "quantifier": "all lines with G", "why_tests_cant": "all lines", "anchors": ["python/src/networks.py:Network.compute_v_terms", "python/src/mtl.py:MTL.compute_terminal_terms"]}
{"id": "C65", "title": "create_clean_copy gives a line at rest", "statement": "Running create_clean_copy of a line that has already been run gives the same results as running the line freshly built, and leaves the original untouched.", "quantifier": "all lines, all previous runs", "why_tests_cant": "all previous histories", "anchors": ["python/src/mtl.py:MTL.create_clean_copy"]}
{"id": "C66", "title": "add_t_functions and multiply are pointwise", "statement": "add_t_functions adds time functions pointwise with the integer 0 as neutral element, is commutative and associative, and rejects functions without a parameter t; multiply scales pointwise.", "quantifier": "all functions", "why_tests_cant": "all functions", "anchors": ["python/src/utils.py:add_t_functions", "python/src/utils.py:multiply"]}
{"id": "C67", "title": "The trapezoidal wave is periodic and stays between 0 and A", "statement": "trapezoidal_wave has period 1/f0, takes values in [0, A], rises linearly, holds A and falls linearly to 0 in each period.", "quantifier": "all times and parameters with valid timing", "why_tests_cant": "continuum of times, including break points", "anchors": ["python/src/waveforms.py:trapezoidal_wave"]}
{"id": "C68", "title": "The ramp pulse saturates at A", "statement": "ramp_pulse is 0 before 0, A*x/x0 on [0,x0] and A afterwards, never leaving [0, A].", "quantifier": "all times", "why_tests_cant": "continuum of times, including the break point", "anchors": ["python/src/waveforms.py:ramp_pulse"]}
{"id": "C69", "title": "Pulses are causal and bounded", "statement": "square, triangle and squared-sine pulses are zero for negative times and after their end and stay within [0, A].", "quantifier": "all times and parameters", "why_tests_cant": "continuum of times", "anchors": ["python/src/waveforms.py:square_pulse", "python/src/waveforms.py:triangle_pulse", "python/src/waveforms.py:sin_sq_pulse"]}
{"id": "C70", "title": "Symbolic and numeric waveforms agree", "statement": "trapezoidal_wave_sp at x=0 and ramp_pulse_sp equal trapezoidal_wave and ramp_pulse at all times.", "quantifier": "all times", "why_tests_cant": "continuum of times", "anchors": ["python/src/waveforms.py:trapezoidal_wave_sp", "python/src/waveforms.py:ramp_pulse_sp", "python/src/waveforms.py:trapezoidal_wave", "python/src/waveforms.py:ramp_pulse"]}
{"id": "C71", "title": "Travelling waveforms travel", "statement": "The *_x_sp, *_y_sp, *_xy_sp... waveforms depend on position and time only through t + x/v (resp. y/v, x/v+y/v).", "quantifier": "all positions and times", "why_tests_cant": "continuum", "anchors": ["python/src/waveforms.py:ramp_pulse_x_sp", "python/src/waveforms.py:double_exp_xy_sp", "python/src/waveforms.py:trapezoidal_wave_x_sp"]}
{"id": "C72", "title": "Plane waves are transverse and unit-polarised", "statement": "For all angles the polarisation vector of a PlaneWave has length 1 and is orthogonal to its direction of propagation.", "quantifier": "all angles", "why_tests_cant": "continuum of angles", "anchors": ["python/src/mtl.py:PlaneWave.compute_directions"]}
{"id": "C73", "title": "Plane waves travel with the given velocity", "statement": "The field of add_planewave depends on position and time only through t + (F.r)/v with F the unit direction vector of the angles.", "quantifier": "all angles, positions, times", "why_tests_cant": "continuum", "anchors": ["python/src/mtl.py:PlaneWave.compute_velocities", "python/src/mtl.py:MTL.add_planewave"]}
{"id": "C74", "title": "rotate_to_segment keeps the incidence direction", "statement": "The plane wave returned by rotate_to_segment has as direction the original direction rotated by the rotation that takes the segment to the z axis.", "quantifier": "all angles and segments", "why_tests_cant": "continuum", "anchors": ["python/src/mtl.py:PlaneWave.rotate_to_segment"]}
{"id": "C75", "title": "compute_eL_at_segment is the tangential field", "statement": "compute_eL_at_segment returns the projection of the field on the segment direction: linear in the field, independent of the segment's length, bounded by the field's magnitude.", "quantifier": "all fields and segments", "why_tests_cant": "continuum", "anchors": ["python/src/mtl.py:Field.compute_eL_at_segment"]}
{"id": "C76", "title": "Transverse voltage is the line integral of the field", "statement": "e_T set by add_external_field at a node is the integral of the incident field from the reference position to the conductor.", "quantifier": "all fields, all offsets, all nodes", "why_tests_cant": "continuum", "anchors": ["python/src/mtl.py:MTL.add_external_field", "python/src/mtl.py:MTLD.add_external_field"]}
{"id": "C77", "title": "Uniform fields induce no longitudinal excitation; localization touches only its cells", "statement": "A field that does not depend on position gives e_L=0 in every cell, and a localized field changes e_L only in the localized cells.", "quantifier": "all fields and localizations", "why_tests_cant": "all meshes", "anchors": ["python/src/mtl.py:MTL.add_external_field", "python/src/mtl.py:MTLD.add_external_field"]}
{"id": "C78", "title": "Networks see fields added to their lines", "statement": "The transverse voltage used in the node equations is that of the line end, also for fields added after the network was built.", "quantifier": "all orders of calls", "why_tests_cant": "all orders of calls", "anchors": ["python/src/networks.py:Network._add_node", "python/src/mtl.py:MTLD.add_external_field"]}
{"id": "C79", "title": "Power waves", "statement": "a and b returned by Port satisfy v=sqrt(z0)(a+b), i=(a-b)/sqrt(z0) and |a|^2-|b|^2=Re(v*conj(i)) at every frequency; a matched load reflects nothing.", "quantifier": "all signals, all impedances", "why_tests_cant": "all signals", "anchors": ["python/src/probes.py:Port.get_incident_and_reflected_power_wave", "python/src/networkExtraction.py:extract_s_reciprocal"]}
{"id": "C80", "title": "Port probes can be added to a line", "statement": "add_port_probe works for terminals 0 and 1 and extract_2p_network returns a network.", "quantifier": "all lines", "why_tests_cant": "all lines", "anchors": ["python/src/mtl.py:MTL.add_port_probe", "python/src/networkExtraction.py:extract_2p_network"]}
{"id": "C81", "title": "Parser lookups", "statement": "Element, cable and coordinate lookups return the first matching entry, the last definition for coordinates, and raise when nothing matches.", "quantifier": "all input files", "why_tests_cant": "all files", "anchors": ["python/src/jsonParser.py:Parser._getElementOfNode", "python/src/jsonParser.py:Parser._getConnectorAndCableOnElementSide", "python/src/jsonParser.py:Parser._getCoordinates"]}
{"id": "C82", "title": "Terminations and junctions are partitioned by position", "statement": "Grouping of terminations (junctions) by coordinate loses none, duplicates none, keeps order in groups, and puts two in one group exactly when their first coordinates coincide.", "quantifier": "all input files", "why_tests_cant": "all files", "anchors": ["python/src/jsonParser.py:Parser._getNetworkTerminationList", "python/src/jsonParser.py:Parser._getNetworkJunctionList"]}
{"id": "C83", "title": "Nesting depth is the level", "statement": "In the graph built from nested element ids every edge leads from a level to the next one and every vertex's level is its depth.", "quantifier": "all nestings", "why_tests_cant": "all nestings, unbounded depth", "anchors": ["python/src/jsonParser.py:Parser._buildGraphFromConnections"]}
{"id": "C84", "title": "Lumped elements are placed on their own cable", "statement": "Every lumped element of the file ends up on its cable, and cables without lumped elements are unaffected.", "quantifier": "all files", "why_tests_cant": "all files", "anchors": ["python/src/jsonParser.py:Parser._addLumpedElement"]}
{"id": "C85", "title": "Multiwire terminations use each node's own connector and source", "statement": "In a termination joining several nodes each node is terminated with its own connector entry and source.", "quantifier": "all files, all listing orders", "why_tests_cant": "all orders", "anchors": ["python/src/jsonParser.py:Parser._buildTerminations"]}
{"id": "C86", "title": "No termination is lost", "statement": "Every termination of the file yields a network registered in the simulation.", "quantifier": "all files", "why_tests_cant": "all files", "anchors": ["python/src/jsonParser.py:Parser._buildTerminations", "python/src/jsonParser.py:Parser._buildJunctions"]}
{"id": "C87", "title": "Bundles without transfer impedance can be nested", "statement": "A nesting whose outer cable declares no transferImpedance is accepted and uncoupled.", "quantifier": "all files", "why_tests_cant": "all files", "anchors": ["python/src/jsonParser.py:Parser._getTransferImpedance", "python/src/jsonParser.py:Parser._setBundleTransferImpedance"]}
{"id": "C88", "title": "Source types", "statement": "_buildSource returns the waveform of the requested type with the parameters of the file; unknown types give a zero source.", "quantifier": "all source descriptions", "why_tests_cant": "all descriptions", "anchors": ["python/src/jsonParser.py:Parser._buildSource"]}
{"id": "C89", "title": "Order of lines inside a level is immaterial", "statement": "The result of parsing and running does not depend on the (unspecified) iteration order of the set of cable names in a level.", "quantifier": "all orders", "why_tests_cant": "hash randomisation makes the order a schedule", "anchors": ["python/src/jsonParser.py:Parser._buildBundles", "python/src/jsonParser.py:Parser._findConductorNumberInLevel", "python/src/networks.py:NetworkD.update_index_numbers"]}
{"id": "C90", "title": "A plane wave can be added to a manager", "statement": "MTLN.add_planewave adds the wave to every bundle of the manager.", "quantifier": "all managers, all waves", "why_tests_cant": "needs a manager with bundles; no test calls it", "anchors": ["python/src/mtln.py:MTLN.add_planewave", "python/src/mtl.py:MTLD"]}
{"id": "C91", "title": "Localizing a field on the whole line changes nothing", "statement": "add_external_field with a localization from the first to the last node gives the same result as without localization.", "quantifier": "all lines and bundles, all fields", "why_tests_cant": "all meshes", "anchors": ["python/src/mtl.py:MTL.add_external_field", "python/src/mtl.py:MTLD.add_external_field"]}
{"id": "C92", "title": "Fields add up", "statement": "After two calls of add_external_field the excitation is the sum of those of the two fields.", "quantifier": "all fields", "why_tests_cant": "all pairs of fields", "anchors": ["python/src/mtl.py:MTL.add_external_field"]}
{"id": "C93", "title": "Excitations are linear in the field", "statement": "The excitations e_L and e_T stored for a linear combination of fields are the linear combination of those stored for the fields.", "quantifier": "all fields with continuous components, all coefficients", "why_tests_cant": "continuum", "anchors": ["python/src/mtl.py:MTL.add_external_field"]}
{"id": "C94", "title": "Delayed fields give delayed excitations", "statement": "Delaying the field by any time delays e_L and e_T by the same time and changes nothing else.", "quantifier": "all fields, all delays", "why_tests_cant": "continuum", "anchors": ["python/src/mtl.py:MTL.add_external_field"]}
{"id": "C95", "title": "Fields of lines survive bundling", "statement": "The fields added to a line before it is put into a bundle are those of its conductors in the bundle.", "quantifier": "all lines", "why_tests_cant": "all orders of calls", "anchors": ["python/src/mtl.py:MTLD.__init__"]}
{"id": "C96", "title": "The transfer impedance of a connector is set on its end cell only", "statement": "set_connector_transfer_impedance with a non-zero model replaces the coupling of the given pairs of conductors on the first cell ('initial') or on the last cell ('end') by the values of the model and leaves every other cell, every other pair and the rest of the bundle as they are; any other side raises.", "quantifier": "all bundles, levels, lists of conductors, models with any number of poles", "why_tests_cant": "unbounded sizes; absence of any other effect", "anchors": ["python/src/mtl.py:MTLD.set_connector_transfer_impedance", "python/src/dispersive.py:TransferImpedance.set_transfer_impedance_at_index"]}
{"id": "C97", "title": "A perfect connector removes the coupling of its cell", "statement": "Setting a zero transfer impedance on a connector makes the coupling of the given pairs on that cell zero.", "quantifier": "all bundles, both sides, all pairs of adjacent levels", "why_tests_cant": "the tests only set non-zero connectors", "anchors": ["python/src/mtl.py:MTLD.set_connector_transfer_impedance", "python/src/dispersive.py:TransferImpedance.set_transfer_impedance_at_index"]}
{"id": "C98", "title": "Spectra are labelled with their frequencies", "statement": "Entry k of the frequencies returned by a port is (k - floor(N/2))/(N dt), and entry k of the shifted transform of a record is the sum of the samples times exp(-2 pi i f_k j dt).", "quantifier": "all records of any length, all time steps, all entries", "why_tests_cant": "unbounded record lengths, even and odd; tests compare curves by eye or against stored data", "anchors": ["python/src/probes.py:Port.__get_v_i_fft"]}
{"id": "C99", "title": "extract_2p_network returns the scattering matrix", "statement": "If the waves of the ports satisfy b = S a at every frequency and in each run no wave comes into the passive port, the extracted network is S on the band, with matching frequencies.", "quantifier": "all lines, bands and final times, all 2x2 matrices S", "why_tests_cant": "continuum of networks; the tests compare a few networks approximately", "anchors": ["python/src/networkExtraction.py:extract_2p_network", "python/src/networkExtraction.py:extract_s_reciprocal"]}
{"id": "C100", "title": "Smooth waveforms solve their defining equations", "statement": "exp is 0 at 0 and charges with rate (A - y)/x0; gaussian is 1 at x0 with logarithmic derivative -(x-x0)/s0^2 and gaussian_2 is A at x0 with -2(x-x0)/s0^2; double_exp is a difference of two decaying exponentials (y'' + (a+b) y' + a b y = 0, y(0) = 0, y'(0) = C(b-a)); the symbolic forms have the same values.", "quantifier": "all parameters and times", "why_tests_cant": "Tests evaluate the waveforms at a few points inside a simulation; the equations hold at every time for every parameter.", "anchors": ["python/src/waveforms.py:exp", "python/src/waveforms.py:gaussian", "python/src/waveforms.py:gaussian_2", "python/src/waveforms.py:double_exp", "python/src/waveforms.py:gaussian_2_sp", "python/src/waveforms.py:double_exp_sp"]}
{"id": "C101", "title": "Sums of SFunction objects", "statement": "The sum of two SFunction objects calls both with the given arguments and adds the results; it is commutative and associative, and unlike add_t_functions it accepts functions without a parameter named t.", "quantifier": "all functions and times", "why_tests_cant": "Quantifies over all functions.", "anchors": ["python/src/utils.py:SFunction.__add__", "python/src/utils.py:SFunction.__call__"]}
{"id": "C102", "title": "A localized external field needs a bundle of the manager", "statement": "add_localized_external_field raises KeyError when no bundle has the name and otherwise changes only that bundle.", "quantifier": "all managers, names and fields", "why_tests_cant": "Quantifies over all managers and fields.", "anchors": ["python/src/mtln.py:MTLN.add_localized_external_field"]}
{"id": "C103", "title": "Every node listed in a termination is terminated", "statement": "After _buildTerminations every node of the termination list is connected to ground with the entry of its connector.", "quantifier": "all connectors and groups", "why_tests_cant": "A node that is silently left open still simulates; tests compare only the configurations of the sample files.", "anchors": ["python/src/jsonParser.py:Parser._buildTerminations"]}
{"id": "C104", "title": "A termination of zero resistance is a short", "statement": "A node terminated with a resistance of 0 is held at ground potential, like with short_to_ground.", "quantifier": "all networks and nodes", "why_tests_cant": "Needs the limit case R = 0, for any network.", "anchors": ["python/src/networks.py:Network.connect_to_ground", "python/src/networks.py:Network.connect_to_ground_R", "python/src/networks.py:Network.short_to_ground"]}
{"id": "C105", "title": "Impedance functions are those of the circuits they are named after", "statement": "RLpar satisfies 1/Z = 1/R + 1/(j w L), RCpar satisfies 1/Z = 1/R + j w C, RLseriesDisp with n = 1 is R + j w L, and every function Y_... returns the reciprocal of the function without the prefix.", "quantifier": "all frequencies other than 0 and all nonzero circuit values", "why_tests_cant": "Quantifies over all frequencies and circuit values.", "anchors": ["python/src/VF/utils.py:RLpar", "python/src/VF/utils.py:RCpar", "python/src/VF/utils.py:RLseriesDisp", "python/src/VF/utils.py:Y_RLseriesDisp", "python/src/VF/utils.py:Y_Zw"]}
{"id": "C106", "title": "The Debye permittivity is a rational function of a passive medium", "statement": "epsDebye(f, k, tau) equals 1 plus the rational function vf with poles -1/tau and residues k/tau; for positive k, tau and f its real part is at least 1 and its imaginary part is not positive; epsDebyeErr deviates by at most p percent of the distance to 1, and not at all for p = 0.", "quantifier": "all frequencies, any number of terms, all random numbers in [0, 1)", "why_tests_cant": "Quantifies over the number of terms and over random numbers.", "anchors": ["python/src/VF/utils.py:epsDebye", "python/src/VF/utils.py:epsDebyeErr", "python/src/VF/utils.py:vf"]}
{"id": "C107", "title": "The skin effect impedance is continuous at the corner frequency", "statement": "z(f, f0, rdc) is rdc*(1 + j f/f0) up to f0 and rdc*(1+j)*sqrt(f/f0) from f0 on, and has no jump at f0.", "quantifier": "all frequencies, corner frequencies and resistances", "why_tests_cant": "The single frequency f0 is not among sampled frequencies.", "anchors": ["python/src/VF/utils.py:z"]}
{"id": "C108", "title": "serializeJSON writes the diagonal responses", "statement": "Entry i of the dictionary holds the constant, the proportional term, the poles and the residues of the response from port i to port i.", "quantifier": "any number of ports and poles", "why_tests_cant": "Quantifies over the number of ports and poles; with equal responses the wrong index goes unnoticed.", "anchors": ["python/src/VF/utils.py:serializeJSON"]}
{"id": "C109", "title": "vf is the sum of partial fractions", "statement": "vf(f, p, r) is the sum of vfi(f, p, r, i), raises IndexError exactly when there are fewer residues than poles, and for poles and residues in conjugate pairs vf(-f) is the conjugate of vf(f).", "quantifier": "all frequencies, poles and residues, any number", "why_tests_cant": "Quantifies over the number of poles.", "anchors": ["python/src/VF/utils.py:vf", "python/src/VF/utils.py:vfi"]}
{"id": "C110", "title": "Sections of the input file", "statement": "A parser is built if and only if the sections coordinates, elements, materials, cables and bundles are there; every entry of every section is kept, in its order: lines and polylines together, nodes, wires and connectors by type; an optional section that is missing is empty.", "quantifier": "any number of sections and entries, in any order", "why_tests_cant": "Example files contain few kinds of entries, so an entry that is dropped goes unnoticed.", "anchors": ["python/src/jsonParser.py:Parser.__init__"]}
{"id": "C111", "title": "Look-ups by node, coordinate, material and name", "statement": "Each look-up returns the first entry of the file with the required id (node, element, wire, connector, cable, transfer impedance) and fails exactly when there is none, with the exception of the source.", "quantifier": "any number of entries, with repetitions", "why_tests_cant": "Quantifies over the entries that precede the one looked for.", "anchors": ["python/src/jsonParser.py:Parser._getNodeCoordId", "python/src/jsonParser.py:Parser._getWireWithMaterialId", "python/src/jsonParser.py:Parser._getCableFromLineName", "python/src/jsonParser.py:Parser._getListOfCoordinates", "python/src/jsonParser.py:Parser._getTransferImpedance"]}
{"id": "C112", "title": "The line of a cable has the parameters of the file", "statement": "The line built for a cable has its name, its divisions, the coordinates of its element, and the inductance, capacitance and resistance of its material, written as numbers, lists or matrices.", "quantifier": "any cable, any number of conductors, any kind of entry", "why_tests_cant": "The kinds of entries combine; the resistance between conductors is not looked at by the tests.", "anchors": ["python/src/jsonParser.py:Parser._buildMTLfromLine"]}
{"id": "C113", "title": "Conductors of a level are numbered without overlap", "statement": "The number of an element in a level is the number of conductors of the lines before its cable plus its position in the cable; it is a conductor of the line of the cable, and different elements of the level have different numbers.", "quantifier": "any number of lines and elements", "why_tests_cant": "Quantifies over all pairs of elements of a level.", "anchors": ["python/src/jsonParser.py:Parser._findConductorNumberInLevel"]}
{"id": "C117", "title": "Sources at a terminal", "statement": "A terminal of a node has the waveform of the first terminal source of the file whose element is the node with this coordinate, and none exactly when there is no such source.", "quantifier": "any number of sources and nodes", "why_tests_cant": "Quantifies over the order of the sources and nodes.", "anchors": ["python/src/jsonParser.py:Parser._getTerminalSourceInNode"]}
{"id": "C120", "title": "All look-ups agree on the cable of an element", "statement": "The cable recorded for an element in the graph of the bundle is the cable that the look-up by element, used to find the bundle of an element, returns.", "quantifier": "any number of cables and elements", "why_tests_cant": "Needs an element that two cables list.", "anchors": ["python/src/jsonParser.py:Parser._buildGraphFromConnections", "python/src/jsonParser.py:Parser._getCableWithElemId"]}
{"id": "C121", "title": "The resistance of the connector at a cable end is in the line", "statement": "Every cable end of the file whose node touches an element of a cable puts the resistance of its connector into the series resistance of the conductor of this element, in the cell of the node, and changes nothing else.", "quantifier": "any number of cables, elements and ends", "why_tests_cant": "The end must be at a later element of a cable of several elements.", "anchors": ["python/src/jsonParser.py:Parser._addConnectorsResistance"]}
{"id": "C122", "title": "The transfer impedance of each nesting acts between its two elements", "statement": "For each edge of the nesting graph of a bundle, the transfer impedance of the outer cable couples the conductor of the outer element and the conductor of the inner element in all cells; the contributions of several edges add up; nothing else of the bundle changes.", "quantifier": "any graph, any number of levels, cells and conductors", "why_tests_cant": "Quantifies over all nestings and all entries of the coupling matrices.", "anchors": ["python/src/jsonParser.py:Parser._setBundleTransferImpedance", "python/src/mtl.py:MTLD.add_transfer_impedance"]}
{"id": "C123", "title": "The transfer impedance of the connector at a cable end replaces the coupling in the end cell", "statement": "For each cable end of the file, the transfer impedance of its connector replaces, in the first cell for an initial end and in the last cell for a final one, the coupling between the element at the end and every element inside it; nothing else of the bundle changes, in particular when the element contains nothing.", "quantifier": "any graph, any number of ends, cells and conductors", "why_tests_cant": "Quantifies over all nestings, ends and all entries of the coupling matrices.", "anchors": ["python/src/jsonParser.py:Parser._setBundleTransferImpedance", "python/src/mtl.py:MTLD.set_connector_transfer_impedance"]}
{"id": "C118", "title": "A run of the parser simulates all its bundles and networks", "statement": "A run sets up a manager with all bundles, in order, and all networks, registered with these bundles; the given time step is used by the manager and all bundles, the default keeps the steps of the bundles and takes the smallest one. It is possible exactly when the bundle names differ and all nodes of the networks belong to one of the bundles. Afterwards the parser holds the bundles and networks at the end of the run and nothing else has changed; each probe has one frame per step. A field is put on all bundles, a localized field on the named one only.", "quantifier": "any parser, any time step and final time", "why_tests_cant": "Quantifies over all sets of bundles and networks and all run lengths.", "anchors": ["python/src/jsonParser.py:Parser.run", "python/src/jsonParser.py:Parser.runWithExternalField", "python/src/jsonParser.py:Parser.runWithLocalizedExternalField"]}
{"id": "C124", "title": "Every bundle of the file is built", "statement": "The parser has one bundle for each bundle of the file, in the same order and with the same name; each level has exactly one line for each cable that the nesting graph has at this level, with the terms of that cable.", "quantifier": "any number of bundles, levels and cables, any order of the sets", "why_tests_cant": "Quantifies over all files and all enumeration orders of Python sets.", "anchors": ["python/src/jsonParser.py:Parser._buildBundles"]}
{"id": "C125", "title": "All look-ups agree on the bundle of a cable", "statement": "The bundle found by searching the bundles for a cable, which is used for sources, is the one the dictionary gives for the cable, which is used for the networks, and the line of the dictionary is a line of it.", "quantifier": "any number of bundles and cables", "why_tests_cant": "Two bundles must share a cable.", "anchors": ["python/src/jsonParser.py:Parser._getBundleWithCable", "python/src/jsonParser.py:Parser._buildBundles"]}
{"id": "C126", "title": "A second run of a parser uses the connections of the first one", "statement": "When a parser is run again, each node of a terminal network is attached to the same row of its bundle as in the first run, and the run starts from the fields the first run has left.", "quantifier": "any parser, any final times", "why_tests_cant": "Nobody runs a parser twice with a network inside a shield.", "anchors": ["python/src/jsonParser.py:Parser.run", "python/src/mtln.py:MTLN.add_network", "python/src/networks.py:NetworkD.update_index_numbers"]}
{"id": "C114", "title": "A distributed source acts on the conductor of its cable", "statement": "A distributed source of the file adds its field to the row of the bundle that belongs to the conductor of the given number of the given cable, between the coordinates of its two nodes, and changes nothing else.", "quantifier": "any file, any number of sources, cables and conductors", "why_tests_cant": "The test files have the source on the first cable of a bundle.", "anchors": ["python/src/jsonParser.py:Parser._addSources", "python/src/mtl.py:MTLD.add_localized_longitudinal_field"]}
{"id": "C115", "title": "Each probe of the file is on the bundle of its cable at its node", "statement": "Every probe of the file is added once, in the order of the file, at the coordinate of its node to the first bundle with its cable (if no cable is given, the cable of the line at the node); the probe found by a name is the last one with this name; nothing else changes.", "quantifier": "any file, any number of probes", "why_tests_cant": "All orders and interleavings of probes of several bundles.", "anchors": ["python/src/jsonParser.py:Parser._addProbes", "python/src/jsonParser.py:Parser._getBundleFromElemId", "python/src/mtl.py:MTLD.add_probe"]}
{"id": "C116", "title": "A junction joins two nodes through their connectors", "statement": "The two nodes of a pair of a junction are joined by the elements of their two connectors in series: resistances and sources add up, and without any element between them the nodes are short-circuited.", "quantifier": "any network, any pair of connectors and sources", "why_tests_cant": "Junctions with sources, capacitors or several resistors are not in the test files.", "anchors": ["python/src/jsonParser.py:Parser._buildJunctions", "python/src/networks.py:Network.connect_nodes", "python/src/networks.py:Network.short_nodes"]}
{"id": "C119", "title": "Each node of the network of a joint is at the end its coordinate is at", "statement": "The network of a termination or junction has a node for each of its coordinates, of the line and the conductor that start or end at this coordinate, and at the end of the line the coordinate is at.", "quantifier": "any file, any joint, any number of groups and coordinates", "why_tests_cant": "The test files have no joint with both ends of a cable.", "anchors": ["python/src/jsonParser.py:Parser._buildTerminations", "python/src/jsonParser.py:Parser._buildJunctions", "python/src/jsonParser.py:Parser._getConnectorAndCableInNode"]}
{"id": "C127", "title": "The network of a joint is registered at the level of its cables", "statement": "The network of a termination or junction is registered at the level of the cables it connects.", "quantifier": "any file, any joint", "why_tests_cant": "The test files have no joint of cables of several levels.", "anchors": ["python/src/jsonParser.py:Parser._buildTerminations", "python/src/jsonParser.py:Parser._buildJunctions", "python/src/jsonParser.py:Parser._getLevelOfCable"]}
{"id": "C128", "title": "The networks of a file are reciprocal and dissipate", "statement": "In every network the parser builds the matrix P1 is symmetric; if no connector has a negative resistance, v·P1 v <= 0 for all voltages; the resistive currents into the nodes of a junction add up to zero.", "quantifier": "any file with any number of terminations, junctions, groups and coordinates", "why_tests_cant": "All circuits that can be described in a file, all voltages.", "anchors": ["python/src/jsonParser.py:Parser._buildNetworks", "python/src/jsonParser.py:Parser._buildTerminations", "python/src/jsonParser.py:Parser._buildJunctions", "python/src/networks.py:Network"]}
{"id": "C129", "title": "At the automatic time step a lossless line is solved exactly", "statement": "A uniform lossless line of one conductor between two resistances, driven at its beginning and run with the time step of the constructor, has at its nodes the values of the exact solution of the telegrapher's equations (forward wave, reflections with the coefficients (Z-Z0)/(Z+Z0) at the two ends), without any discretisation error, up to a constant shift of the time axis; a line terminated by its wave impedance reflects nothing.", "quantifier": "all positive L, C, lengths, all non-negative terminations, all numbers of cells and steps, all sources that start after the run begins", "why_tests_cant": "The tests compare a few lines with analytic waveforms to a tolerance; exactness for all parameters, all reflections and all times is beyond them.", "anchors": ["python/src/mtl.py:MTL.advance_voltage", "python/src/mtl.py:MTL.advance_current", "python/src/mtl.py:MTL.advance_left_terminal", "python/src/mtl.py:MTL.get_max_timestep"]}
{"id": "C130", "title": "A recorded value belongs to the time it is stamped with", "statement": "On a line that is solved exactly, the value a probe records with time t is the exact value at time t.", "quantifier": "all lines, sources, probes and samples", "why_tests_cant": "The shift is one time step, smaller than every tolerance of the tests.", "anchors": ["python/src/mtl.py:MTL.step", "python/src/mtl.py:MTL.advance_left_terminal", "python/src/probes.py:Probe.update"]}
{"id": "C131", "title": "Steady states are the solutions of the direct current circuit", "statement": "A line with constant sources and lumped connectors stays as it is through a run exactly if its voltages and currents solve the resistive circuit of its cells, nodes and terminations; without conductances that is a series circuit with the sum of all resistances.", "quantifier": "any number of conductors and cells, any non-uniform mesh, any resistances, conductances and terminations, runs of any duration", "why_tests_cant": "Every steady state of every line and every duration.", "anchors": ["python/src/mtl.py:MTL.run_until", "python/src/mtl.py:MTL.advance_voltage", "python/src/mtl.py:MTL.advance_current", "python/src/mtl.py:MTL.advance_left_terminal", "python/src/mtl.py:MTL.advance_right_terminal"]}
{"id": "C132", "title": "The response to a step settles at the voltage divider", "statement": "On a lossless line between two resistances that are not both zero, the voltages and currents after a step of the source converge geometrically to the values E Zl/(Zs+Zl) and E/(Zs+Zl), with the product of the reflection coefficients per round trip.", "quantifier": "all lines of C129, all steps, all numbers of round trips", "why_tests_cant": "A statement about the limit of infinitely many steps, with a rate.", "anchors": ["python/src/mtl.py:MTL.run_until", "python/src/mtl.py:MTL.advance_left_terminal", "python/src/mtl.py:MTL.advance_right_terminal"]}
{"id": "C133", "title": "Networks of bundles joined by resistors and capacitors never gain energy", "statement": "A manager of passive bundles (symmetric positive L and C, passive R and G, no transfer poles) whose junction and termination networks contain only positive resistors (those to ground connected before the branches at their nodes) and capacitors to ground that are not negative never gains energy: the sum of the leapfrog energies of the bundles' inner nodes and of the networks' half cells and capacitors does not grow in any step or any run, whatever the state it starts from.", "quantifier": "all managers, numbers of bundles, conductors, cells, networks, all initial states and run lengths", "why_tests_cant": "A test sees one circuit for finitely many steps; a slowly growing exchange between a network and a line end is invisible there.", "anchors": ["mtln.py:MTLN.step", "mtln.py:MTLN.run_until", "networks.py:Network.advance_voltage", "networks.py:Network.compute_v_terms", "networks.py:Network.update_currents"]}
{"id": "C134", "title": "Networks of bundles joined by resistors and capacitors stay bounded for stable time steps", "statement": "If in addition the time step of every bundle satisfies the strict stability bound and the networks use the capacitances of the bundles they are attached to, there is one bound for all voltages and currents of all bundles that holds for runs of any length.", "quantifier": "all such managers, all run lengths", "why_tests_cant": "Boundedness for all times cannot be observed in finitely many steps.", "anchors": ["mtln.py:MTLN.run_until", "mtln.py:MTLN.advance_networks_voltage", "mtl.py:MTL.get_max_timestep"]}
{"id": "C135", "title": "Runs with physical data never raise", "statement": "A manager whose bundles have cells of positive length, positive definite inductances and capacitances, dissipative resistances and conductances and no poles, and whose networks were made by calls that add positive resistors and capacitors (those to ground before the branches at their nodes) to nodes of existing conductors, runs for every positive time step (stable or not) and every duration without an exception; in particular no system solved in any step is singular.", "quantifier": "all such managers, all sizes, time steps and durations", "why_tests_cant": "A singular matrix appears for special values of data and time step only.", "anchors": ["mtln.py:MTLN.run_until", "networks.py:Network.compute_v_terms", "networks.py:Network.advance_voltage", "mtl.py:MTLD.update_lr_terms", "mtl.py:MTLD.update_cg_terms"]}
{"id": "C136", "title": "Convergence to smooth solutions when the time step is reduced", "statement": "Let V, I be a three times continuously differentiable solution of the telegrapher's equations of a uniform line of any number of conductors with losses, with sources behind impedances at both ends, at rest until the run starts. There is one constant K for all meshes and all time steps dt below a fixed fraction of the limit of get_max_timestep: in every run from rest the voltages after j steps differ from V at (j-1) dt and the currents from I at (j-1/2) dt by at most K (dt^2 + dx^2 + (1 - dt/tau) dx) in the mean square, tau being the time step for which the coefficients of the ends were computed. For programs that construct a line with m cells and then multiply its time step by a factor q < 1 the error is at most K/m.", "quantifier": "all conductor counts, matrices, terminations, smooth solutions, cell counts, time steps and durations", "why_tests_cant": "Convergence is a statement about all meshes at once; the tests compare one mesh with tolerances.", "anchors": ["mtl.py:MTL.run_until", "mtl.py:MTL.advance_voltage", "mtl.py:MTL.advance_current", "mtl.py:MTL.compute_terminal_terms", "mtl.py:get_max_timestep"]}
{"id": "C137", "title": "Convergence at the automatic time step", "statement": "At the time step the constructor chooses, the limit of the Courant condition included, the energy of the scheme no longer controls voltages and currents, but the averages over two consecutive steps still converge with second order: for every smooth solution there is one constant K such that for every number m of cells the constructor accepts the physical arguments, the run succeeds, the averages of voltages and currents over two consecutive steps are within K/m^2 of the averages of the solution in the mean square, and the voltages and currents themselves within K/m.", "quantifier": "all conductor counts, matrices, terminations, smooth solutions, cell counts and durations", "why_tests_cant": "Convergence is a statement about all meshes at once.", "anchors": ["mtl.py:MTL.run_until", "mtl.py:MTL.advance_voltage", "mtl.py:MTL.advance_current", "mtl.py:MTL.compute_terminal_terms", "mtl.py:get_max_timestep"]}
{"id": "C138", "title": "Transients die out and initial states are forgotten", "statement": "A passive line without excitation, one of whose ends absorbs power from every current, with a time step below the automatic one, returns to rest: all voltages and currents become and stay as small as one likes, as long as no voltage sits at a short circuit. Two runs with the same sources and different initial states approach each other. Both conditions are needed: a voltage at a short alternates for ever, and at exactly the automatic time step a checkerboard of voltages and currents never decays.", "quantifier": "any number of conductors and cells, any non-uniform mesh, any symmetric positive definite L and C, any dissipative R and G (also none), any sources and fields, runs of any duration", "why_tests_cant": "Asymptotic behaviour over all durations for all lines and all initial states; the counterexamples need special initial states no test sets up.", "anchors": ["python/src/mtl.py:MTL.run_until", "python/src/mtl.py:MTL.advance_voltage", "python/src/mtl.py:MTL.advance_current", "python/src/mtl.py:MTL.advance_left_terminal", "python/src/mtl.py:MTL.advance_right_terminal", "python/src/mtl.py:MTL.get_max_timestep"]}
{"id": "C139", "title": "Lines settle at the direct current solution", "statement": "The direct current circuit of a passive line one of whose ends absorbs power has exactly one solution for any voltages of the ends. Once the sources are constant and the external fields are gone, all voltages and currents of a run converge to it, if the time step is below the automatic one and the sources were compatible with the ends at the start.", "quantifier": "any number of conductors and cells, any non-uniform mesh, any dissipative R and G, any sources until they become constant, runs of any duration", "why_tests_cant": "Limits over unbounded durations for all lines, sources and initial states.", "anchors": ["python/src/mtl.py:MTL.run_until", "python/src/mtl.py:MTL.update_sources", "python/src/mtl.py:MTL.advance_left_terminal", "python/src/mtl.py:MTL.advance_right_terminal", "python/src/mtl.py:MTL.set_time_step"]}
{"id": "C140", "title": "Resistances and conductances of regions of bundles", "statement": "MTLD.set_resistance_in_region and MTLD.add_conductance_in_region give the region between two positions of a bundle the total resistance or conductance of the argument, wherever on the bundle the region is.", "quantifier": "all bundles, regions, conductors and values", "why_tests_cant": "Only the versions for single lines are exercised, at one position; the slice expression hides which matrix is written.", "anchors": ["python/src/mtl.py:MTLD.set_resistance_in_region", "python/src/mtl.py:MTLD.add_conductance_in_region", "python/src/mtl.py:MTLD.update_lr_terms", "python/src/mtl.py:MTLD.update_cg_terms"]}
{"id": "C141", "title": "Lines are reciprocal", "statement": "On a line with symmetric per-unit-length and terminal matrices and no dispersive elements, started at rest, transfer between ports is the same in both directions: a voltage source in series with the impedance of conductor a at one end causes, in every step, the current at conductor b at the other (or the same) end that the same source at b causes at a. In general, for two excitations of the line by sources at the ends and longitudinal fields, the convolution of the sources of one with the port currents of the other, plus that of its fields with the cell currents, is symmetric. For uncoupled terminal impedances the transferred voltages, multiplied by the impedances at the sources, agree in every step, and the current at an end due to a field in one cell is the mean current in that cell due to a source at the end, times the length of the cell.", "quantifier": "all lines (any number of conductors, cells, lengths, symmetric matrices, terminal impedances), all waveforms, all pairs of ports and cells, all numbers of steps, stable or not", "why_tests_cant": "A test compares one pair of runs within a tolerance; an asymmetry of the update at one end, in the coupling between conductors or in the averaging of sources shows only for unequal impedances, coupled conductors or other waveforms.", "anchors": ["python/src/mtl.py:MTL.step", "python/src/mtl.py:MTL.advance_left_terminal", "python/src/mtl.py:MTL.advance_right_terminal", "python/src/mtl.py:MTL.update_sources", "python/src/mtl.py:MTL.add_voltage_source", "python/src/mtl.py:MTL.run_until"]}
{"id": "C142", "title": "Files with one cable are simulated as the line a program builds", "statement": "For a file that describes one cable of n conductors (any n), in a bundle of its own, whose connectors are resistances at both ends, with terminal sources at any of its nodes and probes: (a) the parser accepts the file if and only if each probe is at a position on the cable; (b) for every final time the bundle that the parser simulates has the voltages, currents and probe records of the line that a program builds with the constructor of lines from the wire, the coordinates and the resistances of the file, and the same sources; (c) if the cable has one conductor, is straight and lossless, and the probes are at its nodes, then the parser accepts the file, runs for every final time, and the records are the samples of the solution of the telegrapher's equations, one time step late.", "quantifier": "all files of this shape, all numbers of conductors and cells, all resistances, all sources, all probes, all final times, all orders of sets", "why_tests_cant": "the tests run a few files with fixed cables and compare plots with other solvers at a tolerance; the statement covers all files of the shape and is exact", "anchors": ["python/src/jsonParser.py:Parser.run", "python/src/jsonParser.py:Parser.__init__", "python/src/mtln.py:MTLN.run_until", "python/src/mtl.py:MTL.run_until"]}
{"id": "C143", "title": "A localized field acts between its two positions", "statement": "add_localized_longitudinal_field changes the fields of the chosen conductor only, and only in cells between the nodes nearest to the two positions or at these nodes; positions beyond the last node raise an error.", "quantifier": "all bundles, bent or straight, all positions in the box of the end nodes, all conductors and magnitudes", "why_tests_cant": "the tests use straight lines with positions at nodes", "anchors": ["python/src/mtl.py:MTLD.add_localized_longitudinal_field"]}
{"id": "C144", "title": "The Fortran solvers compute the same as the Python lines", "statement": "TL_Nconductors_losses returns the voltages and currents of the Python line with the same inductances, capacitances, resistances, conductances and terminal resistances, cells of one millimetre, the time step of the Fortran solver and a source of 25 V; for physical data both programs succeed. TL_Nconductors is TL_Nconductors_losses for resistances and conductances zero, failures included, and TL_2conductors is TL_Nconductors for one conductor in a first call.", "quantifier": "all numbers of conductors, cells and steps, all matrices for which the Python program succeeds, everything that earlier calls left behind", "why_tests_cant": "no test runs the Fortran solvers, and none compares them with the Python code", "anchors": ["fortran/old/fd1d_TL.f90:TL_Nconductors_losses", "fortran/old/fd1d_TL.f90:TL_Nconductors", "fortran/old/fd1d_TL.f90:TL_2conductors", "python/src/mtl.py:MTL.run_until"]}
{"id": "C145", "title": "The Fortran solvers settle at the direct current solution", "statement": "With increasing numbers of steps, the arrays of the Fortran solvers tend to the voltages and currents of the circuit of resistances and conductances that the line and its ends form for a source of 25 V.", "quantifier": "all positive definite inductances and capacitances, all dissipative losses, all numbers of cells", "why_tests_cant": "the limit of infinitely many steps, and all matrices", "anchors": ["fortran/old/fd1d_TL.f90:TL_Nconductors_losses", "fortran/old/fd1d_TL.f90:TL_Nconductors", "fortran/old/Nconductors_3_losses.f90:Nconductors_3", "fortran/old/Nconductors_3.f90:Nconductors_3", "fortran/old/Nconductors_2.f90:Nconductors_2"]}
{"id": "C146", "title": "Calls of the Fortran solvers are independent of each other", "statement": "The arrays that a call of TL_Nconductors or TL_Nconductors_losses returns depend on its arguments only.", "quantifier": "all sequences of calls", "why_tests_cant": "all programs that are shipped make one call", "anchors": ["fortran/old/fd1d_TL.f90:TL_Nconductors_losses", "fortran/old/fd1d_TL.f90:TL_Nconductors"]}
{"id": "C147", "title": "Lines of the Fortran class have equidistant nodes and a largest time step", "statement": "init gives a line of the Fortran class nx + 1 nodes at equal distances from zero to its length, and get_max_timestep returns a time step.", "quantifier": "all numbers of cells and lengths", "why_tests_cant": "there are no Fortran tests", "anchors": ["fortran/src/class_MTL.f90:mtl_init", "fortran/src/class_MTL.f90:mtl_get_max_timestep", "fortran/src/utils.f90:linspace"]}
{"id": "C148", "title": "Parts of a manager that no network joins do not interact", "statement": "Let the bundles of a manager be divided in two parts such that every network connects ends of bundles of one part only. Then running the manager does to the bundles and networks of each part exactly what running a manager with that part alone does, with the same time step: same final voltages, currents, probe records, network state. The whole manager can be run if and only if both parts can. A program that constructs the manager from the bundles and networks of one part only obtains these same results whenever it runs with the same time step.", "quantifier": "all managers with any number of bundles of any size and networks of any order, all ways of dividing them, all final times and time steps", "why_tests_cant": "Tests run a few managers with one or two bundles; cross-talk through the shared lookup tables, the shared clock or the write lists would need comparison of every manager with its parts.", "anchors": ["python/src/mtln.py:MTLN.step", "python/src/mtln.py:MTLN.run_until", "python/src/mtln.py:MTLN.add_network", "python/src/networks.py:NetworkD.update_index_numbers"]}
{"id": "C149", "title": "Managers are causal, time-invariant and have finite signal speed", "statement": "Let two managers with the same hardware and the same state be run with the same arguments. (Causality) If their voltage sources and external fields agree at all times before t1 and the run ends at or before t1, the final voltages and currents agree: nothing that happens later acts earlier. (Front) If, starting from rest, no source or field acts at node k of a bundle before step d(bundle, k), and d changes by at most one from node to node and is the same at all nodes a network joins, then after j steps every voltage at a node with j <= d is zero and every current between two such nodes is zero, across any number of bundles and networks: a signal travels one cell per time step and a network passes it on in the same step. (Delay) If every source and field of a manager at rest acts K steps later, all voltages and currents occur K steps later.", "quantifier": "For all managers with any number of bundles (any conductor, cell and pole counts) and any networks (with and without inductors and capacitors), all source and field functions of time, all distance functions d with slope at most one, all K, final times and requested steps for which run_until succeeds and the step is positive.", "why_tests_cant": "Causality and the front quantify over all source functions and over all networks of lines; a test compares one pulse on one line at one threshold, where numerical noise hides whether early values are exactly zero.", "anchors": ["python/src/mtln.py:MTLN.step", "python/src/mtln.py:MTLN.run_until", "python/src/networks.py:Network.advance_voltage", "python/src/mtl.py:MTLD.advance_voltage", "python/src/mtl.py:MTLD.advance_current"]}
{"id": "C150", "title": "Terminations of resistors, inductors and capacitors cannot make a stable line grow without bound", "statement": "If the bundles of a manager are passive and its time step is below their stability limits, and the terminations are made of positive resistances, inductances and capacitances, then without sources (and from rest with constant sources) the voltages and currents stay below one bound in runs of any length.", "quantifier": "all managers of stable passive bundles, all positive element values, all initial states, all run lengths", "why_tests_cant": "The test with an LCpRs termination uses one set of values for one run; the growing mode needs other values or longer runs, and boundedness for all times is not observable.", "anchors": ["python/src/networks.py:Network.connect_to_ground_LCpRs", "python/src/networks.py:Network.advance_voltage", "python/src/mtln.py:MTLN.run_until"]}
{"id": "C151", "title": "Bounded sources make fields grow at most linearly with the simulated time", "statement": "For a manager of passive bundles whose time step is below every bundle's automatic time step, with networks of resistors and capacitors that work with the end capacitances of the bundles, and with sources and external fields that stay below some bound, there is a constant K such that after a run of any length all voltages and currents of all bundles are at most K*(1 + simulated time). The rate is attained: a lossless line between ends at zero voltage in a constant tangential field carries a current equal to the simulated time.", "quantifier": "all managers (any number of bundles, conductors, cells, networks), all bounded waveforms, all time steps below the stability limit, all numbers of steps", "why_tests_cant": "A test drives one circuit with one waveform for a fixed number of steps; it cannot exclude faster growth with another waveform or later.", "anchors": ["python/src/mtln.py:MTLN.run_until", "python/src/mtln.py:MTLN.step", "python/src/mtl.py:MTLD.advance_voltage", "python/src/mtl.py:MTLD.advance_current", "python/src/networks.py:Network.advance_voltage"]}
{"id": "C152", "title": "Excitations of finite duration leave fields that stay bounded for ever", "statement": "If, in the situation of C151, all sources and external fields vanish from some time on, then there is one bound for all voltages and currents of all bundles in runs of any length.", "quantifier": "all such managers, all bounded waveforms of finite duration, all run lengths", "why_tests_cant": "A late instability after the pulse has passed shows up only in runs longer than any test.", "anchors": ["python/src/mtln.py:MTLN.run_until", "python/src/mtln.py:MTLN.step", "python/src/mtl.py:MTLD.advance_voltage", "python/src/mtl.py:MTLD.advance_current", "python/src/networks.py:Network.advance_voltage"]}
{"id": "C153", "title": "Steady states of managers are the direct current solutions", "statement": "For a manager of bundles whose transfer impedances and connectors are resistances and inductances, with any networks (resistors, capacitors, inductors, RLC branches), whose sources and incident fields are constant from two steps before the start on, whose networks know the voltages and currents of their ends and have the voltages of the step before: the voltages and currents of all nodes and cells, and the state variables of the networks that act on their nodes, are the same after runs of any length exactly if they solve the direct current circuit. That circuit has, for each cell, the resistance of the line and the transfer impedance in series with the tangential field; for each inner node, the conductance to the reference; for each network, its node equations with the state variables at rest. Inductances, capacitances and the time step do not enter. The conductance of the half cells at the ends does not enter either, because the code gives it to no network (C64).", "quantifier": "all managers with any number of bundles, conductors, cells, networks and nodes, all constant sources and fields, all time steps, all numbers of steps", "why_tests_cant": "A test runs one circuit for a finite time and compares with a tolerance; it cannot show that a state is kept exactly for every circuit and every number of steps, nor that no other state is kept.", "anchors": ["python/src/mtln.py:MTLN.run_until", "python/src/mtln.py:MTLN.step", "python/src/networks.py:Network.advance_voltage", "python/src/networks.py:Network.compute_v_terms", "python/src/mtl.py:MTL.advance_voltage", "python/src/mtl.py:MTL.advance_current"]}
{"id": "C154", "title": "Runs of managers can be split", "statement": "Two runs of a manager, one after the other with the same time step argument, do the same as one run over the number of steps of both. If the two runs succeed so does the one run, and if the one run succeeds so do the two. Clock, time step, voltages, currents and memory of all bundles and the complete state of all networks are equal; only the records of the probes differ, which keep the frames of the last run (C02). In particular the matrices a second run prepares are those of the first.", "quantifier": "all managers with any number of bundles and networks, all pairs of final times, all time steps", "why_tests_cant": "All ways to split a run, for all managers, cannot be enumerated; a test compares two of them.", "anchors": ["python/src/mtln.py:MTLN.run_until", "python/src/mtln.py:MTLN.step", "python/src/networks.py:Network.compute_v_terms", "python/src/probes.py:Probe.resize_frames"]}
{"id": "C155", "title": "With constant sources a network of lines stays bounded exactly if its direct current circuit has a solution", "statement": "For a manager of passive bundles and networks of resistors and capacitors that work with the capacitances of the bundles, with time steps below the automatic ones, and with bounded sources and external fields that are constant from some time on: there is one bound on all voltages and currents in runs of any length if and only if the direct current circuit (resistances of the cells, conductances of the inner nodes, resistors of the networks, voltage zero at the ends without a node) has a solution for the final values of sources and fields. That bounded runs require a solution holds without any condition on the time step.", "quantifier": "all numbers of bundles, conductors, cells, networks and nodes, all passive data, all source waveforms that become constant, all initial states with consistent ends, all final times", "why_tests_cant": "The existing tests run for a fixed time; whether the fields stay below one bound for runs of every length cannot be observed, and an unsolvable circuit (a field along a lossless loop) shows up as slow growth only.", "anchors": ["python/src/mtln.py:MTLN.run_until", "python/src/mtln.py:MTLN.step", "python/src/networks.py:Network.advance_voltage"]}
{"id": "C156", "title": "Networks of lines are reciprocal", "statement": "Take two managers that differ in their sources and external fields only (passive bundles with symmetric matrices, networks of resistors and capacitors with symmetric matrices), both started at rest. At every step, the convolution of the first manager's source currents with the node voltages of the second, minus that of the first manager's induced voltages with the cell currents of the second, equals the same with the managers exchanged. In particular, if the only source of the first manager is a voltage w in series with the conductance g1 at one end x, and the only source of the second is the same waveform in series with g2 at the end y, then after runs to the same time g2 times the voltage at y in the first equals g1 times the voltage at x in the second, whichever bundles the ends belong to.", "quantifier": "all numbers of bundles, conductors, cells, networks and nodes, all passive symmetric data, all source and field waveforms, all time steps for which the managers start, all final times", "why_tests_cant": "The existing tests compare a few terminal voltages with references for one excitation; reciprocity relates pairs of runs with different excitations and holds for every geometry and waveform, exactly and at every step.", "anchors": ["python/src/mtln.py:MTLN.run_until", "python/src/mtln.py:MTLN.step", "python/src/networks.py:Network.advance_voltage", "python/src/networks.py:Network.connect_to_ground"]}
{"id": "C157", "title": "Networks of lines with resistors settle at the direct current solution, whatever they start from", "statement": "For a manager of passive bundles and networks of resistors and capacitors that work with the capacitances of the bundles, with time steps below the automatic ones, where the resistors reach every bundle (at one end of the bundle, directly or through other bundles, the voltages of all conductors are determined by the resistors): the direct current circuit has exactly one solution for any sources and fields; if the sources and external fields are constant from some time on, voltages and currents of all nodes and cells tend to this solution, from every initial state with consistent ends, and to zero if the sources end; and for arbitrary sources, runs from different initial states approach each other.", "quantifier": "all numbers of bundles, conductors, cells, networks and nodes, all passive data whose resistors reach every bundle, all source waveforms that become constant (for forgetting the start: all waveforms), all initial states with consistent ends, all tolerances", "why_tests_cant": "The existing tests stop after a fixed time and compare samples with tolerances; that lossless lines with any coupled terminations always come to the same end state, for every time step below the limit and with no residual oscillation, is a statement about infinitely long runs.", "anchors": ["python/src/mtln.py:MTLN.run_until", "python/src/mtln.py:MTLN.step", "python/src/networks.py:Network.advance_voltage", "python/src/networks.py:Network.connect_to_ground"]}
{"id": "C158", "title": "The time step of a bundle is the stable one of its block matrices", "statement": "For every bundle built from lines of constructors whose cells are the differences of their nodes, the automatic time step computed from the block-diagonal matrices of the whole bundle exists and is the smallest of the time steps of its lines; the constructor of the bundle gives it this step (or 1e10). If the lines have symmetric positive definite L and C and dissipative losses, so has the bundle, and it satisfies the hypotheses of the stability theorems for every time step below those of all its lines.", "quantifier": "All numbers of levels, lines, conductors and cells, all matrices and meshes; all time steps below those of the lines.", "why_tests_cant": "The eigenvalues of arbitrary block-diagonal products of any size are involved; tests compute a few bundles of small matrices.", "anchors": ["python/src/mtl.py:MTLD.__init__", "python/src/mtl.py:MTL.get_max_timestep", "python/src/mtl.py:MTL.get_phase_velocities"]}
{"id": "C159", "title": "Well-formed programs build managers that run, stay stable, settle and are reciprocal", "statement": "A program builds bundles out of lines, networks between ends of these lines, adds resistors and capacitors to the networks, and gives all to the manager. If its lines are proper, networks connect all conductors of the ends they name, no end is connected twice, and components to ground come before branches at the same node, then the manager fits together: the row, the end and the capacitance of every network node are those of the bundle row it was made for, and the manager is at rest, passive and symmetric. Hence it runs for every duration and every positive time step without raising; below the time steps of the lines its voltages and currents grow at most linearly under bounded sources and stay bounded after sources have ended; if resistors connect one end of every bundle with the ground, it settles under constant sources at the only solution of the direct current circuit; and it is reciprocal.", "quantifier": "All programs: any number of bundles, levels, conductors, networks, components, any topology of the connections, any sources.", "why_tests_cant": "The properties of the manager theorems (matching capacitances between networks and bundles, index shifts by level, passivity, symmetry) are invariants of construction over unbounded topologies; a test checks one topology.", "anchors": ["python/src/mtln.py:MTLN.run_until", "python/src/mtln.py:MTLN.add_network", "python/src/mtl.py:MTLD.__init__", "python/src/networks.py:Network.__init__", "python/src/networks.py:NetworkD.update_index_numbers"]}
{"id": "C160", "title": "Exactly which programs are accepted", "statement": "The constructor of networks accepts a description exactly if every side is S or L, ids are nonnegative and different, conductors belong to their lines and the lines have cells, and connectors have the data their type needs. A network with resistors and capacitors is accepted exactly if moreover all of them are between nodes of the description; a bundle exactly if it has a line, all lines have the nodes of the first, and none of its own calls raises. A well-formed program is accepted exactly if its bundles and networks are and its bundles have different names.", "quantifier": "All descriptions, all lists of components, all programs.", "why_tests_cant": "That nothing outside the stated conditions makes a constructor raise is a statement about all descriptions.", "anchors": ["python/src/networks.py:Network.__init__", "python/src/networks.py:Network._add_node", "python/src/mtl.py:MTLD.__init__", "python/src/mtln.py:MTLN.add_bundle", "python/src/mtln.py:MTLN.add_network"]}
{"id": "C161", "title": "Files of cables without shields run, are stable and settle", "statement": "Take an input file whose bundles hold one cable each (no shields), with cables of symmetric positive definite inductance and capacitance and non-negative resistance, connectors made of non-negative resistors and capacitors, voltage and current probes, junctions and terminations at different positions that take whole cable ends, and no cable end in two of them. If the parser accepts it, the simulation it sets up is a well-formed program of bundles and networks. Hence parser.run(finalTime, dt) never raises for dt >= 0; for a positive time step below those of the cables and bounded sources the voltages and currents grow at most linearly in time, and stay bounded if the sources end; and if the sources become constant and a termination connects every cable to the ground, all voltages and currents converge to the solution of the direct current circuit.", "quantifier": "for all such files, any number of cables, conductors, segments, junctions and terminations, any order of the sets used by the parser, all final times and time steps", "why_tests_cant": "A test runs one file for a few steps; that no file of this kind ever fails, diverges or settles elsewhere needs the whole chain from the sections of the file to the manager, for any number of steps.", "anchors": ["python/src/jsonParser.py:Parser.run", "python/src/jsonParser.py:Parser._buildBundles", "python/src/jsonParser.py:Parser._buildNetworks", "python/src/mtln.py:MTLN.run_until"]}
{"id": "C162", "title": "Files of cables without shields are accepted, run and settle", "statement": "Take a file of cables without shields, each in a bundle of its own, with resistors and capacitors as connectors, whose references can all be resolved: every element, material, coordinate and cable a bundle, joint, probe or source refers to is in the file, the connectors have the values they are asked for, probes are on their cables, pairs of junctions have two ends, no end is twice in a termination, and a source is never put in series with a resistance of zero.  Then the parser accepts the file without an error, and the simulation runs for any time with any time step that is not negative.  With a time step below those of its lines, every cable connected with the ground and sources constant from a time on, voltages and currents settle at the solution of the direct current circuit; nothing is assumed about intermediate results.  Physical wires whose resistance has the shape of their inductance give the lines the file needs, and every point of a cable can be probed.", "quantifier": "for all files of this kind, with any number of cables, conductors, segments, junctions, terminations, sources and probes, all orders in which sets are traversed, all end times and time steps", "why_tests_cant": "tests parse a handful of files; that no look-up, index or constructor fails on any file of a class, and that the resulting simulation never fails either, is a statement over all files", "anchors": ["python/src/jsonParser.py:Parser.__init__", "python/src/jsonParser.py:Parser._buildBundles", "python/src/jsonParser.py:Parser._buildTerminations", "python/src/jsonParser.py:Parser._buildJunctions", "python/src/jsonParser.py:Parser._addProbes", "python/src/mtln.py:MTLN.run_until"]}
{"id": "C163", "title": "A dispersive connector has the impedance of its rational model", "statement": "Let connectors with rational models be added one after another to cells and conductors of a line without connectors, in any number and with any number of poles. For a model M and a complex frequency z that is not a pole there is an impedance Z, which depends on M, z and the time step only, with: in every run of every such line in which the current through the cell of M is Re(I exp(z t)), the voltage along the cell that the inductance and the resistance of the line and the fields leave over is Re(Z I exp(z t)) in the middle of the step, plus a combination of the free responses exp(pole t) of the poles. When the time step goes to zero, Z tends to the impedance cte + prop z + sum residue/(z - pole) of the model for real signals, which is that impedance itself if poles and residues come in conjugate pairs. At direct current (z = 0) Z is that impedance for every time step: a line with decaying poles and constant sources stays as it is exactly if its voltages and currents solve the circuit in which each model is the resistance Re Z(0), and the memories of the poles are -(residue/pole) times the current.", "quantifier": "for all lines, connectors, rational models with any number of poles, complex frequencies, time steps and durations", "why_tests_cant": "The tests compare a few waveforms of two connectors with reference curves at one time step; the impedance at every frequency, its limit for small time steps and its exactness at direct current are statements about infinitely many runs.", "anchors": ["python/src/dispersive.py:DispersiveConnector.add_dispersive_connector", "python/src/dispersive.py:Dispersive.update_phi", "python/src/mtl.py:MTL.advance_current", "python/src/mtl.py:MTL.add_dispersive_connector"]}
{"id": "C164", "title": "The text of elements and coordinates is read as the numbers it shows", "statement": "Elements and coordinates are given as texts of fields separated by blanks. The fields are the words between the blanks, whatever blanks are used. int(str(k)) is k for every integer, float of a text in decimal notation with sign, digits, fraction and exponent is the number it denotes, and the coordinates of a file are the numbers of its rows. How the id of a coordinate is written in an element does not matter for the look-ups of elements, coordinates and sources: they are the look-ups in the lists of numbers.", "quantifier": "for all texts, integers, decimal numbers, rows, files and ids", "why_tests_cant": "the files of the tests are written in one way; that no look-up depends on blanks or notation is a statement about all texts", "anchors": ["python/src/jsonParser.py:Parser._getCoordinates", "python/src/jsonParser.py:Parser._getElementOfNode", "python/src/jsonParser.py:Parser._getNodeCoordId", "python/src/jsonParser.py:Parser._getLineElemIdFromCoordId", "python/src/jsonParser.py:Parser._getListOfCoordinates", "python/src/jsonParser.py:Parser._getTerminalSourceInNode"]}
{"id": "C165", "title": "Connectors of any orders may share a cell", "statement": "The connectors that are placed on the conductors of one cell may have rational models with any numbers of poles: in every step the history term of each conductor is that of its own model, and nothing raises.", "quantifier": "all numbers of conductors, all models, all histories of currents, all numbers of steps", "why_tests_cant": "The entries of phi and of q1, q2, q3 are numbers or numpy arrays of any length, which numpy broadcasts; tests use one connector, or the same model on all conductors.", "anchors": ["python/src/dispersive.py:Dispersive.update_phi", "python/src/dispersive.py:Dispersive.update_q3_phi_term", "python/src/dispersive.py:DispersiveConnector.add_dispersive_connector"]}
{"id": "C166", "title": "A transfer impedance has the impedance of its rational model", "statement": "Let a transfer impedance with direction 'in' be added to a bundle without one, between outer and inner conductors that are different. In every step of the bundle the voltage that an outer conductor induces per unit length in an inner conductor coupled to it is, for an outer current Re(I exp(z t)), Re(Z I exp(z t)) in the middle of the step, with an impedance Z which tends to the model's transfer impedance (cte + prop z + sum residue/(z - pole)) / factor when the time step goes to zero.", "quantifier": "for all bundles, conductors, transfer impedances, complex frequencies, currents and time steps", "why_tests_cant": "The tests compare a few waveforms at one time step with reference curves, with tolerances; what the stepping converges to at each frequency is a statement about infinitely many runs.", "anchors": ["python/src/dispersive.py:TransferImpedance.add_transfer_impedance", "python/src/dispersive.py:Dispersive.update_q3_phi_term", "python/src/mtl.py:MTLD.advance_current", "python/src/mtl.py:MTLD.add_transfer_impedance"]}
{"id": "C167", "title": "Connectors with passive impedances keep a stable line stable", "statement": "If a line is passive and its time step is below the automatic one, then after adding dispersive connectors whose impedances are positive real, all voltages and currents of all runs without sources stay bounded.", "quantifier": "all conductor counts, cells, passive lines, lists of connectors with real poles, time steps, durations", "why_tests_cant": "Instability depends on the ratio of residues, cell inductance and time step and may show only after arbitrarily many steps; tests run a few chosen connectors for short times.", "anchors": ["python/src/mtl.py:MTLD.add_dispersive_connector", "python/src/mtl.py:MTLD.advance_current", "python/src/mtl.py:MTL.get_max_timestep", "python/src/dispersive.py:Dispersive.update_phi"]}
{"id": "C168", "title": "The two ways of counting state variables agree", "statement": "For the connections of a line end, Network._get_number_of_state_vars returns the number of state variables that the constructor of the network gives to the nodes of that line end.", "quantifier": "all lists of connections, all connector records, all lines", "why_tests_cant": "The function is not called by the package or its tests, and agreement is a statement about every list of connectors.", "anchors": ["python/src/networks.py:Network._get_number_of_state_vars", "python/src/networks.py:Network.__init__"]}
{"id": "C169", "title": "What is inside of a shield does not act on what is outside", "statement": "In a bundle of several levels whose transfer impedances have the direction 'in', the inner conductors never act on the outer ones: whatever the inner conductors carry, a run leaves on the outer conductors exactly the voltages, currents, memories, probe records and network states that a run of the manager with only the outer levels (and the networks between outer conductors) leaves.", "quantifier": "for all managers, all bundles with any number of levels and conductors, all transfer impedances (resistive, inductive and with poles) of direction in, all networks that do not join outer with inner conductors, all sources on inner and outer conductors, all final times and steps", "why_tests_cant": "A test compares one pair of cables for one excitation; independence from everything inside quantifies over all contents of the shield, all excitations inside and all run lengths.", "anchors": ["python/src/mtl.py:MTLD.advance_current", "python/src/mtl.py:MTLD.add_transfer_impedance", "python/src/mtl.py:MTLD.set_connector_transfer_impedance", "python/src/dispersive.py:TransferImpedance.add_transfer_impedance", "python/src/mtln.py:MTLN.run_until"]}
{"id": "C170", "title": "With periodic sources a line approaches a periodic steady state", "statement": "Let the sources at the ends and the external fields of a line repeat, from some time on, after a whole number P of time steps (a sine switched on at time zero, for example), let the line be passive and regular, its time step below the automatic one, and one of its ends absorb power. Then there is a steady state: voltages and currents that repeat after P steps and that the code follows, started from them at the right time. The run from every initial state whose voltages at the ends no short keeps approaches it: all voltages and currents become and stay as close to it as one likes. It is the only periodic state, of whatever period, that runs approach. For lines from the constructor with resistances at one end this holds of the run after `add_voltage_source` with sources that begin at time zero.", "quantifier": "all lines (any number of conductors and cells, any positions), all sources and external fields with a period of P time steps, all P > 0, all initial states, all times; steady-state response to harmonic sources is the special case", "why_tests_cant": "A test runs finitely many steps of one line with one source; it cannot show that a limit exists, that it is periodic, or that it does not depend on the initial state.", "anchors": ["python/src/mtl.py:MTL.run_until", "python/src/mtl.py:MTL.step", "python/src/mtl.py:MTL.update_sources"]}
{"id": "C171", "title": "Waves inside a line follow the numerical dispersion relation and are never too fast", "statement": "Let a uniform line without losses begin with the sampled voltages (at the nodes) and currents (half a cell and half a time step later) of a plane wave cos(ωt - κx + φ) with amplitudes A and B. If h sin(ω dt/2) C A = dt sin(κh/2) B and h sin(ω dt/2) L B = dt sin(κh/2) A, then after every number j of steps of `run_until` all nodes and cells that are j or more away from the ends hold exactly the wave at that time. Conversely, if one step keeps a wave at a node and a cell where it changes, these two equations hold. They make A a mode of the line with (h sin(ω dt/2))² L C A = (dt sin(κh/2))² A, and every such mode has a wave. With one conductor there is a wave for every wave number up to half a wave per cell and every time step up to the automatic one; its phase velocity ω/κ is 1/sqrt(LC) at the automatic time step and smaller below it.", "quantifier": "all uniform lossless lines (any number of conductors and cells, any ends), all frequencies, wave numbers, phases and amplitudes, all numbers of steps", "why_tests_cant": "Tests compare a few sampled waveforms with tolerances that hide the phase error; they cannot establish the relation between frequency and wave number for all of them, nor that no other waves are carried.", "anchors": ["python/src/mtl.py:MTL.advance_voltage", "python/src/mtl.py:MTL.advance_current", "python/src/mtl.py:MTL.run_until"]}
{"id": "C172", "title": "Runs do not depend on the variables: any invertible change of voltages and currents, and the modes of a line", "statement": "Replace the voltages of a line by A·v and its currents by B·i, with any invertible matrices A and B, its times by τt and its lengths by λx, and all its per-unit-length matrices, terminal resistances, connectors, sources and stored coefficients accordingly (impedances become A·Z·B⁻¹, admittances B·Y·A⁻¹). Then `run_until` ends with the same error as before, or with the same line in the new variables: voltages, currents, states of the connectors, recorded rows and times of all probes. For symmetric positive definite inductances L and capacitances C there are such variables in which L is diagonal with positive entries and C is the identity, and in these a lossless uniform line with short-circuited ends is a set of uncoupled one-conductor lines.", "quantifier": "all lines (any numbers of conductors, cells and poles, any losses, connectors, sources and external fields), all invertible A and B, all positive τ and λ, all final times", "why_tests_cant": "Tests run single lines with fixed values; modal decomposition and invariance concern pairs of runs with arbitrary matrices.", "anchors": ["python/src/mtl.py:MTL.run_until", "python/src/mtl.py:MTL.advance_voltage", "python/src/mtl.py:MTL.advance_current", "python/src/mtl.py:MTL.update_lr_terms", "python/src/mtl.py:MTL.update_cg_terms", "python/src/probes.py:Probe.update"]}
{"id": "C173", "title": "The interface of lines has no units of its own", "statement": "Express all arguments of a program that builds a line, adds sources, probes, lumped resistances, conductances and dispersive connectors, sets the time step, runs and copies the line, in other units of voltage, current, time and length. The program then ends with the same error as before, or with the same line in the new units: the same mesh, the automatic time step in the new units, the same nearest nodes and regions, and probes that have recorded the same times and values in the new units.", "quantifier": "all arguments of the constructor and of the methods, all sequences of calls, all positive factors of the four units", "why_tests_cant": "Every test uses SI units; a hidden absolute tolerance or constant in the constructor, the region methods or the connectors shows only when all quantities are scaled together by arbitrary factors.", "anchors": ["python/src/mtl.py:MTL.__init__", "python/src/mtl.py:MTL.get_max_timestep", "python/src/mtl.py:MTL.set_resistance_in_region", "python/src/mtl.py:MTL.add_conductance_in_region", "python/src/mtl.py:MTL.add_voltage_source", "python/src/mtl.py:MTL.add_probe", "python/src/mtl.py:MTL.add_dispersive_connector", "python/src/mtl.py:MTL.set_time_step", "python/src/dispersive.py:DispersiveConnector.add_dispersive_connector"]}
{"id": "C174", "title": "Managers with periodic sources approach a periodic steady state", "statement": "For a manager of passive bundles joined by networks of resistors and capacitors that use the bundles' own capacitances, with time steps below the automatic ones, resistors that reach every bundle, and sources and fields that repeat after P time steps from some time on: there is a manager with the same hardware, the same sources from that time on and other initial voltages and currents whose voltages and currents repeat exactly after P steps from the start, all its runs end, and the runs of the given manager approach it. If the sources are periodic at all times, it has exactly the same sources. All such periodic runs agree at every step, whatever their periods. The same follows from a program of constructor calls alone.", "quantifier": "all numbers of bundles, conductors, cells, junctions and networks, all periods P > 0, all initial states and all sources that are periodic from some time on", "why_tests_cant": "a simulation only shows finitely many periods of one network; existence, exact periodicity and uniqueness of the limit concern infinitely many steps and all networks", "anchors": ["python/src/mtln.py:MTLN.run_until", "python/src/mtln.py:MTLN.step", "python/src/networks.py:NetworkD.update_sources"]}
{"id": "C175", "title": "Managers have a frequency response", "statement": "For a manager of passive bundles joined by networks of resistors and capacitors that use the bundles' own capacitances, with time steps below the automatic ones, resistors that reach every bundle, and sources and fields that are sinusoids of one angular frequency from some time on, each with its own amplitude and phase: there is a manager with the same hardware and the same sources from that time on whose voltages and currents are exact sinusoids of that frequency from the start, and every voltage and current of the given manager approaches that sinusoid, whatever the initial state. The amplitudes are unique unless the time step is a multiple of half a period. The same follows from a program of constructor calls alone.", "quantifier": "all numbers of bundles, conductors, cells, junctions and networks, all real frequencies (not only those whose period is a multiple of the time step), all amplitudes and phases of all sources, all initial states", "why_tests_cant": "a test can compare a few amplitudes at a few frequencies after a finite time; that no other frequency and no transient remains in the limit is a statement about all steps and all networks", "anchors": ["python/src/mtln.py:MTLN.run_until", "python/src/mtln.py:MTLN.step", "python/src/networks.py:NetworkD.update_sources"]}
{"id": "C176", "title": "The vector-fit scripts write the matrices they compute and print the parameters of the medium", "statement": "VF_z.py writes 500 touchstone lines whose matrices are diagonal with the admittance of 10 Ω and 10 nH in series at the line's frequency; VF_eps.py writes 400 lines with the permittivity of its Debye medium. If the fit, with distinct poles outside of the imaginary axis, has the values of the Debye function at infinitely many frequencies, then its constant is 1, each printed pair (-1/pole, -residue/pole) with a residue is a pair (tau, k) of the medium, and all of these pairs are printed.", "quantifier": "all impedances and frequencies of a line; all Debye media with distinct nonzero times and nonzero strengths; all fits with distinct poles, of any order, and any infinite set of frequencies", "why_tests_cant": "The scripts print to a terminal and are not tested; that the printed numbers are the parameters of the medium for every medium and every order of the fit is the uniqueness of partial fractions.", "anchors": ["python/src/VF/VF_z.py", "python/src/VF/VF_eps.py"]}
{"id": "C177", "title": "The parser's unused helpers", "statement": "`_f` returns None if all entries are dictionaries and otherwise Python's function `input`, never the keys it collects; `_getNodesInJunction` returns the coordinates of the first junction of the name, raises Exception exactly if all junctions have other names, and otherwise KeyError; `_getFields` returns the section or an empty list and needs a model.", "quantifier": "all lists of values, all lists of junctions with or without the keys, all names", "why_tests_cant": "Nothing calls these functions, so no test does; the statement covers all inputs.", "anchors": ["python/src/jsonParser.py:Parser._f", "python/src/jsonParser.py:Parser._getNodesInJunction", "python/src/jsonParser.py:Parser._getFields"]}
{"id": "C178", "title": "The sinusoidal steady state of a line is the solution of its circuit for alternating current", "statement": "For a passive line with an end that absorbs power and a time step below the automatic one, the circuit for alternating current (the telegrapher's equations on the cells with 2i sin(w dt/2)/dt in place of i w and the losses times cos(w dt/2), the impedances and half cells at the ends, sinusoidal sources and incident fields) has exactly one solution; with sources and fields that are sinusoids from some time on, every run approaches the sinusoids with these complex amplitudes, the voltages delayed by one time step and the currents by half a time step.", "quantifier": "all numbers of conductors and cells, all symmetric positive definite L and C, all losses, resistive or shorted ends, all frequencies with cos(w dt/2) != 0 (all below half the sampling frequency), all amplitudes and phases at both ends and of the fields, all initial states that no short keeps", "why_tests_cant": "Tests look at a few waveforms of a few lines for a finite time; this is the limit of all runs, for every line and every frequency, and equals the solution of an independent linear system that the code never forms.", "anchors": ["python/src/mtl.py:MTL.run_until", "python/src/mtl.py:MTL.step", "python/src/mtl.py:MTL.update_sources"]}
{"id": "C179", "title": "A line in the sinusoidal steady state is a reciprocal, passive network between its sources", "statement": "Take the circuit for alternating current that a run of a line with sinusoidal sources approaches (C178). If the matrices of the line and of its ends are symmetric, the circuit is reciprocal: for two sets of sources, the currents of the first times the voltages of the second equal the currents of the second times the voltages of the first; so the current in a conductor at one end for a unit source in a conductor at the other end is the same both ways. The mean power that the sources deliver is exactly the mean power in the resistances of the ends, of the cells and of the nodes (end nodes count half), so a passive line never delivers power at any frequency below half of the sampling frequency.", "quantifier": "Every number of conductors and cells, every passive line (symmetric or not for the power), every frequency with cos(omega dt / 2) > 0, all source amplitudes and phases, every time step of the constructed line.", "why_tests_cant": "Tests compare a few S parameters at a few frequencies; they cannot show that reciprocity and passivity hold exactly in the discrete model for every line and every frequency.", "anchors": ["python/src/mtl.py:MTL.run_until", "python/src/mtl.py:MTL.step", "python/src/mtl.py:MTL.update_sources"]}
{"id": "C180", "title": "The recorded response to a pulse has the spectrum that the circuit for alternating current gives", "statement": "For a line at rest with resistances at at least one end, a time step below the automatic one and sources at its ends that are zero before the run and after finitely many steps: for every frequency omega with cos(omega dt/2) not zero, the sums of exp(-i omega t) times the voltages and currents over the steps of a run tend, as runs get longer, to the solution V, I of the circuit for alternating current (C178) whose sources are the same sums of the samples of the pulse. Consequently the fast Fourier transform of the rows that a voltage probe recorded, at bin a*b of P*b rows, tends to V at omega = 2 pi a/(P dt). Stated for every such state of the model and for every line from the constructor.", "quantifier": "for all lines, numbers of conductors and cells, pulses, frequencies and run lengths", "why_tests_cant": "The limit is over runs of every length, and the frequencies and pulses range over continua; tests transform one run of one line.", "anchors": ["python/src/mtl.py:MTL.run_until", "python/src/mtl.py:MTL.step", "python/src/probes.py:Port.__get_v_i_fft", "python/src/probes.py:Probe.update"]}
{"id": "C181", "title": "In the sinusoidal steady state a lossy line carries two waves that decay in the direction they travel in", "statement": "For a line of one conductor with equal cells: every solution of its circuit for alternating current (C178) has voltages A x^k + B x^-k and currents proportional to A(1-x)x^k + B(1-1/x)x^-k at the k-th node and cell, where (x-1)^2/x is the product of the series impedance h(L j 2 sin(omega dt/2)/dt + R cos(omega dt/2)) and the shunt admittance of a cell. With any loss (R > 0 or G > 0) and 0 < omega dt < pi the two factors are x and 1/x with |x| < 1 and Im x < 0, so that each wave decays in the direction in which its phase travels. Without losses |x| = 1 exactly if h sqrt(LC) sin(omega dt/2) <= dt: above this cut-off of the grid no wave travels. The runs of such a line from the constructor approach these waves.", "quantifier": "for all parameters, numbers of cells, time steps, frequencies, sources and run lengths", "why_tests_cant": "The attenuation of the numerical waves holds for a continuum of frequencies and parameters and in the limit of long runs; tests compare a few recorded values with a tolerance.", "anchors": ["python/src/mtl.py:MTL.advance_voltage", "python/src/mtl.py:MTL.advance_current", "python/src/mtl.py:MTL.run_until", "python/src/mtl.py:MTL.__init__"]}
{"id": "C182", "title": "The circuit of a manager for alternating current", "statement": "Take a manager of passive bundles joined by networks of resistors and capacitors that work with the capacitances of the bundles, with time steps below the automatic ones, where the resistors reach every bundle. Its sources and fields are sinusoids of one angular frequency from some time on, each with its own amplitude and phase. If the time step is no multiple of half a period, then the circuit of the manager for alternating current has a solution in complex amplitudes: the telegrapher's equations in the cells and at the nodes of every bundle with 2i sin(theta/2)/dt in place of i omega, where theta is the phase of a time step, Kirchhoff's current law in every network with its sources, and no voltage at ends without a node. The runs of MTLN.run_until settle on the sinusoids with these amplitudes: every voltage belongs to the time of the last step, every current to the middle between two steps. The same follows from the calls of a program alone, with resistors to ground. Every solution of the circuit is one on which the runs settle, also without the condition on the step; with the condition the amplitudes of the runs, and with them the solution on the bundles, are unique.", "quantifier": "for all managers and programs of the classes named, of any number and size of bundles and networks, all time steps below the automatic ones, all frequencies and all amplitudes and phases of the sources and fields", "why_tests_cant": "Tests compare single runs with stored curves; they cannot show that the limit of every run solves the equations of the circuit for every frequency.", "anchors": ["python/src/mtln.py:MTLN.run_until", "python/src/mtln.py:MTLN.step", "python/src/networks.py:Network.advance_voltage", "python/src/networks.py:NetworkD.update_sources", "python/src/mtl.py:MTLD.advance_current"]}
{"id": "C183", "title": "Managers with sinusoidal sources balance power and are reciprocal", "statement": "For every solution of the circuit of a manager for alternating current (on which C182 shows that runs with sinusoidal sources settle): the mean power that the voltage sources and the external fields deliver equals the mean power taken by the resistances and conductances of the bundles, by the resistors of the networks and by the capacitors of the networks (the code differentiates these over two steps, half a step late, so each acts like a capacitor with a conductance). For passive bundles and networks the sources and fields never take power, for every frequency up to the Nyquist frequency of the step. For symmetric data, two managers that differ in sources, fields and state only are reciprocal: what the sources of the one do to the voltages and currents of the other is what the sources of the other do to those of the one; in particular a current into one end of any bundle causes at any other end of any bundle the voltage that the same current there causes here.", "quantifier": "all managers, bundles, networks, frequencies, sources, fields and ends", "why_tests_cant": "a test compares single runs at single frequencies; the balance and reciprocity hold for every network of lines, every pair of ends and every frequency", "anchors": ["python/src/mtln.py:MTLN.run_until", "python/src/networks.py:Network.advance_voltage", "python/src/mtl.py:MTLD.advance_current"]}
{"id": "C184", "title": "The spectrum of a manager's response to a pulse solves its circuit for alternating current", "statement": "A manager at rest of passive bundles and networks of resistors and capacitors, with a time step below the automatic ones and resistors that reach every bundle, is excited by voltage sources and fields across the lines that act for K steps. For every angular frequency whose time step is no multiple of half a period, the sums of v exp(-iwt) and i exp(-iwt) over the steps of the runs (voltages at the time before the last step, currents half a step later) tend to a solution of the circuit of the manager for alternating current, with the sums of the samples of the sources as amplitudes. That circuit has a solution, and only one on the bundles. From a script alone: with resistors to ground and pulses as sources the runs succeed and their spectra tend to that solution.", "quantifier": "all managers, bundles, networks, pulses, lengths of pulses, frequencies, nodes and cells, and all lengths of runs", "why_tests_cant": "a test transforms one recorded run at some frequencies; that every impulse response of every network of lines converges to the phasor solution at every frequency is a statement about infinitely long runs", "anchors": ["python/src/mtln.py:MTLN.run_until", "python/src/networks.py:Network.advance_voltage", "python/src/mtl.py:MTLD.advance_current"]}
{"id": "C185", "title": "The ends of a line reflect by their impedance, and the response of a lossy line has a closed form", "statement": "For a line of one conductor with equal cells in the sinusoidal steady state (C178): its two waves (C181) have an impedance W with W^2 Y (1 + Z Y/4) = Z, where Z and Y are the impedance of a cell and the admittance of a node. At each end the wave that leaves is the wave that arrives times (zeta - kappa W)/(zeta + kappa W) plus the part of the source that passes the divider of zeta and W; kappa is cos(omega dt/2) and a term for the capacitance that is missing at ends built for another time step. With losses Re W > 0, the factor 1 - Gs Gl x^2m of the echoes is never zero, and the voltages are cos(omega dt/2) W/(zeta + kappa W) E (x^k + Gl x^(2m-k))/(1 - Gs Gl x^2m); the runs of such a line from the constructor approach these sinusoids. Resistances at ends built for the time step of the run reflect at most what arrives. Without losses, at the largest stable time step, the resistance sqrt(L/C) at the far end is matched at every frequency: each cell delays by exactly one step.", "quantifier": "for all parameters per unit length, lengths, numbers of cells, resistances at the ends, time steps below the automatic one (the automatic one itself for the matched line), frequencies below half the sampling frequency and amplitudes", "why_tests_cant": "the tests compare a few transients with tolerances; the closed form is an equation in complex numbers for every frequency and every line, and that its denominator does not vanish is a statement about all of them", "anchors": ["python/src/mtl.py:MTL.__init__", "python/src/mtl.py:MTL.run_until", "python/src/mtl.py:MTL.step"]}
{"id": "C186", "title": "With more cells the sinusoidal steady state of a line tends to the solution of the telegrapher's equations", "statement": "Take lines of one conductor, with or without losses, with the same length and parameters, with 1, 2, 3, ... equal cells, resistances at the ends and a sinusoidal source at the first end, and any time steps below the automatic ones. If the line loses power or one of its ends has a positive resistance, the telegrapher's equations v' = -(R + i omega L) i, i' = -(G + i omega C) v on [0, D] with v(0) = E - Zs i(0) and v(D) = Zl i(D) have exactly one solution v, i. If one of the ends has a positive resistance, then for every epsilon the runs of all lines with enough cells settle within epsilon of sinusoids: the voltage of every node k of the one with the amplitude and phase v(k D/m), the current of every cell k, half a time step later, of the one with i((k + 1/2) D/m). The amplitudes of the circuit for alternating current (C178) tend to these values uniformly over the line whenever the line or one of its ends takes power, for time steps up to and including the automatic ones.", "quantifier": "for all parameters with L, C > 0 and R, G, Zs, Zl >= 0 not all zero, lengths, frequencies, amplitudes, sequences of time steps and all nodes and cells; limits in the number of cells", "why_tests_cant": "a test runs one number of cells and compares with a reference curve; convergence is a statement about all numbers of cells, and its limit, the solution of a boundary value problem, is not computed by the code", "anchors": ["python/src/mtl.py:MTL.__init__", "python/src/mtl.py:MTL.run_until", "python/src/mtl.py:MTL.get_max_timestep"]}
{"id": "C187", "title": "A line of several conductors responds as one line for each of its modes, and tends to the telegrapher's equations of all conductors", "statement": "Take a line whose matrices have common modes (two changes of variables, for the voltages and for the currents, that make the inductances, resistances, capacitances, conductances and both ends diagonal). Its circuit for alternating current (C178) is solved by given amplitudes if and only if every mode solves the circuit of a line of one conductor. Where each mode takes power, along the line or at an end, the telegrapher's equations of all the conductors have exactly one solution; and for more and more cells, and any time steps up to the automatic ones, the amplitudes of the voltages and currents of the lines the constructor makes tend to it uniformly over the line. So do their runs with sinusoidal sources at the beginning, after enough steps. In particular, the conductors of every line in a homogeneous medium (the product of the inductances and the capacitances is a multiple of the identity) have common modes with a conducting medium, with resistances that are equal or proportional to the inductances, and with equal resistances at the ends. Without common modes, for any symmetric positive definite inductances and capacitances, any losses and ends of which one has positive resistances, the telegrapher's equations also have exactly one solution, and the circuits and the runs of the lines also tend to it. This also holds with sources at both ends.", "quantifier": "every number of conductors, all matrices with common modes, all lengths, frequencies and source amplitudes, all sequences of time steps up to the automatic ones, all numbers of cells from some number on, all positions on the line", "why_tests_cant": "a test runs one line of two conductors with one number of cells at one frequency and compares with a tolerance; it cannot show that all lines with modes decouple, nor what refined grids tend to", "anchors": ["python/src/mtl.py:MTL.__init__", "python/src/mtl.py:MTL.run_until", "python/src/mtl.py:MTL.step", "python/src/mtl.py:MTL.get_max_timestep"]}
{"id": "C188", "title": "The Fourier transforms of the response of a line to pulses tend to the telegrapher's equations with the Fourier integrals of the pulses", "statement": "Take a line of conductors with any symmetric positive definite inductances and capacitances, any losses and with resistances at an end, driven at its beginning by continuous pulses. For more and more cells, and any time steps below the automatic ones, the Fourier transforms of the voltages and currents of its runs (sums over the samples, times the time step, over enough steps) tend to the solution of the telegrapher's equations at that frequency whose sources are the Fourier integrals of the pulses, uniformly over the line. So do the fast Fourier transforms of what voltage probes record, and those of current probes turned by half a time step, at frequencies that are fractions of the sampling frequency. On a line of one conductor without losses and with a matched end the voltages tend to the divided and delayed pulse. With pulses at both ends the transforms tend to the solution with both Fourier integrals as sources.", "quantifier": "every number of conductors, all matrices with common modes, all continuous pulses of finite duration, all lengths and frequencies, all sequences of time steps below the automatic ones, all numbers of cells and steps from some number on, all positions on the line", "why_tests_cant": "a test transforms one finite run of one line and compares with a tolerance; it cannot show what the transforms tend to when the grid is refined, nor for all pulses", "anchors": ["python/src/mtl.py:MTL.__init__", "python/src/mtl.py:MTL.run_until", "python/src/mtl.py:MTL.step", "python/src/mtl.py:MTL.add_voltage_source"]}
