{"id": "C01", "title": "Claesson-Javed aggregation never creates or destroys heat", "statement": "Whatever loads are fed to a ClaessonJaved object through next_time_step/set_current_load, the heat held in its aggregation cells (sum over cells of cell width times cell load) equals the sum of all loads that were set, minus exactly the heat that has flowed out of the last cell; nothing is lost as long as fewer time steps have been taken than there are cells.", "quantifier": "every cell-width vector with first width 1, every number of cells and sources, every load history of every length", "why_tests_cant": "The aggregation is a recursive redistribution: an error of one coefficient is invisible over the few steps a test runs and only accumulates over arbitrary histories and grids.", "anchors": ["pygfunction/load_aggregation.py: ClaessonJaved.next_time_step, set_current_load, _build_cells"]}
{"id": "C02", "title": "Claesson-Javed response is linear and causal in the loads", "statement": "The borehole wall temperature change returned by temporal_superposition is a linear function of the load history (response to a*q1+b*q2 is a*response(q1)+b*response(q2)), is zero for the zero history, and each aggregated load always lies between the smallest and the largest of zero and the loads applied so far.", "quantifier": "all load histories, all grids with widths >= 1, all g-function increments", "why_tests_cant": "Linearity and the no-overshoot bound quantify over all histories; tests compare one load profile with a reference within a tolerance.", "anchors": ["pygfunction/load_aggregation.py: ClaessonJaved.initialize, next_time_step, set_current_load, temporal_superposition"]}
{"id": "C03", "title": "Claesson-Javed is exact while loads are still in unit cells", "statement": "As long as no load has been pushed past the cells of width one, temporal_superposition returns exactly the temporal superposition sum of g-function increments times loads, i.e. aggregation introduces no error at all.", "quantifier": "every load history whose length is at most the number of leading unit cells, every g-function", "why_tests_cant": "A sampled comparison uses a tolerance and cannot show exactness for all histories and grids.", "anchors": ["pygfunction/load_aggregation.py: ClaessonJaved.temporal_superposition, next_time_step"]}
{"id": "C04", "title": "MLAA aggregates a partition of the load history", "statement": "After any number of time steps the five aggregation blocks of an MLAA object cover every past time step exactly once (block sizes sum to the number of steps), each block value is the arithmetic mean of exactly the loads in its own consecutive time window, and therefore total heat is preserved.", "quantifier": "all numbers of time steps, all block sizes N0..N3 >= 1, all load histories", "why_tests_cant": "The interesting cases are the boundaries where blocks start to fill; with four free block sizes there are unboundedly many.", "anchors": ["pygfunction/load_aggregation.py: MLAA.next_time_step, set_current_load"]}
{"id": "C05", "title": "MLAA response is the superposition of the block-averaged history", "statement": "temporal_superposition of MLAA equals the exact temporal superposition of the history in which every load is replaced by the mean of its block; hence it is exact for histories not longer than N0, exact for constant loads (q*g(t)) and exact for a g-function that is proportional to time.", "quantifier": "all load histories and all g-functions, all block sizes >= 1", "why_tests_cant": "The formula telescopes over up to five blocks with index arithmetic that differs in every fill state; tests visit a handful of states.", "anchors": ["pygfunction/load_aggregation.py: MLAA.temporal_superposition, next_time_step, set_current_load, initialize"]}
{"id": "C06", "title": "Liu aggregation keeps every load, once", "statement": "For waiting periods of at least one block, after any number of steps the Liu scheme's four levels cover each past time step exactly once, each aggregated value is the mean of the loads it stands for, no level overflows its storage, and the returned temperature equals the superposition of the block-averaged history.", "quantifier": "all block sizes N1,N2,N3 >= 1, waiting periods W1,W2,W3 >= 1, all load histories", "why_tests_cant": "Block promotion cascades through three levels with waiting periods; failures only appear at particular step counts.", "anchors": ["pygfunction/load_aggregation.py: Liu.next_time_step, set_current_load, temporal_superposition, __init__"]}
{"id": "C07", "title": "Liu aggregation accepts a zero waiting period safely", "statement": "Setting a waiting period W1, W2 or W3 to zero still counts every load exactly once and gives the superposition of the aggregated history.", "quantifier": "all block sizes >= 1, waiting periods >= 0, all load histories", "why_tests_cant": "Needs the boundary value 0 of a tuning parameter together with a specific step count.", "anchors": ["pygfunction/load_aggregation.py: Liu.next_time_step, temporal_superposition"]}
{"id": "C08", "title": "Claesson-Javed time grid covers the horizon with doubling cells", "statement": "time_ClaessonJaved always terminates for dt>0 and cells_per_level>=1; the returned times start at dt, strictly increase, the last one reaches tmax and the one before does not; the n-th cell width is dt*2^floor((n-1)/cells_per_level), so every time is an integer multiple of dt and widths never decrease.", "quantifier": "all dt>0, tmax>0, cells_per_level>=1", "why_tests_cant": "Termination and coverage quantify over all real inputs; a while loop bounded by a real threshold can only be sampled.", "anchors": ["pygfunction/utilities.py: time_ClaessonJaved"]}
{"id": "C09", "title": "Marcotte-Pasquier time grid covers the horizon", "statement": "time_MarcottePasquier always terminates for dt>0; the returned times start at dt (at 2*dt when non_expanding_cells=0), strictly increase, use constant width dt for the first non-expanding cells and then doubling widths, and the last value reaches tmax while the previous one does not.", "quantifier": "all dt>0, tmax>0, non_expanding_cells>=0", "why_tests_cant": "Same as above: unbounded real inputs and a data dependent loop.", "anchors": ["pygfunction/utilities.py: time_MarcottePasquier"]}
{"id": "C10", "title": "Geometric time grid is increasing and ends at the requested time", "statement": "time_geometric returns Nt strictly increasing positive times; in the uniform branch they are multiples of dt up to at least tmax; in the expanding branch the first is dt and the last is exactly tmax. (Violated: the stopping criterion of the ratio iteration is loose, so for a nearly uniform long grid the patched last entry can fall below its predecessor.)", "quantifier": "all dt>0, Nt>=1, tmax>0 and every common ratio r>1 the internal iteration can return", "why_tests_cant": "The iteration result is a real number; monotonicity must hold for every ratio it may produce and at the patched last entry.", "anchors": ["pygfunction/utilities.py: time_geometric"]}
{"id": "C11", "title": "segment_ratios always returns a valid discretization", "statement": "Whenever segment_ratios returns, it returns nSegments positive ratios, symmetric about mid-length, whose sum is 1 within 1e-6 (exactly 1 when the polynomial root is exact), with end ratios equal to end_length_ratio (nSegments>=3, expanding branch); in every other case it raises.", "quantifier": "all integers nSegments, all end_length_ratio", "why_tests_cant": "Root finding branches on parity and accepts a root by a tolerance; the post-condition must hold for every root set.", "anchors": ["pygfunction/utilities.py: segment_ratios"]}
{"id": "C12", "title": "Borehole segments tile the borehole", "statement": "Borehole.segments returns segments whose lengths sum to H, where each segment starts exactly where the previous one ends in space (position and depth along the tilted axis), the first starts at the borehole head and the last ends at the borehole toe; radius, tilt and orientation are inherited.", "quantifier": "all boreholes (vertical or tilted), all numbers of segments, all ratio vectors that sum to one", "why_tests_cant": "A geometric identity over all ratio vectors and angles.", "anchors": ["pygfunction/boreholes.py: Borehole.segments, _segment_edges, _segment_midpoints"]}
{"id": "C13", "title": "find_duplicates returns exactly the close pairs", "statement": "find_duplicates returns pairs (i,j) with i<j, without repetition, and a pair is returned if and only if the two boreholes are closer than the largest borehole radius of the list.", "quantifier": "all lists of boreholes of every length", "why_tests_cant": "The pair indices are reconstructed from a condensed distance index through a square-root formula that must be right for every n and k.", "anchors": ["pygfunction/boreholes.py: find_duplicates"]}
{"id": "C14", "title": "remove_duplicates leaves a duplicate-free field", "statement": "remove_duplicates returns a sub-list in the original order that always contains the first borehole, contains no two boreholes that find_duplicates would report on the original radius, removes nothing when there is no duplicate, and running it twice changes nothing.", "quantifier": "all lists of boreholes", "why_tests_cant": "Chains of overlapping boreholes of any length.", "anchors": ["pygfunction/boreholes.py: remove_duplicates, find_duplicates"]}
{"id": "C15", "title": "A removed borehole is a duplicate of a kept one", "statement": "Every borehole dropped by remove_duplicates is closer than the radius to some borehole that is kept.", "quantifier": "all lists of boreholes", "why_tests_cant": "Needs a chain of overlapping boreholes where the middle one is removed.", "anchors": ["pygfunction/boreholes.py: remove_duplicates"]}
{"id": "C16", "title": "Borefield and list-of-boreholes are interchangeable", "statement": "Converting a Borefield to a list of boreholes and back, or a list to a Borefield and back, preserves every dimension, position, tilt and orientation and the order; indexing, concatenation with boreholes, lists or fields, and writing to then reading from a file agree with the list view.", "quantifier": "all borefields of every size with any mix of vertical and tilted boreholes", "why_tests_cant": "Broadcasting of scalars and the masking of orientations for vertical boreholes interact for every mix.", "anchors": ["pygfunction/borefield.py: Borefield.__init__, __getitem__, __add__, __radd__, __eq__, from_boreholes, to_boreholes, from_file, to_file", "pygfunction/boreholes.py: Borehole.__init__, __add__, __radd__"]}
{"id": "C17", "title": "Field builders create the advertised positions", "statement": "rectangle_field, L_shaped_field, U_shaped_field, box_shaped_field and staggered/dense builders create exactly the advertised number of boreholes at exactly the advertised grid positions, each position once (for positive spacings).", "quantifier": "all N_1,N_2 >= 1, all positive spacings", "why_tests_cant": "Degenerate sizes (one row, one column, 2x2) switch branches; counts and distinctness quantify over all sizes.", "anchors": ["pygfunction/borefield.py: Borefield.rectangle_field, staggered_rectangle_field, dense_rectangle_field, L_shaped_field, U_shaped_field, box_shaped_field"]}
{"id": "C18", "title": "Deprecated list builders and Borefield builders agree", "statement": "boreholes.rectangle_field, L_shaped_field, U_shaped_field and box_shaped_field create the same set of borehole positions as the Borefield constructors that replace them.", "quantifier": "all N_1,N_2 >= 1, all spacings", "why_tests_cant": "Two independent implementations with different degenerate-case handling.", "anchors": ["pygfunction/boreholes.py: rectangle_field, L_shaped_field, U_shaped_field, box_shaped_field", "pygfunction/borefield.py: Borefield.rectangle_field, L_shaped_field, U_shaped_field, box_shaped_field"]}
{"id": "C19", "title": "Distance grouping accounts for every distance", "statement": "_EquivalentBorehole.unique_distance (and the distance grouping of the similarities solver) splits the sorted distances into consecutive groups: the counts add up to the number of distances, the count-weighted mean of the returned distances is the mean of all distances, and within a group all distances are within a factor (1+disTol) of its smallest one.", "quantifier": "all lists of positive distances, all disTol > 0", "why_tests_cant": "Greedy clustering with an argmax that returns 0 both for 'first' and for 'none'.", "anchors": ["pygfunction/boreholes.py: _EquivalentBorehole.unique_distance", "pygfunction/solvers/similarities.py: Similarities._find_distances"]}
{"id": "C20", "title": "Finite line source reciprocity", "statement": "For vertical sources, H_2*h_{1->2} = H_1*h_{2->1} whenever both directions use the same radial distance, for every combination of real and image sources, at every time, also for equivalent boreholes with N_2 H_2 weighting.", "quantifier": "all lengths, depths, distances, times, source combinations", "why_tests_cant": "A symmetry of the integrand with eight error-function terms; only an identity proves it for all arguments.", "anchors": ["pygfunction/heat_transfer.py: finite_line_source, _finite_line_source_integrand, finite_line_source_vectorized, finite_line_source_equivalent_boreholes_vectorized"]}
{"id": "C21", "title": "Real and image parts add up", "statement": "The finite line source solution with both sources equals the solution with the real source only plus the solution with the image source only, and is zero with neither (vertical boreholes).", "quantifier": "all geometries and times", "why_tests_cant": "Identity over all real arguments.", "anchors": ["pygfunction/heat_transfer.py: _finite_line_source_integrand, finite_line_source"]}
{"id": "C22", "title": "Real and image parts add up for inclined boreholes", "statement": "For inclined boreholes the solution with both sources equals the real-only plus the image-only solution.", "quantifier": "all inclined geometries, including a borehole acting on itself", "why_tests_cant": "Only fails when the horizontal distance is below the borehole radius.", "anchors": ["pygfunction/heat_transfer.py: _finite_line_source_inclined_integrand"]}
{"id": "C23", "title": "Evaluating many times at once equals evaluating one at a time", "statement": "finite_line_source with a vector of times returns at each position the value that a call with that single time returns.", "quantifier": "all time vectors (sorted or not), all integrands", "why_tests_cant": "Interval bookkeeping with a cumulative sum; must hold for every vector length.", "anchors": ["pygfunction/heat_transfer.py: finite_line_source, finite_line_source_vectorized"]}
{"id": "C24", "title": "Detailed solver fills every segment-to-segment factor", "statement": "The detailed solver's thermal response factor array has, for every ordered pair of segments, the line source value of that pair (directly or through reciprocity), and H_i*h_ij = H_j*h_ji for all pairs.", "quantifier": "all fields, all numbers of segments per borehole (also unequal)", "why_tests_cant": "Block-wise assignment with index ranges that depend on all previous boreholes.", "anchors": ["pygfunction/solvers/detailed.py: Detailed.thermal_response_factors", "pygfunction/solvers/_base_solver.py: _BaseSolver.__init__ (_i0Segments, _i1Segments)"]}
{"id": "C25", "title": "Equivalent solver groups only identical boreholes and loses none", "statement": "Every borehole of the field is represented in exactly one equivalent borehole of the same length, depth and radius, so the total borehole length is unchanged.", "quantifier": "all fields, including fields that mix borehole dimensions in any order", "why_tests_cant": "Depends on the order in which boreholes of different dimensions are listed.", "anchors": ["pygfunction/solvers/equivalent.py: Equivalent.find_groups, _find_unique_boreholes, initialize"]}
{"id": "C26", "title": "Similarities solver covers every pair of boreholes once", "statement": "The similarity grouping puts every unordered pair of boreholes in exactly one group and every distance of a group is mapped to a representative distance within the distance tolerance.", "quantifier": "all fields, any comparison predicate", "why_tests_cant": "Greedy grouping with reversed pairs.", "anchors": ["pygfunction/solvers/similarities.py: Similarities.find_similarities, _find_axial_borehole_pairs, _find_distances"]}
{"id": "C27", "title": "Similarities solver gives each segment pair its own response factor", "statement": "The response factor stored for a pair of segments is the line source value for the depths and lengths of that very pair, at a distance that differs from the distance of the boreholes by at most the relative tolerance; the error is at most -log(1 - disTol) at all times.", "quantifier": "all vertical fields, including boreholes of equal length at different depths", "why_tests_cant": "Requires two boreholes with equal length and different depth listed in both orders and more than one segment.", "anchors": ["pygfunction/solvers/similarities.py: Similarities._compare_realandimage_pairs_vertical, _find_axial_borehole_pairs, thermal_response_factors"]}
{"id": "C28", "title": "A single inclined borehole is treated as inclined", "statement": "With the similarities solver, a field made of one tilted borehole is evaluated with the inclined finite line source solution.", "quantifier": "all single-borehole fields", "why_tests_cant": "A missing pair of parentheses: the branch is taken for every input.", "anchors": ["pygfunction/solvers/similarities.py: Similarities.find_similarities"]}
{"id": "C29", "title": "Load history reconstruction conserves heat", "statement": "Reconstructing the load history on the reversed time grid preserves the total heat extracted, leaves a constant load unchanged, and on a uniform time grid returns the history itself.", "quantifier": "all time grids and load histories", "why_tests_cant": "Interpolation of a cumulative history on a grid reversed in time.", "anchors": ["pygfunction/solvers/_base_solver.py: _BaseSolver.load_history_reconstruction"]}
{"id": "C30", "title": "Heat extraction rates always average to one", "statement": "For the uniform-temperature condition the length-weighted mean of the normalized heat extraction rates is one at every time, both where the system of equations is solved and in the linearized early-time part; the g-function is continuous at the threshold and proportional to time before it; for UHTR the g-function is the length-weighted average of segment temperatures.", "quantifier": "all fields, all time vectors, all response factors for which the system is solvable", "why_tests_cant": "Must hold for every response-factor matrix and time vector.", "anchors": ["pygfunction/solvers/_base_solver.py: _BaseSolver.solve"]}
{"id": "C31", "title": "Segment bookkeeping rejects inconsistent discretizations", "statement": "A solver accepts a list nSegments only if it has one entry per borehole; otherwise it raises, and no borehole is silently dropped.", "quantifier": "all lists nSegments and fields", "why_tests_cant": "Requires a list of the wrong length; the guard compares the list length with itself.", "anchors": ["pygfunction/solvers/_base_solver.py: _BaseSolver.__init__, _check_inputs"]}
{"id": "C32", "title": "Network construction accepts exactly the valid topologies", "statement": "Network(...) accepts a bore_connectivity list if and only if it has one entry per borehole, each entry is -1 or the index of a borehole, no two boreholes share an upstream borehole, and following upstream indices always reaches -1; otherwise it raises. Construction always terminates.", "quantifier": "all connectivity lists (all integers, including indices below -1)", "why_tests_cant": "Python negative indexing and cycles; acceptance must be characterised for all lists.", "anchors": ["pygfunction/networks.py: Network.__init__, _verify_bore_connectivity, _find_inlets_outlets, _path_to_inlet"]}
{"id": "C33", "title": "Accepted networks decompose into circuits", "statement": "In an accepted network every borehole belongs to exactly one circuit, each circuit is a chain from exactly one inlet borehole to exactly one outlet borehole, and the number of inlets equals the number of outlets.", "quantifier": "all accepted connectivity lists", "why_tests_cant": "Graph property over all topologies.", "anchors": ["pygfunction/networks.py: Network._find_inlets_outlets, _path_to_inlet"]}
{"id": "C34", "title": "Network temperatures are always solvable and respect the piping", "statement": "For every accepted topology, flow direction and every borehole model of the form T_out = A*T_in + B*T_b, the linear systems solved by the coefficient methods are non-singular, and the returned temperatures satisfy: network inlet boreholes receive the network inlet temperature, every other borehole receives the outlet temperature of its upstream borehole, every borehole obeys its own model; inlet and outlet coefficient methods are mutually consistent.", "quantifier": "all accepted topologies, all A and B", "why_tests_cant": "Non-singularity and consistency for all topologies of all sizes.", "anchors": ["pygfunction/networks.py: Network.coefficients_inlet_temperature, coefficients_outlet_temperature, _initialize_coefficients_connectivity"]}
{"id": "C35", "title": "Network energy balance", "statement": "The heat extracted from the network equals total mass flow times heat capacity times (mixed outlet temperature minus inlet temperature).", "quantifier": "all accepted topologies, all mass flow rates per circuit of equal sign", "why_tests_cant": "The order of outlets and the order of circuits differ only for crossed series connections with unequal flow rates.", "anchors": ["pygfunction/networks.py: Network._coefficients_mixing, coefficients_network_outlet_temperature, coefficients_network_heat_extraction_rate, _format_inputs"]}
{"id": "C36", "title": "Thermal equilibrium of a network", "statement": "If the network inlet temperature and all borehole wall temperatures equal T, then all fluid temperatures equal T and all heat extraction rates are zero, provided the same holds for each borehole.", "quantifier": "all accepted topologies and borehole models", "why_tests_cant": "Quantifies over all topologies.", "anchors": ["pygfunction/networks.py: Network.coefficients_*"]}
{"id": "C37", "title": "Network results do not depend on earlier calls", "statement": "A Network method called with given arguments returns the same result whatever calls were made on the object before.", "quantifier": "all histories of coefficient/temperature calls with arbitrary flow rates", "why_tests_cant": "History property: needs a particular interleaving of cached and uncached calls.", "anchors": ["pygfunction/networks.py: Network._check_coefficients, _set_stored_coefficients, _format_inputs, _coefficients_mixing, _check_mixing_coefficients"]}
{"id": "C38", "title": "Single U-tube outlet temperature is a weighted average", "statement": "The outlet fluid temperature of a single U-tube (or coaxial) borehole is a convex combination of the inlet temperature and the wall temperatures of the segments: coefficients are non-negative and sum to one; in thermal equilibrium outlet equals inlet.", "quantifier": "all positive conductances, all lengths, all segmentations", "why_tests_cant": "Sign and sum of closed-form exponential expressions for all real parameters.", "anchors": ["pygfunction/pipes.py: SingleUTube.coefficients_outlet_temperature, _update_model_variables"]}
{"id": "C39", "title": "Single U-tube temperature profile solves the heat balance", "statement": "The fluid temperature profiles returned for a single U-tube satisfy the fluid energy balance differential equations along the borehole on every segment, equal the inlet temperature at the top of the downward pipe, equal each other at the bottom and give the outlet temperature at the top of the upward pipe.", "quantifier": "all positive conductances, lengths, segmentations and wall temperatures", "why_tests_cant": "A differential equation identity for closed-form expressions with 26 exponential terms.", "anchors": ["pygfunction/pipes.py: SingleUTube.coefficients_temperature, coefficients_outlet_temperature"]}
{"id": "C40", "title": "Borehole energy balance", "statement": "The heat extracted by the segments of a borehole sums to the heat gained by the fluid between inlet and outlet (for single, series and parallel multiple U-tubes), for either flow direction.", "quantifier": "all flow rates, pipe counts, segmentations, wall temperatures", "why_tests_cant": "Telescoping over segments and legs for any pipe count.", "anchors": ["pygfunction/pipes.py: _BasePipe.coefficients_borehole_heat_extraction_rate, coefficients_fluid_heat_extraction_rate, MultipleUTube._continuity_condition_head, _pipe_connectivity, _flow_direction"]}
{"id": "C41", "title": "Irreversible boreholes treat negative flow as its absolute value", "statement": "With reversible_flow=False a negative mass flow rate gives the same heat extraction rates as the corresponding positive one.", "quantifier": "all flow rates", "why_tests_cant": "Only the sign used in one energy balance is wrong; no test uses the option with that method.", "anchors": ["pygfunction/pipes.py: SingleUTube._format_inputs, MultipleUTube._format_inputs, _BasePipe.coefficients_borehole_heat_extraction_rate"]}
{"id": "C42", "title": "Pipe results do not depend on earlier calls", "statement": "A pipe method called with given arguments returns the same result whatever calls were made on the object before (in particular update_thermal_resistances invalidates everything).", "quantifier": "all histories of calls with arbitrary flow rates", "why_tests_cant": "History property over cache hits, model-variable reuse and flow reversal.", "anchors": ["pygfunction/pipes.py: _BasePipe._check_coefficients, _check_model_variables, _set_stored_coefficients, _initialize_stored_coefficients, SingleUTube._format_inputs, coefficients_temperature"]}
{"id": "C43", "title": "Accepted U-tube geometry is physical", "statement": "If a U-tube object is constructed, all pipes lie inside the borehole and no two pipes overlap, and all radii, conductivities and resistances are positive; every violation raises.", "quantifier": "all geometries and pipe counts", "why_tests_cant": "All pairs of pipes and all real positions.", "anchors": ["pygfunction/pipes.py: _BasePipe._check_geometry"]}
{"id": "C44", "title": "Accepted coaxial geometry is physical", "statement": "If a Coaxial object is constructed, both pipes lie inside the borehole, fluid resistances are non-negative/positive.", "quantifier": "all coaxial geometries", "why_tests_cant": "A misplaced any/all and comparisons of a truth value with zero.", "anchors": ["pygfunction/pipes.py: Coaxial._check_geometry"]}
{"id": "C45", "title": "Delta-circuit resistances are equivalent to the resistance matrix", "statement": "For every invertible resistance matrix the delta circuit returned by thermal_resistances yields the same heat flows for all fluid and wall temperatures, and local_borehole_thermal_resistance is the resistance seen with equal fluid temperatures.", "quantifier": "all invertible matrices of every size, all temperatures", "why_tests_cant": "A matrix identity.", "anchors": ["pygfunction/pipes.py: thermal_resistances, _BasePipe.local_borehole_thermal_resistance"]}
{"id": "C46", "title": "Line source resistances agree with zeroth-order multipole", "statement": "thermal_resistances with J=0 and multipole with J=0 use the same resistance matrix, which is symmetric.", "quantifier": "all pipe positions inside the borehole, all conductivities", "why_tests_cant": "Two different closed forms of the same logarithm.", "anchors": ["pygfunction/pipes.py: thermal_resistances, multipole"]}
{"id": "C47", "title": "The thermal-resistance memo never returns a stale value", "statement": "thermal_resistances returns the value for its current arguments (within its comparison tolerance), for any sequence of calls, with no drift.", "quantifier": "all call histories, including callers that modify a position list in place", "why_tests_cant": "History and aliasing property of module level state.", "anchors": ["pygfunction/pipes.py: thermal_resistances, _compare_thermal_resistances_inputs, _thermal_resistances_dict"]}
{"id": "C48", "title": "Convective coefficients are positive, even in the flow rate and continuous", "statement": "The convective heat transfer coefficient depends only on the magnitude of the flow rate, is positive for valid inputs, and does not jump when the flow changes regime at Re=2300 or Re=4000.", "quantifier": "all positive fluid properties and flow rates", "why_tests_cant": "Continuity at regime limits is a limit statement.", "anchors": ["pygfunction/pipes.py: convective_heat_transfer_coefficient_circular_pipe, convective_heat_transfer_coefficient_concentric_annulus"]}
{"id": "C49", "title": "Annulus friction factor is evaluated at the annulus Reynolds number", "statement": "The friction factor used for the annulus is that of the Reynolds number of the flow in the annulus.", "quantifier": "all annulus dimensions and flow rates", "why_tests_cant": "The two Reynolds numbers always differ; tests only compare stored numbers.", "anchors": ["pygfunction/pipes.py: convective_heat_transfer_coefficient_concentric_annulus, fluid_friction_factor_circular_pipe"]}
{"id": "C50", "title": "gFunction construction uses the arguments it is given", "statement": "Static-parameter construction and the deprecated wrappers evaluate the g-function for the fluid temperature, mass flow rate and heat capacity passed by the caller.", "quantifier": "all arguments", "why_tests_cant": "The ignored argument only matters when it differs from a default or from the stored value.", "anchors": ["pygfunction/gfunction.py: gFunction.from_static_params, mixed_inlet_temperature, _format_inputs", "pygfunction/networks.py: Network.from_static_params"]}
{"id": "C51", "title": "gFunction chooses a valid method and boundary condition or raises", "statement": "After construction the boundary condition is one of the three documented ones, MIFT implies a network, exactly one mass flow specification and a heat capacity, and the equivalent method is only used for parallel networks with equal flows and identical pipes.", "quantifier": "all argument combinations", "why_tests_cant": "Combinatorial decision logic over optional arguments.", "anchors": ["pygfunction/gfunction.py: gFunction._format_inputs, _check_inputs, __init__"]}
{"id": "C52", "title": "Every documented number of error-function terms is usable", "statement": "The approximate line source accepts every number of terms nFLS from 1 to 25 and uses nFLS exponential terms.", "quantifier": "all nFLS between 1 and 25", "why_tests_cant": "Off-by-one at the end of a table.", "anchors": ["pygfunction/utilities.py: _erf_coeffs", "pygfunction/heat_transfer.py: finite_line_source_approximation", "pygfunction/solvers/_base_solver.py: _BaseSolver._check_inputs"]}
{"id": "C53", "title": "Equivalent network conserves mass flow", "statement": "In an equivalent network the flow rates of all represented boreholes add up to the network flow rate, the mixing weights are non-negative and sum to one, and network heat extraction counts every represented borehole.", "quantifier": "all groups and flow rates", "why_tests_cant": "All group sizes.", "anchors": ["pygfunction/networks.py: _EquivalentNetwork._format_inputs, _coefficients_mixing, coefficients_network_heat_extraction_rate"]}
{"id": "C54", "title": "Reversing the flow equals reversing the connections", "statement": "For negative flow rates a network behaves as the network whose connections are all reversed does for positive flow.", "quantifier": "all accepted topologies", "why_tests_cant": "Graph reversal over all topologies.", "anchors": ["pygfunction/networks.py: Network._initialize_coefficients_connectivity, _find_inlets_outlets, _format_inputs"]}
{"id": "C55", "title": "Borefield equality is an equivalence relation", "statement": "field == other is reflexive, symmetric and transitive, and fields rebuilt from the same list of boreholes compare equal.", "quantifier": "all pairs and triples of borefields", "why_tests_cant": "Equality uses a relative tolerance whose reference is the right operand; asymmetry only shows for values at the edge of the tolerance.", "anchors": ["pygfunction/borefield.py: Borefield.__eq__"]}
{"id": "C56", "title": "Tilted builder fields lean away from the origin", "statement": "In a field created by a builder with a tilt, every borehole closer than r_b to the origin is vertical and every other borehole has the requested tilt and is oriented along the horizontal direction from the origin to the borehole. The default origin is the centre of the grid.", "quantifier": "all builders, sizes, spacings, tilts and origins", "why_tests_cant": "Direction depends on the quadrant of each borehole and on two trigonometric conventions; it quantifies over all positions.", "anchors": ["pygfunction/borefield.py: Borefield.rectangle_field, L_shaped_field, U_shaped_field, box_shaped_field, circle_field, staggered_rectangle_field"]}
{"id": "C57", "title": "Deprecated and new builders create identical tilted boreholes", "statement": "For the same arguments the deprecated list builders and the Borefield builders create boreholes with the same tilt and orientation, not only the same positions.", "quantifier": "all builders, sizes, spacings, tilts and origins", "why_tests_cant": "The implementations differ only at ties and in the default origin of staggered fields; sampled comparisons do not hit them.", "anchors": ["pygfunction/boreholes.py: rectangle_field, staggered_rectangle_field", "pygfunction/borefield.py: Borefield.rectangle_field, Borefield.staggered_rectangle_field"]}
{"id": "C58", "title": "Effective network thermal resistance", "statement": "network_thermal_resistance returns the R for which T_b - (T_in + T_out)/2 = R Q / H_tot when all borehole walls are at the uniform temperature T_b, Q being the network heat extraction rate and T_out the mixed outlet temperature.", "quantifier": "all accepted networks, flow rates, inlet and wall temperatures", "why_tests_cant": "Relation between two methods for all temperatures and topologies.", "anchors": ["pygfunction/networks.py: network_thermal_resistance, Network.coefficients_network_outlet_temperature, Network.coefficients_network_heat_extraction_rate"]}
{"id": "C59", "title": "Borehole distance", "statement": "Borehole.distance returns the horizontal Euclidean distance between the borehole heads, but never less than the radius of the borehole it is called on; it is symmetric for boreholes of the same radius.", "quantifier": "all pairs of boreholes", "why_tests_cant": "Clamping matters only for close or coincident boreholes of arbitrary radii.", "anchors": ["pygfunction/boreholes.py: Borehole.distance"]}
{"id": "C60", "title": "Effective borehole thermal resistance", "statement": "For a single U-tube or coaxial borehole with a uniform wall temperature, wall temperature minus the mean of inlet and outlet fluid temperatures equals the effective borehole thermal resistance times the heat extraction rate per unit length, for any number of segments; the effective resistance is positive and never below the local borehole thermal resistance.", "quantifier": "all physical resistances, lengths, flow rates, heat capacities and segmentations", "why_tests_cant": "Holds for all real parameters; the bound is the inequality x coth x >= 1.", "anchors": ["pygfunction/pipes.py: _BasePipe.effective_borehole_thermal_resistance, local_borehole_thermal_resistance, coefficients_borehole_heat_extraction_rate"]}
{"id": "C61", "title": "Several U-tubes: fluid temperatures solve the heat balance", "statement": "For a borehole with several U-tubes, in parallel, in series or with independent inlets, the calculation never fails, and the fluid temperatures returned at all depths are the one and only solution of the energy balance of the fluid in every pipe with the pipe connections of the configuration (inlet, crossing at the bottom, order of the U-tubes, mixing at the outlet) for both flow directions. At equilibrium with the ground the fluid temperature is the wall temperature.", "quantifier": "all numbers of U-tubes, symmetric positive resistances, flow rates, heat capacities, lengths, segmentations, inlet and wall temperatures", "why_tests_cant": "The solution is built from an eigenvalue decomposition and matrix inverses; tests compare numbers for one or two geometries.", "anchors": ["pygfunction/pipes.py: MultipleUTube, IndependentMultipleUTube, _BasePipe.coefficients_outlet_temperature, coefficients_temperature"]}
{"id": "C62", "title": "One U-tube in the general class", "statement": "A MultipleUTube with one U-tube, in either configuration, returns the same fluid temperatures, outlet temperature, segment and fluid heat extraction rates as SingleUTube.", "quantifier": "all resistances, flow rates and directions, heat capacities, segmentations and temperatures", "why_tests_cant": "One class uses a matrix exponential, the other a closed form; agreement at all inputs follows only from uniqueness of the solution.", "anchors": ["pygfunction/pipes.py: SingleUTube, MultipleUTube"]}
{"id": "C63", "title": "Multipole: mean borehole wall temperature is the imposed one", "statement": "For any heat injections, pipe positions strictly inside the borehole and any order of multipoles, the temperature field evaluated by the multipole method has an average over the borehole wall equal to the borehole wall temperature passed to it, whether or not the iteration has converged.", "quantifier": "all numbers and positions of pipes, heat rates, conductivities, orders, iteration counts", "why_tests_cant": "tests evaluate a few points of the field for one or two geometries; an average over a circle is an integral over infinitely many points", "anchors": ["pygfunction/pipes.py:multipole", "pygfunction/pipes.py:_F_mk"]}
{"id": "C64", "title": "Multipole: fluid temperature is the mean pipe wall temperature plus the film drop", "statement": "The fluid temperature returned for each pipe equals the average of the returned temperature field over that pipe's outer perimeter plus the fluid-to-pipe resistance times its heat rate.", "quantifier": "all pipes, heat rates, orders and iteration counts", "why_tests_cant": "requires an integral over the pipe perimeter for arbitrary geometry", "anchors": ["pygfunction/pipes.py:multipole"]}
{"id": "C65", "title": "Multipole: temperature and heat flux continuous at the borehole wall", "statement": "The temperature field is continuous across the borehole wall and the radial heat flux on the grout side (k_g dT/dr) equals the one on the soil side (k_s dT/dr) at every point of the wall.", "quantifier": "all points of the wall and all geometries, heat rates and orders", "why_tests_cant": "pointwise limit and derivative statements over a continuum", "anchors": ["pygfunction/pipes.py:multipole"]}
{"id": "C66", "title": "Multipole: rotation and scaling of the cross-section", "statement": "Rotating the pipes around the borehole axis and scaling all radii and positions by the same positive factor leaves fluid temperatures and thermal resistances unchanged, and moves the temperature field accordingly.", "quantifier": "all angles, scale factors, geometries, orders", "why_tests_cant": "relational property over pairs of inputs", "anchors": ["pygfunction/pipes.py:multipole", "pygfunction/pipes.py:thermal_resistances"]}
{"id": "C67", "title": "Multipole: boundary condition at the pipes", "statement": "The heat flux of the returned temperature field through each pipe's perimeter adds up to that pipe's heat rate, and the harmonics 1..J of the mismatch between the fluid-to-wall temperature drop and the radial heat flux through the fluid-to-pipe resistance are proportional to the change that one more iteration would make to the multipoles (hence zero when the iteration has converged).", "quantifier": "all geometries with separated pipes, heat rates, orders J, tolerances and iteration counts", "why_tests_cant": "Fourier coefficients over the pipe perimeter for arbitrary geometry; tests compare a few numbers with a published table", "anchors": ["pygfunction/pipes.py:multipole", "pygfunction/pipes.py:_F_mk"]}
{"id": "C68", "title": "Friction factor: the iteration ends at a solution of the Colebrook-White equation", "statement": "The friction factor function returns for every flow rate; in turbulent flow the value solves the Colebrook-White equation to within the requested tolerance and is unique, in laminar flow it is 64/Re, and it does not depend on the flow direction.", "quantifier": "all flow rates, radii, fluids, roughnesses up to the radius, and tolerances up to one half", "why_tests_cant": "Termination and accuracy of a fixed-point loop for every input; tests sample a few Reynolds numbers", "anchors": ["pygfunction/pipes.py:fluid_friction_factor_circular_pipe"]}
{"id": "C69", "title": "Fluid-to-pipe and fluid-to-fluid resistances by pipe type", "statement": "The fluid-to-pipe resistance equals conduction through the wall plus convection at the wetted surface; a double U-tube in series equals a single U-tube, two parallel U-tubes at twice the flow rate too; for coaxial pipes exchanging the indices exchanges the two flow arrangements; conduction through consecutive layers adds up; asking a fluid-to-fluid resistance of U-tubes raises.", "quantifier": "all pipe types, dimensions, flow rates, fluids and roughnesses up to the radius", "why_tests_cant": "Relations between the branches for every input; tests compare stored numbers", "anchors": ["pygfunction/pipes.py:fluid_to_pipe_thermal_resistance", "pygfunction/pipes.py:fluid_to_fluid_thermal_resistance", "pygfunction/pipes.py:conduction_thermal_resistance_circular_pipe"]}
{"id": "C70", "title": "Multipole: the iteration stops only when converged", "statement": "multipole stops before it_max iterations only when the last iteration changed no multipole by more than eps times the change of the first iteration, and the returned error measures that change.", "quantifier": "all cross-sections, heat rates, orders and tolerances", "why_tests_cant": "the stopping rule looks right on the tabulated cases; symmetric inputs are special", "anchors": ["pygfunction/pipes.py:multipole"]}
{"id": "C71", "title": "Finite line source is an integral of point sources", "statement": "The value returned for two vertical boreholes is half the mean along the receiver of the temperature of a line of continuous point sources along the source borehole (each erfc(rho/sqrt(4 alpha t))/rho, a solution of the heat equation), minus that of the mirror image above ground when the image is included.", "quantifier": "all lengths, depths, distances, times and diffusivities", "why_tests_cant": "tests compare a few values with tabulated ones; the double integral over a continuum cannot be enumerated", "anchors": ["pygfunction/heat_transfer.py:finite_line_source", "pygfunction/heat_transfer.py:_finite_line_source_integrand", "pygfunction/utilities.py:erfint"]}
{"id": "C72", "title": "Finite line source: sign, growth and steady state", "statement": "The finite line source solution is positive and strictly increasing in time for boreholes below ground, the image source lowers it, it stays below and tends to the closed-form value returned for infinite time.", "quantifier": "all vertical geometries, times and diffusivities", "why_tests_cant": "limits and monotonicity over a continuum", "anchors": ["pygfunction/heat_transfer.py:finite_line_source", "pygfunction/heat_transfer.py:_finite_line_source_steady_state"]}
{"id": "C73", "title": "Finite line source: segments add up", "statement": "Splitting a source borehole into consecutive segments, the responses add up to the response to the whole; splitting a receiver, the length-weighted mean of the responses is the response of the whole.", "quantifier": "all subdivisions into any number of unequal segments", "why_tests_cant": "tests use fixed numbers of segments", "anchors": ["pygfunction/heat_transfer.py:finite_line_source", "pygfunction/boreholes.py:Borehole.segments"]}
{"id": "C74", "title": "Thermal resistances reproduce the multipole solution", "statement": "For any heat rates q, T_b + R q with R from thermal_resistances are the fluid temperatures of a multipole solution: exactly for J=0, and for J>0 when the iterations of thermal_resistances converged (or took as many passes as the one for q).", "quantifier": "all cross-sections, heat rates and orders", "why_tests_cant": "superposition over all heat rates", "anchors": ["pygfunction/pipes.py:thermal_resistances", "pygfunction/pipes.py:multipole"]}
{"id": "C75", "title": "Grouping of distances bounds the error of equivalent boreholes", "statement": "With the real source or both sources, the response between two equivalent boreholes computed from the grouped distances of unique_distance lies between the exact mean response of the group with all distances enlarged by the relative tolerance and the one with all distances reduced by it.", "quantifier": "all groups, tolerances, times, lengths, depths", "why_tests_cant": "Needs monotonicity of the integral in the distance for every geometry; a test sees single numbers.", "anchors": ["pygfunction/heat_transfer.py: finite_line_source_equivalent_boreholes_vectorized", "pygfunction/boreholes.py: _EquivalentBorehole.unique_distance"]}
{"id": "C76", "title": "Inclined finite line source is a sum of point sources", "statement": "For inclined boreholes the solution is half the weighted sum over the quadrature nodes on the source of the mean, over the receiver, of the temperature of continuous point sources at the true three-dimensional distances, minus that of their mirror images above ground.", "quantifier": "all tilts, orientations, lengths, depths, positions, nodes, times", "why_tests_cant": "The six geometric coefficients must agree with the distances for all angles at once.", "anchors": ["pygfunction/heat_transfer.py: _finite_line_source_inclined_integrand, finite_line_source, finite_line_source_inclined_vectorized"]}
{"id": "C77", "title": "Inclined finite line source tends to its steady state", "statement": "For inclined boreholes the solution tends, as time grows, to the value returned for infinite time.", "quantifier": "all inclined geometries and source combinations", "why_tests_cant": "A limit; and it only fails when the heads are closer than the radius.", "anchors": ["pygfunction/heat_transfer.py: _finite_line_source_inclined_integrand, _finite_line_source_inclined_steady_state"]}
{"id": "C78", "title": "Temporal superposition is Duhamel's sum", "statement": "The borehole wall temperatures computed from a load history on the reversed time grid are, for every receiving segment, the sum over all emitting segments and all load changes of the change times the response factor at the time elapsed since the change, and the evaluation never reads a response factor of another time.", "quantifier": "all fields, response factors, load histories and time grids", "why_tests_cant": "The order of the differences of loads and of the time steps is reversed in the code; a wrong order is exact for one step.", "anchors": ["pygfunction/solvers/_base_solver.py: _BaseSolver.temporal_superposition", "pygfunction/solvers/_base_solver.py: _BaseSolver.load_history_reconstruction"]}
{"id": "C79", "title": "Early-time linearization covers several mass flow rates", "statement": "For the mixed inlet fluid temperature condition with several mass flow rates, all the g-functions are proportional to time below the threshold time, as for one mass flow rate.", "quantifier": "all numbers of flow rates and of times below the threshold", "why_tests_cant": "Depends on array shapes: works for one flow rate, raises or gives other values according to the number of early times.", "anchors": ["pygfunction/solvers/_base_solver.py: _BaseSolver.solve (MIFT)"]}
{"id": "C80", "title": "Boundary conditions agree when all segments are equivalent", "statement": "In a field where unit heat extraction of all segments causes the same temperature at all of them, the uniform-temperature solution has uniform heat extraction rates for every time vector, and on uniform time grids its g-function is the one of the uniform heat extraction condition.", "quantifier": "all such fields (e.g. one borehole with one segment), all time vectors", "why_tests_cant": "A coupled recursive solution over all times.", "anchors": ["pygfunction/solvers/_base_solver.py: _BaseSolver.solve (UBWT, UHTR)"]}
{"id": "C81", "title": "Uniform temperature solution satisfies the full history", "statement": "With the uniform-temperature condition on a uniform time grid, at every time and for every segment the g-function equals the sum over all segments and all changes of heat extraction rate, including the current one, of the change times the response factor at the elapsed time.", "quantifier": "all fields, response factors and numbers of times", "why_tests_cant": "The code only stores incremental systems; the history enters through an interpolation.", "anchors": ["pygfunction/solvers/_base_solver.py: _BaseSolver.solve (UBWT)", "pygfunction/solvers/_base_solver.py: _BaseSolver.temporal_superposition"]}
{"id": "C82", "title": "Mixed inlet solution closes the heat balance", "statement": "With the mixed inlet fluid temperature condition, at every time the heat exchanged by the fluid along each segment equals the heat exchanged with the ground, the network outlet temperature is the one of the energy balance, the g-function is the uniform wall temperature giving the same heat extraction at the same inlet temperature, and the value for another flow rate uses the inlet temperature giving the same total heat extraction from the same walls.", "quantifier": "all networks, flow rates, fields and times", "why_tests_cant": "Relations between unknowns that are not returned.", "anchors": ["pygfunction/solvers/_base_solver.py: _BaseSolver.solve (MIFT)", "pygfunction/networks.py: network_thermal_resistance"]}
{"id": "C83", "title": "Similar pairs of inclined boreholes respond alike", "statement": "Two pairs of inclined boreholes (or segments) that the similarities solver evaluates together have the same inclined finite line source response, up to the tolerance.", "quantifier": "all fields with inclined boreholes, all times and quadratures", "why_tests_cant": "Which pairs are merged depends on continuous angles; tests compare a few fields to the detailed solver, none with boreholes tilted to opposite sides at right angles to the line joining them.", "anchors": ["pygfunction/solvers/similarities.py:Similarities._compare_realandimage_pairs_inclined", "pygfunction/heat_transfer.py:_finite_line_source_inclined_integrand"]}
{"id": "C84", "title": "Response factors of inclined boreholes are stored at the right positions", "statement": "With the similarities solver every pair of segments of inclined boreholes receives the response factor that was evaluated for its own group and (similar) pair of segments; no index is out of range.", "quantifier": "all groups of inclined boreholes, all numbers of segments", "why_tests_cant": "The offsets are only wrong if some pairs of segments of a group are merged and another group follows; all test fields have unique pairs of segments.", "anchors": ["pygfunction/solvers/similarities.py:Similarities._thermal_response_factors_borehole_to_self_inclined", "pygfunction/solvers/similarities.py:Similarities._thermal_response_factors_borehole_to_borehole_inclined"]}
{"id": "C85", "title": "Equivalent solver: representative distances are within the tolerance", "statement": "The list of representative borehole distances built by the equivalent method is positive and increasing, each distance between distinct boreholes is represented by a value differing from it by at most the relative distance tolerance, each distance is given to a nearest representative value, and the weights of the representative distances add up to the number of distances.", "quantifier": "for every list of positive distances and positive tolerance, and every sorted list of representative distances", "why_tests_cant": "Tests compare g-functions of a few fields; they never look at the grouping of all distances for all fields.", "anchors": ["pygfunction/solvers/equivalent.py:find_groups", "pygfunction/solvers/equivalent.py:thermal_response_factors", "pygfunction/solvers/equivalent.py:_find_unique_distances", "pygfunction/boreholes.py:_EquivalentBorehole.unique_distance", "pygfunction/boreholes.py:_EquivalentBorehole.distance"]}
{"id": "C86", "title": "Equivalent solver: response factors are cluster means of the detailed response factors", "statement": "For a field of identical vertical boreholes, no two of which touch within the distance tolerance, each segment-to-segment response factor of the equivalent method is the average over the boreholes of the receiving group of the sum over the boreholes of the emitting group of the response factors of the detailed method: exactly when the distances are equal or separated by more than the tolerance, and otherwise with an error of at most -log(1 - disTol) for each emitting borehole other than the receiver; the same holds for the weighted totals over the field, with at most N (N - 1) such terms.", "quantifier": "for every number of boreholes and positions, every number of uniform segments, every distance tolerance below 1, every split into clusters satisfying the clustering contract, every time", "why_tests_cant": "Tests compare g-functions of both methods numerically with a tolerance on a few fields.", "anchors": ["pygfunction/solvers/equivalent.py:thermal_response_factors", "pygfunction/solvers/equivalent.py:find_groups", "pygfunction/solvers/equivalent.py:segment_lengths", "pygfunction/solvers/detailed.py:thermal_response_factors"]}
{"id": "C87", "title": "The default method accepts equal mass flow rates of the boreholes", "statement": "For a parallel network with identical pipes, giving equal mass flow rates for the boreholes (or storing them in the network) lets gFunction be constructed with the default equivalent method.", "quantifier": "for every parallel network with identical pipes and every equal array of mass flow rates", "why_tests_cant": "No test passes m_flow_borehole to the equivalent method.", "anchors": ["pygfunction/gfunction.py:gFunction._format_inputs", "pygfunction/solvers/equivalent.py:_check_solver_specific_inputs"]}
{"id": "C88", "title": "The equivalent method is replaced when it does not apply", "statement": "With the mixed inlet condition, requesting the equivalent method for a network with boreholes in series, with mass flow rates that differ between boreholes, or with pipes of different resistances gives the same solver as requesting the similarities method.", "quantifier": "for every network, connectivity, array of mass flow rates and pipe resistances", "why_tests_cant": "Tests cover one series network.", "anchors": ["pygfunction/gfunction.py:gFunction._format_inputs"]}
{"id": "C89", "title": "The approximate finite line source stays within the errors of the functions it replaces", "statement": "For vertical boreholes, the approximate finite line source solution with a given number of terms differs from the exact solution by at most the worst error of its sum of exponentials against the error function, plus the worst relative error of its formula for the exponential integral weighted by the coefficients, times a factor that depends only on the lengths of the boreholes and on the exponential integral at their distance; the coefficients of every usable number of terms are positive and give an increasing function between 0 and 1.", "quantifier": "for every pair of boreholes, time, diffusivity, choice of real and image parts and usable number of terms", "why_tests_cant": "Tests compare the approximation to the exact solution at sampled times and distances.", "anchors": ["pygfunction/heat_transfer.py:finite_line_source_approximation", "pygfunction/utilities.py:exp1", "pygfunction/utilities.py:_erf_coeffs"]}
{"id": "C90", "title": "The approximate finite line source keeps reciprocity and superposition", "statement": "The approximate finite line source solution from one vertical borehole to another, times the length of the second, equals the solution in the other direction times the length of the first, and the solution with real and image sources is the sum of the solution with the real source and the solution with the image source.", "quantifier": "for every pair of vertical boreholes, time, diffusivity and number of terms", "why_tests_cant": "Tests check a few pairs within tolerances.", "anchors": ["pygfunction/heat_transfer.py:finite_line_source_approximation"]}
{"id": "C91", "title": "The formula for the exponential integral is sound at both ends", "statement": "The approximate exponential integral is positive for every positive argument, never exceeds four times the exponential integral, has a ratio to the exponential integral that tends to 1 for large arguments and a difference to it that tends to 0 for small arguments.", "quantifier": "for every positive real argument", "why_tests_cant": "Limits and all real arguments cannot be sampled.", "anchors": ["pygfunction/utilities.py:exp1"]}
{"id": "C92", "title": "The approximate inclined finite line source stays within the errors of the functions it replaces", "statement": "For boreholes at any tilt and orientation that stay at least the radius of the source apart, the approximate inclined finite line source solution differs from the exact inclined solution with the same quadrature nodes by at most the errors of the sum of exponentials and of the exponential integral formula times a factor depending on the lengths and on the exponential integral at the radius.", "quantifier": "for every pair of inclined boreholes at that distance, time, diffusivity, quadrature rule, choice of parts and usable number of terms", "why_tests_cant": "Tests compare sampled boreholes within tolerances.", "anchors": ["pygfunction/heat_transfer.py:finite_line_source_inclined_approximation"]}
{"id": "C93", "title": "The drawn heat extraction rates and temperatures average to what the g-function was solved for", "statement": "The heat extraction rates drawn for the boreholes by visualize_heat_extraction_rates average to one over the total length of the field at every time, whatever the boundary condition; for a uniform heat extraction rate the drawn borehole wall temperatures average to the g-function. The average over the length of a borehole of its heat extraction rate profile or temperature profile at a given time is the value of its drawn curve at that time.", "quantifier": "For all fields, lengths, segment ratios that add to one, response factors, times and thresholds.", "why_tests_cant": "No test in the repository draws these curves; a test could only check the averages for single fields and ratios, while the property quantifies over all of them.", "anchors": ["pygfunction/gfunction.py:_heat_extraction_rates", "pygfunction/gfunction.py:_heat_extraction_rate_profiles", "pygfunction/gfunction.py:_temperatures", "pygfunction/gfunction.py:_temperature_profiles"]}
{"id": "C94", "title": "The depths of the drawn profiles are the depths of the middles of the segments", "statement": "The values in the profiles of heat extraction rates and temperatures are drawn at the depth of the middle of the segments they belong to; for a borehole of one segment from the depth of its head to the depth of its toe.", "quantifier": "For all boreholes, vertical or inclined, and all segment ratios.", "why_tests_cant": "No test in the repository draws the profiles; a test that they can be drawn says nothing of where the values are drawn, for any tilt and any ratios.", "anchors": ["pygfunction/gfunction.py:_heat_extraction_rate_profiles", "pygfunction/gfunction.py:_temperature_profiles", "pygfunction/boreholes.py:_segment_midpoints"]}
{"id": "C95", "title": "Profiles can be drawn for every boundary condition, time and mass flow rate", "statement": "After a g-function has been evaluated with profiles=True, the profiles of heat extraction rates and temperatures can be drawn for every boundary condition, at the last time and at any time between the first and the last, with one value for each depth and one profile for each mass flow rate.", "quantifier": "For all boundary conditions, fields, segments, numbers of mass flow rates and times.", "why_tests_cant": "No test in the repository draws the profiles; single calls do not settle all combinations of boundary condition, time and number of mass flow rates.", "anchors": ["pygfunction/gfunction.py:_heat_extraction_rate_profiles", "pygfunction/gfunction.py:_temperature_profiles"]}
{"id": "C96", "title": "Load aggregation stays close to the exact superposition", "statement": "After any proper sequence of calls, the temperature variation returned by MLAA or Liu differs from the exact temporal superposition of all loads by at most, for every source, the spread of its loads times the sum over the aggregated blocks of (number of time steps in the block) x (variation of the response increments within the block). For responses whose increments decrease beyond the first unaggregated steps this is at most the spread times the largest block size times the increment at the first aggregated step.", "quantifier": "all cell sizes, all load histories, all numbers of sources, all response factors", "why_tests_cant": "Tests compare one load profile with one reference value; an error bound quantifies over all loads and responses.", "anchors": ["pygfunction/load_aggregation.py: MLAA.temporal_superposition", "pygfunction/load_aggregation.py: Liu.temporal_superposition"]}
{"id": "C97", "title": "A simulation with a load aggregation scheme needs exactly the announced times", "statement": "get_times_for_simulation of MLAA and Liu returns the multiples of dt up to the first one that reaches tmax. With the response factors given at these times, every simulation of n steps with n*dt <= tmax runs without error and returns the superposition of the aggregated history with the response at (k+1)*dt; MLAA refuses one step more than announced. For Claesson-Javed the response factor increments add up to the response factors, a response proportional to time gives exactly the total heat while there are no more steps than cells, and for loads in [0,Q] and non-decreasing response factors the result stays between zero and the response to the constant load Q at the last time, at any time step.", "quantifier": "all dt, tmax > 0, all cell sizes, all proper call sequences, all response factors", "why_tests_cant": "Tests run one time step size and one duration; off-by-one errors at the end of the simulation depend on the ratio tmax/dt.", "anchors": ["pygfunction/load_aggregation.py: MLAA.get_times_for_simulation, MLAA._build_cells", "pygfunction/load_aggregation.py: Liu.get_times_for_simulation, Liu._build_cells", "pygfunction/load_aggregation.py: ClaessonJaved.initialize, get_thermal_response_factor_increment"]}
{"id": "C98", "title": "A fluid has the properties of the named mixture at its temperature", "statement": "Fluid(name, percent, T) accepts the documented names in any case and refuses every other text; the mixture has mass fraction percent/100 (water is always pure); nu*rho = mu, rhoCp = rho*cp, and every method returns the value of its attribute. After the temperature T_C is changed every method returns the value at the new temperature. append_to_dict adds one value to the list of every property.", "quantifier": "all names, percentages and temperatures, all property functions of the fluid library", "why_tests_cant": "Tests use one mixture; the table method is called by no test.", "anchors": ["pygfunction/media.py: Fluid.__init__, density, dynamic_viscosity, kinematic_viscosity, specific_heat_capacity, volumetric_heat_capacity, thermal_conductivity, Prandlt_number, append_to_dict"]}
{"id": "C99", "title": "g-function of a field of vertical boreholes with a uniform heat extraction rate, from start to end", "statement": "gFunction with boundary condition UHTR and the detailed solver returns, over the threshold for linearization, the mean over the length of all boreholes of the finite line source responses to all undivided boreholes, and a value linear in time below. So the number and the lengths of the segments have no effect; the values are positive, increase strictly with time (also across the threshold), stay below the steady-state value and tend to it; the order of the boreholes and a displacement of the field have no effect; a field with larger spacings does not respond more; a field of N identical boreholes responds at least like one borehole and at most N times as much; with all lengths multiplied by c the same value is found at c^2 t.", "quantifier": "all fields of vertical boreholes of equal radius below ground, all discretizations with positive ratios of sum one, all increasing lists of times, all thresholds, all diffusivities", "why_tests_cant": "tests compare a few fields with stored values; independence of the discretization, monotonicity and scaling concern all fields and times", "anchors": ["pygfunction/solvers/_base_solver.py:solve", "pygfunction/solvers/detailed.py:Detailed.thermal_response_factors", "pygfunction/heat_transfer.py:finite_line_source", "pygfunction/gfunction.py:gFunction"]}
{"id": "C100", "title": "g-function of a field of vertical boreholes with a uniform temperature or a mixed inlet temperature: always found, and bounds", "statement": "For vertical boreholes with spacings of at least ten radii, gFunction with boundary condition UBWT and the detailed solver returns a value for every time: the linear systems of all time steps are regular for all discretizations, because the matrix of responses weighted with lengths is positive definite. The same holds for MIFT with a network that passively exchanges heat. One value per time is returned, the mean heat extraction rate is one at all times, and the value at the first time and at all times under the threshold for linearization is positive and at most that of the boundary condition UHTR.", "quantifier": "all fields of vertical boreholes of equal radius below ground with spacings of at least ten radii, all discretizations with positive ratios of sum one, all increasing lists of positive times, all positive thresholds and diffusivities", "why_tests_cant": "regularity of the linear systems for all fields and times is not visible from a few solved fields", "anchors": ["pygfunction/solvers/_base_solver.py:solve", "pygfunction/solvers/detailed.py:Detailed.thermal_response_factors", "pygfunction/heat_transfer.py:finite_line_source", "pygfunction/gfunction.py:gFunction"]}
{"id": "C101", "title": "Sensitivity of the finite line source to the distance is logarithmic", "statement": "For two vertical segments, the finite line source response at a horizontal distance a exceeds the response at a larger distance b by at most log(b/a), whatever the lengths, depths and time, with or without the image source; distances that differ by a fraction tol change the response by at most -log(1 - tol).", "quantifier": "all positive distances a <= b, all positive lengths, all depths (non-negative for the lower bound), all positive times and diffusivities", "why_tests_cant": "It bounds the effect of merging distances for all geometries and all times at once.", "anchors": ["pygfunction/heat_transfer.py:finite_line_source", "pygfunction/heat_transfer.py:_finite_line_source_integrand"]}
{"id": "C102", "title": "The three solvers give the same g-function for a uniform heat extraction rate", "statement": "For a field of identical vertical boreholes with uniform segments, the g-functions for a uniform heat extraction rate computed with the 'similarities' and the 'equivalent' solver are returned whenever that of the 'detailed' solver is, and differ from it by at most -log(1 - disTol) for every borehole other than the first, at every time and for every number of segments and every grouping of the boreholes; when all distances of the field are equal or differ by more than the tolerance, the three g-functions are equal.", "quantifier": "all positions, lengths, buried depths, radii, numbers of segments, numbers and choices of clusters, increasing positive times and linearization thresholds, for fields in which no two boreholes are within the tolerance of the radius and the tolerance is less than one", "why_tests_cant": "A test compares the solvers for a few fields with a relative tolerance; the bound holds for every field and says how the deviation grows with the number of boreholes and the tolerance.", "anchors": ["pygfunction/solvers/_base_solver.py:_BaseSolver.solve", "pygfunction/solvers/similarities.py:Similarities.thermal_response_factors", "pygfunction/solvers/equivalent.py:Equivalent.thermal_response_factors", "pygfunction/solvers/detailed.py:Detailed.thermal_response_factors", "pygfunction/gfunction.py:gFunction"]}
{"id": "C103", "title": "Similarities and detailed solvers agree for uniform temperature and mixed inlet temperature", "statement": "For vertical boreholes of any lengths, buried depths and discretizations whose dimensions and distances are equal or differ by more than the tolerances, gFunction with method 'similarities' returns the same g-function, heat extraction rates and borehole wall temperatures as with method 'detailed', for the boundary conditions UBWT and MIFT, and neither raises.", "quantifier": "for all such fields, discretizations, increasing times, thresholds for linearization and passive networks", "why_tests_cant": "Tests compare a few fields within a tolerance; whether grouping is exact and the linear systems are regular for all fields is not a matter of samples.", "anchors": ["pygfunction/solvers/similarities.py:Similarities", "pygfunction/solvers/_base_solver.py:solve", "pygfunction/solvers/detailed.py:Detailed.thermal_response_factors", "pygfunction/gfunction.py:gFunction"]}
{"id": "C104", "title": "g-functions do not depend on the order, place or orientation of the field; symmetric boreholes have equal rates", "statement": "Reordering the boreholes, or moving, turning or mirroring the field, does not change the g-function for UBWT or MIFT, and permutes the heat extraction rates and wall temperatures accordingly; boreholes that correspond by a symmetry of the field have the same heat extraction rates and temperatures, segment by segment and at all times.", "quantifier": "for all fields of vertical boreholes spaced by ten radii, all congruences and permutations, discretizations, increasing times and corresponding networks", "why_tests_cant": "The permutations and motions of a field are infinitely many; a test with a tolerance on one field does not show that the solution of the linear system is unique and equivariant.", "anchors": ["pygfunction/solvers/_base_solver.py:_BaseSolver.solve", "pygfunction/solvers/detailed.py:Detailed.thermal_response_factors", "pygfunction/gfunction.py:gFunction"]}
{"id": "C105", "title": "The equivalent solver is exact for balanced groups, and for fields of boreholes all alike", "statement": "When all boreholes of each group have the same distances to the boreholes of every group, gFunction with method 'equivalent' returns the g-function of method 'detailed' for UBWT, and for MIFT with identical boreholes in parallel, and the heat extraction rates and wall temperatures of a group are those of each borehole in it. In a field whose boreholes are all alike, such as a circle, a single equivalent borehole represents the field.", "quantifier": "for all fields of identical vertical boreholes spaced by ten radii with distances that do not merge, all balanced groupings, numbers of segments, increasing times and thresholds", "why_tests_cant": "The equivalent method is an approximation in general; tests accept it within a tolerance, and cannot tell for which fields there is no error at all.", "anchors": ["pygfunction/solvers/equivalent.py:Equivalent", "pygfunction/solvers/equivalent.py:Equivalent.thermal_response_factors", "pygfunction/boreholes.py:_EquivalentBorehole", "pygfunction/borefield.py:Borefield.circle_field"]}
{"id": "C106", "title": "Boreholes and networks never move heat from cold to hot, and the g-function with a mixed inlet temperature is always found", "statement": "For every borehole (single, double, multiple or coaxial U-tubes) with any flow, the heat extraction rates of the segments weighted by the wall temperatures are at least the gain of m cp T^2 / 2 of the fluid between inlet and outlet; the same holds for every network of such boreholes. In particular with the inlet at zero the heat extraction weighted by the wall temperatures is never negative. As a consequence gFunction with boundary condition MIFT never fails with a singular matrix for a field of vertical boreholes: any connection that Network accepts, any flow rates that give every borehole a flow, any number of segments.", "quantifier": "for all boreholes with positive symmetric resistances, all networks, flow rates in both directions, wall temperatures, segments, fields of vertical boreholes spaced by ten radii, increasing times and thresholds", "why_tests_cant": "A test evaluates a few networks; the second law and the absence of singular systems concern all wall temperatures, all networks and all discretizations.", "anchors": ["pygfunction/pipes.py:_BasePipe.coefficients_borehole_heat_extraction_rate", "pygfunction/networks.py:Network.coefficients_borehole_heat_extraction_rate", "pygfunction/solvers/_base_solver.py:_BaseSolver.solve", "pygfunction/networks.py:network_thermal_resistance"]}
{"id": "C107", "title": "Fluid temperatures never leave the range of the inlet and wall temperatures", "statement": "For every borehole (single, double, multiple, independent or coaxial U-tubes) whose pipes exchange heat through positive resistances, get_temperature gives at every depth and in every pipe, and get_outlet_temperature at the outlet, a temperature between the smallest and the largest of the inlet and wall temperatures, whatever the flow direction and the number of segments. In a network the inlet and outlet temperatures of all boreholes and of the network are in the range of the network inlet temperature and all wall temperatures, and a warmer inlet or warmer walls never make the fluid cooler anywhere.", "quantifier": "for all boreholes with symmetric positive resistances (non-negative conductance between the two pipes of single and coaxial ones), flow rates in both directions, numbers of U-tubes and segments, depths, networks, inlet and wall temperatures", "why_tests_cant": "The temperature profiles are sums of exponentials that grow and decay; a test samples them at a few depths and for a few wall temperatures, and overshoot can hide between the samples.", "anchors": ["pygfunction/pipes.py:_BasePipe.get_temperature", "pygfunction/pipes.py:_BasePipe.get_outlet_temperature", "pygfunction/pipes.py:IndependentMultipleUTube", "pygfunction/networks.py:Network.get_inlet_temperature", "pygfunction/networks.py:Network.get_network_outlet_temperature"]}
{"id": "C108", "title": "The g-function with a mixed inlet temperature is an average of the wall temperatures", "statement": "For gFunction with boundary condition MIFT and one flow rate there are non-negative weights of the segments with sum one, which depend only on the network, such that at every time the value of the g-function is the weighted average of the wall temperatures of the segments; it is the temperature of uniform walls from which the network would extract the same heat at the same inlet temperature, for every inlet temperature. In particular the g-function lies between the lowest and the highest wall temperature.", "quantifier": "for all fields of vertical boreholes, connections, pipes (single, double, multiple, coaxial U-tubes), flow rates in both directions, numbers of segments, times and linearization thresholds", "why_tests_cant": "A test compares g-functions with stored numbers; that the returned value is the temperature it is documented to be concerns the resistance of the network, the mixing of the outlets and the solver together.", "anchors": ["pygfunction/solvers/_base_solver.py:_BaseSolver.solve", "pygfunction/networks.py:network_thermal_resistance", "pygfunction/networks.py:Network.coefficients_network_outlet_temperature", "pygfunction/gfunction.py:gFunction"]}
{"id": "C109", "title": "An equivalent borehole stands for the boreholes it was made from", "statement": "An equivalent borehole can be made from a list of boreholes, from other equivalent boreholes, or from a tuple (H, D, r_b, x, y) optionally followed by tilt and orientation. It stands for exactly the boreholes it was made from: splitting it into segments splits each of them, its distances to another equivalent borehole are the distances of the boreholes, and merging loses none.", "quantifier": "all lists of boreholes of the same dimensions, all groupings of them, all segment ratios, vertical or tilted", "why_tests_cant": "The three forms of the argument and the nesting (segments of merged equivalent boreholes) are unbounded combinations; the repository constructs only some of them.", "anchors": ["pygfunction/boreholes.py: _EquivalentBorehole.__init__, distance, segments, _segment_edges, nBoreholes"]}
{"id": "C110", "title": "Evaluating lists of boreholes at once equals evaluating each pair", "statement": "finite_line_source called with lists of boreholes (or a borehole and a list) returns a table with one line per receiver and one column per source, whose elements are the values returned for the two boreholes alone, whatever the time (a float, an array or infinity), the sources included and the use of the approximation", "quantifier": "for all lists of boreholes, times, diffusivities, combinations of sources, quadrature rules and numbers of terms", "why_tests_cant": "the elements depend on the whole lists: one inclined borehole changes the formula used for all the others, and tests compare a handful of pairs with a tolerance", "anchors": ["pygfunction/heat_transfer.py:finite_line_source", "pygfunction/boreholes.py:Borehole.is_vertical"]}
{"id": "C111", "title": "Networks accept exactly the documented arguments", "statement": "Every coefficient method of a network accepts exactly: one flow rate or one per circuit, all of the same sign; one heat capacity or one per circuit, all equal; one number of segments or one per borehole; segment ratios None, an array or a list. Anything else raises ValueError. One flow rate is shared equally by the circuits, one number of segments or array of ratios applies to all boreholes, and the flow is reversed exactly if a flow rate is negative.", "quantifier": "all accepted topologies and all arguments", "why_tests_cant": "Unbounded arguments for unboundedly many topologies; tests sample a few valid arguments.", "anchors": ["pygfunction/networks.py: Network._format_inputs"]}
{"id": "C112", "title": "The sum of exponentials is close to the error function, with numbers", "statement": "For every usable number of terms N the sum of exponentials with the coefficients of the library differs from the error function by at most a stated tolerance for all non-negative arguments (0.12 for N=0, 0.001 for N=5, 6e-5 for the default N=10, 1e-5 from N=14 on); the approximate finite line source solutions are within that tolerance plus the relative error of the exponential integral, times the factors of C89 and C92.", "quantifier": "all N from 0 to 24 and all real x>=0", "why_tests_cant": "The maximum over a continuum of arguments of a sum of exponentials with 650 published coefficients; one wrong digit is invisible to tests at a few arguments.", "anchors": ["pygfunction/utilities.py: _erf_coeffs, _a_Q, _b_Q", "pygfunction/heat_transfer.py: finite_line_source"]}
{"id": "C113", "title": "A flow rate given as a number is the total flow rate of the network", "statement": "Network methods called with a number for m_flow_network return what they return for that total flow rate split equally between the circuits, whatever the methods were called with before.", "quantifier": "all networks with two circuits or more, flow rates, heat capacities and histories of calls", "why_tests_cant": "The two forms of the argument are only confused when an earlier call gave the same value to every circuit, so each call tested alone is right.", "anchors": ["pygfunction/networks.py: Network._check_coefficients, _check_mixing_coefficients, _format_inputs, coefficients_*"]}
{"id": "C114", "title": "Arguments of a network may be reused for the next operating point", "statement": "Network methods return what they compute from the content of their arguments at the time of the call, also when the caller modifies arrays and lists in place between calls and passes them again.", "quantifier": "all networks, computations by the methods, programs of calls and assignments in place to arrays of flow rates, lists of numbers of segments and lists of ratios", "why_tests_cant": "Depends on the identity of objects held across calls; a test that builds new arguments for each call never sees it.", "anchors": ["pygfunction/networks.py: Network._set_stored_coefficients, _check_coefficients, _check_mixing_coefficients, _coefficients_mixing, _format_inputs"]}
{"id": "C115", "title": "Numbers and arrays in the get methods of pipes and networks", "statement": "The get methods accept a number wherever one value is meant: a number for the wall temperature is the same as that temperature in every segment, however the borehole is divided; the returned type corresponds to the type of the parameter named in the documentation; the inlet temperature returned for a heat extraction rate gives that rate when passed back; the heat extraction rates of the segments sum to the total heat extraction rate; arrays whose length does not fit are refused.", "quantifier": "all single, multiple (parallel, series, independent) U-tubes and coaxial pipes, operating points, numbers or arrays of inlet and wall temperatures, segment ratios, depths; all networks coefficients", "why_tests_cant": "There are infinitely many discretizations and operating points; equality of the results for a number and for every division into segments is an identity of integrals.", "anchors": ["pygfunction/pipes.py: _BasePipe.get_temperature, get_inlet_temperature, get_outlet_temperature, get_borehole_heat_extraction_rate, get_fluid_heat_extraction_rate, get_total_heat_extraction_rate", "pygfunction/networks.py: Network.get_*"]}
{"id": "C116", "title": "Value of the finite line source solution for two boreholes: one time, several times, infinity", "statement": "finite_line_source of two boreholes returns, at one time and without the approximation, half the mean over the receiver of the temperature of the point sources along the source minus that of their images, according to the sources included (with the quadrature nodes when a borehole is inclined); with an array of times it returns the values of the calls with one time, exact or approximate; with np.inf it returns the limit of the values for large times", "quantifier": "for all pairs of boreholes, times, arrays of times, diffusivities, combinations of sources, quadrature rules and numbers of terms", "why_tests_cant": "the function has twelve branches with their own formulas; tests sample a few pairs and times with a tolerance and no limit can be tested", "anchors": ["pygfunction/heat_transfer.py:finite_line_source"]}
{"id": "C117", "title": "Every heat extraction rate can be imposed on a borehole or a network", "statement": "For every pipe (single U-tube, coaxial, several U-tubes in parallel or in series, independent U-tubes) with non-zero flow, get_inlet_temperature returns for every heat extraction rate of the circuits an inlet temperature (never a LinAlgError) of the same form; it is the only inlet temperature for which get_fluid_heat_extraction_rate returns that rate; and a higher heat extraction rate needs a lower inlet temperature (with several circuits, the changes of rates and temperatures are opposed). The same holds for get_network_inlet_temperature and the total rate of a network of any accepted connectivity.", "quantifier": "all resistances, flow rates, directions, heat capacities, lengths, segments and ratios, wall temperatures, heat extraction rates, numbers of U-tubes; also after any history of calls of the object", "why_tests_cant": "The inverse of a matrix of the coupled circuits must exist for every geometry and operating point; tests invert a few matrices.", "anchors": ["pygfunction/pipes.py:_BasePipe.get_inlet_temperature", "pygfunction/pipes.py:_BasePipe.coefficients_inlet_temperature", "pygfunction/pipes.py:_BasePipe.coefficients_fluid_heat_extraction_rate", "pygfunction/networks.py:Network.coefficients_network_inlet_temperature"]}
{"id": "C118", "title": "Arguments of a pipe may be reused for the next operating point", "statement": "The coefficients returned by the methods of a pipe are those of the content of their arguments at the time of the call, also when the caller modifies arrays and lists in place between calls and passes them again.", "quantifier": "all pipes, resistances, flow rates, segments, programs of calls, updates of the resistances and assignments in place to arrays of flow rates and heat capacities, arrays of ratios and lists of ratios", "why_tests_cant": "Depends on the identity of objects held across calls; a test that builds new arguments for each call never sees it.", "anchors": ["pygfunction/pipes.py: _BasePipe._set_stored_coefficients, _check_model_variables, _check_coefficients, _format_inputs", "pygfunction/pipes.py: SingleUTube, MultipleUTube, IndependentMultipleUTube"]}
{"id": "C119", "title": "The formula for the exponential integral is accurate", "statement": "exp1(x) differs from the exponential integral E1(x) by at most 0.25 % of E1(x) and decreases with x; hence the approximation of the finite line source solution (approximate_FLS) with nFLS terms differs from the solution by at most the tabulated error of the sum of Gaussians plus 0.5 %, times the infinite line source solution.", "quantifier": "all positive real arguments; all pairs of vertical boreholes and of inclined boreholes that are apart, times, diffusivities, numbers of terms 0 to 24, with and without real and image sources", "why_tests_cant": "A test compares a finite number of arguments; the bound is over a continuum, and neither the formula nor its constants have an error that can be read off from a sample.", "anchors": ["pygfunction/utilities.py: exp1", "pygfunction/utilities.py: _erf_coeffs", "pygfunction/heat_transfer.py: finite_line_source_approximation, finite_line_source_inclined_approximation"]}
{"id": "C120", "title": "g-function with the approximate finite line source solution", "statement": "For a field of vertical boreholes, evaluating a g-function with a uniform heat extraction rate with approximate_FLS=True (detailed solver, nFLS from 1 to 24) gives the mean approximate response of the undivided boreholes: nSegments and segment_ratios have no effect. It differs from the g-function with the exact solution by at most (e + 1/199) times the mean over the field of the weighted infinite line source, e being the tabulated bound for nFLS; for boreholes of the same length H and buried depth D the weight is 3/2 + 2 D/H. Below the threshold for linearization the same bound at the threshold applies in proportion to time.", "quantifier": "all fields of vertical boreholes of the same radius, all discretizations, all non-decreasing lists of positive times, all thresholds, all numbers of terms from 0 to 24", "why_tests_cant": "A test compares the two options for a few fields at a few times with a tolerance; it cannot bound the error for all fields, times and discretizations.", "anchors": ["pygfunction/heat_transfer.py:finite_line_source,finite_line_source_approximation", "pygfunction/solvers/_base_solver.py:solve", "pygfunction/solvers/detailed.py:thermal_response_factors"]}
{"id": "C121", "title": "Rounding errors of the Claesson-Javed load aggregation", "statement": "In floating-point arithmetic, ClaessonJaved(dt, tmax, cells_per_level=c) builds a strictly increasing grid that reaches tmax, whose k-th time has a relative error of at most 4(k+2)u (u: unit roundoff). After any sequence of N calls of next_time_step and any calls of set_current_load with loads of at most Q, temporal_superposition returns the value of exact arithmetic up to G*E + (4*M*u*G + tiny)*(Q+E), with E = 100*c*u*N*Q + tiny, M the number of cells of all sources and G the sum of the absolute increments of the response factors, in whatever order the products are summed. In double precision with c=5, dt of at least 1 s, up to a million steps and a million cells: 1e-7*G*Q.", "quantifier": "all roundings with the bounds of IEEE 754, all time steps, all histories of calls, all loads and response factors, all orders of summation with or without fused multiply-add", "why_tests_cant": "the errors accumulate over hundreds of thousands of steps and depend on the order of summation chosen by the BLAS library; tests compare single runs with a tolerance", "anchors": ["pygfunction/load_aggregation.py:ClaessonJaved", "pygfunction/utilities.py:time_ClaessonJaved"]}
{"id": "C122", "title": "Finer segments never raise the first value of the g-function with a uniform temperature", "statement": "For a field of vertical boreholes with spacings of at least ten radii, dividing segments of any borehole (for example multiplying nSegments with equal segments) never increases the first value of the g-function with boundary condition UBWT and the detailed solver, nor any value at a time under the threshold for linearization. When the number of equal segments is doubled again and again these values converge.", "quantifier": "all fields of vertical boreholes of the same radius with spacings of at least ten radii, all discretizations and all their divisions, all increasing lists of positive times, all thresholds", "why_tests_cant": "a test compares a few numbers of segments with stored values; whether the error of the discretization always has the same sign needs the variational argument", "anchors": ["pygfunction/solvers/_base_solver.py:solve", "pygfunction/solvers/detailed.py:Detailed.thermal_response_factors", "pygfunction/gfunction.py:gFunction"]}
{"id": "C123", "title": "Text files of bore fields keep every number, character by character", "statement": "A bore field (at least one borehole, all numbers doubles) that is saved with Borefield.to_file is read back by Borefield.from_file as exactly the same bore field, and by field_from_file as the same boreholes, although the file only holds rounded decimals. Every double is read back as the same double. On every text the two readers agree: both fail, or they give the same boreholes. Whatever text a bore field was read from, saving and reading it again changes nothing. Comments and blank lines can be added anywhere.", "quantifier": "for all bore fields of doubles, all doubles including subnormal ones, and all texts", "why_tests_cant": "Tests save a few fields of round numbers; whether every one of 2^64 doubles survives the decimal form, and whether two parsers agree on every text, cannot be enumerated", "anchors": ["pygfunction/borefield.py: Borefield.to_file", "pygfunction/borefield.py: Borefield.from_file", "pygfunction/boreholes.py: field_from_file"]}
{"id": "C124", "title": "Equivalent and detailed solvers agree for a field with pipes", "statement": "A user computes a g-function with the mixed inlet temperature condition for identical vertical boreholes connected in parallel, all with the same single, multiple or coaxial U-tube, giving boreholes, pipes, a total flow rate and a heat capacity. If the groups formed by the equivalent solver are balanced (for instance one group, as on a circle), then both solvers return, with exactly the same g-function, and the heat extraction rates and wall temperatures of a group are those of each of its boreholes.", "quantifier": "for all such fields, pipes, numbers of segments, total flow rates of either sign (reversed flow for pipes that allow it), heat capacities, times and clusterings that satisfy the contract of the library", "why_tests_cant": "The equality couples two solvers, two networks and all flow rates and fields; tests compare some fields within tolerances that would hide a wrong share of the flow rate or a wrong resistance", "anchors": ["pygfunction/solvers/equivalent.py: initialize, find_groups", "pygfunction/solvers/_base_solver.py: solve", "pygfunction/networks.py: _EquivalentNetwork, network_thermal_resistance", "pygfunction/gfunction.py: gFunction"]}
{"id": "C125", "title": "More or longer boreholes never raise the first temperature drop", "statement": "With a uniform borehole wall temperature, the temperature drop for a given total heat is proportional to the g-function divided by the total length of the field. At the first time of the g-function, and at all times under the threshold for linearization, it never increases when boreholes are added to the field (anywhere, in any position of the list) or when boreholes are made longer by whole segments. In particular the g-function of N boreholes of the same length is at most N times that of any one of them.", "quantifier": "for all fields of vertical boreholes of one radius with spacings of at least ten radii, all added boreholes, all segmentations, all times", "why_tests_cant": "The comparison is between any field and any larger one; tests compare values for some fields with stored numbers", "anchors": ["pygfunction/gfunction.py: gFunction", "pygfunction/solvers/_base_solver.py: solve", "pygfunction/solvers/detailed.py: thermal_response_factors"]}
{"id": "C126", "title": "g-functions only depend on dimensionless numbers", "statement": "When every length of a field (lengths, buried depths, radii, positions) is multiplied by the same number and the thermal diffusivity is changed, the g-function at the same dimensionless times (times multiplied by the square of that number and divided by the ratio of diffusivities) is the same, with the same heat extraction rates; one field raises an error when the other does. This holds for the three boundary conditions, for linearized times with the default threshold, for vertical and inclined boreholes, and for the exact and approximate line source solutions. With a mixed inlet temperature the g-function also does not change when the conductivities of the ground and of the boreholes are multiplied by another number, and the mass flow rates by the product of both numbers.", "quantifier": "all fields, segment ratios, networks, times and thresholds; all positive factors of length, diffusivity and conductivity", "why_tests_cant": "a test compares two sizes of one field up to a tolerance; a term that forgot a length or a power of one would only show for factors and fields that are not in the test", "anchors": ["pygfunction/heat_transfer.py:finite_line_source", "pygfunction/heat_transfer.py:finite_line_source_vectorized", "pygfunction/heat_transfer.py:finite_line_source_inclined_vectorized", "pygfunction/solvers/_base_solver.py:_BaseSolver.solve", "pygfunction/solvers/detailed.py:Detailed.thermal_response_factors", "pygfunction/networks.py:Network", "pygfunction/pipes.py:SingleUTube"]}
{"id": "C127", "title": "g-functions do not depend on the place and orientation of fields with inclined boreholes", "statement": "When a field of vertical and inclined boreholes is displaced, turned about a vertical axis or mirrored, together with the orientations of its boreholes, the g-function is the same, with the same heat extraction rates and wall temperatures; one field raises an error when the other does. This holds for the three boundary conditions, with or without networks, and for the exact and approximate line source solutions. Boreholes are exactly vertical or tilted by more than one millionth of a radian, under which the orientation is dropped.", "quantifier": "all fields of such boreholes, segment ratios, networks, times and thresholds; all displacements, angles, with or without mirroring", "why_tests_cant": "a test compares a few angles up to a tolerance; a sign error in one of the six terms with the orientations would be silent in fields that are symmetric or have a single orientation", "anchors": ["pygfunction/boreholes.py:Borehole", "pygfunction/boreholes.py:Borehole.segments", "pygfunction/heat_transfer.py:finite_line_source_inclined_vectorized", "pygfunction/solvers/detailed.py:Detailed.thermal_response_factors"]}
{"id": "C128", "title": "Responses and g-functions of inclined boreholes are positive and increase with time", "statement": "For boreholes of any tilt under a right angle, under the ground surface and whose axes do not meet, the finite line source solution between any two of them (or of a borehole on itself) is positive and increases with time, the images lower it; so do the response factors of all segments, and the g-function with a uniform heat extraction rate is positive and increases with time, also across the threshold for linearization. No error is raised.", "quantifier": "all fields of such boreholes, all divisions into segments, all increasing positive times, thresholds and diffusivities, all quadrature rules with nodes inside the source and positive weights", "why_tests_cant": "the inclined integrand is a difference of two sums of products of exponentials and error functions of six geometric terms; its sign and growth cannot be read off samples of tilts and orientations", "anchors": ["pygfunction/heat_transfer.py:finite_line_source", "pygfunction/heat_transfer.py:finite_line_source_inclined_vectorized", "pygfunction/heat_transfer.py:_finite_line_source_inclined_integrand", "pygfunction/solvers/detailed.py:Detailed.thermal_response_factors", "pygfunction/solvers/_base_solver.py:_BaseSolver.solve"]}
{"id": "C129", "title": "Claesson-Javed aggregation stays within 1/(2c+1) of the exact superposition", "statement": "For response factors that level off (per time step the increments are nonnegative, decrease, and decrease ever more slowly), a ClaessonJaved simulation with c cells per level differs from the exact temporal superposition by at most the fraction 1/(2c+1) of the sum of the responses to all load changes taken without sign, as long as the number of time steps m satisfies (2c+1)^2 m^2 <= 6c T^2 and (2c+1) m <= 2c T, where T is the number of steps covered by the time grid (about the first half for the default c = 5). Up to the last covered step the fraction is 1/(2c+1) + (2c+1) m^2/(6c T^2). For nonnegative loads that never decrease the scheme never gives more than the exact superposition, and for a constant load it gives between 2c/(2c+1) and 1 times the exact response.", "quantifier": "for all time steps dt > 0, maximum times, numbers of cells per level c >= 1, all responses that level off, all proper sequences of next_time_step and set_current_load, any number of sources", "why_tests_cant": "tests compare one load profile with one reference solution; the error of the aggregation depends on the whole load history, the grid and the response, and the maximum over all of them cannot be sampled", "anchors": ["pygfunction/load_aggregation.py:ClaessonJaved", "pygfunction/load_aggregation.py:ClaessonJaved.next_time_step", "pygfunction/load_aggregation.py:ClaessonJaved.temporal_superposition", "pygfunction/utilities.py:time_ClaessonJaved"]}
{"id": "C130", "title": "The response of a single borehole levels off, so load aggregation is accurate for it", "statement": "The finite line source response of a vertical borehole at its own wall (with mirror source) rises by less and less over equal time intervals once the time exceeds r_b^2/(4 alpha). With a time step of at least 5/8 r_b^2/alpha (58 minutes for a radius of 75 mm in common ground) the values after 0, 1, 2, ... steps rise, the increments decrease and the decrease of the increments decreases. Hence the error bound 1/(2c+1) of the Claesson-Javed aggregation (C129) holds for any single borehole with any loads.", "quantifier": "All ground diffusivities alpha > 0, borehole radii, lengths and buried depths >= 0, all time steps dt with 5 r_b^2 <= 8 alpha dt, all numbers of steps, all ground conductivities, all load histories covered by the grid.", "why_tests_cant": "The claims are inequalities between integrals with a continuum of parameters; the third differences are many orders of magnitude smaller than the values, so that tests see mostly quadrature error, and C129's hypothesis is a statement about infinitely many time steps.", "anchors": ["pygfunction/heat_transfer.py:finite_line_source", "pygfunction/heat_transfer.py:_finite_line_source_integrand", "pygfunction/load_aggregation.py:ClaessonJaved.temporal_superposition", "pygfunction/load_aggregation.py:ClaessonJaved.initialize"]}
{"id": "C131", "title": "At short times a borehole responds like an infinite line source", "statement": "For a vertical borehole the response at its own wall lies below the infinite line source solution E1(r_b^2/(4 alpha t))/2 at all times, and above that solution times 1 - 3 sqrt(alpha t/pi)/H (with 2 in place of 3 if the mirror source is switched off). It is therefore (ln(4 alpha t/r_b^2) - gamma)/2 up to r_b^2/(8 alpha t) above and the end effect of relative size 3 sqrt(alpha t/pi)/H below.", "quantifier": "All diffusivities, times t > 0, radii, lengths and buried depths >= 0; with and without mirror source.", "why_tests_cant": "Tests compare a few tabulated values; a bound between two integrals over a continuum of parameters, with an explicit rate, is not decided by any number of samples.", "anchors": ["pygfunction/heat_transfer.py:finite_line_source", "pygfunction/heat_transfer.py:_finite_line_source_integrand", "pygfunction/utilities.py:erfint"]}
{"id": "C132", "title": "The response approaches the steady state like t^(-3/2)", "statement": "For two vertical boreholes (or one and itself) the response stays below the value returned for infinite time, and the gap is at most H1 (H1 + 2 D1) (H2 + 2 D2)/(24 sqrt(pi) (alpha t)^(3/2)), whatever the distance between the boreholes.", "quantifier": "All diffusivities, times t > 0, radii, distances, lengths and buried depths >= 0.", "why_tests_cant": "Steady state is reached after centuries of simulated time; a convergence rate for all geometries is not observable in tests, which only compare the steady-state formula with single values.", "anchors": ["pygfunction/heat_transfer.py:finite_line_source", "pygfunction/heat_transfer.py:_finite_line_source_steady_state", "pygfunction/heat_transfer.py:_finite_line_source_integrand"]}
{"id": "C133", "title": "g-functions of fields at short and long times", "statement": "The g-function of a field of vertical boreholes with a uniform heat extraction rate is, at every time after the linearization threshold, at least the length-weighted mean of the g-functions of the boreholes taken alone, and exceeds it by at most (N-1) 2 alpha t/B^2 exp(-B^2/(4 alpha t)), with N boreholes at least B apart. It is below its steady-state value, by at most (sum of H(H+2D))^2 / (sum of H) / (24 sqrt(pi) (alpha t)^(3/2)).", "quantifier": "All fields of vertical boreholes with a common radius, all lengths, buried depths >= 0, positions at least B > 0 apart, all discretizations, diffusivities and increasing times.", "why_tests_cant": "That boreholes do not interact before a time of order B^2/(4 alpha), and the rate of the approach to steady state, are statements about all fields and times; regression values cover a few fields.", "anchors": ["pygfunction/gfunction.py:gFunction.evaluate_g_function", "pygfunction/solvers/_base_solver.py:_BaseSolver.solve", "pygfunction/heat_transfer.py:finite_line_source", "pygfunction/heat_transfer.py:finite_line_source_vectorized"]}
{"id": "C134", "title": "A faster flow extracts more heat and lowers the effective resistance; a longer borehole raises it", "statement": "For a SingleUTube or a Coaxial borehole (fixed thermal resistances), effective_borehole_thermal_resistance is the local borehole thermal resistance times eta*coth(eta) with eta inversely proportional to |m_flow|*cp and proportional to the length: it lies between the local resistance and the local resistance times 1+eta^2/3, strictly decreases with the flow rate and strictly increases with the length. At a uniform borehole wall temperature different from the inlet temperature, heat flows from the warmer to the colder; the magnitude of get_fluid_heat_extraction_rate strictly increases with the flow rate and with the length, and the fluid temperature change between inlet and outlet strictly decreases with the flow rate and strictly increases with the length.", "quantifier": "For all valid delta circuits, lengths, non-zero flow rates (either direction when the object reverses the flow), heat capacities, wall and inlet temperatures, and all numbers and lengths of segments.", "why_tests_cant": "Monotonicity over a continuum of flow rates and lengths, for every circuit and segmentation; a test compares a few points.", "anchors": ["pygfunction/pipes.py:SingleUTube.coefficients_outlet_temperature", "pygfunction/pipes.py:_BasePipe.coefficients_fluid_heat_extraction_rate", "pygfunction/pipes.py:_BasePipe.effective_borehole_thermal_resistance", "pygfunction/pipes.py:Coaxial"]}
{"id": "C135", "title": "Errors of the response factors are not amplified in the g-function for a uniform temperature", "statement": "For a uniform borehole wall temperature, two sets of thermal response factors (for example exact ones, and ones from the approximation of the finite line source solution) give first values of the g-function, and values under the threshold for linearization, that differ by exactly a mean of the differences of the response factors weighted by the heat extraction rates of the two runs. When these rates are not negative, response factors accurate within a fraction give a first value accurate within the same fraction; on a uniform time grid the averages of the two g-functions up to any time then differ by at most that fraction, if the changes of the response factors per time step are accurate within it. With the detailed solver and the option approximate_FLS, the first value is within the rate-weighted mean of (tabulated error + 1/199) times the infinite line source solution of that with the exact solution.", "quantifier": "for all fields of vertical boreholes, segment ratios, time grids, numbers of terms 0 to 24 and all response factors of which one set satisfies reciprocity", "why_tests_cant": "A linear system is solved at every time step with a history that depends on all previous solutions; tests compare one field with a tolerance and cannot show that no field, grid or history amplifies the errors.", "anchors": ["pygfunction/solvers/_base_solver.py:_BaseSolver.solve", "pygfunction/gfunction.py:gFunction", "pygfunction/heat_transfer.py:finite_line_source"]}
{"id": "C136", "title": "Similar pairs of inclined segments for real or mirror sources only respond alike", "statement": "When only real or only mirror sources are considered, the pairs of segments of two inclined boreholes that the similarities solver finds similar have the same finite line source solution, and a pair is similar to itself.", "quantifier": "for all pairs of inclined boreholes, tolerances, times and quadratures", "why_tests_cant": "Two pairs must be compared over all angles; no test calls the methods for one kind of source.", "anchors": ["pygfunction/solvers/similarities.py:_compare_real_pairs_inclined", "pygfunction/solvers/similarities.py:_compare_image_pairs_inclined", "pygfunction/solvers/similarities.py:_map_axial_segment_pairs_inclined"]}
{"id": "C137", "title": "The option kind only acts through time steps that are not among the times", "statement": "For every kind of interpolation that gives back its data: with a uniform heat extraction rate the option has no effect on the g-function; with a uniform temperature or a uniform inlet temperature it has no effect, neither on values nor on exceptions, when every time step is one of the times of the solution, in particular on a uniform grid of times. On any grid, the first value and the values up to the threshold of the linear part do not depend on it. For a single heat source, changing the kind changes each value by exactly the difference of the two interpolations at the time step, so that it does matter on other grids. A kind that needs more points than there are times (plus time zero) raises for every boundary condition.", "quantifier": "for all fields, all response factors, all increasing times, all thresholds, all interpolations that give back their data", "why_tests_cant": "tests compare a few kinds on one grid of times with tolerances, and cannot tell for which grids the option matters", "anchors": ["pygfunction/solvers/_base_solver.py:_BaseSolver.solve", "pygfunction/solvers/detailed.py:Detailed.thermal_response_factors", "pygfunction/solvers/similarities.py:Similarities.thermal_response_factors", "pygfunction/solvers/equivalent.py:Equivalent.thermal_response_factors"]}
{"id": "C138", "title": "Names of directions give the angle of the direction they name", "statement": "cardinal_point returns exactly for the sixteen names of directions (a letter among E, N, W, S; north or south with east or west; one of these after one of its letters), in capitals or not, and raises for all other strings. The angle it returns, in [0, 2 pi), is that of the direction half way between that of the first letter and that of the rest of the name, from the east towards the north. Opposite names are a half turn apart. A tilted borehole given this angle as orientation goes in the direction of the name.", "quantifier": "for all strings, all tilted boreholes", "why_tests_cant": "a test can list the sixteen names but not the strings which must raise, and compares the angles with the same formula", "anchors": ["pygfunction/utilities.py:cardinal_point", "pygfunction/boreholes.py:Borehole.segments"]}
{"id": "C139", "title": "g-functions for several mass flow rates are averages of the wall temperatures of the run", "statement": "With an array of mass flow rates, the value gFunc[i, j] at every time is an average of the wall temperatures of the run at the flow rate j, with weights that depend on the flow rate i only: it is the uniform wall temperature from which the network at the flow rate i would extract the same heat. The values on the diagonal and the wall temperatures are those of the network at that flow rate alone, equal flow rates give equal values, and every value is between the lowest and the highest wall temperature of the run. The g-functions are found for any number of flow rates that give every borehole a flow.", "quantifier": "for all fields of vertical boreholes with U-tubes or coaxial pipes, all connections, all numbers of flow rates and both directions of flow, all times", "why_tests_cant": "a test compares a few pairs of flow rates to stored values; it cannot separate the weights of one flow rate from the temperatures of another run, nor cover all networks and directions", "anchors": ["pygfunction/solvers/_base_solver.py:_BaseSolver.solve", "pygfunction/networks.py:Network.coefficients_network_heat_extraction_rate", "pygfunction/networks.py:network_thermal_resistance"]}
{"id": "C140", "title": "Merging distances changes the g-function for a uniform temperature by a bounded amount that does not grow with the number of segments", "statement": "For a field of vertical boreholes whose similarities are exact apart from the distances, the errors of all the response factors of a segment with the similarities solver have a sum of at most -2 log(1 - disTol) for every other borehole, for any numbers of segments. If the solver returns, the first value of the g-function for a uniform borehole wall temperature, and the values under the threshold, differ from those of the detailed solver by at most that bound times the largest heat extraction rate, when the rates of the detailed solver are not negative; for rates of any sign, times their mean absolute value too.", "quantifier": "for all fields, numbers of segments and segment ratios, distance tolerances below one, times, thermal diffusivities", "why_tests_cant": "a test compares the two solvers for a few fields and an ad hoc tolerance; it cannot bound the error for all distances that may be merged, nor show that more segments do not add up errors", "anchors": ["pygfunction/solvers/similarities.py:Similarities.thermal_response_factors", "pygfunction/solvers/similarities.py:Similarities._find_distances", "pygfunction/solvers/_base_solver.py:_BaseSolver.solve"]}
{"id": "C141", "title": "Reversing the flow transposes the heat exchange of boreholes and networks and keeps the effective resistance", "statement": "For a reversible borehole (single U-tube, coaxial, or any number of U-tubes in parallel or in series with a reversible mode of flow), and for any network of such boreholes, changing the sign of the mass flow rates transposes the coefficients between the wall temperatures and the heat extraction rates of the segments, exchanges (up to the sign) the coefficients of the inlet temperature in the heat of a segment with those of that segment in the total heat, and leaves the coefficient between the inlet temperature and the total heat unchanged. So the effective borehole resistance of single U-tube and coaxial boreholes does not depend on the direction of the flow, nor does the effective resistance of a network whose mixing matches its flow (both directions).", "quantifier": "for all geometries and thermal resistances, mass flow rates other than zero, numbers and lengths of segments, connections of boreholes, inlet and wall temperatures", "why_tests_cant": "the two directions are solved with different coefficients (inlet pipe, connections and mixing all change); a test can compare a few boreholes but not show the reciprocity for every network and every wall temperature profile", "anchors": ["pygfunction/pipes.py:_BasePipe.coefficients_borehole_heat_extraction_rate", "pygfunction/pipes.py:_BasePipe.effective_borehole_thermal_resistance", "pygfunction/pipes.py:SingleUTube._continuity_condition_head", "pygfunction/pipes.py:MultipleUTube._continuity_condition_head", "pygfunction/networks.py:Network.coefficients_borehole_heat_extraction_rate", "pygfunction/networks.py:network_thermal_resistance"]}
{"id": "C142", "title": "The g-function of a network of reversible boreholes does not depend on the direction of the flow", "statement": "For a field of vertical boreholes with reversible pipes in a network, changing the sign of the mass flow rates does not change the g-function with a mixed inlet fluid temperature: the first value and the values under the linear threshold are the same at any times, and all the values are the same at evenly spaced times. The heat extraction rates and wall temperatures of the segments may change. (Violated by the code for networks of which the outlets are mixed in the wrong order for one of the directions: then the g-functions differ by the constant 2 pi k_s times the difference of the two network resistances.)", "quantifier": "for all fields, segments, networks, flow rates other than zero and reversible pipes, thermal properties, times", "why_tests_cant": "the two runs solve different linear systems at every time step with different wall temperatures; equality for a few networks would not show that it holds for all of them, nor which times it needs", "anchors": ["pygfunction/solvers/_base_solver.py:_BaseSolver.solve", "pygfunction/networks.py:network_thermal_resistance", "pygfunction/networks.py:Network._format_inputs", "pygfunction/gfunction.py:gFunction"]}
{"id": "C143", "title": "A faster flow through a network extracts more heat and lowers its effective resistance", "statement": "For a Network of SingleUTube and Coaxial boreholes (fixed thermal resistances) with borehole walls at a uniform temperature different from the inlet temperature, raising the flow rate of some circuits without changing the others strictly raises the magnitude of get_network_heat_extraction_rate, and all outlet temperatures move away from the wall temperature. Multiplying all the flow rates by the same factor larger than one strictly lowers network_thermal_resistance, which stays positive. Raising the flow rate of one circuit only may raise network_thermal_resistance.", "quantifier": "For all networks (any connections in series and parallel, any number of boreholes of different lengths and circuits), flow rates in both directions, numbers and lengths of segments, inlet and wall temperatures; for the resistance, flow rates of the outlets in the order of the circuits (see C35).", "why_tests_cant": "Monotonicity over a continuum of flow rates for every network; a test compares a few flow rates of a few networks, and the effect of unequal circuits is easily missed.", "anchors": ["pygfunction/networks.py:network_thermal_resistance", "pygfunction/networks.py:Network.get_network_heat_extraction_rate", "pygfunction/networks.py:Network.coefficients_network_outlet_temperature", "pygfunction/pipes.py:SingleUTube", "pygfunction/pipes.py:Coaxial"]}
{"id": "C144", "title": "The mixed-inlet g-function of boreholes in parallel lies above that of uniform borehole walls", "statement": "For boreholes connected in parallel, each a SingleUTube with two equal legs (the same resistance from each pipe to the wall), the g-function with boundary_condition='MIFT' (detailed method) is at the first time step, and at all time values not above the linear threshold, not less than the one with boundary_condition='UBWT' of the same boreholes and segments, and not more than the mean of the wall temperatures, weighted by the heat extraction rates, for the rates extracted from walls of a uniform temperature. For two equal boreholes in series the first value with 'MIFT' is strictly less than the one with 'UBWT'.", "quantifier": "For all fields of upright boreholes in parallel (any number, positions, lengths, segments), flow rates (also different from borehole to borehole, also reversed), conductances, times and thresholds; the series case for all flow rates, capacities and times.", "why_tests_cant": "The order of two boundary conditions for every field and flow rate cannot be read from sampled curves, the more so as it fails for boreholes in series.", "anchors": ["pygfunction/gfunction.py:gFunction", "pygfunction/solvers/_base_solver.py:_BaseSolver.solve", "pygfunction/solvers/detailed.py:Detailed", "pygfunction/networks.py:Network.coefficients_borehole_heat_extraction_rate", "pygfunction/pipes.py:SingleUTube"]}
{"id": "C145", "title": "The g-function is enough to simulate the field under any loads", "statement": "On a uniform grid of times, let a field be solved with the detailed solver, uniform wall temperature (UBWT) or a network with mixed inlet temperature (MIFT). For every sequence of mean heat extraction rates there is a history of rates and temperatures of the segments that satisfies the segment responses at every step with uniform walls (or with the same inlet temperature in all boreholes and the thermal balance of every pipe). In every such history the wall temperature (UBWT), or the mean fluid temperature minus the rate times the effective field resistance (MIFT), is the temporal superposition of the g-function with the changes of the rates. Simulations with the Claesson-Javed scheme (while cells have one time step) give that temperature exactly, and those with MLAA stay within the error of the block averages.", "quantifier": "all vertical fields, splits into segments, networks, pipes, flow rates, uniform grids above the short-time threshold, all load sequences", "why_tests_cant": "tests simulate a few fields with a few loads and compare with stored values; they cannot show that a single step response determines the temperature of the field for every sequence of loads", "anchors": ["pygfunction/gfunction.py:gFunction", "pygfunction/solvers/_base_solver.py:_BaseSolver.solve", "pygfunction/solvers/_base_solver.py:_BaseSolver.temporal_superposition", "pygfunction/load_aggregation.py:ClaessonJaved", "pygfunction/load_aggregation.py:MLAA", "pygfunction/networks.py:network_thermal_resistance"]}
{"id": "C146", "title": "Every accepted list of times can be evaluated", "statement": "evaluate_g_function accepts all lists of times that do not decrease (negative times count as zero). For each of them it returns one value per time, equal for equal times, and zero at time zero.", "quantifier": "all lists of times that do not decrease, all thresholds, all vertical fields and discretizations, the three boundary conditions", "why_tests_cant": "tests use a few strictly increasing grids above the threshold", "anchors": ["pygfunction/gfunction.py:gFunction.evaluate_g_function", "pygfunction/solvers/_base_solver.py:_BaseSolver.solve", "pygfunction/solvers/_base_solver.py:_BaseSolver.load_history_reconstruction"]}
{"id": "C147", "title": "Later times never change the values already computed", "statement": "For times in increasing order, appending further times to the list does not change the g-function, the heat extraction rates or the wall temperatures at the times before; if the longer evaluation succeeds then so does the shorter one. This holds for the three boundary conditions and the three solvers with linear interpolation, below and above the threshold of linearization.", "quantifier": "all fields (inclined ones included), networks, discretizations, lists of times split at any place, all thresholds", "why_tests_cant": "tests compare values of one grid; no test can cover every extension of every grid", "anchors": ["pygfunction/gfunction.py:gFunction.evaluate_g_function", "pygfunction/solvers/_base_solver.py:_BaseSolver.solve", "pygfunction/solvers/_base_solver.py:_BaseSolver.temporal_superposition", "pygfunction/solvers/_base_solver.py:_BaseSolver.load_history_reconstruction"]}
{"id": "C148", "title": "A network follows the thermal resistances of its boreholes", "statement": "After update_thermal_resistances of the pipes of a Network, the methods of the network return the temperatures and heat extraction rates for the new resistances, as a Network constructed with the updated pipes would.", "quantifier": "all networks, pipes, operating points and sequences of calls and updates", "why_tests_cant": "Needs an update of a pipe between two calls of the network at the same operating point; tests construct a network for each set of pipes.", "anchors": ["pygfunction/networks.py:Network._check_coefficients", "pygfunction/networks.py:Network._initialize_stored_coefficients", "pygfunction/networks.py:Network.coefficients_network_heat_extraction_rate", "pygfunction/pipes.py:SingleUTube.update_thermal_resistances"]}
{"id": "C149", "title": "A better pipe does not make a worse borehole", "statement": "For a SingleUTube, raising the fluid to outer pipe wall thermal resistance R_fp raises local_borehole_thermal_resistance and effective_borehole_thermal_resistance, and lowers the heat exchanged at given inlet and wall temperatures.", "quantifier": "all geometries with two equal pipes on opposite sides of the axis, conductivities, lengths, flow rates and pairs of resistances", "why_tests_cant": "Monotonicity over continuous parameters; depends on the length and the flow rate through the thermal short-circuit between the pipes.", "anchors": ["pygfunction/pipes.py:thermal_resistances", "pygfunction/pipes.py:SingleUTube.update_thermal_resistances", "pygfunction/pipes.py:_BasePipe.effective_borehole_thermal_resistance", "pygfunction/pipes.py:_BasePipe.local_borehole_thermal_resistance"]}
{"id": "C150", "title": "Better pipes, insulation and grout always make a better coaxial borehole", "statement": "For a Coaxial borehole (either order of the radii, any length, any non-zero flow rate in either direction) the local borehole thermal resistance is R_fp plus a positive constant of the geometry, and lowering R_fp, raising R_ff, or raising the conductivity of the grout around concentric pipes always lowers effective_borehole_thermal_resistance and raises the heat exchanged with walls at a uniform temperature. However high R_ff is, the effective resistance stays above the local one and above H/(2 m cp).", "quantifier": "All coaxial geometries with the outer pipe inside the borehole (concentric with any multipole order, or off the axis with J=0), all R_ff > 0, R_fp >= 0, lengths, flow rates and specific heats, and all discretizations of the borehole.", "why_tests_cant": "Monotonicity over a continuum of resistances, lengths and flow rates cannot be sampled; the analogous claim is false for U-tubes (C149), so it is not a consequence of common sense.", "anchors": ["pygfunction/pipes.py:Coaxial.update_thermal_resistances", "pygfunction/pipes.py:Coaxial", "pygfunction/pipes.py:thermal_resistances", "pygfunction/pipes.py:_BasePipe.effective_borehole_thermal_resistance"]}
{"id": "C151", "title": "Grouping boreholes never lowers the first uniform-temperature value", "statement": "For identical vertical boreholes with spacings of at least ten radii and distances that do not merge, the equivalent method returns a g-function with a uniform borehole wall temperature for every way of grouping the boreholes. At the first time, and at all times under the linearization threshold, its value is at least that of the detailed method with the same segments and at most that with a uniform heat extraction rate. Of two ways of grouping the boreholes, one finer than the other, the finer has at most the value of the coarser.", "quantifier": "all fields of identical vertical boreholes, all groupings (any cut of the hierarchy, any number of clusters), all numbers of uniform segments, all increasing positive times, all thresholds", "why_tests_cant": "A test compares the methods for one field and one number of clusters, up to a tolerance; the sign of the error for all fields and all groupings is an inequality between the solutions of two linear systems of different sizes.", "anchors": ["pygfunction/solvers/equivalent.py:Equivalent.find_groups", "pygfunction/solvers/equivalent.py:Equivalent.thermal_response_factors", "pygfunction/solvers/_base_solver.py:_BaseSolver.solve"]}
{"id": "C152", "title": "Merging distances changes the first uniform-temperature value of the equivalent method by a bounded amount", "statement": "For identical vertical boreholes with spacings of at least ten radii, grouped in any way and with distances merged within disTol (less than one), whenever the equivalent method returns a g-function with a uniform borehole wall temperature, its value at the first time, and those under the linearization threshold, are bounded by those of the detailed method. Let C = -2 log(1 - disTol) (N - 1) for N boreholes and q be the largest of the heat extraction rates that the equivalent method returns. When these are not negative, the value is at least that of the detailed method with a uniform temperature less C q, and at most that with a uniform heat extraction rate plus 3 C q; for rates of any sign C q^2 and C (q^2 + 2 q). With a single group and segment the method always returns.", "quantifier": "all fields of identical vertical boreholes, all groupings, all tolerances below one, all distances merged, all numbers of uniform segments, all increasing positive times, all thresholds", "why_tests_cant": "A test samples a few fields and tolerances; the bound is for every field and every way in which the tolerance happens to merge distances, and shows that the error grows with the number of boreholes and not with the number of segments or groups.", "anchors": ["pygfunction/solvers/equivalent.py:Equivalent.thermal_response_factors", "pygfunction/solvers/equivalent.py:Equivalent._find_unique_distances", "pygfunction/solvers/equivalent.py:Equivalent.find_groups", "pygfunction/solvers/_base_solver.py:_BaseSolver.solve"]}
{"id": "C153", "title": "Temperatures returned by a load aggregation scheme can be used per source to compute the next loads", "statement": "The array returned by temporal_superposition holds one value per source: subtracting it from the ground temperatures of the sources (an array with one value per source, or a number) gives one temperature per source, and loads computed from these with any elementwise function are stored by set_current_load as the loads of the sources. This holds for ClaessonJaved and Liu with any number of sources and all accepted shapes of the response factors, and for MLAA with one source. It fails for MLAA with several sources: a column of shape (nSources, 1) is returned, the difference with per-source temperatures is the square matrix of all differences T[j] - deltaT[i], and set_current_load raises an exception for loads computed from it.", "quantifier": "all numbers of sources, all states of the schemes, all response factors, all elementwise functions, all ground temperatures", "why_tests_cant": "Tests compare numbers for a single source, for which numpy broadcasting hides the shape; the shapes matter in simulations with feedback between temperatures and loads of several sources.", "anchors": ["pygfunction/load_aggregation.py:ClaessonJaved.temporal_superposition", "pygfunction/load_aggregation.py:ClaessonJaved.set_current_load", "pygfunction/load_aggregation.py:ClaessonJaved.initialize", "pygfunction/load_aggregation.py:MLAA.temporal_superposition", "pygfunction/load_aggregation.py:MLAA.set_current_load", "pygfunction/load_aggregation.py:Liu.temporal_superposition", "pygfunction/load_aggregation.py:Liu.set_current_load"]}
{"id": "C154", "title": "Distances are merged only within the tolerance, also with the arithmetic of the machine", "statement": "With floating-point numbers, the distances returned by unique_distance and used by the similarities solver are means of groups of sorted distances: the members of a group are at most (1 + disTol) times its smallest distance, and the next group starts at least (1 + disTol) times further, up to a factor of 1 +- 2^-50. This holds for every tolerance above 2^-53. It fails for all smaller positive tolerances, which the solvers accept: 1 + disTol is then rounded to 1 and all distances of the field are replaced by their mean.", "quantifier": "all tolerances, all lists of normal double precision distances, all sorting permutations", "why_tests_cant": "The sharp change at 2^-53 is far from the tolerances that are tested; asking for no merging with a tiny tolerance merges everything.", "anchors": ["pygfunction/boreholes.py:_EquivalentBorehole.unique_distance", "pygfunction/solvers/similarities.py:Similarities._find_distances"]}
{"id": "C155", "title": "Duplicate boreholes are found exactly, also with the arithmetic of the machine", "statement": "With floating-point numbers, find_duplicates returns, without repetition, pairs of positions (i, j) of the field with i < j: all pairs of boreholes closer than (1 - 2^-48) times the largest radius, and no pair that is farther than (1 + 2^-48) times this radius. The positions, recovered from the index in the vector of distances with a square root, are never off by one. remove_duplicates keeps the order and the first borehole, leaves no two boreholes closer than (1 - 2^-48) times the largest radius, and removes a borehole only if an earlier one is within (1 + 2^-48) times this radius.", "quantifier": "all fields of 1 to 2^25 boreholes with any coordinates, radii of at least 2^-400 m", "why_tests_cant": "The square root is evaluated close to integers for the last pair of each row; an off-by-one would need the right combination of size of the field and pair.", "anchors": ["pygfunction/boreholes.py:find_duplicates", "pygfunction/boreholes.py:remove_duplicates"]}
{"id": "C156", "title": "Number of time steps of the load aggregation schemes with floating-point numbers", "statement": "MLAA and Liu objects created with tmax = n*dt (computed in double precision) allocate all of the n time steps and at most one more, so a simulation of n steps never runs out of storage because of rounding and the last of the n required times is tmax. Exactly n steps are allocated if n*dt needs no rounding (e.g. whole seconds). For any tmax, every number of steps that fits exactly in tmax is allocated, and the last allocated step reaches tmax up to a relative error of 2^-52. The number of large cells of Liu is the exact one. One step too many does occur, for dt = 0.3 and n = 7.", "quantifier": "for every time step of at least 2^-400 s, every number of steps up to 2^50, all sizes of cells and all load histories", "why_tests_cant": "The rounded quotient tmax/dt is rounded up to an integer, so an error in the last digit changes the number of steps; a test tries a few time steps, of the infinitely many pairs (dt, n) for which the quotient is not an integer.", "anchors": ["pygfunction/load_aggregation.py:MLAA._build_cells", "pygfunction/load_aggregation.py:MLAA.get_times_for_simulation", "pygfunction/load_aggregation.py:Liu._build_cells", "pygfunction/load_aggregation.py:Liu.get_times_for_simulation"]}
{"id": "C157", "title": "The response at a time does not depend on the form in which the time is given", "statement": "finite_line_source for two boreholes gives, for an array of times, one value per time, equal to that of the call with this time as a float; a list does the same when alpha is a numpy number; only an empty array raises an exception. With approximation=True an integer number of seconds, or an array without dimension, gives the value of the float. This fails with approximation=False (the default): an integer, e.g. 3600, an array without dimension and, with alpha a python float, a list raise an exception, for all boreholes. Infinite times other than the object np.inf, e.g. float('inf'), give the steady-state value of np.inf without approximation, unless the heads of inclined boreholes are closer than the radius, for which the two values differ; with approximation=True they never give a finite value, while np.inf does.", "quantifier": "all pairs of boreholes, vertical or inclined, that do not meet, all times, all options", "why_tests_cant": "A test calls the function with the one form of the argument that its author had in mind; the outcome depends on the type of the argument, on the identity of the object np.inf and on another option.", "anchors": ["pygfunction/heat_transfer.py:finite_line_source", "pygfunction/heat_transfer.py:finite_line_source_approximation", "pygfunction/heat_transfer.py:finite_line_source_inclined_approximation", "pygfunction/utilities.py:exp1"]}
{"id": "C158", "title": "Changing the attributes of a borehole is the same as creating it with the new values", "statement": "After any assignments to H, D, r_b, x, y, tilt and orientation of two Borehole objects, in any number and order, finite_line_source gives the value for boreholes created with the present attributes, as long as a vertical borehole stays vertical and an inclined one stays inclined. Each attribute has the value assigned last. The segments of a changed borehole are those of a borehole created with its attributes, unless a non-zero orientation was assigned and the tilt is at most 1e-6. It fails when a vertical borehole is inclined by assigning tilt: the value stays that of the vertical borehole whatever the tilt assigned, though its segments are inclined.", "quantifier": "all boreholes, all sequences of assignments, all times and options", "why_tests_cant": "The flag that tells inclined boreholes is computed once and tests do not change boreholes; the value returned is plausible and no exception is raised.", "anchors": ["pygfunction/boreholes.py:Borehole", "pygfunction/boreholes.py:Borehole.is_vertical", "pygfunction/boreholes.py:Borehole.segments", "pygfunction/heat_transfer.py:finite_line_source"]}
{"id": "C159", "title": "Forms of the mass flow rate given to a pipe", "statement": "The methods of a pipe accept the mass flow rate as a number or as an array of one value per inlet; for a pipe with one inlet the two forms give the same results, and any other number of values is refused, whatever was evaluated before with the same pipe.", "quantifier": "all pipe classes, numbers of U-tubes, flow rates, forms, sequences of earlier evaluations", "why_tests_cant": "Whether a wrong form is noticed depends on what the pipe has stored from earlier calls; tests evaluate each pipe once with the form of its class.", "anchors": ["pygfunction/pipes.py:IndependentMultipleUTube._format_inputs", "pygfunction/pipes.py:IndependentMultipleUTube._flow_direction", "pygfunction/pipes.py:_BasePipe._check_model_variables", "pygfunction/pipes.py:_BasePipe._check_coefficients", "pygfunction/pipes.py:MultipleUTube._format_inputs", "pygfunction/pipes.py:SingleUTube._format_inputs"]}
{"id": "C160", "title": "Explicit formulas of a single U-tube agree with the general method", "statement": "For a single U-tube or coaxial borehole, the coefficients of outlet temperature, of fluid temperature at any depth and of segment heat extraction returned by the explicit formulas of the class are those which the general method shared by all pipe classes derives from the class's own general solution of the fluid balance and its pipe connectivity; the linear system of the general method is never singular, and the integrals used in it are primitives of the functions they are documented to integrate.", "quantifier": "all passive delta-circuits (including coaxial ones and negative pipe to pipe resistances), borehole lengths, non-zero flow rates of either sign, reversible or not, heat capacities, divisions into segments, depths", "why_tests_cant": "The explicit formulas override the general method, so the general solution of this class is never executed; a test would compare floats for a few boreholes.", "anchors": ["pygfunction/pipes.py:SingleUTube._general_solution", "pygfunction/pipes.py:SingleUTube._F4", "pygfunction/pipes.py:SingleUTube._F5", "pygfunction/pipes.py:SingleUTube._pipe_connectivity", "pygfunction/pipes.py:SingleUTube.coefficients_outlet_temperature", "pygfunction/pipes.py:SingleUTube.coefficients_temperature", "pygfunction/pipes.py:_BasePipe.coefficients_outlet_temperature", "pygfunction/pipes.py:_BasePipe.coefficients_temperature"]}
{"id": "C161", "title": "The views of a bore field draw each borehole where it is", "statement": "Both ways of drawing a bore field (the method of the class and the deprecated function for lists of boreholes) draw the same marks, lines and labels for the same boreholes: each borehole has a mark at its head, a line from head to toe whose length in space is the borehole length, and in the top view a label which is its position in the field; drawing the segments of a borehole instead of the borehole covers the same line.", "quantifier": "all lists of boreholes and fields (any lengths, buried depths, tilts, orientations), combinations of the drawing options, divisions into segments", "why_tests_cant": "Tests of the figures only check that a figure is produced; the coordinates drawn by the two implementations (array operations and a loop) are never compared.", "anchors": ["pygfunction/borefield.py:Borefield.visualize_field", "pygfunction/boreholes.py:visualize_field", "pygfunction/boreholes.py:Borehole.segments"]}
{"id": "C162", "title": "The cross-section of a borehole shows its pipes", "statement": "The cross-section of every borehole that can be created is drawn and shows the borehole wall and the inner and outer outlines of every pipe, all inside the wall; each pipe carries its number, placed where the fluid of that pipe flows and outside of the other pipes.", "quantifier": "all accepted U-tube boreholes (any number of U-tubes, positions, radii), all physical coaxial boreholes with either pipe as the inner one, any colour cycle", "why_tests_cant": "Tests only check that a figure is produced for a few boreholes; where the labels fall depends on the radii and on which pipe is the inner one.", "anchors": ["pygfunction/pipes.py:_BasePipe.visualize_pipes", "pygfunction/pipes.py:Coaxial.visualize_pipes", "pygfunction/pipes.py:_BasePipe._check_geometry", "pygfunction/pipes.py:Coaxial._check_geometry"]}
{"id": "C163", "title": "The figure of a g-function shows each value at its time", "statement": "visualize_g_function draws one curve (or one curve for each selected pair of mass flow rates, in the given order). Each point has the abscissa ln(9 alpha t / H^2), where H is the mean length of the boreholes, and the ordinate is the g-function evaluated at t. This is the last evaluation, whatever was evaluated before, and refused times change nothing. A field of another size in other ground gives the same figure at the same dimensionless times. A time has the same abscissa in the figures of heat extraction rates and temperatures.", "quantifier": "for all sequences of evaluations, returned or not, fields, times, numbers of flow rates and selections", "why_tests_cant": "Tests only check that a figure is returned; what it shows after an evaluation that raises, or for fields with different lengths, is not looked at.", "anchors": ["pygfunction/gfunction.py:gFunction.visualize_g_function", "pygfunction/gfunction.py:gFunction.evaluate_g_function", "pygfunction/gfunction.py:gFunction.visualize_heat_extraction_rates", "pygfunction/gfunction.py:gFunction.visualize_temperatures"]}
{"id": "C164", "title": "A load aggregation object and the arrays given to it can be used again", "statement": "The temperatures returned by a load aggregation scheme are those of the response factors that the array held when initialize was called, whatever the caller does with its arrays afterwards, including the array returned by get_thermal_response_factor_increment. Calling initialize starts a new simulation, to which the loads of an earlier one do not contribute.", "quantifier": "for all sequences of statements (initialize, time steps, loads, changes of the arrays of the caller), all sizes and all numbers of sources", "why_tests_cant": "Tests use each object and each array for one simulation.", "anchors": ["pygfunction/load_aggregation.py:ClaessonJaved.initialize", "pygfunction/load_aggregation.py:MLAA.initialize", "pygfunction/load_aggregation.py:Liu.initialize", "pygfunction/load_aggregation.py:ClaessonJaved.get_thermal_response_factor_increment"]}
{"id": "C165", "title": "A g-function object uses the boreholes as they were when it was created", "statement": "Changing the boreholes given to gFunction after the object was created, and before the g-function is evaluated, has no effect on the values: they are those of the boreholes at construction. (Holds for method 'detailed' when only attributes of the boreholes are assigned, and for 'similarities' when vertical boreholes are moved. Violated otherwise: the list of the caller is kept, and after boreholes were removed from it 'detailed' returns lower values without an error; 'similarities' follows changes of the dimensions in part.)", "quantifier": "all lists of boreholes, discretizations, sequences of assignments, removals and replacements in the list of the caller, times, and solutions of the line source", "why_tests_cant": "the tests evaluate the g-function in the constructor or never change the boreholes in between; which of the stored and present values are mixed depends on the method and the number of boreholes", "anchors": ["pygfunction/gfunction.py:gFunction", "pygfunction/solvers/_base_solver.py:_BaseSolver", "pygfunction/solvers/detailed.py:Detailed.thermal_response_factors", "pygfunction/solvers/similarities.py:Similarities.thermal_response_factors"]}
