{
 "claims": [
  {
   "property": "C01",
   "status": "proved",
   "theorems": [
    "Verif.LoadAgg.CJ.cj_energy_balance",
    "Verif.LoadAgg.CJ.cj_energy_conserved"
   ],
   "note": "All call sequences that start with next_time_step, any non-zero widths with first width one."
  },
  {
   "property": "C02",
   "status": "proved",
   "theorems": [
    "Verif.LoadAgg.CJ.cj_linear",
    "Verif.LoadAgg.CJ.cj_cells_bounded"
   ],
   "note": "Linearity for any field and any call sequence; bounds for widths >= 1."
  },
  {
   "property": "C03",
   "status": "proved",
   "theorems": [
    "Verif.LoadAgg.CJ.cj_exact_unit_cells"
   ],
   "note": "Equality with the Duhamel superposition while the history stays in unit-width cells."
  },
  {
   "property": "C04",
   "status": "proved",
   "theorems": [
    "Verif.LoadAgg.MLAA.mlaa_partition",
    "Verif.LoadAgg.MLAA.mlaa_heat_preserved",
    "Verif.LoadAgg.MLAA.mlaa_run_isSome_iff",
    "Verif.LoadAgg.MLAA.blockSizes_sum"
   ],
   "note": "All proper call sequences, block sizes >= 1."
  },
  {
   "property": "C05",
   "status": "proved",
   "theorems": [
    "Verif.LoadAgg.MLAA.mlaa_response",
    "Verif.LoadAgg.MLAA.mlaa_exact_short",
    "Verif.LoadAgg.MLAA.mlaa_exact_constant",
    "Verif.LoadAgg.MLAA.mlaa_exact_proportional"
   ],
   "note": "Response equals the Duhamel sum of the block-averaged history; corollaries for short, constant and time-proportional cases."
  },
  {
   "property": "C06",
   "status": "proved",
   "theorems": [
    "Verif.LoadAgg.Liu.liu_partition",
    "Verif.LoadAgg.Liu.liu_response",
    "Verif.LoadAgg.Liu.liu_exact_constant",
    "Verif.LoadAgg.Liu.liu_exact_proportional"
   ],
   "note": "Positive block sizes and waiting periods, any number of steps up to Nt."
  },
  {
   "property": "C07",
   "status": "partial",
   "theorems": [
    "Verif.LoadAgg.Liu.liu_zero_waiting_1",
    "Verif.LoadAgg.Liu.liu_zero_waiting_2",
    "Verif.LoadAgg.Liu.liu_zero_waiting_3",
    "Verif.LoadAgg.Liu.liu_waiting_partial"
   ],
   "note": "The claim is false: concrete counterexamples for W1=0, W2=0 and W3=0 (with a response proportional to time the result is not the total heat). liu_waiting_partial proves it for waiting periods >= 1."
  },
  {
   "property": "C08",
   "status": "proved",
   "theorems": [
    "Verif.Util.time_ClaessonJaved_grid",
    "Verif.Util.time_ClaessonJaved_unique",
    "Verif.Util.time_ClaessonJaved_multiples"
   ],
   "note": "Termination, uniqueness and shape of the grid for every dt, tmax, cells_per_level in an Archimedean ordered field."
  },
  {
   "property": "C09",
   "status": "proved",
   "theorems": [
    "Verif.Util.time_MarcottePasquier_grid",
    "Verif.Util.time_MarcottePasquier_unique",
    "Verif.Util.time_MarcottePasquier_zero"
   ],
   "note": "With zero non-expanding cells the grid starts at 2*dt (separate theorem)."
  },
  {
   "property": "C10",
   "status": "partial",
   "theorems": [
    "Verif.Util.time_geometric_uniform",
    "Verif.Util.time_geometric_expanding",
    "Verif.Util.time_geometric_unique",
    "Verif.Util.time_geometric_increasing_partial",
    "Verif.Util.time_geometric_not_increasing",
    "Verif.Util.time_geometric_one_diverges"
   ],
   "note": "Violated: for Nt=10000, dt=1, tmax=10000.001 the last entry is below its predecessor; Nt=1 expanding does not terminate over the reals. The _partial theorem gives strict monotonicity under an explicit margin on tmax/dt."
  },
  {
   "property": "C100",
   "status": "proved",
   "theorems": [
    "Verif.Gf.temperature_returns",
    "Verif.Gf.mixed_returns",
    "Verif.Gf.temperature_first"
   ],
   "note": "Spacings of at least ten radii (sufficient condition; the exact threshold is not known). Passivity of the network is a hypothesis on its coefficients. The comparison with UHTR concerns the first step (and all times under the threshold); at later steps the rates depend on the history."
  },
  {
   "property": "C101",
   "status": "proved",
   "theorems": [
    "Verif.FLS.sub_le_log",
    "Verif.FLS.close_log",
    "Verif.FLS.decreasing"
   ],
   "note": "Vertical line sources; the bound is independent of lengths, depths and time."
  },
  {
   "property": "C102",
   "status": "proved",
   "theorems": [
    "Verif.Gf.solvers_agree",
    "Verif.Gf.uniform_similarities",
    "Verif.Gf.uniform_equivalent"
   ],
   "note": "The clustering (scipy hierarchy.cut_tree) is any labelling without empty clusters (CutOk); the finite line source is the exact integral. Fields with several kinds of boreholes are covered by uniform_similarities and uniform_equivalent under the conditions of C27 and C86."
  },
  {
   "property": "C103",
   "status": "proved",
   "theorems": [
    "Verif.Gf.similarities_solve",
    "Verif.Gf.temperature_similarities",
    "Verif.Gf.mixed_similarities"
   ],
   "note": "Vertical boreholes; exactness of the similarities is derived from the separation of dimensions and distances. MIFT with one flow rate and a passive network."
  },
  {
   "property": "C104",
   "status": "proved",
   "theorems": [
    "Verif.Gf.temperature_congruent",
    "Verif.Gf.temperature_symmetric",
    "Verif.Gf.mixed_congruent",
    "Verif.Sol.ubwt_grouped",
    "Verif.Sol.mift_grouped"
   ],
   "note": "Vertical boreholes, detailed solver; congruence = same squared distances between corresponding boreholes, which covers displacements, rotations, reflections and reordering."
  },
  {
   "property": "C105",
   "status": "proved",
   "theorems": [
    "Verif.Gf.temperature_balanced",
    "Verif.Gf.mixed_balanced",
    "Verif.Gf.temperature_alike",
    "Verif.Gf.circle_field_alike"
   ],
   "note": "Clustering assumed as in CutOk. The network of MIFT is given by its coefficients for identical boreholes in parallel; from the pipes in C124."
  },
  {
   "property": "C106",
   "status": "proved",
   "theorems": [
    "Verif.Pipe.UTube.downhill",
    "Verif.Pipe.UTube.netPipe_thermal",
    "Verif.Pipe.Multi.multiple_downhill",
    "Verif.Pipe.Multi.multiple_thermal",
    "Verif.Net.network_downhill",
    "Verif.Net.network_passive",
    "Verif.Gf.segPlace_segment",
    "Verif.Gf.mixed_network_returns",
    "Verif.Gf.tube_network_returns"
   ],
   "note": "Exact real arithmetic; the result of scipy's eigenvalue decomposition enters by its contract. tube_network_returns is the end-to-end statement from connections, pipes and flow rates to the g-function."
  },
  {
   "property": "C107",
   "status": "proved",
   "theorems": [
    "Verif.Pipe.lower_bound",
    "Verif.Pipe.upper_bound",
    "Verif.Pipe.UPar.solution_between",
    "Verif.Pipe.UTube.temperature_between",
    "Verif.Pipe.UTube.netPipe_weighted",
    "Verif.Pipe.Multi.multiple_between",
    "Verif.Pipe.Multi.independent_between",
    "Verif.Pipe.Multi.multiple_weighted",
    "Verif.Net.network_between",
    "Verif.Net.network_outlet_between",
    "Verif.Net.network_monotone"
   ],
   "note": "Maximum principle for pipes that exchange heat with the wall and with each other, along the path of the fluid through the head and bottom of the borehole."
  },
  {
   "property": "C108",
   "status": "partial",
   "theorems": [
    "Verif.Net.network_mean",
    "Verif.Net.conductance_pos",
    "Verif.Net.conductance_segments",
    "Verif.Gf.mixed_network_mean_partial",
    "Verif.Gf.mixed_network_range_partial",
    "Verif.Gf.tube_network_mean_partial",
    "Verif.Gf.mixed_network_mean_fails"
   ],
   "note": "Holds when the outlets carry the flow rates in the order of the circuits (equal flow rates, reversed flow, or circuits that do not cross). Missing and refuted: crossed circuits with different flow rates, where the mixing of C35 enters the resistance of the network."
  },
  {
   "property": "C109",
   "status": "partial",
   "theorems": [
    "Verif.Bore.equivalent_of_boreholes",
    "Verif.Bore.equivalent_of_equivalents",
    "Verif.Bore.equivalent_of_tuple_partial",
    "Verif.Bore.equivalent_short_tuple_fails",
    "Verif.Bore.equivalent_segments",
    "Verif.Bore.equivalent_distance"
   ],
   "note": "Violated for the documented tuple of five attributes, which always raises AttributeError; proved for all other forms."
  },
  {
   "property": "C11",
   "status": "proved",
   "theorems": [
    "Verif.Util.segment_ratios_valid",
    "Verif.Util.segment_ratios_assertion_iff",
    "Verif.Util.segment_ratios_sum_exact",
    "Verif.Util.segment_ratios_total"
   ],
   "note": "numpy roots are an oracle: the post-condition holds for every root list; totality for the exact real roots."
  },
  {
   "property": "C110",
   "status": "partial",
   "theorems": [
    "Verif.FLS.lists_pairwise_partial",
    "Verif.FLS.lists_return",
    "Verif.FLS.lists_mixed",
    "Verif.FLS.lists_fail"
   ],
   "note": "Proved when all boreholes are vertical, or all sources, or all receivers are inclined. Fails otherwise: two vertical boreholes are evaluated with the quadrature for inclined boreholes as soon as another borehole of the lists is inclined (lists_fail: the value can exceed any multiple of the value for the two alone, for every quadrature rule and time); lists_mixed gives both values."
  },
  {
   "property": "C111",
   "status": "proved",
   "theorems": [
    "Verif.Net.inputs_accepted",
    "Verif.Net.inputs_meaning"
   ],
   "note": ""
  },
  {
   "property": "C112",
   "status": "proved",
   "theorems": [
    "Verif.FLS.erf_error",
    "Verif.FLS.approx_explicit",
    "Verif.FLS.Incl.approx_explicit_inclined"
   ],
   "note": "Interval arithmetic in integers, checked by the kernel and proved sound for all real arguments (ErfCheck.check_sound); the relative error of the exponential integral remains a parameter."
  },
  {
   "property": "C113",
   "status": "partial",
   "theorems": [
    "Verif.Net.scalar_total_partial",
    "Verif.Net.scalar_total_fails",
    "Verif.Net.scalar_total_witness"
   ],
   "note": "Violated: the stored flow rates are compared after broadcasting, so the number x hits the cache of an earlier call with x in every circuit and gets the coefficients of the total flow rate x times the number of circuits.  Holds on a new object."
  },
  {
   "property": "C114",
   "status": "partial",
   "theorems": [
    "Verif.Net.Alias.by_value_partial",
    "Verif.Net.Alias.current_values_partial",
    "Verif.Net.Alias.format_content",
    "Verif.Net.Alias.ratios_stale",
    "Verif.Net.Alias.segments_stale",
    "Verif.Net.Alias.mixing_stale",
    "Verif.Net.Alias.mixing_stale_witness"
   ],
   "note": "Violated: the object keeps the arrays and lists of the caller and compares them with themselves: modified ratios or numbers of segments give the old coefficients, modified flow rates the old weights of the outlets.  Proved for programs that modify no object that they passed before.  format_content: formatted inputs contain the ratios and numbers of segments of the arguments, so the old coefficients are those of other inputs."
  },
  {
   "property": "C115",
   "status": "partial",
   "theorems": [
    "Verif.Pipe.Get.form_partial",
    "Verif.Pipe.Get.several_circuits_raise",
    "Verif.Pipe.Get.heat_never_number",
    "Verif.Pipe.Get.inlet_inverse_partial",
    "Verif.Pipe.Get.uniform_wall",
    "Verif.Pipe.Get.uTube_uniform",
    "Verif.Pipe.Get.multi_uniform",
    "Verif.Pipe.Get.number_value_partial",
    "Verif.Pipe.Get.total_heat",
    "Verif.Pipe.Get.getHeat_iff",
    "Verif.Pipe.Get.getTemperature_iff",
    "Verif.Pipe.Get.uTube_values",
    "Verif.Pipe.Get.network_getters",
    "Verif.Pipe.Get.get_balance",
    "Verif.Pipe.Get.uTube_balanced",
    "Verif.Pipe.Get.multiple_balanced",
    "Verif.Pipe.Get.independent_balanced"
   ],
   "note": "Violated: the heat extraction rates of the segments are an array for a number as wall temperature (heat_never_number), and a number as inlet temperature or heat raises with several circuits (several_circuits_raise). Proved otherwise: accepted shapes, returned form, inverse, independence of the division for a uniform wall, values, and the rates of the segments sum to the total for all kinds of pipes."
  },
  {
   "property": "C116",
   "status": "partial",
   "theorems": [
    "Verif.FLS.pair_vertical_value",
    "Verif.FLS.pair_inclined_value",
    "Verif.FLS.pair_times",
    "Verif.FLS.pair_infinity_partial",
    "Verif.FLS.pair_infinity_fails"
   ],
   "note": "The values, the arrays of times and the limit are proved; the limit fails for an inclined borehole acting on itself with both sources (pair_infinity_fails), because the image is displaced by the radius in the integral but not in the closed form. Hypotheses of pair_inclined_value and pair_infinity_partial: heads at least the radius of the source apart."
  },
  {
   "property": "C117",
   "status": "proved",
   "theorems": [
    "Verif.Pipe.Get.inlet_of_heat",
    "Verif.Pipe.Get.inlet_decreasing",
    "Verif.Pipe.Get.inlet_number_decreasing",
    "Verif.Pipe.Get.uTube_dissipative",
    "Verif.Pipe.Get.multiple_dissipative",
    "Verif.Pipe.Get.independent_dissipative",
    "Verif.Pipe.Get.returns_inlet",
    "Verif.Net.network_inlet_of_heat",
    "Verif.Pipe.UTube.netPipe_damped",
    "Verif.Pipe.Multi.multiple_damped"
   ],
   "note": "The heat gained in the circuits is a negative definite form of the inlet temperatures (energy dissipation), so the coefficients are invertible; shown for every kind of pipe. returns_inlet: after any history covered by C42. network_inlet_of_heat: networks of any accepted connectivity, with pipes whose outlet responds by less than the change of the inlet (netPipe_damped, multiple_damped)."
  },
  {
   "property": "C118",
   "status": "partial",
   "theorems": [
    "Verif.Pipe.Alias.multiple_program_partial",
    "Verif.Pipe.Alias.independent_program_partial",
    "Verif.Pipe.Alias.prog_pure",
    "Verif.Pipe.Alias.ratios_stale",
    "Verif.Pipe.Alias.ratios_wrong",
    "Verif.Pipe.Alias.single_stale",
    "Verif.Pipe.Alias.single_wrong",
    "Verif.Pipe.Alias.val_content"
   ],
   "note": "Proved for several U-tubes and programs that never modify an array of ratios they passed before (flow rates, heat capacities and lists of ratios may be modified). Violated otherwise: the pipe keeps the array of ratios itself, compares it with itself and returns the coefficients of the old ratios (ratios_stale, single_stale), which are wrong for all wall temperatures that are not uniform (ratios_wrong, single_wrong)."
  },
  {
   "property": "C119",
   "status": "proved",
   "theorems": [
    "Verif.FLS.exp1_accurate",
    "Verif.FLS.exp1_strictAnti",
    "Verif.FLS.approx_accurate",
    "Verif.FLS.Incl.approx_accurate_inclined"
   ],
   "note": "the quotient of the derivatives of exp1 and E1 is within 1/400 of 1: for x between 2^-10 and 2^10 by a checker in integer interval arithmetic proved sound for all real arguments and evaluated by the kernel, at the ends by inequalities"
  },
  {
   "property": "C12",
   "status": "proved",
   "theorems": [
    "Verif.Bore.segments_tile",
    "Verif.Bore.uniformRatios_sum",
    "Verif.Bore.head_toe_distance",
    "Verif.Bore.midpoints_spec"
   ],
   "note": "All boreholes as built by the constructor, any tilt, any ratio vector with sum one."
  },
  {
   "property": "C120",
   "status": "proved",
   "theorems": [
    "Verif.Gf.uniform_approx_values",
    "Verif.Gf.uniform_approx_discretization",
    "Verif.Gf.field_approx_error",
    "Verif.Gf.uniform_approx_error",
    "Verif.Gf.span_identical"
   ],
   "note": "Exact arithmetic; nFLS = 25 is accepted and raises (C52)."
  },
  {
   "property": "C121",
   "status": "proved",
   "theorems": [
    "Verif.LoadAgg.Rnd.grid_terminates",
    "Verif.LoadAgg.Rnd.grid_error",
    "Verif.LoadAgg.Rnd.cells_error",
    "Verif.LoadAgg.Rnd.aggregation_error",
    "Verif.LoadAgg.Rnd.aggregation_binary64",
    "Verif.Num.binary64_rounding",
    "Verif.Num.Eval.error"
   ],
   "note": "Floating-point operations are modelled as the exact operation followed by a rounding with relative error u and underflow error eta; rounding to binary64 (nearest, ties to even, gradual underflow) is defined and proved to be one. No overflow. The exact result is that of CJModel with the exact grid of the same number of cells and the same response factors. Hypotheses: 1000*c*u <= 1, 16*M*u <= 1, 100*c*u*N <= 1, 2*eta <= u*dt, 2*eta <= u."
  },
  {
   "property": "C122",
   "status": "proved",
   "theorems": [
    "Verif.Gf.temperature_refined",
    "Verif.Gf.temperature_converges"
   ],
   "note": "Exact integration; the spacing is needed because the form is proved positive definite under it (C100). Later times over the threshold depend on the history and are not covered."
  },
  {
   "property": "C123",
   "status": "proved",
   "theorems": [
    "Verif.Bore.number_roundtrip",
    "Verif.Bore.file_roundtrip",
    "Verif.Bore.readers_agree",
    "Verif.Bore.reread",
    "Verif.Bore.blank_lines",
    "Verif.Bore.comment_ignored"
   ],
   "note": "np.savetxt with its default format %.18e and np.loadtxt are modelled down to the characters; correctly rounded conversions between decimals and binary64. No overflow, infinities, NaN or negative zero; a file without any numbers is left out of field_from_file."
  },
  {
   "property": "C124",
   "status": "proved",
   "theorems": [
    "Verif.Gf.mixed_parallel"
   ],
   "note": "Real arithmetic. Clustering assumed as in CutOk; one total flow rate; the pipes are those of the specification UTubeIn or MultipleIn (single, coaxial, several U-tubes)."
  },
  {
   "property": "C125",
   "status": "proved",
   "theorems": [
    "Verif.Gf.boreholes_added",
    "Verif.Gf.field_single",
    "Verif.Gf.boreholes_longer"
   ],
   "note": "Detailed solver, real arithmetic, exact integrals. Later times depend on the load history and are not covered; longer boreholes keep the length of their segments."
  },
  {
   "property": "C126",
   "status": "proved",
   "theorems": [
    "Verif.Gf.uniform_scale",
    "Verif.Gf.temperature_scale",
    "Verif.Gf.mixed_scale",
    "Verif.Gf.network_scale",
    "Verif.Gf.lineSource_homogeneous",
    "Verif.Gf.lineSourceApprox_homogeneous",
    "Verif.Gf.tube_scaled",
    "Verif.Gf.multiple_net_scaled",
    "Verif.Pipe.Multi.multiple_coef_scaled",
    "Verif.Gf.threshold_scale"
   ],
   "note": "detailed solver; the hypothesis on the response factors is proved for the exact and approximate solutions, vertical and inclined, the one on the pipes for single U-tubes, coaxial boreholes and several U-tubes in parallel or in series (with any eigenvalue routine that meets its contract); the equivalent and similarities solvers agree with the detailed one by C103, C105 and C124"
  },
  {
   "property": "C127",
   "status": "proved",
   "theorems": [
    "Verif.Gf.uniform_moved",
    "Verif.Gf.temperature_moved",
    "Verif.Gf.network_moved",
    "Verif.Gf.lineSource_relative",
    "Verif.Gf.lineSourceApprox_relative"
   ],
   "note": "for the models of C99, C100 and C106 with the inclined solutions of C76 and C92; tilts with 0 < |tilt| <= 1e-6 are excluded, the code drops their orientation"
  },
  {
   "property": "C128",
   "status": "proved",
   "theorems": [
    "Verif.FLS.Incl.inclined_increasing",
    "Verif.Gf.lineSource_growing",
    "Verif.Gf.uniform_growing",
    "Verif.Gf.inclined_uniform_increasing"
   ],
   "note": "exact solution (quad), detailed solver; C99 is the same claim for vertical boreholes, with the steady-state bound"
  },
  {
   "property": "C129",
   "status": "proved",
   "theorems": [
    "Verif.LoadAgg.CJ.cj_below_exact",
    "Verif.LoadAgg.CJ.cj_accuracy",
    "Verif.LoadAgg.CJ.cj_accuracy_end",
    "Verif.LoadAgg.CJ.cj_constant_load"
   ],
   "note": "exact arithmetic; the hypotheses on the response are stated at multiples of dt; cells beyond the grid are lost and accounted for"
  },
  {
   "property": "C13",
   "status": "proved",
   "theorems": [
    "Verif.Bore.find_duplicates_exact",
    "Verif.Bore.find_duplicates_nil"
   ],
   "note": "The square-root index recovery is modelled over the reals and shown exact for every n and k."
  },
  {
   "property": "C130",
   "status": "proved",
   "theorems": [
    "Verif.FLS.self_slower",
    "Verif.FLS.self_levels_off",
    "Verif.FLS.borehole_accuracy"
   ],
   "note": "The factor between the slopes of the finite and of the infinite line source is a Laplace-type integral, hence decreasing and convex in time. For the first steps, comparison with a linear factor and a numerical inequality for the exponential integral. Exact quadrature is assumed."
  },
  {
   "property": "C131",
   "status": "proved",
   "theorems": [
    "Verif.FLS.near_infinite_line",
    "Verif.FLS.near_logarithm"
   ],
   "note": "E1 is the exponential integral as an improper integral; the numerical constants 3 and 2 are the best possible as t tends to zero for D = 0 (not proved). Exact quadrature is assumed."
  },
  {
   "property": "C132",
   "status": "proved",
   "theorems": [
    "Verif.FLS.settles"
   ],
   "note": "The vertical part of the integrand is bounded by a Fourier integral with the fourth moment of the Gaussian. Exact quadrature is assumed."
  },
  {
   "property": "C133",
   "status": "proved",
   "theorems": [
    "Verif.Gf.field_early",
    "Verif.Gf.field_late",
    "Verif.Gf.uniform_limits"
   ],
   "note": "For the boundary condition UHTR with the detailed solver; C102 carries it over to the other solvers. Exact quadrature is assumed."
  },
  {
   "property": "C134",
   "status": "proved",
   "theorems": [
    "Verif.Pipe.UTube.effective_eta",
    "Verif.Pipe.UTube.effective_bounds",
    "Verif.Pipe.UTube.effective_flow",
    "Verif.Pipe.UTube.heat_flow",
    "Verif.Pipe.UTube.outlet_flow",
    "Verif.Pipe.UTube.length_flow"
   ],
   "note": "Single U-tubes and coaxial boreholes; temperatures and heat extraction rates at a uniform wall temperature. Negative flow rates are included when the object reverses the flow (see C41 for the other case)."
  },
  {
   "property": "C135",
   "status": "proved",
   "theorems": [
    "Verif.Sol.ubwt_stable",
    "Verif.Sol.ubwt_stable_uniform",
    "Verif.Gf.temperature_approx_error"
   ],
   "note": "The time-average statement needs a uniform time grid (then the solver's interpolation and history reconstruction are exact); on other grids the theorem covers the first value and the values under the threshold. Non-negative rates are a hypothesis of the relative bounds; the identity and the bound with absolute rates hold without it."
  },
  {
   "property": "C136",
   "status": "partial",
   "theorems": [
    "Verif.Sol.inclined_kind_partial",
    "Verif.Sol.inclined_kind_never_alike",
    "Verif.Sol.inclined_kind_differ"
   ],
   "note": "Violated: the relative orientations are compared with '>' instead of '<', so pairs with the same orientations (a pair and itself) are never similar (inclined_kind_never_alike) and boreholes that lean towards each other are similar to boreholes that lean away from each other although the solutions differ (inclined_kind_differ). The solvers of the package call these methods with both kinds of sources only, which use another comparison (C83). inclined_kind_partial: the compared quantities, with the comparison turned round and the angle between the boreholes added, determine the solution."
  },
  {
   "property": "C137",
   "status": "proved",
   "theorems": [
    "Verif.Sol.kind_no_effect",
    "Verif.Sol.kind_uniform_grid",
    "Verif.Sol.kind_uhtr",
    "Verif.Sol.kind_first_values",
    "Verif.Sol.kind_one_source",
    "Verif.Sol.kind_matters",
    "Verif.Sol.kind_raises",
    "Verif.Sol.solve_linear",
    "Verif.Sol.through_linear",
    "Verif.Sol.through_previous",
    "Verif.Sol.through_next",
    "Verif.Sol.needing_raises"
   ],
   "note": "The interpolations of scipy are a contract (they give back their data, and raise for too few points); 'linear', 'previous' and 'next' are written out and shown to meet it."
  },
  {
   "property": "C138",
   "status": "proved",
   "theorems": [
    "Verif.Util.cardinal_returns",
    "Verif.Util.cardinal_heading",
    "Verif.Util.cardinal_opposite",
    "Verif.Util.borehole_goes",
    "Verif.Util.cardinal_spelled"
   ],
   "note": "Strings of ASCII characters (Python maps a few other letters to ASCII capitals)."
  },
  {
   "property": "C139",
   "status": "partial",
   "theorems": [
    "Verif.Gf.many_average_partial",
    "Verif.Gf.many_diagonal",
    "Verif.Gf.many_same_partial",
    "Verif.Gf.many_between_partial",
    "Verif.Gf.many_returns",
    "Verif.Gf.many_raises",
    "Verif.Gf.mixed_network_mean_fails"
   ],
   "note": "Holds when all times are over the threshold and the outlets carry the flow rates in the order of the circuits. Under the threshold the evaluation raises with two or more flow rates (many_raises; see C79 for the case with as many flow rates as times), and with outlets in another order the value is not the average (mixed_network_mean_fails, see C35)."
  },
  {
   "property": "C14",
   "status": "proved",
   "theorems": [
    "Verif.Bore.remove_duplicates_spec",
    "Verif.Bore.remove_duplicates_eq"
   ],
   "note": "All non-empty lists."
  },
  {
   "property": "C140",
   "status": "proved",
   "theorems": [
    "Verif.Gf.similarities_rows",
    "Verif.Gf.temperature_similarities_error"
   ],
   "note": "Covers the first value and the values under the threshold (the later values depend on interpolated histories). That the similarities solver returns is a hypothesis: with a coarse tolerance the matrix of merged response factors may be singular. The detailed solver is proved to return."
  },
  {
   "property": "C141",
   "status": "proved",
   "theorems": [
    "Verif.Net.network_mirrored",
    "Verif.Net.network_transposed",
    "Verif.Net.resistance_flip",
    "Verif.Net.format_flip",
    "Verif.Pipe.UTube.reciprocal",
    "Verif.Pipe.UTube.netPipe_mirrored",
    "Verif.Pipe.UTube.effective_flip",
    "Verif.Pipe.UTube.heat_symmetric",
    "Verif.Pipe.Multi.multiple_mirrored"
   ],
   "note": "Reciprocity of the two directions of flow; for Coaxial and SingleUTube only where the code takes the sign of the flow into account (reversible); the resistance of a network needs the mixing of outlets to be aligned with the flow in both directions (see the violations of the energy balance of networks)"
  },
  {
   "property": "C142",
   "status": "partial",
   "theorems": [
    "Verif.Sol.mift_mirror_first",
    "Verif.Sol.mift_mirror_uniform",
    "Verif.Gf.mixed_flip_partial",
    "Verif.Gf.mixed_flip_uniform_partial",
    "Verif.Gf.mixed_flip_fails"
   ],
   "note": "Proved for the detailed solver at the first time, under the threshold and on uniform time grids, when the mixing of the outlets is aligned with the flow; refuted by mixed_flip_fails for a network with crossed outlets and unequal flows. Uneven time grids after the first value are not covered (the reconstruction of the load history by interpolation has no reciprocity)"
  },
  {
   "property": "C143",
   "status": "proved",
   "theorems": [
    "Verif.Net.network_faster",
    "Verif.Net.network_faster_heat",
    "Verif.Net.network_faster_resistance",
    "Verif.Pipe.UTube.netPipe_faster",
    "Verif.Pipe.tubes_heat",
    "Verif.Pipe.tubes_resistance",
    "Verif.Pipe.uneven_fails"
   ],
   "note": "Single U-tubes and coaxial boreholes; the network theorems hold for every borehole model with the property Pipe.Faster. uneven_fails is the last sentence of the statement. The resistance needs flow rates of the outlets in the order of the circuits (C35 shows where the code uses another order)."
  },
  {
   "property": "C144",
   "status": "proved",
   "theorems": [
    "Verif.Gf.mixed_order",
    "Verif.Gf.series_order",
    "Verif.Sol.mift_order"
   ],
   "note": "Value at the first step and under the threshold; later steps depend on the history of the rates and are not ordered by this argument."
  },
  {
   "property": "C145",
   "status": "proved",
   "theorems": [
    "Verif.Gf.field_simulation",
    "Verif.Gf.network_simulation",
    "Verif.Gf.claesson_javed_field",
    "Verif.Gf.mlaa_field",
    "Verif.Sol.wall_step_response",
    "Verif.Sol.inlet_step_response"
   ],
   "note": "The specification (WallHistory, InletHistory, NetworkHistory) states the balance of every step with the segment responses and does not mention the solver. Uniform grids whose first time is above the short-time threshold; detailed solver."
  },
  {
   "property": "C146",
   "status": "partial",
   "theorems": [
    "Verif.Gf.repeated_time_raises",
    "Verif.Sol.ubwt_repeated_raises",
    "Verif.Gf.times_accepted",
    "Verif.Gf.early_times_partial",
    "Verif.Gf.early_network",
    "Verif.Gf.uniform_values"
   ],
   "note": "Violated: with a uniform temperature and two or more segments a repeated time above the threshold raises (singular matrix), for all solvers (repeated_time_raises). Holds with a uniform heat extraction rate for all times that do not decrease (uniform_values), and with a uniform temperature when the times above the threshold are distinct (early_times_partial); early_network is the part of the early times for networks. Repeated late times with a mixed inlet temperature are not treated: numpy divides zero by zero there, which exact arithmetic does not represent."
  },
  {
   "property": "C147",
   "status": "proved",
   "theorems": [
    "Verif.Gf.uniform_append",
    "Verif.Gf.temperature_append",
    "Verif.Gf.network_append",
    "Verif.Gf.solvers_append",
    "Verif.Sol.uhtr_append",
    "Verif.Sol.ubwt_append",
    "Verif.Sol.mift_append"
   ],
   "note": "One flow rate; kind='linear' (another kind of interpolation may use later times, see C137)."
  },
  {
   "property": "C148",
   "status": "partial",
   "theorems": [
    "Verif.Net.update_followed_partial",
    "Verif.Net.kept_after_update",
    "Verif.Pipe.stale_heat",
    "Verif.Pipe.unbalanced_after_update"
   ],
   "note": "Violated: update_thermal_resistances clears the coefficients stored by the pipe but not those stored by the network. kept_after_update: a network constructed with its operating point never follows; unbalanced_after_update: results from before and after the update are combined, and the heat balance of the network fails. update_followed_partial: operating points that were not used before the update."
  },
  {
   "property": "C149",
   "status": "partial",
   "theorems": [
    "Verif.Pipe.local_follows_pipe",
    "Verif.Pipe.effective_follows_pipe_partial",
    "Verif.Pipe.effective_falls",
    "Verif.Pipe.worse_pipe_better_borehole"
   ],
   "note": "Line source resistances (J=0). The local resistance rises by half the change of R_fp. The effective resistance rises if sinh(2 eta)/(2 eta) <= R[0,0]/R[0,1] or R[0,1] <= 0; with R[0,1] > 0 it falls for all boreholes above some length (a higher resistance of the pipes reduces the short-circuit between them). Missing: multipoles of order one or more, pipes that are not opposite."
  },
  {
   "property": "C15",
   "status": "partial",
   "theorems": [
    "Verif.Bore.removed_not_duplicate_of_kept",
    "Verif.Bore.removed_linked_to_kept_partial",
    "Verif.Bore.removed_duplicate_of_kept_partial"
   ],
   "note": "Violated by a chain of three overlapping boreholes; holds through chains, and directly when closeness is transitive."
  },
  {
   "property": "C150",
   "status": "proved",
   "theorems": [
    "Verif.Pipe.coaxial_defined",
    "Verif.Pipe.better_pipes",
    "Verif.Pipe.better_grout",
    "Verif.Pipe.coaxial_floor"
   ],
   "note": "Coaxial borehole built from its cross-section (multipole or line source resistances, delta circuit, coefficients). Off-axis pipes with multipoles of order one or more are outside of the statement."
  },
  {
   "property": "C151",
   "status": "proved",
   "theorems": [
    "Verif.Gf.equivalent_between",
    "Verif.Gf.equivalent_finer"
   ],
   "note": "Exact integration and exact distances (no merging), uniform segments. Later times over the threshold depend on the load history and are not covered."
  },
  {
   "property": "C152",
   "status": "proved",
   "theorems": [
    "Verif.Gf.equivalent_merged",
    "Verif.Gf.equivalent_rows",
    "Verif.Gf.single_returns"
   ],
   "note": "Bound between the equivalent and detailed solvers for merged distances; conditional on the equivalent solver returning (its merged system need not be symmetric), which is shown for one group with one segment and, without merging, by C151."
  },
  {
   "property": "C153",
   "status": "partial",
   "theorems": [
    "Verif.LoadAgg.cj_shape",
    "Verif.LoadAgg.cj_scalar",
    "Verif.LoadAgg.load_accepted",
    "Verif.LoadAgg.sub_lengths",
    "Verif.LoadAgg.liu_shape",
    "Verif.LoadAgg.mlaa_shape_partial",
    "Verif.LoadAgg.mlaa_column"
   ],
   "note": "Proved for ClaessonJaved and Liu, and for MLAA with one source; violated by MLAA for every other number of sources and every state (mlaa_column). load_accepted: a single load is given to all sources, other wrong lengths are refused; sub_lengths: ground temperatures of another length are refused."
  },
  {
   "property": "C154",
   "status": "partial",
   "theorems": [
    "Verif.Bore.unique_distance_rounded_partial",
    "Verif.Bore.unique_distance_unseen",
    "Verif.Bore.find_distances_rounded_partial",
    "Verif.Bore.find_distances_unseen"
   ],
   "note": "Proved for tolerances above 2^-53; violated for all positive tolerances up to 2^-53 (unique_distance_unseen, find_distances_unseen). Missing: nothing else; the mean of a group is any function of its members."
  },
  {
   "property": "C155",
   "status": "proved",
   "theorems": [
    "Verif.Bore.find_duplicates_rounded",
    "Verif.Bore.remove_duplicates_rounded"
   ],
   "note": "binary64 without overflow; the distance of scipy is modelled with a rounding after each operation."
  },
  {
   "property": "C156",
   "status": "proved",
   "theorems": [
    "Verif.LoadAgg.steps_rounded",
    "Verif.LoadAgg.steps_near",
    "Verif.LoadAgg.steps_of_product",
    "Verif.LoadAgg.steps_exact",
    "Verif.LoadAgg.liuFl_ok",
    "Verif.LoadAgg.mlaa_rounded",
    "Verif.LoadAgg.liu_rounded",
    "Verif.LoadAgg.times_rounded",
    "Verif.LoadAgg.steps_one_more"
   ],
   "note": "binary64 without overflow; the loads are real numbers (their rounding is not modelled)."
  },
  {
   "property": "C157",
   "status": "partial",
   "theorems": [
    "Verif.FLS.form_array",
    "Verif.FLS.form_number_partial",
    "Verif.FLS.form_number_fails",
    "Verif.FLS.form_infinity_partial",
    "Verif.FLS.form_infinity_self",
    "Verif.FLS.form_infinity_fails"
   ],
   "note": "Integers fail without the approximation and infinite floats other than np.inf fail with it, both proved of the model. What numpy does for each type of argument (exceptions, infinite results) is written into the model from general knowledge of numpy, unchecked: numpy is not available here. The failing forms rest on it."
  },
  {
   "property": "C158",
   "status": "partial",
   "theorems": [
    "Verif.FLS.edit_attributes",
    "Verif.FLS.edit_partial",
    "Verif.FLS.edit_segments",
    "Verif.FLS.edit_tilt_ignored",
    "Verif.FLS.edit_tilt_fails"
   ],
   "note": "Fails when a vertical borehole is inclined by assigning tilt (edit_tilt_ignored, with a numerical witness in edit_tilt_fails); assignment is not forbidden nor documented by the package."
  },
  {
   "property": "C159",
   "status": "partial",
   "theorems": [
    "Verif.Pipe.FlowForm.form_new",
    "Verif.Pipe.FlowForm.form_new_refused",
    "Verif.Pipe.FlowForm.form_history_partial",
    "Verif.Pipe.FlowForm.form_number_fails",
    "Verif.Pipe.FlowForm.form_stale_fails"
   ],
   "note": "Violated: IndependentMultipleUTube with one U-tube raises TypeError for a number, and then also for the array of this number until another flow rate is evaluated (form_number_fails); stored coefficients are compared after broadcasting, so wrong numbers of values are accepted after an evaluation with equal flow rates (form_stale_fails). Proved for new pipes and for programs with one value per inlet, for coefficients_outlet_temperature with a number as heat capacity; numpy's broadcasting and exceptions are from general knowledge."
  },
  {
   "property": "C16",
   "status": "proved",
   "theorems": [
    "Verif.Bore.borefield_new_spec",
    "Verif.Bore.borefield_roundtrip",
    "Verif.Bore.boreholes_roundtrip",
    "Verif.Bore.borefield_getItem",
    "Verif.Bore.borefield_getItems",
    "Verif.Bore.borefield_add",
    "Verif.Bore.borehole_add",
    "Verif.Bore.borefield_file_roundtrip",
    "Verif.Bore.field_from_file_agrees"
   ],
   "note": "Numbers are exact reals; the text file is modelled as its parsed columns."
  },
  {
   "property": "C160",
   "status": "proved",
   "theorems": [
    "Verif.Pipe.UTube.base_outlet",
    "Verif.Pipe.UTube.base_temp",
    "Verif.Pipe.UTube.base_heat",
    "Verif.Pipe.UPar.F4_primitive",
    "Verif.Pipe.UPar.F5_primitive"
   ],
   "note": "The general method (Multi.Bore, as for several U-tubes) applied to the general solution of SingleUTube gives the explicit formulas, for both flow directions."
  },
  {
   "property": "C161",
   "status": "proved",
   "theorems": [
    "Verif.Bore.drawList_spec",
    "Verif.Bore.draw_spec",
    "Verif.Bore.draw_same",
    "Verif.Bore.draw_length",
    "Verif.Bore.draw_segments"
   ],
   "note": "Coordinates given to plot and text; grouping into calls, styles and axes are left out."
  },
  {
   "property": "C162",
   "status": "partial",
   "theorems": [
    "Verif.Pipe.Geom.section_u_partial",
    "Verif.Pipe.Geom.section_c_partial",
    "Verif.Pipe.Geom.section_colors_fails",
    "Verif.Pipe.Geom.section_label_fails"
   ],
   "note": "Violated in two ways, with witnesses: more U-tubes than colours in the cycle raise IndexError; for coaxial pipes with the outer pipe first the label of the outer pipe is placed at (r_out[0] + r_in[1])/2, which may be outside of the annulus (exact condition proved). Proved for all other accepted U-tubes and coaxial boreholes."
  },
  {
   "property": "C163",
   "status": "partial",
   "theorems": [
    "Verif.Gf.drawn_partial",
    "Verif.Gf.drawn_pairs",
    "Verif.Gf.built_spec",
    "Verif.Gf.drawn_nothing",
    "Verif.Gf.drawn_stale",
    "Verif.Gf.drawn_stale_witness",
    "Verif.Gf.figure_scale",
    "Verif.Gf.axis_same_partial",
    "Verif.Gf.axis_fails"
   ],
   "note": "Violated in two ways, with witnesses: the times are saved before the solution, so after an evaluation that raises in the solution the figure has the new times with the old values (drawn_stale, drawn_stale_witness); with the equivalent solver the figures of rates and temperatures use the plain mean length of the equivalent boreholes, so that a time has another abscissa when lengths differ (axis_fails). Proved otherwise."
  },
  {
   "property": "C164",
   "status": "partial",
   "theorems": [
    "Verif.LoadAgg.Reuse.cj_reuse_partial",
    "Verif.LoadAgg.Reuse.ref_reuse_partial",
    "Verif.LoadAgg.Reuse.cj_second",
    "Verif.LoadAgg.Reuse.mlaa_second",
    "Verif.LoadAgg.Reuse.second_fails",
    "Verif.LoadAgg.Reuse.array_read",
    "Verif.LoadAgg.Reuse.increment_read",
    "Verif.LoadAgg.Reuse.increment_fails"
   ],
   "note": "Proved: the factors of the last initialize and all loads since the construction, when the shared arrays are not modified. Violated: initialize keeps the loads of an earlier simulation (cj_second, second_fails for the three schemes; MLAA raises after its number of steps, mlaa_second); MLAA and Liu keep the array of the caller (array_read); ClaessonJaved with several sources returns its own array (increment_read, increment_fails)."
  },
  {
   "property": "C165",
   "status": "partial",
   "theorems": [
    "Verif.Gf.late_partial",
    "Verif.Gf.late_entries",
    "Verif.Gf.late_removed",
    "Verif.Gf.late_moved",
    "Verif.Gf.late_moved_uniform",
    "Verif.Gf.late_single",
    "Verif.Gf.late_solvers_differ"
   ],
   "note": "late_partial: method 'detailed' after any assignments to attributes (UHTR and UBWT). Violated: late_removed (boreholes removed from the list of the caller: lower values, no error), late_solvers_differ (a changed radius is followed by 'similarities' and not by 'detailed'). 'similarities' is modelled for vertical boreholes, and changes of dimensions are only described for one borehole (late_single); 'equivalent', MIFT and Borefield objects are not covered."
  },
  {
   "property": "C17",
   "status": "proved",
   "theorems": [
    "Verif.Bore.rectangle_positions",
    "Verif.Bore.l_positions",
    "Verif.Bore.u_positions",
    "Verif.Bore.box_positions",
    "Verif.Bore.staggered_positions",
    "Verif.Bore.staggered_degenerate",
    "Verif.Bore.dense_spacing",
    "Verif.Bore.circle_positions"
   ],
   "note": "All builders; positions, multiplicity, count and dimensions."
  },
  {
   "property": "C18",
   "status": "proved",
   "theorems": [
    "Verif.Bore.rectangle_agree",
    "Verif.Bore.l_agree",
    "Verif.Bore.u_agree",
    "Verif.Bore.box_agree",
    "Verif.Bore.staggered_agree",
    "Verif.Bore.dense_agree",
    "Verif.Bore.circle_agree"
   ],
   "note": "Positions agree in order (box: up to order). Staggered and dense with an explicit origin."
  },
  {
   "property": "C19",
   "status": "proved",
   "theorems": [
    "Verif.Bore.unique_distance_groups",
    "Verif.Bore.unique_distance_unique",
    "Verif.Bore.find_distances_groups"
   ],
   "note": ""
  },
  {
   "property": "C20",
   "status": "proved",
   "theorems": [
    "Verif.FLS.reciprocity",
    "Verif.FLS.reciprocity_boreholes",
    "Verif.FLS.equivalent_reciprocity"
   ],
   "note": "vertical boreholes and equivalent boreholes"
  },
  {
   "property": "C21",
   "status": "proved",
   "theorems": [
    "Verif.FLS.real_plus_image",
    "Verif.FLS.equivalent_real_plus_image"
   ],
   "note": "positive distance"
  },
  {
   "property": "C22",
   "status": "partial",
   "theorems": [
    "Verif.FLS.Incl.inclined_real_plus_image_partial",
    "Verif.FLS.Incl.inclined_real_plus_image_fails"
   ],
   "note": "fails for a borehole acting on itself: the image distance is clamped to the radius with both sources but not with the image alone"
  },
  {
   "property": "C23",
   "status": "proved",
   "theorems": [
    "Verif.FLS.times_vector",
    "Verif.FLS.equivalent_times_vector",
    "Verif.FLS.Incl.inclined_times_vector"
   ],
   "note": "vertical, equivalent and inclined boreholes"
  },
  {
   "property": "C24",
   "status": "proved",
   "theorems": [
    "Verif.Sol.detailed_entries",
    "Verif.Sol.detailed_vertical",
    "Verif.Sol.detailed_reciprocity",
    "Verif.Sol.positions_cover"
   ],
   "note": "one time; line source functions as parameters (vertical case instantiated)"
  },
  {
   "property": "C25",
   "status": "partial",
   "theorems": [
    "Verif.Sol.EqIn.equivalents_partition",
    "Verif.Sol.EqIn.equivalents_sizes",
    "Verif.Sol.EqIn.equivalents_empty",
    "Verif.Sol.EqIn.equivalents_dims_partial",
    "Verif.Sol.EqIn.uniform_ordered",
    "Verif.Sol.EqIn.equivalents_interleaved"
   ],
   "note": "Every borehole is in exactly one equivalent borehole. Same dimensions and total length are proved when boreholes are listed by dimensions; equivalents_interleaved shows they are false otherwise (labels computed per group are zipped with the boreholes in field order). The scipy clustering is a contract (CutOk)."
  },
  {
   "property": "C26",
   "status": "proved",
   "theorems": [
    "Verif.Sol.Sim.groups_partition",
    "Verif.Sol.Sim.groups_similar",
    "Verif.Sol.Sim.distance_close"
   ],
   "note": "Groups of _find_axial_borehole_pairs are a partition of the boreholes and of the unordered pairs; every member is similar to the head of its group; every distance of a group is mapped to the mean of distances within the tolerance."
  },
  {
   "property": "C27",
   "status": "partial",
   "theorems": [
    "Verif.Sol.Sim.factors_entries",
    "Verif.Sol.Sim.similarities_near",
    "Verif.Sol.Sim.similarities_exact",
    "Verif.Sol.Sim.similarities_error",
    "Verif.Sol.Sim.similarities_eq_detailed",
    "Verif.Sol.Sim.similarities_near_detailed",
    "Verif.Sol.Sim.similarities_uniform_partial",
    "Verif.Sol.Sim.similarities_uniform_error",
    "Verif.Sol.Sim.similarities_mixed_partial",
    "Verif.Sol.Sim.similarities_mixed_error_partial",
    "Verif.Sol.Sim.similarities_reversed_depths",
    "Verif.Sol.Sim.similarities_wrong_factor",
    "Verif.FLS.offset_decreasing"
   ],
   "note": "Proved for fields of vertical boreholes of one radius with any lengths, depths and segments whose dimensions are equal or differ by at least the tolerances and in which boreholes of the same length have the same depth: the response factors are those of the detailed solver, with an error of at most -log(1 - disTol) when distances are merged. Violated by the code for boreholes of equal length at different depths: a group of pairs contains the reversed depths, whose segments get the factor of other depths (negation proved)."
  },
  {
   "property": "C28",
   "status": "partial",
   "theorems": [
    "Verif.Sol.Sim.inclined_groups_partial",
    "Verif.Sol.Sim.single_inclined"
   ],
   "note": "Violated by the code for a single inclined borehole (boreholes[0].is_vertical is not called): it is evaluated as vertical. Proved for all other fields."
  },
  {
   "property": "C29",
   "status": "proved",
   "theorems": [
    "Verif.Sol.reconstruct_heat",
    "Verif.Sol.reconstruct_mean",
    "Verif.Sol.reconstruct_const",
    "Verif.Sol.reconstruct_uniform",
    "Verif.Sol.reconstruct_symmetric"
   ],
   "note": "total heat and mean preserved for increasing times; constant loads and uniform (or symmetric) grids reproduced"
  },
  {
   "property": "C30",
   "status": "proved",
   "theorems": [
    "Verif.Sol.ubwt_mean_one",
    "Verif.Sol.ubwt_first",
    "Verif.Sol.ubwt_returns",
    "Verif.Sol.mift_mean_one",
    "Verif.Sol.mift_returns",
    "Verif.Sol.uhtr_average",
    "Verif.Sol.default_threshold"
   ],
   "note": "np.linalg.solve modelled as exact solution, exception iff singular; response factors arbitrary"
  },
  {
   "property": "C31",
   "status": "partial",
   "theorems": [
    "Verif.Sol.setup_consistent_partial",
    "Verif.Sol.setup_int_lengths",
    "Verif.Sol.setup_drops_boreholes",
    "Verif.Sol.setup_accepts"
   ],
   "note": "violated by the code for lists of another length (the check compares the list to itself)"
  },
  {
   "property": "C32",
   "status": "proved",
   "theorems": [
    "Verif.Net.construct_terminates",
    "Verif.Net.construct_accepts_iff",
    "Verif.Net.construct_default"
   ],
   "note": "construct accepts a connectivity list iff every borehole is traced upstream to an inlet, without branching; never loops"
  },
  {
   "property": "C33",
   "status": "proved",
   "theorems": [
    "Verif.Net.circuits_decompose"
   ],
   "note": "circuits partition the boreholes"
  },
  {
   "property": "C34",
   "status": "proved",
   "theorems": [
    "Verif.Net.network_temperatures",
    "Verif.Net.network_borehole_heat",
    "Verif.Net.network_inlet_roundtrip"
   ],
   "note": "for arbitrary borehole models"
  },
  {
   "property": "C35",
   "status": "partial",
   "theorems": [
    "Verif.Net.energy_balance_partial",
    "Verif.Net.energy_balance_total_flow",
    "Verif.Net.energy_balance_reversed",
    "Verif.Net.energy_balance_fails",
    "Verif.Net.segment_heat_balance"
   ],
   "note": "violated by crossed series circuits with unequal flow rates: energy_balance_fails"
  },
  {
   "property": "C36",
   "status": "proved",
   "theorems": [
    "Verif.Net.network_equilibrium"
   ],
   "note": "hypothesis: each borehole model respects equilibrium (proved for pipes in C38)"
  },
  {
   "property": "C37",
   "status": "partial",
   "theorems": [
    "Verif.Net.history_independent_partial",
    "Verif.Net.network_outlet_history_partial",
    "Verif.Net.history_dependent",
    "Verif.Net.network_history_partial",
    "Verif.Net.network_outlet_mixed_partial"
   ],
   "note": "violated: network outlet coefficients use the mixing weights of the last formatted flow rate"
  },
  {
   "property": "C38",
   "status": "proved",
   "theorems": [
    "Verif.Pipe.UPar.outlet_convex",
    "Verif.Pipe.UPar.outlet_between",
    "Verif.Pipe.UTube.par_passive",
    "Verif.Pipe.UTube.coaxial_valid"
   ],
   "note": "Passive circuits (also a negative pipe to pipe resistance for the sum and the wall weights); the inlet weight is non-negative for a non-negative pipe to pipe conductance. Covers coaxial boreholes through coaxial_valid."
  },
  {
   "property": "C39",
   "status": "proved",
   "theorems": [
    "Verif.Pipe.UPar.profile_solves",
    "Verif.Pipe.UPar.profile_unique"
   ],
   "note": "Differential equation on every open segment, continuity, inlet, bottom and outlet conditions; and uniqueness of the profile."
  },
  {
   "property": "C40",
   "status": "proved",
   "theorems": [
    "Verif.Pipe.UTube.energy_balance",
    "Verif.Pipe.UTube.segment_heat_integral",
    "Verif.Pipe.UTube.inlet_roundtrip",
    "Verif.Pipe.UTube.network_segment_balance",
    "Verif.Pipe.Multi.multiple_energy_balance",
    "Verif.Pipe.Multi.independent_profile",
    "Verif.Pipe.Multi.multiple_network"
   ],
   "note": "All pipe classes with reversible flow or positive flow rate. np.linalg.eig and np.linalg.inv enter by their contract, whose decomposition exists (eig_exists)."
  },
  {
   "property": "C41",
   "status": "partial",
   "theorems": [
    "Verif.Pipe.UTube.irreversible_partial",
    "Verif.Pipe.UTube.irreversible_sign",
    "Verif.Pipe.UTube.irreversible_fails",
    "Verif.Pipe.Multi.multiple_irreversible_partial"
   ],
   "note": "Violated: with reversible_flow=False and a negative flow rate the segment heat extraction rates have the wrong sign, for single and multiple U-tubes. For single U-tubes the other results are even in the flow rate."
  },
  {
   "property": "C42",
   "status": "partial",
   "theorems": [
    "Verif.Pipe.Cache.history_coefficients_partial",
    "Verif.Pipe.Cache.history_temperature_partial",
    "Verif.Pipe.Cache.history_temperature_fails",
    "Verif.Pipe.Cache.history_inlet_heat_partial",
    "Verif.Pipe.MultiCache.multiple_history_partial",
    "Verif.Pipe.MultiCache.independent_history_partial",
    "Verif.Pipe.MultiCache.multiple_history_profile_partial",
    "Verif.Pipe.MultiCache.tubes_like_new"
   ],
   "note": "Coefficients are history independent when stored arguments are either equal or apart beyond the lookup tolerance. Temperatures of a single U-tube or coaxial pipe need in addition a flow direction that does not change (violation with alternating flow direction proved with a witness); several U-tubes in parallel, in series or independent return them right after any history."
  },
  {
   "property": "C43",
   "status": "proved",
   "theorems": [
    "Verif.Pipe.Geom.checkU_iff",
    "Verif.Pipe.Geom.checkU_message"
   ],
   "note": "Accepted if and only if physical; messages name an offending pipe or pair."
  },
  {
   "property": "C44",
   "status": "partial",
   "theorems": [
    "Verif.Pipe.Geom.checkC_complete",
    "Verif.Pipe.Geom.checkC_partial",
    "Verif.Pipe.Geom.checkC_guarded_partial",
    "Verif.Pipe.Geom.checkC_fails"
   ],
   "note": "The check accepts outer pipes outside of the borehole, negative resistances and negative radii (witnesses). Complete; sound under explicit guards."
  },
  {
   "property": "C45",
   "status": "proved",
   "theorems": [
    "Verif.Pipe.Pole.delta_equivalent",
    "Verif.Pipe.Pole.delta_defined",
    "Verif.Pipe.Pole.local_resistance"
   ],
   "note": "Delta-circuit of thermal resistances computed from the resistance matrix carries the same flows; local borehole resistance equals the resistance seen by equal fluid temperatures."
  },
  {
   "property": "C46",
   "status": "proved",
   "theorems": [
    "Verif.Pipe.Pole.line_source",
    "Verif.Pipe.Pole.line_symm"
   ],
   "note": "J=0 (line source) branch equals the general multipole method at order zero, and is symmetric."
  },
  {
   "property": "C47",
   "status": "partial",
   "theorems": [
    "Verif.Pipe.Memo.memo_partial",
    "Verif.Pipe.Memo.memo_stale_pos",
    "Verif.Pipe.Memo.memo_stale_out"
   ],
   "note": "Violated: the memo keeps references, so a position list or a returned array modified in place yields stale or corrupted values (memo_stale_pos, memo_stale_out).  Proved for programs that modify no object they passed to, or got from, the function."
  },
  {
   "property": "C48",
   "status": "proved",
   "theorems": [
    "Verif.Pipe.Conv.circular_even",
    "Verif.Pipe.Conv.annulus_even",
    "Verif.Pipe.Conv.circular_smooth",
    "Verif.Pipe.Conv.annulus_smooth"
   ],
   "note": "Prandtl number at least one, roughness at most the radius (the gap, for an annulus).  The Colebrook iteration has a relative tolerance of 1e-6, so the coefficient is within 3e-6 (relative) of a continuous positive function of the flow rate."
  },
  {
   "property": "C49",
   "status": "partial",
   "theorems": [
    "Verif.Pipe.Conv.annulus_friction_fails",
    "Verif.Pipe.Conv.annulus_friction_partial"
   ],
   "note": "Violated: the friction factor is taken at (r_o+r_i)/(r_o-r_i) times the Reynolds number of the annulus; the exact friction factor is always underestimated."
  },
  {
   "property": "C50",
   "status": "partial",
   "theorems": [
    "Verif.Gf.construct_uses_arguments",
    "Verif.Gf.construct_flow_sets",
    "Verif.Gf.uniform_functions",
    "Verif.Gf.from_params_connectivity",
    "Verif.Gf.from_params_cp",
    "Verif.Gf.from_params_not_used",
    "Verif.Gf.from_params_partial",
    "Verif.Gf.mixed_inlet_not_used",
    "Verif.Gf.mixed_inlet_partial",
    "Verif.Gf.equal_inlet_uses",
    "Verif.Gf.equal_inlet_numpy"
   ],
   "note": "gFunction itself uses its arguments (construct_uses_arguments, construct_flow_sets), and so do uniform_heat_extraction and uniform_temperature (uniform_functions). Violated: from_static_params uses the heat capacity at 20 C whatever the fluid temperature (from_params_cp, from_params_not_used), mixed_inlet_temperature ignores its mass flow rate and heat capacity (mixed_inlet_not_used). Holds under the conditions of the _partial theorems."
  },
  {
   "property": "C51",
   "status": "proved",
   "theorems": [
    "Verif.Gf.construct_valid",
    "Verif.Gf.from_params_case",
    "Verif.Gf.times_spec"
   ],
   "note": "Model of the argument logic of gFunction and of the checks of the solvers; type checks of options other than the segments are not modelled."
  },
  {
   "property": "C52",
   "status": "partial",
   "theorems": [
    "Verif.FLS.terms_usable_partial",
    "Verif.FLS.terms_25_raise"
   ],
   "note": "Every number of terms from 1 to 24 is usable; 25 is accepted by the argument check but reading the coefficients raises an IndexError (terms_25_raise), so the claim fails at 25; a request for N terms uses N+1 exponentials and a constant."
  },
  {
   "property": "C53",
   "status": "proved",
   "theorems": [
    "Verif.Net.equivalent_mass_flow",
    "Verif.Net.equivalent_network_exact",
    "Verif.Net.equivalent_length"
   ],
   "note": "scalar flow rates"
  },
  {
   "property": "C54",
   "status": "proved",
   "theorems": [
    "Verif.Net.reversed_flow"
   ],
   "note": ""
  },
  {
   "property": "C55",
   "status": "partial",
   "theorems": [
    "Verif.Bore.borefield_eq_not_symmetric",
    "Verif.Bore.borefield_eq_refl_partial",
    "Verif.Bore.borefield_eq_of_list_partial"
   ],
   "note": "Violated: np.allclose is asymmetric. Reflexivity and equality of rebuilt fields are proved."
  },
  {
   "property": "C56",
   "status": "proved",
   "theorems": [
    "Verif.Bore.grid_leans_out",
    "Verif.Bore.circle_leans_out",
    "Verif.Bore.staggered_leans_out",
    "Verif.Bore.staggered_default_leans_out"
   ],
   "note": "All builders; dense fields are staggered fields. The default origin of staggered fields is the centre of the rectangle that contains all boreholes."
  },
  {
   "property": "C57",
   "status": "partial",
   "theorems": [
    "Verif.Bore.builders_identical_partial",
    "Verif.Bore.l_agree",
    "Verif.Bore.u_agree",
    "Verif.Bore.box_agree",
    "Verif.Bore.circle_agree",
    "Verif.Bore.rectangle_tie_differs",
    "Verif.Bore.staggered_default_origin_differs",
    "Verif.Bore.old_staggered_origin"
   ],
   "note": "Violated at ties and for the default staggered origin (the deprecated function exchanges the formulas of the two cases and never takes the centre); identical otherwise."
  },
  {
   "property": "C58",
   "status": "proved",
   "theorems": [
    "Verif.Net.network_resistance_spec",
    "Verif.Net.network_resistance"
   ],
   "note": ""
  },
  {
   "property": "C59",
   "status": "proved",
   "theorems": [
    "Verif.Bore.distance_spec",
    "Verif.Bore.distance_self",
    "Verif.Bore.distance_symm",
    "Verif.Bore.distance_not_symm"
   ],
   "note": ""
  },
  {
   "property": "C60",
   "status": "proved",
   "theorems": [
    "Verif.Pipe.UTube.effective_resistance",
    "Verif.Pipe.UTube.effective_ge_local"
   ],
   "note": ""
  },
  {
   "property": "C61",
   "status": "proved",
   "theorems": [
    "Verif.Pipe.Multi.multiple_profile",
    "Verif.Pipe.Multi.multiple_equilibrium",
    "Verif.Pipe.Multi.independent_profile",
    "Verif.Pipe.Multi.eig_exists"
   ],
   "note": "np.linalg.eig and np.linalg.inv enter by their contract; eig_exists proves that it can be met for every physical circuit."
  },
  {
   "property": "C62",
   "status": "proved",
   "theorems": [
    "Verif.Pipe.Multi.multiple_one"
   ],
   "note": ""
  },
  {
   "property": "C63",
   "status": "proved",
   "theorems": [
    "Verif.Pipe.Pole.wall_mean"
   ],
   "note": "Real analysis over the complex plane; exact arithmetic."
  },
  {
   "property": "C64",
   "status": "proved",
   "theorems": [
    "Verif.Pipe.Pole.fluid_mean"
   ],
   "note": "Exact arithmetic."
  },
  {
   "property": "C65",
   "status": "proved",
   "theorems": [
    "Verif.Pipe.Pole.field_continuous",
    "Verif.Pipe.Pole.wall_flux"
   ],
   "note": "Exact arithmetic."
  },
  {
   "property": "C66",
   "status": "proved",
   "theorems": [
    "Verif.Pipe.Pole.multipole_similar",
    "Verif.Pipe.Pole.resist_similar"
   ],
   "note": "Exact arithmetic."
  },
  {
   "property": "C67",
   "status": "proved",
   "theorems": [
    "Verif.Pipe.Pole.pipe_heat",
    "Verif.Pipe.Pole.pipe_wall",
    "Verif.Pipe.Pole.pipe_wall_converged"
   ],
   "note": "Exact arithmetic. The residual identity holds for the multipoles the loop ended with, converged or not."
  },
  {
   "property": "C68",
   "status": "proved",
   "theorems": [
    "Verif.Pipe.Conv.friction_colebrook"
   ],
   "note": "Roughness at most the radius; in exact arithmetic."
  },
  {
   "property": "C69",
   "status": "proved",
   "theorems": [
    "Verif.Pipe.Conv.fluid_to_pipe_utube",
    "Verif.Pipe.Conv.fluid_coaxial",
    "Verif.Pipe.Conv.fluid_to_fluid_error",
    "Verif.Pipe.Conv.conduction_series"
   ],
   "note": "Prandtl number at least one, roughness at most the radius (the gap, for an annulus)."
  },
  {
   "property": "C70",
   "status": "partial",
   "theorems": [
    "Verif.Pipe.Pole.stop_partial",
    "Verif.Pipe.Pole.stop_fails"
   ],
   "note": "violated: the error is max-min of the changes, zero for symmetric pipes with order 1, so the iteration stops after one pass (stop_fails); stop_partial states the rule the code implements"
  },
  {
   "property": "C71",
   "status": "proved",
   "theorems": [
    "Verif.FLS.line_of_points",
    "Verif.FLS.pointSource_heat",
    "Verif.FLS.line_of_points_boreholes"
   ],
   "note": "vertical boreholes; quad is the exact integral"
  },
  {
   "property": "C72",
   "status": "proved",
   "theorems": [
    "Verif.FLS.positive_increasing",
    "Verif.FLS.tends_to_steady",
    "Verif.FLS.lt_steady"
   ],
   "note": "vertical boreholes"
  },
  {
   "property": "C73",
   "status": "proved",
   "theorems": [
    "Verif.FLS.source_segments",
    "Verif.FLS.receiver_segments"
   ],
   "note": "vertical boreholes"
  },
  {
   "property": "C74",
   "status": "proved",
   "theorems": [
    "Verif.Pipe.Pole.resist_superposition",
    "Verif.Pipe.Pole.resist_zero",
    "Verif.Pipe.Pole.resist_passes"
   ],
   "note": "converged means that one more pass does not change the multipoles"
  },
  {
   "property": "C75",
   "status": "proved",
   "theorems": [
    "Verif.FLS.equivalent_sum",
    "Verif.FLS.decreasing",
    "Verif.FLS.equivalent_accuracy"
   ],
   "note": "vertical boreholes"
  },
  {
   "property": "C76",
   "status": "proved",
   "theorems": [
    "Verif.FLS.Incl.inclined_points"
   ],
   "note": "arbitrary nodes and weights; nodes not on the receiver"
  },
  {
   "property": "C77",
   "status": "partial",
   "theorems": [
    "Verif.FLS.Incl.inclined_tends_to_steady_partial",
    "Verif.FLS.Incl.inclined_tends_to_steady_fails"
   ],
   "note": "fails with both sources when the heads are closer than the radius of the source"
  },
  {
   "property": "C78",
   "status": "proved",
   "theorems": [
    "Verif.Sol.superpose_duhamel",
    "Verif.Sol.superpose_uniform"
   ],
   "note": ""
  },
  {
   "property": "C79",
   "status": "partial",
   "theorems": [
    "Verif.Sol.linearizeMany_partial",
    "Verif.Sol.linearizeMany_raises",
    "Verif.Sol.linearizeMany_fails"
   ],
   "note": "violated by the code for two or more flow rates (numpy broadcasting); holds for one"
  },
  {
   "property": "C80",
   "status": "proved",
   "theorems": [
    "Verif.Sol.ubwt_symmetric_rates",
    "Verif.Sol.ubwt_symmetric",
    "Verif.Sol.uhtr_average"
   ],
   "note": ""
  },
  {
   "property": "C81",
   "status": "proved",
   "theorems": [
    "Verif.Sol.ubwt_superposition",
    "Verif.Sol.mift_superposition"
   ],
   "note": ""
  },
  {
   "property": "C82",
   "status": "proved",
   "theorems": [
    "Verif.Sol.mift_balance",
    "Verif.Sol.mift_effective",
    "Verif.Sol.mift_cross"
   ],
   "note": ""
  },
  {
   "property": "C83",
   "status": "partial",
   "theorems": [
    "Verif.Sol.inclined_similar_partial",
    "Verif.Sol.inclined_similar_differ",
    "Verif.FLS.Incl.fan_smaller",
    "Verif.FLS.Incl.farther_smaller"
   ],
   "note": "Violated by the code: the angle between the two boreholes is not compared. Proved when it is equal too."
  },
  {
   "property": "C84",
   "status": "partial",
   "theorems": [
    "Verif.Sol.Sim.inclined_indices_partial",
    "Verif.Sol.Sim.inclined_index_out_of_range"
   ],
   "note": "Violated by the code when a group has similar pairs of segments (horizontal boreholes): the offset counts all pairs instead of the unique ones. Proved when all pairs of segments of every group differ."
  },
  {
   "property": "C85",
   "status": "proved",
   "theorems": [
    "Verif.Sol.nearest_closest",
    "Verif.Sol.weights_total",
    "Verif.Sol.distances_close"
   ],
   "note": "Distances, nearest-distance search and weights of the equivalent solver; the list of representative distances has the tolerance of unique_distance for any field."
  },
  {
   "property": "C86",
   "status": "proved",
   "theorems": [
    "Verif.Sol.EqSol.equivalent_exact",
    "Verif.Sol.EqSol.equivalent_error",
    "Verif.Sol.EqIn.equivalent_uniform",
    "Verif.Sol.EqIn.equivalent_total"
   ],
   "note": "equivalent_exact, equivalent_error: any equivalent boreholes whose similarities are exact apart from the distances. equivalent_uniform, equivalent_total: end to end for identical boreholes with uniform segments, error bound and exact case. Trusted: clustering routine contract CutOk."
  },
  {
   "property": "C87",
   "status": "partial",
   "theorems": [
    "Verif.Gf.equal_flows_raise",
    "Verif.Gf.equivalent_borehole_flows",
    "Verif.Gf.equivalent_network_flow_partial"
   ],
   "note": "Violated: the check of the equivalent solver reads an attribute that is assigned later, so every array of borehole mass flow rates raises (equal_flows_raise). A scalar network flow rate is accepted (equivalent_network_flow_partial)."
  },
  {
   "property": "C88",
   "status": "proved",
   "theorems": [
    "Verif.Gf.equivalent_replaced"
   ],
   "note": "Flow rates of one dimension; two-dimensional arrays compare the sets of flow rates instead of the boreholes."
  },
  {
   "property": "C89",
   "status": "proved",
   "theorems": [
    "Verif.FLS.approx_error",
    "Verif.FLS.coefficients_sound",
    "Verif.FLS.approx_close"
   ],
   "note": "Errors of the sum of exponentials and of the formula are parameters of the bound; C112 bounds the former by numbers; an example in InclApproxProps instantiates them unconditionally."
  },
  {
   "property": "C90",
   "status": "proved",
   "theorems": [
    "Verif.FLS.approx_reciprocity",
    "Verif.FLS.approx_superposition"
   ],
   "note": ""
  },
  {
   "property": "C91",
   "status": "proved",
   "theorems": [
    "Verif.FLS.exp1_pos",
    "Verif.FLS.exp1_le",
    "Verif.FLS.exp1_atTop",
    "Verif.FLS.exp1_nhds_zero"
   ],
   "note": ""
  },
  {
   "property": "C92",
   "status": "proved",
   "theorems": [
    "Verif.FLS.Incl.approx_error_inclined",
    "Verif.FLS.Incl.approx_close_inclined"
   ],
   "note": "Boreholes closer than the radius (same borehole) are excluded: there the approximation limits another distance than the exact integrand does."
  },
  {
   "property": "C93",
   "status": "proved",
   "theorems": [
    "Verif.Gf.drawn_rates_ubwt",
    "Verif.Gf.drawn_rates_mift",
    "Verif.Gf.drawn_rates_uhtr",
    "Verif.Gf.drawn_rates_flows",
    "Verif.Gf.drawn_temperatures_uhtr",
    "Verif.Gf.drawn_temperatures_ubwt",
    "Verif.Gf.profile_average",
    "Verif.Gf.divided_of_segments"
   ],
   "note": "The lengths of the sources are those of the segments (divided_of_segments)."
  },
  {
   "property": "C94",
   "status": "partial",
   "theorems": [
    "Verif.Gf.profile_depths_partial",
    "Verif.Gf.profile_depths_inclined"
   ],
   "note": "Violated for inclined boreholes: the depths are distances along the borehole, deeper than the middles of the segments (profile_depths_inclined). Holds for vertical boreholes (profile_depths_partial)."
  },
  {
   "property": "C95",
   "status": "partial",
   "theorems": [
    "Verif.Gf.profiles_drawn_partial",
    "Verif.Gf.several_flows_last_partial",
    "Verif.Gf.uniform_temperature_profile_raises",
    "Verif.Gf.several_flows_at_time_wrong",
    "Verif.Gf.several_flows_temperature_raises"
   ],
   "note": "Violated: temperature profiles for the uniform temperature call np.asscalar, removed from numpy before the oldest supported version (uniform_temperature_profile_raises); with several mass flow rates and a given time the wrong axis is sliced (several_flows_at_time_wrong) or the call raises (several_flows_temperature_raises). Holds for one mass flow rate (profiles_drawn_partial) and for several at the last time (several_flows_last_partial)."
  },
  {
   "property": "C96",
   "status": "proved",
   "theorems": [
    "Verif.LoadAgg.averaged_error",
    "Verif.LoadAgg.averaged_error_decreasing",
    "Verif.LoadAgg.MLAA.mlaa_error",
    "Verif.LoadAgg.MLAA.mlaa_error_decreasing",
    "Verif.LoadAgg.Liu.liu_error",
    "Verif.LoadAgg.Liu.liu_error_decreasing"
   ],
   "note": "Exact real arithmetic; bounds for all loads within [lo, hi]."
  },
  {
   "property": "C97",
   "status": "proved",
   "theorems": [
    "Verif.LoadAgg.times_for_simulation",
    "Verif.LoadAgg.mlaa_simulation",
    "Verif.LoadAgg.mlaa_simulation_end",
    "Verif.LoadAgg.liu_simulation",
    "Verif.LoadAgg.CJ.increments_sum",
    "Verif.LoadAgg.CJ.cj_exact_proportional",
    "Verif.LoadAgg.CJ.cj_temperature_bounded"
   ],
   "note": "Exact arithmetic; Liu with waiting periods >= 1."
  },
  {
   "property": "C98",
   "status": "partial",
   "theorems": [
    "Verif.Media.fluid_names",
    "Verif.Media.fluid_case",
    "Verif.Media.fluid_properties",
    "Verif.Media.fluid_temperature_partial",
    "Verif.Media.fluid_stale",
    "Verif.Media.append_to_dict_raises",
    "Verif.Media.append_to_dict_left",
    "Verif.Media.append_to_dict_again",
    "Verif.Media.fluid_spelled"
   ],
   "note": "Names, fractions and new fluids proved. False parts with witnesses: kinematic_viscosity() and volumetric_heat_capacity() return values at the old temperature after T_C is changed; append_to_dict raises for every fluid and dictionary."
  },
  {
   "property": "C99",
   "status": "proved",
   "theorems": [
    "Verif.Gf.uniform_field",
    "Verif.Gf.uniform_discretization",
    "Verif.Gf.field_increasing",
    "Verif.Gf.uniform_increasing",
    "Verif.Gf.field_perm",
    "Verif.Gf.field_displaced",
    "Verif.Gf.field_spread",
    "Verif.Gf.field_bounds",
    "Verif.Gf.field_scale"
   ],
   "note": "Composition of the models of the detailed solver, of solve and of the finite line source; exact integration instead of quad, approximate_FLS=False."
  }
 ]
}