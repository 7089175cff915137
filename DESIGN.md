# Formal model of pygfunction — design

## Scope and method

`/repo` (pygfunction, Python) is read as text.  The Lean 4 project in `lean/`
contains hand written models of the functions listed below, each definition
carrying a comment with the file and lines it models, plus theorems about those
models.  The models are shallow: a Python function becomes a Lean function with
the same branches, `raise`/`assert` become `Except`/`Option` values, a loop
becomes a fold, a structural recursion, or a fuelled recursion whose termination
is itself a theorem, and a mutable object becomes a state structure with
`step`-like functions.

Layout: one directory per area (`Bore`, `FLS`, `Gf`, `LoadAgg`, `Net`, `Pipe`, `Sol`, `Util`) and in it

* `*Model.lean`  – model definitions with source citations,
* `*Spec.lean`   – separate specifications (small ones stand in front of the theorem that uses them),
* `*Lemmas.lean` – helper lemmas,
* `*Props.lean` and the remaining files – the property theorems listed in `MANIFEST.json`,
  with `example`s showing that their hypotheses are satisfiable.

`Verif/Util/While.lean` has the big-step semantics of `while` loops (`Verif.Loop`), `Verif/Tac.lean` the common imports.

When the code violates a property, the negation is proved on a concrete witness
(theorem names containing `violated`/`not_`), and the largest true part that
could be proved is kept with suffix `_partial`.

## Trusted base

* The Lean 4.33.0 kernel and Mathlib's definitions.
* Axioms: only `propext`, `Classical.choice`, `Quot.sound` (checked by
  `#print axioms` for every theorem named in `MANIFEST.json`).
* The reading of the code: model definitions are hand translations; the cited
  lines are the only tie to the code.
* Numbers: Python/numpy floats are modelled as exact real (or ordered field)
  numbers.  Rounding, overflow, NaN and infinities are *not* modelled, except
  where a property is about them (stated explicitly in the model comment).
  C121, C123 and C154 to C156 model rounding: every operation is the exact one followed by a rounding
  (`Num/FloatModel`: IEEE 754 binary64 without overflow), sums in any order.
* External functions enter with the following contracts and nothing else:
  * `scipy.integrate.quad`, `quad_vec`: the exact integral;
  * `scipy.special.erf`, `exp1` where scipy's is meant: the mathematical function (the package's own `exp1` is modelled);
  * `np.linalg.solve`, `inv`: the exact solution for a non-singular matrix, an exception otherwise;
  * `np.linalg.eig`: any eigenvalues and invertible eigenvectors (`Eig.Of`); that they exist for physical circuits is a theorem (`eig_exists`);
  * `numpy.polynomial` roots: any list of candidates;
  * `scipy.interpolate.interp1d(kind='linear')`: exact linear interpolation, an exception out of range; for the other kinds (C137) only that the data are given back at increasing abscissae, and that too few points raise;
  * `scipy.special.roots_legendre`: any list of nodes and weights, except where a theorem names more;
  * `scipy.cluster.hierarchy` (`linkage`, `dendrogram`, `cut_tree`): any labelling that uses all of its labels, with one label for equal temperatures (`CutOk`);
  * `np.searchsorted` on sorted times; `np.allclose` with its documented tolerances;
  * `scp` fluid properties: arbitrary functions of the temperature.
* The contracts above and the behaviour of numpy (broadcasting and assignment of shapes, C153, C159; types and exceptions, C157) are written from general
  knowledge of these libraries.  None is installed here: they were neither read nor run, so a claim that the code raises or returns a non-finite value
  because of numpy (`form_number_fails`, `form_infinity_fails`) is proved of the model only and should be confirmed by running it.

### What is modelled

| source | functions | model |
|--------|-----------|-------|
| `boreholes.py` | `Borehole` | `Bore/Model`, `Bore/DistanceProps` |
| | `find_duplicates`, `remove_duplicates` | `Bore/DupModel` |
| | deprecated `*_field` functions, `field_from_file` | `Bore/BuildModel`, `Bore/FieldModel` |
| | `_EquivalentBorehole` (constructor, `distance`, `segments`, `unique_distance`) | `Bore/EquivBoreModel`, `Sol/EqModel`, `Bore/DistModel` |
| `borefield.py` | `Borefield` (constructor, indexing, comparison, addition, conversions, files), builders | `Bore/FieldModel`, `Bore/BuildModel` |
| | `visualize_field` | `Bore/DrawModel` |
| `gfunction.py` | constructor, `_format_inputs`, `_check_inputs`, `from_static_params`, deprecated functions, times of `evaluate_g_function` | `Gf/DispatchModel` |
| | `_heat_extraction_rates`, `_temperatures` and their profiles | `Gf/ProfileModel` |
| | stored times and values, `visualize_g_function` | `Gf/CurveModel` |
| `heat_transfer.py` | all functions: vertical, equivalent boreholes | `FLS/Model` |
| | inclined | `FLS/InclModel` |
| | approximations | `FLS/ApproxModel` |
| `load_aggregation.py` | `ClaessonJaved`, `MLAA`, `Liu` | `LoadAgg/*Model` |
| `media.py` | `Fluid` | `Util/FluidModel` |
| `networks.py` | construction, topology | `Net/TopoModel` |
| | all coefficient methods, `get_*` methods, `network_thermal_resistance` | `Net/FlowModel` |
| | caches | `Net/CacheModel` |
| | `_EquivalentNetwork` | `Net/EquivModel`, `Gf/EqNetModel` |
| `pipes.py` | `SingleUTube`, `Coaxial` (inherited methods) | `Pipe/UTubeModel` |
| | `MultipleUTube`, `IndependentMultipleUTube` | `Pipe/MultiModel` |
| | caches, geometry checks | `Pipe/CacheModel`, `Pipe/GeomModel` |
| | `thermal_resistances`, `multipole`, memo | `Pipe/PoleModel`, `Pipe/MemoModel` |
| | friction, convection, conduction, fluid resistances | `Pipe/ConvModel` |
| | general method against the explicit formulas of single U-tubes, `visualize_pipes` | `Pipe/UTubeGeneralModel`, `Pipe/DrawModel` |
| `solvers/_base_solver.py` | inputs, segments, `solve`, superposition, history | `Sol/DetModel`, `Sol/SolveModel`, `Sol/HistModel` |
| | interpolation of the response factors (`kind`) | `Sol/KindModel` |
| | from start to end, uniform heat extraction rate | `Gf/UniformModel` |
| | from start to end, uniform temperature or mixed inlet temperature | `Gf/TempModel` |
| | the same from the pipes and connections of a network | `Gf/NetworkModel` |
| | the same for an array of mass flow rates | `Gf/ManyModel` |
| | what is stored at construction and what is read at evaluation (`Detailed`, `Similarities`) | `Gf/LateModel` |
| `solvers/detailed.py`, `similarities.py`, `equivalent.py` | response factors, similarities, groups | `Sol/DetModel`, `Sol/SimModel`, `Sol/SimKindModel`, `Sol/EqModel` |
| `utilities.py` | `cardinal_point`, `segment_ratios`, time grids, `erfint`, `exp1`, coefficients | `Util/*Model`, `FLS/Model`, `FLS/ApproxModel` |

Each model file says at its head which lines it models and what it simplifies.

Not modelled: figures (`visualize_*` beyond the numbers they draw), warnings, timing, printing, file system errors, text formatting of numbers,
the property functions of the fluid library used by `media.Fluid`, `enums.py`, the formulas of the splines of `interp1d` (kinds other than `'linear'`, `'previous'` and `'next'` are only a contract, see C137), data types other than exact numbers (`dtype`),
and type checks of arguments where the model's argument is typed.

## Properties

Status of each property is kept in `MANIFEST.json`; below: what is modelled and how
it is proved.

| id | model | proof idea |
|----|-------|-----------|
| C01 | `ClaessonJaved` cells as lists over an ordered field, `next`, `setLoad`, runs over load lists | invariant `Σ w q = Σ loads − outflow` by induction on the history; zero outflow by support lemma |
| C02 | same, two runs in parallel | induction on history: run is linear, cells are convex combinations |
| C03 | same | in unit cells the update is a pure shift; induction |
| C04 | `MLAA` state machine with arrays as functions/lists | closed form of the state after n steps (refinement to the history) by induction |
| C05 | same + `temporal_superposition` | Abel summation against the block averaged history |
| C06 | `Liu` state machine | refinement invariant relating levels to windows of the history, induction over steps |
| C07 | same | negation by a concrete run |
| C08 | fuelled `while` loop of `time_ClaessonJaved` | closed form of widths, Archimedean termination |
| C09 | same for `time_MarcottePasquier` | same |
| C10 | `time_geometric` with the converged ratio as a parameter | geometric series monotonicity |
| C11 | `segment_ratios` with the candidate root list as a parameter | list algebra; sum/symmetry/positivity by acceptance test |
| C12 | `Borehole.segments` over ℝ | telescoping cumulative sums |
| C13 | `find_duplicates` incl. the condensed index formula over ℝ/ℕ | inverse of triangular index, floor/sqrt bounds for all n |
| C14, C15 | `remove_duplicates` | list filter facts; witness for C15 |
| C16 | `Borefield` as struct of arrays with broadcasting | extensionality over lists |
| C17, C18 | builders as lists of index pairs | counting and injectivity on grids |
| C19 | the clustering loop (fuelled) on a sorted list | loop invariant on consumed prefix |
| C20–C23 | integrands over ℝ, `quad` as an additive interval functional | algebra with `erfint` even; telescoping |
| C24 | block assignment on a matrix (function update) | loop invariant over boreholes |
| C25 | `find_groups` as list program | negation by witness; partial for a single dimension class |
| C26 | greedy grouping loop | partition invariant |
| C27 | comparison predicates and segment map | negation by witness; partial under equal-depth hypothesis |
| C28 | branch model | case analysis |
| C29 | cumulative-heat interpolation | telescoping sum |
| C30 | `solve` time loop with abstract solver satisfying the linear system | algebra |
| C31 | `_check_inputs` | negation by witness and characterisation of accepted lists |
| C32, C33 | connectivity over `List Int` with Python indexing | pigeonhole, injective functions, path induction |
| C34–C36 | matrices over a field indexed by boreholes | triangularity in circuit depth gives non-singularity; telescoping along circuits |
| C37 | cache state machine with abstract recomputation | negation by witness trace; partial invariant for single-direction histories |
| C38, C39 | closed-form coefficients over ℝ with `Real.exp` | algebra with `s²+2bs=1`, `HasDerivAt` |
| C40, C41 | heat extraction coefficients; head/bottom connectivity for n pipes | telescoping; negation by witness for C41 |
| C42 | pipe cache state machines: `SingleUTube`/`Coaxial` (own methods) and `MultipleUTube`/`IndependentMultipleUTube` (methods of `_BasePipe`, any computations) | negation by witness trace for the first; invariant: stored values are those of their arguments, and for the second the attributes of `_format_inputs`, the model variables and the outlet coefficients belong to the same flow rates |
| C43, C44 | geometry checks | soundness/completeness; negation for coaxial |
| C45, C46 | resistance matrices over ℝ/ℂ | algebra |
| C47 | memo state machine with references | no-drift invariant; aliasing witness |
| C48, C49 | Nusselt branches | continuity at the regime limits, algebra |
| C50, C51 | option dispatch | case analysis, witnesses |
| C52 | coefficient table lengths | finite table, decided completely |
| C53, C54 | equivalent network flows; reversed flows | sums; symmetry of the circuits under reversal |
| C55 | `Borefield.__eq__` with `np.allclose` | negation by witness; reflexivity |
| C56, C57 | tilted builders, old and new | sign of the inner product with the position; list equality of the builders; witnesses at ties |
| C58, C60 | effective resistances | algebra on the coefficients; comparison to the local resistance by convexity |
| C59 | `Borehole.distance` | witness for asymmetry, triangle facts |
| C61, C62 | several U-tubes as linear systems of differential equations | `HasDerivAt` of the matrix exponential in eigenvector form; existence of eigenvectors for physical circuits (symmetrizable matrices) |
| C63–C67, C70, C74 | multipole method over ℂ | Fourier coefficients on circles, mean value property, residual identities, symmetry under rotation and scaling |
| C68, C69 | Colebrook iteration, resistances by pipe type | contraction; case analysis |
| C71–C73, C75 | finite line source as an integral of point sources | Fubini, monotone and dominated convergence, derivative signs |
| C76, C77 | inclined finite line source | the same on the nodes of the quadrature; witness for the limit |
| C78, C81 | load history and superposition | Duhamel sums by induction on the steps |
| C79 | linearization with broadcasting | negation by witness |
| C80, C82 | solutions of the boundary conditions | uniqueness of the linear system; heat balance |
| C83, C84 | inclined similarities | isometries; witnesses |
| C85, C86 | equivalent solver against the detailed solver | nearest distance search; double sums over groups; error bound from C101 when distances are merged |
| C87, C88 | choice of the method | case analysis; witnesses |
| C89–C92 | approximations of the finite line source | error propagation with explicit constants; asymptotics of the exponential integral |
| C93–C95 | curves drawn by `gFunction` | induction over blocks of sources; linearity of interpolation; witnesses |
| C96–C97 | error of load aggregation; times needed by a simulation | averages of a response of bounded variation; invariants of the simulation loop |
| C98 | fluids (`media.py`), property functions of the fluid library as parameters | case analysis on names; witnesses for stale attributes and for `append_to_dict` |
| C99 | g-function from start to end (uniform heat extraction rate, detailed solver, vertical boreholes) | composition: entries of the solver are line sources, which add up over segments; monotonicity and scaling of the integral |
| C100 | g-function from start to end (uniform temperature, mixed inlet temperature) | positive definite forms: Gaussian kernels of vertical segments, diagonal dominance in the horizontal plane by a packing argument; energy argument for the comparison with uniform rates |
| C101 | finite line source at two distances | integrand without the distance is at most `2 H / s`; the exponential integral of the difference is a logarithm; used for the error bounds of C27 and C86 |
| C102 | g-function for a uniform heat extraction rate with the three solvers, from the field to the values | the factors of a solver are regrouped into sums over boreholes of the whole length; error of each from C27, C86, C101; the clusters are a rearrangement of the field |
| C103 | g-function, rates and temperatures with a uniform temperature or a mixed inlet temperature: `similarities` against `detailed` | the matrices of response factors agree where similarities are exact (C27), the solution is a function of the matrices; both return by C100 |
| C104 | order, place and symmetry of the boreholes, uniform temperature and mixed inlet temperature, at all times | the linear systems of groups of sources (`Grouped`): the lifted solution of the groups solves the system of the sources, which has one solution only; induction on the time steps |
| C105 | g-function, rates and temperatures with `equivalent` against `detailed` when all boreholes of a group have the same distances to the other groups; boreholes all alike, circles | C86 gives the factors of the groups; with balanced groups the mean is the value at each member, so the sources are `Grouped`; definiteness carries over to the groups; rotations of a circle |
| C106 | `netPipe`, `mkBore`, `Network` coefficients, and `mixedNetwork`: MIFT from connections, pipes and flow rates to the g-function | along the pipes the derivative of `m cp T² / 2` is the heat weighted by the wall temperature minus a non-negative form of the circuit; sums telescope over segments and circuits; the coefficients are then passive, so the systems of C100 are regular |
| C107 | `UTube.temperature`, `mkBore.temperature`/`outletT`, `Network` coefficients | maximum principle: at the first of the lowest temperatures along the path of the fluid a pipe cannot cool, since it exchanges heat only with the walls and warmer pipes; the outlet coefficients are then those of an average, and the network follows the fluid by induction |
| C108 | `mixedNetwork` from connections to g-function | the total heat is linear, zero at equal temperatures and increasing with the walls (C106, C107), so it is a conductance times the difference between an average of the walls and the inlet; the conductance does not depend on the segments; the resistance of the network turns the inlet temperature into this average exactly when the response of the mixed outlet closes the energy balance; refuted for crossed circuits with different flow rates |
| C109 | `_EquivalentBorehole`: constructor for each form of argument, `distance`, `segments` | refinement: the members of an equivalent borehole, as a list of boreholes; each method is the method of the members; the short tuple is refuted |
| C110 | `finite_line_source`, all branches: two boreholes, a borehole and a list, two lists; time as float, array or infinity; exact or approximate | case analysis on the branches and induction over the lists; for mixed lists both values as averages of point sources along the source; refuted for mixed lists by comparing integrands, for every quadrature rule |
| C111 | `Network._format_inputs` with all its arguments | exact characterisation of the accepted arguments and of what they stand for, by cases on the checks |
| C112 | the coefficients of `_erf_coeffs` | a checker in 60-bit integer arithmetic (exponential function with proved error, integral of the Gaussian by the midpoint rule with proved error, slope bounds on each cell of a mesh) is proved sound for all real arguments and evaluated by the kernel (`decide +kernel`) for the 25 rows |
| C113 | `networks.Network._check_coefficients` after broadcasting | the cache of a call with `x` in every circuit is hit by the number `x` (total flow rate): negation with a witness; `_partial` for a new object |
| C114 | the objects of the caller held by `networks.Network` (stored `nSegments`, `segment_ratios`, `m_flow_network`) | heap of arrays and lists; the object with references is proved to behave as one with values (homomorphism of the machines of C37) for programs that modify nothing they passed before; negations otherwise |
| C115 | `get_*` of pipes and networks with numbers or arrays, on the coefficients of `UTubeModel`, `MultiModel` and arbitrary network coefficients | characterisation of each method by vectors; at a uniform wall temperature the integrals over the segments add up; inverse of the coefficients; heat extraction rate of a float refuted |
| C116 | `finite_line_source` of two boreholes, all branches (`FLS/ListModel`) | the branches are compared with means of point sources along the source; arrays of times with single times; the value at infinity with the limit; refuted for an inclined borehole acting on itself |
| C117 | `get_inlet_temperature` on the coefficients of `UTubeModel` and `MultiModel` (`Pipe/GetModel`) | with the wall at zero the energy of the fluid decreases along the pipes, so the heat gained is a negative definite form of the inlet temperatures; hence the matrix is invertible, the inlet temperature unique and decreasing in the rate |
| C118 | the array `segment_ratios` held by the store of a pipe (`Pipe/AliasModel`): the machine of `MultiCacheModel` over kept references, the store of `CacheModel` for one array | invariants of C42 are kept by statements that change no kept array; otherwise negation: the array is compared with itself, and the outlet temperature is wrong since the coefficients of a U-tube are strictly monotone in the edge between the segments |
| C119 | `utilities.exp1` with its constants (`FLS/ApproxModel`) | the quotient of the derivatives of `exp1` and `E1` is within 1/400 of 1: interval arithmetic in 60-bit integers on a mesh of 3541 cells for `2^-10 ≤ x ≤ 2^10`, proved sound and evaluated by the kernel (`decide +kernel`), Euler's constant to 4e-5 from the harmonic series, inequalities at the ends; both functions vanish at infinity, so the bound carries over to the functions |
| C120 | `finite_line_source_approximation` (`FLS/ApproxModel`) as the kernel of `uniformDetailed` (`Gf/UniformModel`) | every approximate value is an alternating sum of an even function over the ends of source, image and receiver, divided by the receiver length; for any such response factor the responses of segments telescope (`LineLike`), so the mean is that of the undivided boreholes; the error is the mean of the errors of the pairs (C119) |
| C121 | `ClaessonJaved` and `time_ClaessonJaved` with every operation rounded (`LoadAgg/RoundModel`, `Num/FloatModel`), sums of products in any order as a relation | error of a rounded sum of products by induction over its evaluation; the level of a cell is computed exactly, hence the widths have a relative error of order `c·u`; induction over the calls for the cells (exact cells stay below the largest load, C02), then the superposition; binary64 proved to be such a rounding |
| C122 | `temperatureDetailed` (`Gf/TempModel`) with two discretizations, the second dividing the segments of the first | the uniform temperature has the least energy of all rates of mean one (positive definite form, C100); rates of the coarse segments are rates of the fine ones with the same energy, because responses of parts add up (C73); doubling gives a decreasing sequence of positive values |
| C123 | `np.savetxt` (`%.18e`) and `np.loadtxt` on lists of characters, `toText`, `fromText`, `fieldFromText` (`Bore/TextModel`), doubles from `Num/FloatModel` | a decimal of 19 digits is within the relative distance 2⁻⁵⁶ of its number, and every number that close to a double is rounded to it; induction on lines and words for the parser |
| C124 | the equivalent network of the `equivalent` solver from the boreholes and pipes: `groupSizes`, `lengthsOne`, `eqResistance`, `equivalentFlow`, `mixedEquivalentNetwork` (`Gf/EqNetModel`) | coefficients of boreholes in parallel are block diagonal; equal blocks, lengths and resistance (C53) reduce to C105; passivity of the U-tubes (C106) gives the solution |
| C125 | model of C122 (`temperatureDetailed`); `fieldTemperature`, `longer` in `Gf/AddProps` are specifications | rates of the smaller field, scaled to the same heat and zero elsewhere, have at least the energy of the rates that give a uniform temperature; sublists and permutations of segments |
| C126 | models of C99, C100 and C106 (`uniformDetailed`, `temperatureDetailed`, `mixedNetwork`) with the exact and approximate line source solutions, vertical or inclined; `UTube`; `Homogeneous`, `Pipe.Scaled`, `scaleFlow` in `Gf/ScaleProps` and `Pipe/ScaleProps` are specifications | change of variable in the integrals; every term of the sums and systems of equations keeps its value or is multiplied by a common factor; several U-tubes: the general solution is the exponential of the matrix, whatever decomposition is found |
| C127 | the same models; `move` (displacement, turn, mirror), `Plain`, `Relative` in `Gf/MoveProps` and `Similar`, `Homologous` in `Gf/SimilarProps` are specifications | segments of a moved borehole are the moved segments; the distances and the six scalar products of the inclined solution keep their values (addition formulas); C126 and C127 share the theorems on similar fields of `Gf/SimilarProps` |
| C128 | models of C76 (`Incl.fls`) and C99 (`uniformDetailed`); `Down`, `Inside`, `Drilled`, `Growing` are specifications | every image is farther from the receiver than its source, so the integrand is positive; points of segments are points of boreholes, so nodes are never on a receiver; means of increasing functions |
| C129 | `LoadAgg/CJModel`, `Util/TimeModel` (nothing new modelled) | Contents of the cells `j` steps after a unit load (`kern`, independent of the number of cells) times the widths are the probabilities of a chain climbing one cell at a time; mean of the left edges is exactly `j`, mean square at most `(1 + 1/(2c)) j²`. Upper bound by a line of slope `G(m+1) - G(m)`; lower bound by chords of the convex increments (Jensen) at the age `(1 + 1/(2c)) j` and summation; loss beyond the last cell by the mean square. `run` = convolution of the history with `kern`. |
| C130 | `FLS/Model` (`fls`), `LoadAgg/CJModel`, `Util/TimeModel` (nothing new modelled); `LevelsOff` is the specification of C129 | Slope of the response = `exp(-A/t)/t` times the vertical part; the time derivative of the vertical part is minus a Gaussian (Fourier) integral of a square, hence the part is decreasing and convex. Convexity of the product gives third differences; the first step by comparison with a linear factor and `3 E1(a) - 3 E1(a/2) + E1(a/3) > 0` for `a <= 2/5` (expansion at zero, bounds of Euler's constant). |
| C131 | `FLS/Model` (nothing new modelled); the specification is the exponential integral `E1` | `x - erfint x` is increasing and between 0 and `1/sqrt(pi)`, which bounds the integrand by the one of the infinite line source; `E1 x + log x` increases from minus Euler's constant with slope at most one |
| C132 | `FLS/Model` (`fls`, `steady`; nothing new modelled) | Gaussian differences of the ends of source and receiver as a Fourier integral of a product of cosine differences, bounded by the fourth moment; integration twice from zero |
| C133 | models of C99 (`uniformDetailed`), `FLS/Model`; `aloneMean`, `Apart` are specifications | Interaction between two boreholes bounded by the infinite line source at their distance and by `exp(-x)/x`; C132 summed over the pairs of the field |
| C134 | `UTube.effectiveResistance`, `fluidHeat`, `outletT` as functions of the flow rate and the length | closed form `R_b* = R_b eta coth eta`; monotonicity of `coth` and `x coth x` by derivatives |
| C135 | models of C81/C100/C120 (`ubwt`, `temperatureDetailed`, `approx`; nothing new modelled) | Reciprocity makes the difference of two solutions a bilinear form in the errors of the response factors; on a uniform grid the same in the ring of power series in the time step (rates, pulses and errors as series); C119's error bound for the approximation |
| C136 | `_compare_real_pairs_inclined`, `_compare_image_pairs_inclined` (`Sol/SimKindModel`) | Violated by `>` for `<` in the comparison of orientations: witness of two boreholes leaning towards and away from each other, pointwise comparison of distances under the integral; positive part: the integrands agree when the compared quantities and the angle agree |
| C137 | `Verif/Sol/KindModel.lean`: the solver for the three boundary conditions with an arbitrary interpolation of the response factors | The interpolation is only evaluated at time steps; two interpolations which give back their data agree there when the steps are among the times, and the loops are equal by induction. One source: the temperature of the past is the same, so that the difference is that of the interpolations |
| C138 | `Verif/Util/CompassModel.lean`: `cardinal_point` on lists of characters | Grammar of the names and direction of a name by recursion on its letters (specification); the sum of two unit vectors is along the bisector |
| C139 | `Verif/Gf/ManyModel.lean`: runs for each flow rate and values across flow rates, from the pipes and connections | The network responds to the wall temperatures as a conductance times an average (C108); the effective temperature of any run at another flow rate is that average. Partial: times under the threshold (C79), order of the outlets (C35) |
| C140 | models of C27 and C103 (`Sol/SimModel`, `Gf/SolversModel`) | Every response is monotone in the distance, so the errors of the segments of one borehole are within the change of the response of the whole borehole; then the bilinear identity of C135 |
| C141 | models of C05, C11 and C58 (`Pipe/*Model`, `Net/FlowModel`) with the flow `m` and `-m` | The bilinear form of two solutions with opposite flow has derivative equal to the exchange with the walls (symmetry of the circuit of resistances); the connections of the circuits telescope |
| C142 | models of C106 and C141 (`Gf/NetworkModel`, `Sol/SolveModel`) | Each step of one run and each step of the other exchange (by the transposed coefficients) the difference of the inlet temperatures; the convolution of reciprocal responses cancels over the antidiagonals, so the sums of inlet temperatures agree. Refuted for outlets mixed in the wrong order |
| C143 | `Net/FlowModel`, `Pipe/UTubeModel` | With walls at zero, the ratio (1-y)/(1+y) of two boreholes in series adds like hyperbolic tangents, so flow rate times ratio keeps increasing along a circuit (induction on the rank); mixing by convexity of the Moebius function that multiplies the ratio. The boreholes by C134. A long and a short borehole in parallel show that one circuit alone may raise the resistance |
| C144 | models of C106 and C141 (`Gf/NetworkModel`, `Sol/SolveModel`) | In parallel with equal legs the heat coefficients form a symmetric dissipative matrix; Cauchy-Schwarz for its form bounds the value from below by the energy of the rates, which is least for uniform walls (C124), and from above by the energy of the rates of uniform walls. Two boreholes in series, solved in closed form, fall below |
| C145 | `temperatureDetailed`, `mixedNetwork` on uniform grids; load aggregation | specifications `WallHistory`, `InletHistory`, `NetworkHistory` of a field under arbitrary loads; the rates of the solver are the response to a unit step, the systems of each step are injective, so histories exist, are unique and are convolutions (`wall_step_response`, `inlet_step_response`); `cj_exact_unit_cells` and `mlaa_error` compose |
| C146 | `times`, `uniformDetailed`, `temperatureDetailed`, `temperatureOf`, `mixedNetwork` | a zero time step makes the response factors of the step zero, so two rows of the matrix are equal and the determinant is zero; early times only enter through the linearization |
| C147 | the same, all solvers | the interpolation, the reconstruction of the loads and the superposition of a step only read the times up to the step; induction over the steps, lists of times as `a ++ b` |
| C148 | network of C37 whose methods read the present pipes; calls and `update_thermal_resistances` in any order | negation: after the constructor every store is filled and no call changes the state, witness with two U-tubes of different resistances; partial: refinement to the machine of C37 with the pipes as part of the arguments |
| C149 | `SingleUTube` made from its cross-section with the line source resistances | closed form `(A + b)/2 η coth η` of the effective resistance with `R = [[A, b], [b, A]]`; positive definiteness of `R` for all geometries; sign of the derivative; negation from the limit of long boreholes |
| C150 | `Coax` (constructor and `update_thermal_resistances` of `Coaxial`) on top of the cross-section and U-tube models | multipoles of a centred pipe vanish by induction over the passes; closed form `R* = sqrt(1/4 + R/Rff) K coth(K sqrt(...))`, monotone factor by factor |
| C151 | `temperatureEquivalent` (clusters, equivalent boreholes and response factors of `Equivalent`) against `temperatureDetailed` | the response factors of groups are averages over the groups for every grouping (`equivalent_averaged`), so the energy of rates that are constant over groups is the same in both systems; the rates of the solver have the least energy (C122), hence the order; positive definiteness, and that the solver returns, by the same identity |
| C152 | as C151, with the distances of `_find_unique_distances` merged within `disTol` | the sum of the errors of a row of response factors is bounded by `-2 log (1 - disTol)` for every other borehole (`equivalent_rows`, with C140's bound on line sources at nearly the same distance); the rates returned by the solver are test rates for the averaged system, whose energy differs by at most that error (`changed_rows`) |
| C153 | `LoadAgg/ShapeModel`: shapes of the arrays returned by `temporal_superposition` and stored by `set_current_load`, numpy's rules of broadcasting (`broadcast`, `pick`) and of assignment (`store`); the numbers are those of the models of the schemes | `PerSource` is the specification; direct computation with the rules, for any state; negation for MLAA with several sources |
| C154 | `Bore/FloatDistModel`: the loops of C19 with the threshold `(1 + disTol) * all_dis[j0]` rounded to binary64 after each operation; the mean is any function | bounds of rounding (a number of the format below `x` stays below the rounded `x`), then the induction of C19 for any thresholds above their distances; negation: `1 + disTol` rounds to 1 up to `2^-53` |
| C155 | `Bore/FloatDupModel`: `find_duplicates` and `remove_duplicates` with every operation on floats rounded to binary64, integer operations exact | `A = -8k + 4n(n-1) - 7` is 1 modulo 8, so its root stays `4/w` away from the next odd number `w`, more than all rounding errors; other operations are exact on small integers and halves; relative error of the computed distance |
| C156 | `LoadAgg/StepsModel`: sizes and times of the MLAA and Liu schemes with the quotients and products of floats rounded to binary64 | rounding is monotone with respect to integers and halves of the format; `fl(n dt)/dt` is within 1/4 of `n`; evaluated witness with `dt = 0.3` |
| C157 | `FLS/FormModel`: the tests on the type and identity of `time`, with the behaviour of numpy for each type (assumed from general knowledge of numpy: it is not installed here and was neither read nor run) | array and float by C116; the integral from 0 and the steady value are the same limit; the failing forms by cases |
| C158 | `FLS/EditModel`: objects with the stored flag of inclination, assignments to attributes, the choice of the solution by the flag | invariant (the object equals the one created with its attributes) by induction on the assignments; witness of 60 degrees with bounds on the two steady values |
| C159 | `format`, `directions`, `pairs`, `close`, `lookup`, `checkMv`, `outlet` in `Pipe/FlowFormModel`: forms of the flow rate, comparison with what is stored (numpy's rules from general knowledge) | invariant of the stored values over programs of calls; witnesses for all numbers of U-tubes for the violations |
| C160 | `f1` ... `F5`, `genF0`, `genB`, `conn`, `base` in `Pipe/UTubeGeneralModel` fed to `Multi.Bore` (the methods of `_BasePipe`) against `UTubeModel` | both sides written in the two exponential modes; identities modulo the quadratic relation between the parameters; one by one linear system inverted explicitly |
| C161 | `Borefield.draw`, `drawList` in `Bore/DrawModel`: coordinates of the marks, lines and labels of both implementations; `figureOf`, `lineLength`, `OnLine` are specifications | loops as folds with accumulators; arrays of a consistent field are maps over its boreholes; tiling of the segments (C12) |
| C162 | `drawU`, `drawC` in `Pipe/DrawModel`: circles and labels of the cross-sections, `IndexError` of positions and colours; `Inside`, `Apart`, `InPipe` are specifications | accepted geometries are physical (C43, C44); loop as monadic fold; witnesses for any number of colours and for the outer pipe first |
| C163 | `Gf/CurveModel` (stored times and values, `visualize_g_function`, abscissas of the other figures) | induction over the evaluations; abscissa characterised by the exponential; counterexamples: evaluation that raises, equivalent solver with different lengths |
| C164 | `LoadAgg/ReuseModel` (objects of the three schemes and the arrays of the caller) | induction over the statements, refinement to the models of C01-C07; counterexamples: second simulation, shared arrays |
| C165 | `Gf/LateModel`: the stored state of `Detailed` and `Similarities`, and the list of the caller with assignments, replacements, additions and removals | refinement: the evaluation of the stored state after assignments is the evaluation of the field at construction (the flags and the length of the list are invariants); entries of the array for any present list; strict inequality of the means when pairs are left out; for `Similarities`, equality of all comparisons and geometries; strict decrease of the line source with the distance for the negation |

## Deviations found while reading (code violates the property)

Proved as negations (theorems named in the notes of the claims in `MANIFEST.json`):

* `Liu` aggregation loses loads or counts them twice for waiting periods of zero (C07); `time_geometric` is not increasing for all arguments (C10).
* `remove_duplicates` removes a borehole that is close to a removed one only, in chains of overlapping boreholes (C15).
* Inclined finite line source limits the distance to the image only with both sources (C22, C77).
* `find_groups` of the equivalent solver pairs clusters in another order than their boreholes (C25).
* Similarities solver: depths of reversed pairs (C27), a single inclined borehole evaluated as vertical (C28), angle between inclined boreholes not compared (C83),
  offset of inclined pairs (C84).
* The check of a list of numbers of segments is always true, and `zip` drops boreholes (C31).
* Networks: mixing order of crossed circuits (C35), stale mixing coefficients (C37), a number that hits the cache of an array (C113), arguments modified in place (C114).
* Pipes: sign of negative flow rates of independent U-tubes (C41), history dependent coefficients (C42), geometry check of coaxial pipes (C44), memo aliasing (C47),
  Reynolds number of the annulus friction factor (C49), stopping rule of the multipole iteration (C70),
  heat extraction rates for a number as wall temperature and a number as inlet temperature of several circuits (C115),
  arrays of ratios modified in place (C118).
* `gFunction`: arguments not used by `from_static_params` and `mixed_inlet_temperature` (C50), mass flow rates of the boreholes with the default method (C87), linearization with several
  mass flow rates (C79), profiles of inclined boreholes (C94), profiles that raise or slice the wrong axis (C95).
* 25 terms of the error function approximation (C52); `Borefield ==` is not symmetric (C55); deprecated and new builders differ at ties and for the default staggered origin (C57).

* `Fluid`: kinematic viscosity and volumetric heat capacity keep their values when the temperature is changed; `append_to_dict` always raises (C98).
* `_EquivalentBorehole`: the documented tuple of five attributes raises (C109).
* `finite_line_source` with lists: an inclined borehole changes the values for two vertical ones, without bound (C110).
* `finite_line_source` at `np.inf` for an inclined borehole on itself is smaller than the limit of its values (C116).

Observed, without a theorem: the equivalent solver changes the
`m_flow_network` of the user's network (`equivalent.py` l. 836-839); for two-dimensional arrays `_format_inputs` compares the sets of mass flow rates instead of the boreholes;
for the same inclined borehole the approximation limits another distance than the exact integrand;
`_compare_real_pairs_inclined` and `_compare_image_pairs_inclined` (`similarities.py` l. 672-766) compare the orientations with the opposite sign, but are used only for real or image parts alone,
which no public function asks for.

## The log of wrong programs

`seeded/LOG.jsonl` has one line for each wrong version of a model definition that was built in a scratch copy.  `theorems_failed` is measured: the declarations with an error in the build of the
listed modules (the build stops at a module with errors, so modules that import it were not reached).  An entry `example` means that only an example failed; the theorems of that file still proved.
`property_theorems_depending` is derived, not measured: the theorems of `MANIFEST.json` whose proof terms in the present version use, directly or not, a declaration that failed.

Correction: up to commit 607eeb2 this field was called `property_theorems_lost` and was found by comparing the last parts of names in the text of the files.  It was wrong in many entries, up to all
but two of the theorems of the manifest; it has been computed anew for all entries, with the constants of the compiled proofs.  `theorems_failed` was not affected.
