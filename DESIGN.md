# Formal model of jpt-dev: design

## 1. What is trusted

* The Lean 4.33.0 kernel and the axioms `propext`, `Classical.choice`, `Quot.sound`
  (nothing else is allowed; `#print axioms` is run on every property theorem).
* The reading of `/repo`: the code is not executed here, so the tie between model and code is
  the file/line citation on every definition.
* Floating point is not modelled. Two idealisations are used, and named in each file:
  * *interval bounds*: the float line is a discrete linear order, `-inf < ... < n < n+1 < ... < +inf`,
    where `n : Int` numbers the finite floats and `x + eps` / `x - eps` (`numpy.nextafter`) are
    successor and predecessor. NaN is excluded. For |x| >= 2^53 the real `eps` arithmetic is a no-op;
    this is not modelled.
  * *arithmetic* (probabilities, piecewise functions, statistics): exact rationals `ℚ`.
    Rounding, overflow, NaN and the tolerance constants are excluded unless a comment says otherwise.
* Library code outside the repository (numpy, heapq, pandas, factorgraph, dnutils) is modelled by its
  documented contract; each use is named where it occurs.

## 2. Layout

`lean/Verif/<Area>/Model.lean` mirrors the code branch by branch (exceptions are values:
`Except Err α`), `Spec.lean` holds the independent specification, `Lemmas*.lean` the helper lemmas and
`Props.lean` only property theorems with non-vacuity examples.

## 3. Plan per property

| id | model | proof |
|----|-------|-------|
| C01-C07 | `ContinuousSet` on the discrete float line with bracket flags | case analysis over brackets, linear arithmetic on positions |
| C08-C10 | `RealSet` as list of intervals; `simplify` as sort by upper bound plus merge fold | induction over the list; C10 is expected to fail for unsorted brackets at equal upper bounds: witness and `_partial` |
| C11 | `chop` loop over sorted points | induction over the points |
| C12 | `__eq__`, `__hash__` | `(a,b)` vs `[a+eps,b-eps]`: equality law, hash disagreement as witness; unions of half-open intervals: uniqueness of the normal form (`C12_half_open`) |
| C13 | json as value tree | round trip; RealSet `to_json` keeps one piece only: witness |
| C14-C19 | constant/linear/quadratic functions, piecewise functions as interval/function lists; bounds are floats, `val` maps a float to its number, values over ℚ | induction over pieces, ring arithmetic, areas as Mathlib integrals |
| C20 | `normalized` with the re-normalising loop | sum/proportion lemmas on lists |
| C21 | heap as array with heapq's sift operations | heap-order invariant, induction over histories; `__delitem__` witness |
| C22 | `pairwise`, chunking, formatting as chunk lists | induction |
| C23, C24 | in-place sort / bisect on arrays | permutation + sortedness by induction on depth/size; termination |
| C25, C26 | `linspace`, roulette wheel | induction; `num = 1` witness |
| C27-C34 | parameter vectors over ℚ indexed by domain position | finite sums |
| C35-C38 | cdf as piecewise linear function over ℚ | induction over knots |
| C39 | `DataScaler` over ℚ/ℝ | field arithmetic |
| C40-C43 | `compute_best_split`, c45 work queue | invariant over the queue |
| C44-C53 | tree as inductive type / node store, leaves with per-variable distributions | induction over tree, work list invariants |
| C54-C56 | ordered association lists | induction over histories |
| C57, C58 | transition counts; conditioning of the template per step, belief propagation (library `factorgraph`) as a parameter with the contract `Exact`; string order of step names | counting lemma; the conditional tree of C47 per step; string order of decimal numerals |
| C59 | weighted online update over ℚ, any dimension | induction over the data; induction over histories of updates and retractions |
| C67, C68 | regression and arithmetic on the estimates of C59 | completing the square; affine maps of weighted sums |
| C60, C66 | forward/backward pass on index lists; running sums against sums of squared deviations from chords | invariant of the queue; loop invariant of the scan |
| C61-C64 | divergence, cdf, moments and updates of discrete distributions; updates of numeric distributions (Numeric/Props17.lean) | finite sums; numeric updates by C38; witnesses for the divergence, the cdf and numeric updates |
| C69 | the learner of C40-C43 | invariant over the work queue |
| C70, C71 | unfolding of sequences into windows (index arithmetic of numpy `reshape`), learning, adoption of the nodes by the template | index lemmas; the learner's theorems for the expanded variables; witness for fitting twice |
| C72, C73 | inference for one step; JSON of the sequential tree | marginal of a one-step model; C52 |
| C74 | `Numeric._p`: density, positive part, cdf at the bounds | density of a tiling; case analysis of bounds and brackets against `probOf` |
| C75 | `Numeric.moment` with labels | sum over pieces equals interval integrals (Mathlib); closed forms of the integrals; for `merge`, moments as sums over the increments of the cdf at every float, which are additive |
| C76 | `Numeric._k_mpe`, `_mpe` | selection of pieces by density and simplification of the resulting set (C10) |
| C77 | `QuantileDistribution.sample` with the draws as parameters | probabilities of the pieces telescope; bounds of the draws |
| C78 | `to_json`/`from_json` of functions, intervals and numeric distributions as maps between values and documents | piece by piece; fitted cdfs consist of storable pieces |
| C79 | `posterior` and `_crop` with the tree and the distribution after the call as part of the result | the effects vanish unless an interval contains a single float |
| C80 | `boundaries` and `jaccard_similarity` on densities with infinite values; rounding of the middle a parameter | the pieces of fitted densities are steps between the points; sums over the points |
| C81 | `kl_divergence` of numeric distributions on the model of `_p` | the masses of the intervals are differences of the cdfs; what the sum is, its range, when it is 0; counterexamples to the full statement |
| C82 | `pdf_to_cdf` as a fold over the steps of the density (Numeric/FromPdf.lean) | the cdf is the area up to a value, by induction over the steps; rebuilding is the identity for continuous cdfs and single values; counterexamples for fitted distributions |
| C83 | `insert_convex_fragments` and one round of `postprocess_leaves` (Numeric/FromPdf.lean) | the cdf from the model of `merge` (C38) with the masses of the fragments; the sign of the density from the sweep invariant; single values from C82; counterexamples |
| C84 | `likelihood`, `_preprocess_data` for lists of rows, `parallel_likelihood` (Trees/Likelihood.lean) | induction over the leaves and the columns; densities of fitted distributions from the slopes of the cdf (Numeric/DensLemmas.lean); the row's leaf from the invariant of the learner (C40, C42); worlds summed by distributivity; counterexample for `mpe` |
| C85 | `expectation`, `moment` for symbolic and integer variables (Trees/Expect.lean), and with numeric variables (Trees/ExpectMix.lean) | the marginals of the posterior from C46, sums over the labels; the marginal of a learned tree is the relative frequency in the training data (leaves partition the rows, C40); numeric variables by C46 and the moments of merged distributions (C75); counterexamples for evidence on the variable itself, for the default variables and for centers that are labels |
| C86 | `sample`, `Leaf.sample`, `numpy.random.choice` (Trees/Sampling.lean) | random numbers as parameters; the numbers that lead to a world are boxes, the volumes of which add up to the likelihood (C84, C26); samples of fitted numeric distributions lie between the least and the greatest number (C77); counterexamples for the number 0 and for duplicated least numbers |
| C87 | `Vars/Bind`: `bind` and `_preprocess_query` (`blur` is C109) on user values (`None`, numbers, strings, lists, tuples, sets, intervals, unions), with the argument forms and options; `Trees/BindQuery`: from value assignments to queries by position | `C87_meaning` by induction over the query: view of the assignment against `UArg.Describes`; `C87_accepts` (iff); `C87_forms`, `C87_unknown`; `C87_query` and `C87_frequency` join it with the conversion of labels (C56) and learning (C85) |
| C88 | `Trees/Reverse`: `reverse` on the model of `_preprocess_query` and of learned trees | `C88_leaves`: the result as a set, without duplicates and sorted, against the training rows (`fitDisc_spec`, `C87_query`); `C88_foreign`; `C88_violated_best`: sorted by the sum of the probabilities, which need not put the most probable leaf first |
| C89 | `Trees/Pdf.lean`, `Trees/PdfMix.lean`: `pdf` with `apply` and the distributions' `pdf`, the internal value passed on as a label, sums and products with infinities and NaN | `Trees/Props13.lean`: what is computed for all labels, equality with the probability where labels are 0,1,2,…; counterexample otherwise; `Trees/Props21.lean`: numbers and labels |
| C90 | `Functions/Extrema`: `maximize` as a fold over all lower and all upper end points, with the unions of C05/C10 | `C90_modes` (constant pieces: maximum, attained, exact set) by induction over the rounds; `C90_maximum_partial` (linear pieces: the value); `C90_violated_flat` |
| C91 | `Functions/Extrema`: `rectify` piece by piece | `C91_values` against `eval`, `C91_errors`, `C91_area_partial`: the exact change of the area; `C91_violated_area` |
| C92 | `Table/Model`: `_preprocess_data` form by form, cells written one by one; errors as values | `C92_forms`, `C92_rows`, `C92_frame`, `C92_errors`, `C92_learnable` (the table meets the hypotheses of the learner); violations for missing values, columns and long rows |
| C93 | `Table/Model`: `infer_from_dataframe`, standard deviation a parameter | `C93_inferred` composed with C92, `C93_excluded`, `C93_errors`; `C93_violated_missing`, `C93_violated_scale` |
| C94 | `Trees/Consistent`: path and leaf consistency, leaf copy and conditioning; `RealSet` evidence is not modelled | `C94_consistent_partial` against existence of a sample, `C94_training_rows`, `C94_leaf_consistent`, `C94_conditional_leaf_partial`, `C94_numeric_evidence_partial`; `C94_violated_threshold` |
| C95 | `Trees/Size`: the counts, branch by branch | `C95_total_samples`, `C95_depth` against steps from the root, `C95_nodes` (counting children), `C95_leaf_parameters`; `C95_violated_parameters` |
| C96 | `Numeric/Convolution`: mirror, impulse test, the loop over the sums of bounds, assembly from support points; bounds on a grid, so that their sums are exact; integrals that are not finite are errors | `C96_convolution_partial`: returns, error at most one float times max of f times variation of g, exact one float further at all sums of knots, 0 outside; `C96_impulse`, `C96_errors`; `C96_violated_exact`, `C96_violated_impulse` |
| C97 | `Functions/Levels`: the loops of eq, lt and gt with the crossings of constants and lines; bounds are exact numbers on a dense line | `C97_continuous_partial`: lt and gt are exact for functions without jumps that begin with a constant and do not take the value at a bound; `C97_gt_steps`: gt is exact for all step functions; `C97_eq_partial`; `C97_errors`; `C97_violated_touch`, `C97_violated_flat`, `C97_violated_jump`, `C97_violated_begin` |
| C98 | `Numeric/CdfReg` (as for C60): the search for splits and the backward pass | `C98_tolerance_partial`: by an invariant of the search and of the backward pass; `C98_violated_last`, `C98_violated_stuck` |
| C99 | `Functions/Elementary`: one definition per method; roots over the reals; text with the format of numbers as a parameter | `C99_inverse`, `C99_root`, `C99_intersection`, `C99_intersects_partial`, `C99_parabola_roots_partial`, `C99_vertex`, `C99_hmirror`, `C99_hinge`, `C99_text_partial`; `C99_violated_same_line`, `C99_violated_flat_parabola`, `C99_violated_constant` |
| C100 | `Functions/Combine`: the loop with its queue, infinite and NaN centres, rounding to the nearest float as a parameter | `C100_steps` and `C100_abs_steps`: exact for step functions, and the loop ends; `C100_lines_partial`, `C100_abs_lines_partial`: exact for lines except next to a crossing; `C100_violated_crossing`, `C100_violated_unbounded`, `C100_violated_gap`, `C100_violated_whole_line`, `C100_violated_abs` |
| C101 | `Functions/Approx`: the candidates, their links, the loop and the lookups by equality; which item the heap returns is a parameter | invariant of the linked list over all steps of the loop: `C101_constant_partial`, `C101_lines_partial`, `C101_enough_partial`, `C101_too_few`, `C101_other_class`; `C101_violated_shift`, `C101_violated_shift_line`, `C101_violated_area`, `C101_violated_gap` |
| C102 | `Numeric/Sum`: convolution, rectification, simplification and integration, one after the other | the integral over the plane is bounded by sums over the grid (`SumLemmas`), rectification keeps the sums up to every knot (`SumLemmas3`): `C102_sum_partial`; `C102_violated_constant` |
| C103 | `Numeric/ApproxDist`: approximation of the density by constants, then integration | from C101 and C82, with bounds of the area of every mean: `C103_approximation_partial`; `C103_violated_exact`, `C103_violated_hole` |
| C104 | `Intervals/Sample`: random numbers are parameters of the model | convexity of intervals, cumulated lengths, and the normal form of C10: `C104_interval_partial`, `C104_union_partial`, `C104_size_partial`, `C104_infinite`; `C104_violated_reals`, `C104_violated_empty_interval`, `C104_violated_size` |
| C105 | `Functions/Jaccard`: from the models of C100 and C17 | areas as Mathlib integrals, cell by cell between neighbouring floats: `C105_jaccard_partial`, `C105_symmetric`, `C105_range`; `C105_violated_domain` |
| C106 | `Functions/Knots`: the two roundings are parameters of the model | induction over the pieces, then C16 for the function through the knots: `C106_knots`, `C106_round_values`, `C106_round_intervals`, `C106_drop`; `C106_violated_merge` |
| C107 | `Intervals/Linspace`: bounds are numbers, the rounding of floats is a parameter | loop invariant for the zigzag (which positions are written after i rounds), closed form of the walk: `C107_bounded_partial`, `C107_members_partial`, `C107_unbounded_partial`, `C107_single`; `C107_violated_overshoot`, `C107_violated_open` with the rounding of doubles |
| C108 | `Hash/Model`: the tuples that are hashed, NaN not equal to itself | case analysis over the factories, permutations of dictionaries sorted by name: `C108_variables_partial`, `C108_equivalence_partial`, `C108_symmetric`, `C108_transformations`, `C108_assignments`, `C108_functions`; `C108_violated_prefix`, `C108_violated_nan`, `C108_violated_quadratic`, `C108_violated_piecewise`, `C108_violated_verbose` |
| C109 | `Numeric/Blur`: the branch of `_preprocess_query` for numbers with `blur`, on the fitted cdf and its quantile function | indices of pieces moved off the ends, on the shapes of the cdf and the quantile function from C35 and C36; strict monotonicity of the extended graph: `C109_blur_partial`; `C109_violated_scaled`, `C109_violated_single`, `C109_violated_flat` |
| C110 | `Trees/Equal`: `__eq__` of trees, nodes, leaves and distributions, with the exceptions; the settings are in C52 | lists and dictionaries compared item by item; cdfs of fitted samples are determined by the comparison (lines are not constant, the last piece is unbounded); answers from C45 depend on the priors and distributions of the leaves only: `C110_equal_iff`, `C110_copy`, `C110_learned_partial`, `C110_total_partial`; `C110_violated_distances`, `C110_violated_kinds` |
| C111 | `Discrete/Listing`: `items`, `_items`, `sorted`, indexing, assignment, `Bool.set`, `__str__` | induction over the zipped lists; stability of insertion sort: `C111_items`, `C111_sorted`, `C111_assign`, `C111_bool_set`, `C111_str_partial`; `C111_violated_bool`, `C111_violated_str` |
| C112 | `Discrete/Draw`: the wheel's `sample`, `samplei`, the helpers and `sample`, `sample_one` of distributions, over a stream of random numbers | fields of the wheel (C26) scaled to the unit interval: `C112_share`, `C112_wsample`, `C112_errors`, `C112_choice`, `C112_distribution`, `C112_positive_partial`; `C112_violated_zero`, `C112_violated_index` |
| C113 | `Functions/Build`: `from_dict`, `overwrite`, `zero`, `multi_eval` (with `overwrite_at` of `Functions/Model`) | induction over the pieces (order, insert position) and the segments: `C113_from_dict`, `C113_overwrite_at`, `C113_overwrite`, `C113_zero`, `C113_multi_eval` |
| C114 | `Utils/Entropy`: `entropy`, `max_entropy`, `rel_entropy`, `gini` over the real numbers | termwise comparison with the uniform distribution by log x ≤ x − 1: `C114_entropy`, `C114_max_entropy`, `C114_rel_entropy`, `C114_errors`, `C114_gini_partial`; `C114_violated_gini` |
| C115 | `Vars/Text`, `Trees/Report`: `Variable.str`, `format_path`, `infer` and `posterior` on label assignments with the text of the error | truth of the printed parts against the correspondence of labels and values of C56; `C115_discrete`, `C115_values`, `C115_labels_partial`, `C115_path_partial`, `C115_infer`, `C115_posterior`; `C115_violated_text`, `C115_violated_error` |
| C116 | `Vars/Sets`: `assignment2set`, `scalar2sets` | induction over the items, on top of the copy and constructor theorems of C54: `C116_labels`, `C116_values` |
| C117 | `Learn/MaxStd`: `_max_std`, `get_max_variances_from_tree`, `check_max_variances` over the real numbers | variance under affine maps, by induction over the data: `C117_check`, `C117_limit_partial`, `C117_should`; `C117_violated_scaled` |
| C118 | `Trees/Reasons`: the dictionary of inconsistencies in `posterior`, `Unsatisfiability.reasons` | induction over the evidence and the leaves: `C118_reasons`, `C118_first`, `C118_unsatisfiable` |
| C119 | `Intervals/Round`: `__round__` of intervals and sets, `RealSet.any_point` | monotonicity, induction over the intervals: `C119_interval`, `C119_infinite`, `C119_points_partial`, `C119_twice`, `C119_anyPoint`; `C119_violated_open`, `C119_violated_overlap` |
| C120 | `Trees/Files`: files as bytes, serialisers abstract, `save`, `load`, a crash after any number of bytes | case analysis over protocols, induction over the trees of a stream: `C120_save`, `C120_load`, `C120_others`, `C120_failed_partial`, `C120_missing`, `C120_stream_partial`; `C120_violated_pickle`, `C120_violated_crash`, `C120_violated_stream` |
| C121 | `Gauss/Conditional`: `MultiVariateGaussian.conditional` with matrices of any shape, the inverse abstract | completing the square, shapes: `C121_two_partial`, `C121_shapes`, `C121_index`; `C121_violated_mean`, `C121_violated_shape` |
| C122 | `Utils/ToJson`: `to_json` on nested objects | mutual structural induction: `C122_plain_partial`, `C122_supported`, `C122_dict`, `C122_items_partial`; `C122_violated_keys`, `C122_violated_none` |
| C123 | `Seq/Names`: `_shift_variable_to_timestep` and the names of the expanded variables | the last `+` splits a name, injectivity of decimal numbers: `C123_shift`, `C123_count`, `C123_distinct_partial`; `C123_violated_names` |
| C124 | `Trees/Hyper`: `get_hyperparameters_dict` | the items are those of a relation `Entry`; the last dot splits a key: `C124_entries`, `C124_keys` |
| C125 | `Intervals/Parse`: greedy match of the regular expression, `fromstring`, character by character | specification of the greedy wildcard, then exactly the accepted texts: `C125_accepts`, `C125_read_partial`; `C125_violated_rest`, `C125_violated_empty_space`, `C125_violated_union` |
| C126 | `Functions/Cells`: `simplify` with a heap of interval objects | refinement to the model on values, frame lemmas: `C126_result`, `C126_others`, `C126_unchanged_partial`, `C126_values_partial`; `C126_violated_integral`, `C126_violated_again` |
| C127 | `Intervals/Asked`: the intervals of the receiver after each method | invariant along the history (intervals in order), using the specification of `simplify`: `C127_history_partial`, `C127_unchanged`; `C127_violated_intervals`, `C127_violated_member` |
| C128 | `Functions/Ensure`: both methods, with crossing points | case analysis of the crossing, first-piece-wins evaluation: `C128_left_partial`, `C128_left_same_partial`, `C128_right_partial`, `C128_succeeds`; `C128_violated_right`, `C128_violated_left`, `C128_violated_closed` |
| C129 | `Vars/Settings`: objects with class attributes, assigned attributes and the dictionary of settings | induction on the given settings, dictionary lemmas: `C129_accepted`, `C129_read`, `C129_distribution_partial`, `C129_assigned`; `C129_violated_assigned` |
| C130 | `Functions/XSamples`: the samples of the bounded pieces, the step, the outer pieces, the size of the array | induction on the pieces, using C107: `C130_everywhere_partial`, `C130_bounded_partial`; `C130_violated_step`, `C130_violated_room` |
| C131 | `Functions/Copies`: both methods with interval objects at addresses | induction on the pieces with a frame, then `C126_others`: `C131_copy`, `C131_round`, `C131_round_independent_partial`; `C131_violated_round` |
| C132 | `Learn/Depend`: dependency dictionary to index dictionary to matrices with end marker -1, and the loops reading them | induction on dictionary, features and rows: `C132_numeric`, `C132_symbolic`, `C132_accepted`, `C132_default`; refinement to the model of the learner: `C132_learner`; `C132_violated_sparse` |
| C133 | `Gauss/InPlace`: in-place operators and `sum` on the state of C59 | induction on the history with the batch estimates as invariant: `C133_history_partial`, `C133_same`, `C133_sum`; `C133_violated_empty` |
| C134 | `Gauss/Shared`: Gaussian objects with their arrays in cells | case analysis with a frame for other cells: `C134_copy_partial`, `C134_operations`, `C134_independent_partial`; for every Gaussian `C134_violated_update`; `C134_violated_weights` |
| C135 | `Trees/Pretty`: the recursion on characters, trees as first child and next sibling | induction on pairs of forests with what follows them: `C135_lines`, `C135_faithful_partial`; `C135_newline` |
| C136 | `Gauss/Compare`: comparisons of arrays and their truth values | case analysis; induction on the loops of `sym`: `C136_equal_partial`, `C136_sym`; for every dimension from 2 on `C136_violated_dimension` |
| C65 | `compute_best_split` against improvements computed from scratch | the scan visits every admissible division; incremental = batch statistics |

## 4. Disagreements between code and property

Each is proved as the negation on a concrete witness; the part that holds is proved beside it as a
`_partial` theorem or under explicit hypotheses. Generated from the doc comments by `tools/design.py`.

* `C02_violated_by_parse`: C02 fails for intervals with `lower > upper`: `parse("[5,3]")` accepts such an interval (`intervals.pyx` 606-651 does not check the bounds) and `isempty()` says `False` although nothing is a member.
* `C03_violated_empty_receiver`: C03 fails for an empty receiver, and is then not symmetric: the empty set "intersects" `[-1, 1]`.
* `C03_violated_neighbours`: C03 fails for overlapping open intervals with neighbouring bounds: `(0, 2)` contains only the float 1, `(1, 3)` only the float 2, but `intersects` is `True`.
* `C04_violated_requested_brackets`: C04 fails when closed brackets are requested and the overlap contains no float: the result has `lower > upper` and `isempty()` says `False`.
* `C06_violated_infinite`: C06 fails for intervals containing `-inf`: `[-inf, 0] − (-inf, 0]` returns `[-inf, 0]`.
* `C06_violated_raises`: C06 fails: subtracting `(0, 3]` from `[1, 5]` (with 1 the float after 0) raises.
* `C07_violated_empty`: C07 fails for the empty set: it is not always reported as a subset.
* `C07_violated_union`: C07 fails for unions: `[0, 1) ∪ [1, 2]` does not "contain" `[0, 2]`.
* `C08_violated_neighbours`: C08 fails, as C03 does, for overlapping open intervals with neighbouring bounds: `(0, 2)` and `(1, 3)` as unions of one interval each.
* `C09_violated_loses_points`: C09 fails for unions given out of order: `({1} ∪ [0, 1)) ∩ [0, 5]` is the empty set.
* `C10_violated_loses_points`: C10 fails for intervals given out of order: `{1} ∪ [0, 1)` simplifies to the empty set `[1, 1)`.
* `C10_violated_mutates`: C10 fails: `simplify` changes its receiver. The first interval of `[0, 1] ∪ (1, 2]` becomes `[0, 2]` in the receiver itself.
* `C10_violated_raises`: C10 fails: `simplify` can raise.
* `C11_violated_realset`: C11 fails for a union whose simplified form is a single interval: `chop` raises `AttributeError`.
* `C12_violated_hash`: C12 fails for hashes: equal intervals are hashed by different tuples, `[0, 5)` and `[0, 4]` with 4 the float before 5.
* `C12_violated_infinite`: C12 fails at infinity: `[-inf, 0] == (-inf, 0]`.
* `C12_violated_realset`: C12 fails for unions: `[0, 1] ∪ [2, 3]` and `[0, 1] ∪ (1, 3]` contain the same floats (2 is the float after 1) but are not equal.
* `C12_violated_realset_hash`: C12 fails for the hashes of unions. `[0, 1) ∪ [1, 2)` equals `[0, 2)`, but the two are hashed by different tuples.
* `C12_violated_transitive`: C12 fails: `==` is not transitive, `[-inf, -inf] == (-inf, -inf) == ∅ != [-inf, -inf]`.
* `C13_violated_point_text`: C13 fails for a single point: the printed text `{x}` is rejected by the parser.
* `C13_violated_realset_json`: C13 fails for every union of intervals: `from_json(to_json(S))` always raises.
* `C14_violated_different_domains`: The sum of two linear functions on different domains raises: `simplify` compares an undefined piece with a linear one, and `Undefined.__eq__` calls `any` with two arguments.
* `C14_violated_gap`: A connected function plus one with a gap raises, the other way round it does not: `ContinuousSet.union` does not accept a `RealSet`.
* `C14_violated_middle`: The pieces are looked up at `(a + b) * .5`. For a piece with a single float this may round up to the next piece, and the sum is then that of the next piece.
* `C14_violated_number_minus_function`: Subtracting a linear function from a number is not: `3 - (2x + 1)` gives `2x - 2`.
* `C14_violated_quadratic`: The product of a quadratic and a linear function is `None`.
* `C14_violated_undefined`: The sum of a linear and an undefined function raises, though the other order is undefined.
* `C15_violated_outside`: Contrary to the property the value outside all pieces is not NaN: there is no function to call.
* `C16_violated_same_abscissa`: Unlike `LinearFunction.from_points`, it does not reject different points with the same abscissa (`valueError`), but divides by zero.
* `C17_violated_linear_sign`: The area under `LinearFunction(0, -1)`, a negative constant, is `+inf`, too.
* `C17_violated_linear_zero`: The area under `LinearFunction(0, 0)` from `0` to infinity is reported as `+inf`.
* `C18_violated_stretch`: Quadratic pieces are not stretched.
* `C19_violated_equal`: So equality is not equality of functions.
* `C19_violated_prefix`: A function compares equal to any longer one that begins with the same pieces.
* `C20_violated_integer_array`: C20 fails for integer arrays: the result is converted back to the integer type and all mass is lost.
* `C21_violated_delete`: C21 fails for deletions by position: after deleting position 0 of the heap over `1, 5, 2, 6, 7`, `pop` returns 5 although 2 is waiting.
* `C25_violated_single_point`: C25 fails for one point: the documentation promises the centroid of `start` and `stop`, but the code returns half their distance.
* `C28_violated_scalar`: C28 violated: a single label of probability zero is not refused, the result gives it probability one; the same restriction written as a set is refused.
* `C29_violated_length`: C29 violated: more distributions than weights is not refused, the extra distributions are ignored.
* `C29_violated_prefix`: C29 violated: types whose label lists are only equal up to the length of the shorter one count as equal. A distribution over one label is then added to every label of the other, and the result sums to more than one.
* `C36_violated_duplicate_minimum`: If the least sample occurs twice, quantiles below its cdf value are smaller than every sample, although the cdf is 0 there.
* `C36_violated_flat`: A density below 1e-4 is taken to be no density at all: for the two samples 0 and 20000 there is no quantile function.
* `C36_violated_single_value`: If all samples are equal, the quantile function is NaN everywhere except at 1.
* `C37_violated_beyond_greatest`: An interval that exceeds the greatest sample: the cropped cdf is greater than 1.
* `C37_violated_jump`: A jump inside the interval is multiplied with the mass of the interval instead of divided by it: the least sample 1 occurs twice and has cdf value 1/4, the value at 8 is 7/10, so under the condition `x < 9` the probability of 1 is 5/14; but the cropped cdf has value 7/40 there.
* `C37_violated_mass_at_lower_end`: Mass on the least float of the interval is lost: a distribution on the value 5, cropped to `[5, 8]`, becomes a distribution on the value 8, and cropped to `[5, inf)` it fails.
* `C37_violated_outside`: A half-open interval whose only float is its upper end: the distribution becomes that of its lower end, which does not belong to it.
* `C37_violated_set_point`: A set that contains a single value first: the distribution is replaced before it is cropped to the other intervals, and these are then unsatisfiable, although each of them has positive probability.
* `C37_violated_set_weights`: The parts of a set of intervals get equal probabilities, whatever their probabilities were: here 1/4 and 1/2 become 1/2 and 1/2.
* `C37_violated_single_float`: Linear pieces of a single float become constants, and the mass up to the next float is lost: for the samples 0, 2, 3, 20, the cdf at 3 drops from 2/3 to 1/3 by cropping to the whole range.
* `C37_violated_zero_mass`: An interval of mass zero inside a gap is not rejected: the result is a distribution on its greatest float.
* `C38_violated_duplicated_minimum`: If the least sample occurs more than once, its mass is lost, and appears at the greatest sample: merging the single distribution fitted to `1, 1, 4, 9, 20` changes its cdf, at 4 from 1/2 to 1/4, and at 20 from 1 to 3/4.
* `C38_violated_exceeds_one`: The merged cdf of two fitted distributions exceeds 1 and then falls.
* `C38_violated_jumps`: The same happens to a cdf with two jumps.
* `C38_violated_small_slopes`: A slope of at most `1e-8` is dropped: merging the uniform distribution on `[0, 2e8]` alone gives a "cdf" that is 1 at every number.
* `C39_violated_nan`: NaN is not kept but becomes 0, in both directions.
* `C39_violated_no_values`: For no values at all the type is made, but the mean is NaN and so is every transformed number.
* `C41_violated_size`: `min_samples_leaf` is violated: one numeric target, one symbolic feature. The values of the feature have 2, 1 and 2 rows, and a leaf with one row is made although 2 are required.
* `C41_violated_zero`: `max_depth = 0` is ignored.
* `C42_violated_encode`: At a threshold `encode` returns the wrong leaf: after learning from the values 0 and 2, the sample 1 satisfies the path of the right leaf but is encoded as the left one.
* `C43_violated_average`: The improvement of two numeric targets is not the average of the reductions and exceeds one.
* `C43_violated_exceeds`: The improvement of a split found by the learner exceeds one.
* `C43_violated_subset`: If the symbolic targets are not the first symbolic variables, their impurities are scaled with the domain sizes of other variables: a uniform target with two values gets 3/4 instead of 1.
* `C45_violated_self`: The evidence may be compatible with a leaf without being certain there: then `infer` multiplies the probability of a common variable twice, so that `P(A | A) ≠ 1`.
* `C46_violated_evidence`: Evidence on a variable that is not on the path of a leaf does not change its distribution there: the posterior of an evidence variable can have mass outside the evidence.
* `C47_violated_beyond_greatest`: Evidence that exceeds the greatest value of a leaf it reaches gives a tree whose answers are no probabilities: the tree over numbers has the leaves {0, 2, 4} and {10, 12, 14}, and conditioned on `2 ≤ x ≤ 13` it answers 23/20 to `0 ≤ x ≤ 20`, which is certain.
* `C47_violated_infer`: `infer` multiplies the probability of common variables twice (C45); the conditional tree does not, so that the two disagree.
* `C47_violated_twice`: A node that has lost a child to conditioning is not entered again, so a tree cannot be conditioned twice: evidence with probability one half is reported unsatisfiable.
* `C48_violated_single_value`: `mpe` misses the most likely world: in leaves where all numbers are the same it replaces the infinite density by the minimal distance of the variable, whereas `likelihood` divides by it. The number 1 with the second symbol has the likelihood 5, and 1/5 with the first symbol 5/4, but only numbers below 1/2 (the float 5) with the first symbol are returned.
* `C49_violated_order`: C49 is violated where states are equally likely: the eight states of probability 1/16 are yielded before the state of probability 1/4. The costs are the logarithms of the probabilities of the whole sets of states, the likelihoods those of a single state.
* `C50_violated_order`: C50 is violated with two leaves: the heap of candidates is ordered by likelihood and gives out the smallest first, so that an explanation of likelihood 1/3 comes before one of 2/3.
* `C50_violated_prior`: C50 is violated also because the likelihoods ignore the priors of the leaves: of the six rows two are `(0, 0)`, and the tree itself gives the state probability 1/3, but it is reported with likelihood 2/3.
* `C51_violated_conditional`: C51 is violated on trees that come from conditioning: a decision node that has lost a child makes `prune` raise `ValueError`.
* `C52_violated_eq`: C52 is violated: a tree with a proper subset of the variables as features does not equal its own copy, because the copy's dependencies are declared over all variables, the original's over the features only.
* `C52_violated_variables`: C52 is violated: the precision of a variable is lost when the tree is read from its JSON object (as in pickling) without passing the variables, and then the tree does not equal the original even if its dependencies do.
* `C54_violated_deepcopy`: C54 is violated by deep copies: entries whose values are of another type are dropped, and a tuple makes the copy fail.
* `C54_violated_reset`: C54 is violated: a variable given to the constructor, set and deleted, cannot be set by its name again.
* `C55_violated_settings`: C55 is violated: the precision of a numeric variable, the impurity inversion of a symbolic one are lost.
* `C56_violated_integer`: C56 is violated: integer variables take anything.
* `C56_violated_name`: C56 is violated: addressed by its name, a numeric variable takes a string.
* `C56_violated_valueset`: C56 is violated: a value assignment takes any set for a symbolic variable; converting it then fails.
* `C58_violated_eleven_steps`: With eleven steps or more the tree of step 2 is re-weighted by the distribution of step 10: the names of the steps are sorted as strings.
* `C58_violated_eleven_steps_witness`: A case in which it matters. The tree is fitted to a sequence, belief propagation is exact, and only step 10 has evidence. The leaf distribution of step 2 is uniform, as are the priors of its tree; yet the result at position 2 has priors 2/3 and 1/3, and that at position 10, which has the evidence, is re-weighted by a uniform distribution.
* `C59_violated_retract_only`: Retracting the only point raises `ZeroDivisionError`, although there is code for that case.
* `C59_violated_small_variance`: A variance below `1e-15` is replaced by 0: for the points 0 and `1e-8` (a length of ten nanometres in metres), the variance is `5e-17`, but 0 is estimated.
* `C59_violated_update_after_retract`: After a retraction that leaves one point, the next update raises `AttributeError`, because the covariance is a list.
* `C61_violated_value`: C61 violated: the value is not the Kullback-Leibler divergence: it is finite, namely 1, for distributions with disjoint supports, where the divergence is infinite.
* `C62_violated_cdf`: C62 violated: `cdf` evaluated at a label is not the probability of values up to that label: it is the weight of a single value, looked up by value and not by label.
* `C64_violated_numeric`: C64 is violated for numeric distributions: updating with weight 1 keeps half of the old distribution. The new cdf at 4 is 3/4, although the cdf that was given all the weight is 1/2 there.
* `C65_violated_dependency`: With `dependencies` the independent targets are not left out: their stale statistics decide the split. The reported improvement 1 belongs to a division with improvement 1/9.
* `C67_violated_small_variance`: If a variance is `1e-8` or less, a perfect fit is reported: for the points `(0, 0)`, `(1, 1e-5)`, `(2, 0)`, the reported error is 0 and the reported coefficient of determination is 1, but the best line is flat and explains nothing.
* `C68_violated_update_forgets`: The result of arithmetic does not remember how many points it stands for: after one update, the mean is that point.
* `C71_violated_refit`: Fitting again keeps the leaves of the first fit whose numbers the new tree does not use; the priors then do not sum to one.
* `C72_violated_square`: A fitted template with leaf priors 2/3 and 1/3, given the evidence; the result has 4/5 and 1/5.
* `C74_violated_duplicated_minimum`: If the least sample is duplicated, its mass is lost for every interval that begins with it: the interval from the least to the greatest sample, which has probability 1, gets 2/3, and the least sample itself gets 0.
* `C74_violated_merged_values`: In a merge of two distributions of single values nothing has positive density, and every interval, even the real line, gets probability 0.
* `C74_violated_overlap`: Overlapping intervals of a set are counted twice.
* `C75_violated_center`: The moment of order 1 of a single value ignores the center, moments of higher order are 0 around every center, and the moment of order 0 is 0 instead of 1.
* `C75_violated_duplicated_minimum`: If the least sample is duplicated, the expectation, 17/3 and a bit, lies below every sample, and the moment of order 0 is not 1.
* `C75_violated_merged_values`: A merge of two distributions of single values has expectation 0 wherever the values are.
* `C75_violated_neighbours`: If two samples are neighbouring floats, the mass between them is left out.
* `C75_violated_scaled_value`: The expectation of a single value is the scaled value and not the label: here the label of 4 is 11.
* `C76_violated_merged_values`: A merge of distributions of single values has no explanation: `mpe` raises an exception.
* `C76_violated_repeated`: Explanations with the same likelihood are listed once per piece: the two best explanations are the same, and the second best likelihood, 1/40, is not among them.
* `C76_violated_weight`: A single value in a merge is ignored, whatever its weight: here the value 50 has probability 9/10, and the most probable explanation is the other part, `[0, 11)`.
* `C77_violated_duplicated_minimum`: If the least sample is duplicated, the probabilities do not sum to 1 and nothing can be sampled.
* `C77_violated_tail`: Nothing can be sampled either if the samples are two neighbouring floats.
* `C78_violated_quadratic`: C78 fails for functions with a quadratic piece: they are written, but cannot be read.
* `C78_violated_undefined`: C78 fails for functions with an undefined piece: they cannot be written.
* `C78_violated_unfitted`: C78 fails before fitting: a distribution without data is written, but cannot be read.
* `C79_violated_crop`: C79 is violated: cropping any distribution to a number, or to an interval with a single float, replaces the distribution itself by that of the number.
* `C79_violated_posterior`: C79 is violated: asking for the posterior given that a numeric variable has a certain value replaces its distribution in the leaf, and later queries return something else. Here the probability of values below 2 is 1/4 before and 0 after the query.
* `C80_violated_nan`: The middle of two neighbouring floats is rounded to the even one of them. If that is the upper one for both of two distributions with one value, their densities are only read where they are zero, and the similarity is 0 divided by 0, `nan`, instead of 0.
* `C81_violated_dirac`: The intervals are closed, so that the mass of a distribution with one value counts for two of them: the divergence exceeds 1.
* `C81_violated_infinite`: What is returned is not the Kullback-Leibler divergence: that is infinite if one of the distributions has mass where the other has none, as for these two that have nothing in common. The function returns 1, a finite value.
* `C81_violated_zero`: Nor is it 0 for equal distributions only: that of the uniform distribution on [0, 4] from the one on [0, 5], the next float, is 0, because the masses are compared at the end of the last piece, 5, only.
* `C82_violated_fitted`: If the least sample occurs more than once, its mass is lost and the rest is scaled: rebuilding the distribution fitted to `1, 1, 4, 9, 20` changes the cdf at 4 from 1/2 to 11/34.
* `C82_violated_impulses`: A density with two impulses is refused with a `TypeError`, since the weight of the second one is made from the entry of the first one.
* `C82_violated_refused`: The density of a fitted distribution reaches one float beyond the greatest sample, and if that is more than `1e-8` of the distance to the sample before, rebuilding is refused, since the area exceeds 1.
* `C82_violated_whole`: If the steps already have the area 1, the impulse nevertheless gets the weight 1, so that it has half of the probability.
* `C83_violated_dirac`: A leaf with the only value `x = 10^9` and the path `[0, ∞)`, as the right one of two leaves: after closing the gap the density of `x` is 0, and nothing is left from `x` on.
* `C83_violated_mass`: A repeated least value loses its mass: the mixture of 9/10 of the fitted distribution and 1/10 of the gap is 11/20 at 4. And the cdf may exceed 1.
* `C83_violated_tight`: A leaf that has no gap is changed: the cdf is scaled and jumps at its end.
* `C83_violated_wide`: A wide gap is not closed: the density at `-5` is 0.
* `C84_violated_mpe`: `mpe` reports another likelihood for the most likely worlds than `likelihood`: in leaves with one number only it multiplies with the minimal distance instead of dividing by it.
* `C85_violated_center`: A center that is given as a label is replaced by its internal value: the first moment about the mean, 2, should be 0, but is 1. If it is given as a set, as `bind` does, a `TypeError` is raised.
* `C85_violated_default`: The documentation says that the expectations of all variables without evidence are computed if no variables are given; those of the evidence variables are computed, too.
* `C85_violated_evidence`: Evidence on the variable itself is ignored if no split of the tree is on it: given that the variable is 1, its expectation is 2.
* `C85_violated_numeric`: If the samples of each leaf are all the same, the expectation of a numeric variable is 0 as soon as two leaves can be reached: here the samples are 2 and 7, three of each.
* `C86_violated_numeric`: A tree learned from the numbers 0, 0, 1 and 2 cannot be sampled: the distribution of a leaf with a duplicated least number cannot (`C77_violated_duplicated_minimum`).
* `C86_violated_zero`: If the random number for a variable is 0, the first label is returned even if it is impossible: the world is sampled although its likelihood is 0.
* `C87_violated_additional`: C87 is violated: the documentation of `bind` says that keyword arguments may specify additional pairs, but with a dictionary they are refused.
* `C87_violated_foreign`: C87 is violated: an unknown name raises an exception, but the object of a variable the tree does not have is accepted.
* `C87_violated_integer`: C87 is violated: labels outside the domain of a symbolic variable are refused, but integers outside the domain of an integer variable, and even strings, are accepted; the error comes when the assignment is used.
* `C88_violated_best`: C88 is violated: the leaves are sorted by the sum of the probabilities, so that the best match need not come first: a warm and rainy day has the probability 1/4 in the first place and 1/3 in the second.
* `C89_violated_excluded`: C89 is violated: of an interval that holds a single float the lower bound is taken, also if it is excluded. The interval `(15, 16]`, where the density of 16 is 0, has the density 1/16 of 15.
* `C89_violated_label`: C89 is violated: `pdf` looks the internal value up among the labels. For the integer variable with the labels 1, 2, 3 the likelihood of the label 2 (value 1) is the one of the label 1: 1/3 instead of 1/6 together with the label 0 of the first variable. The label 1 (value 0) raises `ValueError`, although it occurs in a third of the training rows.
* `C89_violated_nan`: C89 is violated: the likelihood of the number 5 with the label 1 is NaN instead of 0, since in the leaf where all numbers are 5 the infinite density is multiplied by the frequency 0 of the label.
* `C90_violated_flat`: With a `LinearFunction` of slope 0 only the end points of its interval are returned, although the maximum is attained in between: `maximize` takes every `LinearFunction` to be strictly monotone.
* `C91_violated_area`: `rectify` evaluates a linear piece at the greatest float below its upper bound, so the mean is not that of the piece and the area under the function changes.
* `C92_violated_columns`: C92 violated for columns: superfluous ones are not rejected and give columns of uninitialised memory, missing ones are not noticed, and a column with a single value is taken to be constant.
* `C92_violated_long_rows`: C92 violated for rows: those with more cells than there are variables are cut off, without an error.
* `C92_violated_missing`: C92 violated for missing numbers: the same data give NaN from a data frame but the mean from rows, if the numbers are scaled.
* `C93_violated_missing`: C93 violated: a missing value in a column of labels is made a label of the inferred domain (`unique` keeps it, `variables.py` 524), so the domain has a value that does not occur in the table: the same frame is turned into a table with NaN there, not with the number of that label.
* `C93_violated_scale`: C93 violated: scaled numbers need not have mean 0, because mean and deviation are those of the *different* values (`variables.py` 532-535): 0, 0 and 3 become -1, -1 and 1.
* `C94_violated_threshold`: At a threshold the wrong leaf is consistent: after learning from the values 0 and 2, the number 1 satisfies the path of the right leaf only, but the left leaf is reported to be consistent with it and the right leaf not to be.
* `C95_violated_parameters`: The number of parameters is not the documented one: a leaf should count one more for its prior, and the tree should count all of its nodes, decision nodes with two parameters each. After learning from six rows the tree counts 9, and should count 13.
* `C96_violated_exact`: The value of the convolution is not exact: mirroring `[a, b)` gives `(-b, -a]`, which is written as the half-open interval between the *next* floats, so that the mirrored function lies one float too far to the right. On a grid of the integers the convolution of the box over `[0, 10)` with a box of height 2 over `[5, 9)` is 2 at 5, where the true convolution is 0.
* `C96_violated_impulse`: The position of a single step of at most two floats is lost: `convolution` returns the other function without moving it. The convolution of a box of height 1 over `[5, 6)` with a box over `[0, 10)` on the grid of the integers should be 0 to the left of 5, but it is 1 at 0. Thus the distribution of `c + Y`, with a constant `c`, is that of `Y`.
* `C97_violated_begin`: A function that begins with a line: `lt(1)` of `min(x, 0)` does not contain the negative numbers.
* `C97_violated_flat`: A plateau at the value: `lt(1)` of a distribution function that reaches 1 returns all numbers, and `eq(1)` none.
* `C97_violated_jump`: Jumps: `lt` loses the bound at which a step function falls below the value, and `gt` misses a line that begins above the value after a jump.
* `C97_violated_touch`: `lt` and `gt` go wrong if the function touches the value without crossing it: the function `max(1 - x, x - 1)`, cut off at 1, is nowhere negative, but `lt(0)` returns all numbers below 1.
* `C98_violated_last`: On the last piece the tolerance can be exceeded: `_backward` starts to measure at the last but one candidate, so that what lies between it and the end is not counted. Here seven points of a distribution function are replaced by a single line, with a mean squared deviation of more than twice the tolerance squared.
* `C98_violated_stuck`: A piece that zigzags around its line is kept as it is, if no single split improves it, however small the tolerance: the piece from 1 to 5 deviates by 1/50 at every inner point, with a tolerance of 1/100.
* `C99_violated_constant`: The text of a constant (`5.0 = const.`) cannot be read: `float` fails.
* `C99_violated_flat_parabola`: The roots of a parabola that is a line (`a = 0`) are not found: the formula divides by zero, whereas `simplify` followed by `root` would find them.
* `C99_violated_same_line`: A line and itself do not intersect, according to `intersects`, although they have all their values in common and `intersection` says so.
* `C100_violated_abs`: An absolute value that is negative.
* `C100_violated_crossing`: Where two lines meet between the first float of an interval and the next one, the minimum is wrong at the first.
* `C100_violated_gap`: The minimum of a function on an interval and one whose domain has a gap raises; in the other order it does not.
* `C100_violated_unbounded`: On `(-inf, 0)` the minimum of `x - 1` and `x` is said to be `x`: the difference of two infinite values is NaN.
* `C100_violated_whole_line`: The minimum of two constants on the whole line raises: the middle of the line is NaN.
* `C101_violated_area`: The width of `[a, b)` is the distance of its least and its greatest float, so that the widths of two neighbouring pieces do not add up to that of their union, and the approximation has another area.
* `C101_violated_gap`: A function with a gap between two parts is refused: the last candidate of the first part is linked to the first one of the second part.
* `C101_violated_shift`: The functions of the replaced pieces are looked up in the list of all functions by equality. If an earlier piece has an equal function, that one is removed, and the functions between move to their left neighbours: this density, which is 0 below 0, becomes 1 on all of `(-inf, 0)`.
* `C101_violated_shift_line`: The same with lines, if a part of the function is as flat as its beginning.
* `C102_violated_constant`: The sum of a constant and a variable is the variable itself: the constant is not added. Here the constant is 5 and the variable is uniform on `[0, 10)`; the sum should be uniform on `[5, 15)`.
* `C103_violated_exact`: The value at a bend is not that of the given cdf: at 30 it is 893/2633 instead of 1/3.
* `C103_violated_hole`: A distribution whose density is 0 somewhere within its support cannot be approximated: when the piece with the value 0 is replaced, the first piece, which has the same value, is removed instead.
* `C104_violated_empty_interval`: C104 fails for unions with an empty interval. The random number selects among the intervals that are not empty, but its position is looked up among all of them. From `∅ ∪ [0, 1]` every draw raises `IndexError`.
* `C104_violated_reals`: C104 fails for wide intervals. From an interval that is unbounded on both sides, such as the real numbers, nothing can be sampled: the difference of the largest and the smallest double is infinite, and `numpy.random.uniform` raises `OverflowError`.
* `C104_violated_size`: C104, size fails for unions given out of order. `{1} ∪ [0, 1)`, where 0 and 1 stand for neighbouring doubles, has two members, but its size is 0.
* `C105_violated_domain`: C105 fails for functions with different domains. What lies outside the common domain is ignored: the functions that are 1 on `[0, 2)` and on `[1, 3)` have the similarity 1, though they share a third of their area.
* `C106_violated_merge`: The claim that two functions can be merged at a number is false: `merge` calls `add_const`, a method no piecewise function has, so that it raises an error for all functions and numbers (`AttributeError` for the cdf of a uniform distribution with itself).
* `C107_violated_open`: C107 fails for open intervals of large numbers. The neighbour of an open bound is sought between it and the number one larger; from `2^53` on, this is the same double, so that the bound itself is returned.
* `C107_violated_overshoot`: C107 fails with the rounding of doubles. The last of four points of `[2^53, 2^53 + 22]` is `2^53 + 24`, which is not in the interval.
* `C108_violated_nan`: A variable whose numeric domain is made from an empty list of values (the mean of which is NaN, the scale 1) is not equal to itself.
* `C108_violated_piecewise`: A piecewise function is hashed by the address of a generator that is made for this purpose: a function that is equal to itself has another hash whenever the generator is allocated elsewhere.
* `C108_violated_prefix`: Symbolic variables of the same name are equal if the labels of one are the first labels of the other. They have different hashes, and equality is not transitive: two variables that are both equal to a third one differ.
* `C108_violated_quadratic`: Quadratic functions are equal to themselves and cannot be hashed.
* `C108_violated_verbose`: The hash of a quantile distribution depends on `verbose`, which does not matter for equality.
* `C109_violated_flat`: With a density below 1e-4 there is no quantile function, so that every query for a single number fails.
* `C109_violated_scaled`: With a scaled domain, the interval is not around the number: for the samples 8 and 12, which are scaled to -1 and 1 (mean 10, scale 2), the number 10 with a blur of 1/5 becomes the interval from -7.8 to -7.7. The cdf of scaled values is evaluated at the number that is not scaled, its quantiles are scaled as if they were numbers, and the result is scaled once more.
* `C109_violated_single`: If all samples have the same value, every number becomes that value: with the only sample 4, a query for 7 is answered as a query for 4.
* `C110_violated_distances`: Disagreement: trees that compare equal can give different likelihoods to the same row, because the minimal distances of the numeric variables, which replace infinite densities, are learned from the data but not compared. Two tables of ten numbers that differ in one number (3000 and 3002) give equal trees, but the likelihoods of the number 0 are 1/2000 and 1/1996.
* `C110_violated_kinds`: Disagreement: comparing two trees over the same variables can raise an exception instead of returning `False`. If the nodes with the same number split on a numeric and on a symbolic variable, the splits are compared before the variables, and an interval asks a set of values for its minimum (`AttributeError`).
* `C111_violated_bool`: Disagreement: a number cannot be assigned to a value of a boolean distribution; `d[v] = p` raises `ValueError` for every fitted distribution, value and number, because an array of two numbers is assigned to one entry.
* `C111_violated_str`: Disagreement: printing a symbolic or integer distribution that has not been fitted raises `TypeError` instead of printing `n/a`: the code tests the method `_p` instead of the parameters.
* `C112_violated_index`: Disagreement: `wchoicei` is documented to return the index of the chosen element; it returns a pair of the element and its index, so the answer is never an index alone.
* `C112_violated_zero`: Disagreement: an element with weight zero can be drawn: the first one if the random number is zero. If all weights are zero, the first element is always drawn, although no weight allows it.
* `C114_violated_gini`: Disagreement: `gini` is documented as the Gini impurity, which is 1/2 for a fair coin; it takes the mean instead of the sum and returns 1/4.
* `C115_violated_error`: Disagreement: asking for a probability or a posterior given evidence of probability zero raises a `KeyError` instead of the `ValueError` or the `Unsatisfiability` that is announced, if the evidence is on an integer variable whose labels are not `0, …, n-1`; on internal values the announced error is raised.
* `C115_violated_text`: Disagreement: the error for unsatisfiable evidence shows labels as if they were internal values. Evidence `x = 1` on an integer variable with the labels 1 to 3 is printed as `x = 2`, `x = 3` raises a `KeyError` in place of the announced error, and the bounds of an interval on a scaled variable are scaled again.
* `C117_violated_scaled`: Disagreement: for a scaled variable the limit is divided by the square root of the scale instead of the scale, although the scale is a standard deviation. The labels 0 and 8 have the standard deviation 4, and the limit 3 is not noticed to be exceeded.
* `C119_violated_open`: Disagreement: rounding an interval with an open bound loses points: the bound is rounded, but stays open, so that a point next to it can be rounded onto the excluded bound; if both bounds have the same rounding, nothing is left.
* `C119_violated_overlap`: Disagreement: the intervals of a set can overlap after rounding, although they were apart before; rounding does not simplify the set.
* `C120_violated_crash`: Disagreement: if the process is stopped while a tree is saved, the file can contain neither the tree that was saved before nor the new one, for both protocols.
* `C120_violated_pickle`: Disagreement: if the data of a tree cannot be made, saving it with `pickle`, the default, destroys the tree that was saved in the file before; with JSON the file is left as it was.
* `C120_violated_stream`: Disagreement: two trees that have been saved to a stream as JSON cannot be loaded again, although each can be: `json.load` reads the whole stream and rejects what follows the first value.
* `C121_violated_mean`: Disagreement: conditioning two of four variables gives a wrong mean, because the covariances between given and other variables are taken in the wrong direction. The variables 2 and 3 are given with the values 1 and 0, and only the variables 0 and 3 are correlated; so nothing is learned about 0 and 1, which have mean 0. The result is 1/2 for variable 1.
* `C121_violated_shape`: Disagreement: one of three variables cannot be given at all.
* `C122_violated_keys`: Disagreement: a dictionary with two keys of the same text, as 1 and '1', loses an item in its representation.
* `C122_violated_none`: Disagreement: `None`, which JSON has as `null`, has no representation; so a map with an unset value has none either.
* `C123_violated_names`: Disagreement: if a variable of the template is named as another one at a later time step, the expanded tree has two variables of the same name, only one of which can be found by its name.
* `C125_violated_empty_space`: Disagreement: the empty set is not recognised if there is a space in the text.
* `C125_violated_rest`: Disagreement: text behind an interval is ignored, so that a text which does not denote an interval is read as one, and the second of two lines is lost.
* `C125_violated_union`: Disagreement: the text of a union of two intervals, as `str` writes it, cannot be read as a union: it is a `ValueError`, whatever the intervals are.
* `C126_violated_again`: Disagreement: a function that has been simplified cannot be simplified again: the second call is a `ValueError`, since its pieces overlap.
* `C126_violated_integral`: Disagreement: simplifying a function with two neighbouring pieces of the same function changes the function it is called on: its first interval is extended, its pieces overlap, and its integral is 30 instead of 20.
* `C127_violated_intervals`: Disagreement: comparing a set with another one, or asking for its size, changes its intervals: `[0, 3] ∪ (3, 5)` becomes `[0, 5) ∪ (3, 5)`, with overlapping intervals.
* `C127_violated_member`: Disagreement: if the intervals are not in order, comparing a set with another one can remove a member from it: 1 is a member of `{1} ∪ [0, 1)` before, but not afterwards.
* `C128_violated_closed`: Disagreement: `ensure_right` closes the last piece at its lower bound, even if this was open: a function that is 0 on `(0, ∞)` and undefined at 0 has the value 0 at 0 after `ensure_right(ConstantFunction(1), 3)`, and the interval of the zero function becomes `[-∞, 3)`.
* `C128_violated_left`: Disagreement: if the first piece has the values of `g` already, `ensure_left(g, x)` does nothing, although other pieces may begin below `x`: after `ensure_left(ConstantFunction(0), 5)` the ramp from 0 to 1 has the value 3/10 at 3.
* `C128_violated_right`: Disagreement: if `x` is below the last piece, `ensure_right(g, x)` does not give the function the values of `g` from `x` on: after `ensure_right(ConstantFunction(2), 5)` the ramp from 0 to 1 still has the value 7/10 at 7.
* `C129_violated_assigned`: Disagreement: assigning a setting of a variable has no effect on the distributions it makes: after `v.precision = 0.2` the variable has the precision 0.2 and its distributions the precision 0.01.
* `C130_violated_room`: Disagreement: for a function with a single piece, all numbers, `xsamples` writes four samples to an array with room for three.
* `C130_violated_step`: Disagreement: if no piece is bounded, some samples are `nan`, and one of the others is not in its piece: for a step at 0, the samples of `(-∞, 0)` and `[0, ∞)` are `0, nan, 0, nan`.
* `C131_violated_round`: Disagreement: the result of `round(include_intervals=False)` shares the intervals of the original: if 1.1 on `[0, 10)` and 1.2 on `[10, 20)` are rounded to 1 and the result is simplified, the value of the original at 15 becomes 1.1.
* `C132_violated_sparse`: Disagreement: `dependencies` is offered as a sparse structure ("having this sparse may speed up training a lot"), but leaving a feature out does not mean that nothing depends on it: with an entry for the first feature only, learning fails with a `KeyError`; the same feature with an empty list is accepted.
* `C133_violated_empty`: Disagreement: the neutral operations fail on a Gaussian that has seen no points: `g *= 1` and `g += 0` raise a `TypeError`, so a history may not begin with them.
* `C134_violated_update`: Disagreement: a copy shares the arrays of the original and forgets the weights. Whatever Gaussian is copied, one update of the copy with a point that differs from the mean in every coordinate replaces the mean of the *original* by that point, although the original has not been touched.
* `C134_violated_weights`: Disagreement: a copy stands for no points: of a Gaussian of the points 1, 2 and 3 the copy has the mean 2, and the mean 10 after an update with 10, where the original gets the mean 4.
* `C136_violated_dimension`: Disagreement: Gaussians of two or more dimensions cannot be compared: whatever they are, and even a Gaussian with itself, `==` raises a `ValueError`, since NumPy does not take an array of several comparisons as true or false.

## 5. Not modelled

* Plotting, logging, file I/O, pickling byte formats, the mlflow wrapper.
* Belief propagation in `factorgraph` (limited to 100 iterations): a parameter, with exactness as a hypothesis
  where it matters. `SequentialJPT.ground_fglib` (refers to names that do not exist).
* Windows of zero steps in `SequentialJPT.fit`.
* Queries at single values in trees (other than their effect on the tree, C79). Trees with numeric variables: `infer` is
  proved for all learned trees (C45), `posterior` (C46), conditioning of trees (C47) and of leaves (C94) for evidence on symbolic and
  integer variables and on intervals of numeric variables that lie inside the values of the leaves, and `mpe` given
  evidence on symbolic and integer variables (C48); for other evidence cropping numeric distributions does not keep
  the laws (C37). Merged numeric distributions are described by C38.
* `close_convex_gaps` in trees: what it does to one numeric variable of one leaf is C83; theorems about inference in
  learned trees with numeric variables (`C45_learned_mixed` and others) are for `close_convex_gaps=False`, or for trees
  no path of which mentions a numeric variable.
* `likelihood` of arrays and data frames (lists of rows only), and of scaled variables.
* `expectation` and `moment` of variables with evidence.
* Infinite values in data frames, labels of different types that Python takes to be equal (`True` and `1`), and the standard
  deviation (a parameter) in `infer_from_dataframe`.
* Random number generation: draws are parameters of the models that use them.
* Densities, sampling and plotting of Gaussians (SciPy); `MultiVariateGaussian` except for conditioning (C121; `multivariate.py` imports a module that does not exist).
* Floating point rounding. Floats that serve as interval bounds are positions on a discrete line (so that
  `nextafter` is exact); probabilities, values of functions and statistics are exact rationals or reals.
  `numpy.nextafter(x, x + 1)` is modelled as the next float; for |x| >= 2^53 the code may get `x` itself.
  `nextafter(-inf)` is modelled as staying at `-inf`.
* Aliasing. Models are values, so "the original is unchanged" holds by construction wherever the code
  copies; where the code shares or mutates an argument the model says so in the comment of the definition.
* `cpdef` functions without an `except` clause swallow exceptions, and `nonecheck=False` makes a method
  call on `None` undefined behaviour: the models return an error value in both cases.
* Options that only change messages.

## 6. Axioms of each theorem

Generated by `tools/axioms.py` from `#print axioms`.

**No axioms** (1):
`C78_violated_undefined`

**propext** (30):
`C06_violated_raises`, `C06_violated_infinite`, `C07_violated_empty`, `C10_violated_raises`, `C10_violated_mutates`, `C11_violated_realset`, `C12_violated_infinite`, `C12_violated_transitive`, `C12_violated_hash`, `C12_violated_realset_hash`, `C13_text_roundtrip_partial`, `C24_neither_leftmost_nor_rightmost`, `C54_violated_reset`, `C54_violated_deepcopy`, `C78_violated_unfitted`, `C95_no_leaves`, `C104_violated_size`, `C111_str_partial`, `C111_violated_str`, `C119_infinite`, `C119_twice`, `C120_others`, `C120_failed_partial`, `C120_stream_partial`, `C120_violated_pickle`, `C120_violated_crash`, `C120_violated_stream`, `C127_violated_intervals`, `C127_violated_member`, `C129_violated_assigned`

**Quot.sound, propext** (44):
`C03_violated_neighbours`, `C04_violated_requested_brackets`, `C08_violated_neighbours`, `C19_reflexive`, `C19_violated_prefix`, `C21_spec_deterministic`, `C22_mapstr`, `C27_symbolic_type`, `C54_constructor`, `C55_domain`, `C56_violated_name`, `C56_violated_integer`, `C87_forms`, `C87_violated_additional`, `C87_violated_foreign`, `C108_violated_quadratic`, `C108_violated_piecewise`, `C108_violated_verbose`, `C119_violated_open`, `C119_violated_overlap`, `C122_plain_partial`, `C122_supported`, `C122_dict`, `C122_items_partial`, `C122_violated_keys`, `C122_violated_none`, `C126_result`, `C126_others`, `C126_violated_again`, `C129_accepted`, `C129_read`, `C129_assigned`, `C129_attributes`, `C131_copy`, `C131_round`, `C131_round_independent_partial`, `C132_default`, `C132_violated_sparse`, `C132_learner_start`, `C134_copy_partial`, `C135_lines`, `C135_faithful_partial`, `C136_violated_dimension`, `C136_sym`

**Classical.choice, Quot.sound, propext** (656):
`C01_contains_iff`, `C02_isempty_iff`, `C02_violated_by_parse`, `C03_intersects_of_common`, `C03_intersects_iff_partial`, `C03_symmetric`, `C03_violated_empty_receiver`, `C04_intersection`, `C04_intersectionEnds_partial`, `C04_realset_half_open`, `C05_union`, `C05_realset_half_open`, `C06_difference_partial`, `C06_difference_returns_partial`, `C06_raises_iff`, `C06_complement`, `C06_realset_difference_partial`, `C06_realset_difference_returns`, `C06_realset_complement`, `C06_half_open`, `C06_realset_half_open`, `C06_complement_half_open`, `C07_contains_interval_partial`, `C07_proper_sound`, `C07_realset_sound`, `C07_violated_union`, `C08_realset_contains_iff`, `C08_realset_isempty_iff`, `C08_realset_intersects_of_common`, `C08_realset_intersects_iff_partial`, `C09_realset_intersection_partial`, `C09_ordered`, `C09_violated_loses_points`, `C10_simplify_partial`, `C10_simplify_returns`, `C10_disjoint_returns`, `C10_violated_loses_points`, `C10_half_open`, `C11_chop`, `C11_realset_chop_partial`, `C12_eq_iff_partial`, `C12_eq_equivalence_partial`, `C12_realset_eq_sound_partial`, `C12_violated_realset`, `C12_half_open`, `C12_half_open_equivalence`, `C12_realset_hash_partial`, `C12_bool`, `C13_json_roundtrip`, `C13_json_invalid`, `C13_violated_point_text`, `C13_violated_realset_json`, `C14_function_plus`, `C14_function_times`, `C14_function_returns`, `C14_function_minus_number`, `C14_violated_number_minus_function`, `C14_violated_undefined`, `C14_violated_quadratic`, `C14_plus_function`, `C14_times_function`, `C14_function_pieces_return`, `C14_divide`, `C14_simplify`, `C14_plus_piecewise`, `C14_minus_piecewise`, `C14_times_piecewise`, `C14_piecewise_return`, `C14_violated_different_domains`, `C14_violated_gap`, `C14_violated_middle`, `C15_eval_partial`, `C15_eval_error_partial`, `C15_violated_outside`, `C15_interval_at`, `C16_line`, `C16_parabola`, `C16_quadratic_from_points`, `C16_violated_same_abscissa`, `C16_polyline`, `C17_function`, `C17_area_partial`, `C17_additive`, `C17_violated_linear_zero`, `C17_violated_linear_sign`, `C18_xshift`, `C18_xshift_returns`, `C18_crop`, `C18_stretch_partial`, `C18_violated_stretch`, `C18_split`, `C18_function_xmirror`, `C18_function_xshift`, `C19_equal_partial`, `C19_violated_equal`, `C20_normalized_list`, `C20_normalized_distribution`, `C20_normalized_zeros`, `C20_normalized_zeros_error`, `C20_normalized_containers`, `C20_violated_integer_array`, `C21_history_partial`, `C21_peek`, `C21_delete_contents`, `C21_delete_last_partial`, `C21_violated_delete`, `C22_pairwise`, `C22_setstr_int`, `C22_list2intset`, `C23_sort`, `C23_introsort_any_depth`, `C24_bisect_insertion_point`, `C24_bisect_unique`, `C25_linspace_partial`, `C25_linspace_ends_partial`, `C25_violated_single_point`, `C25_single_point_iff`, `C26_construct`, `C26_index_defined`, `C26_index_interval`, `C26_interval_length`, `C26_normalize`, `C26_get`, `C26_zero_draw`, `C27_integer_type`, `C27_p`, `C27_measure`, `C27_api`, `C28_crop_partial`, `C28_integer_crop`, `C28_crop_outside`, `C28_crop_scalar_partial`, `C28_violated_scalar`, `C29_merge_partial`, `C29_merge_errors`, `C29_violated_length`, `C29_violated_prefix`, `C30_k_mpe`, `C30_mpe`, `C31_fit`, `C32_add`, `C32_moments`, `C33_roundtrip`, `C34_jaccard`, `C35_fit`, `C35_constant`, `C35_empty`, `C35_bounds`, `C36_inverse_partial`, `C36_violated_flat`, `C36_violated_duplicate_minimum`, `C36_violated_single_value`, `C37_violated_outside`, `C37_violated_set_weights`, `C37_violated_set_point`, `C37_crop_conditions_partial`, `C37_crop_fitted_partial`, `C37_unsatisfiable`, `C37_crop_dirac`, `C37_violated_jump`, `C37_violated_mass_at_lower_end`, `C37_violated_beyond_greatest`, `C37_violated_single_float`, `C37_violated_zero_mass`, `C38_merge_partial`, `C38_merge_rounded_weights_partial`, `C38_default_weights`, `C38_merge_fitted_partial`, `C38_rejects`, `C38_violated_duplicated_minimum`, `C38_violated_exceeds_one`, `C38_violated_small_slopes`, `C38_violated_jumps`, `C39_invertible`, `C39_lookup`, `C39_normalised`, `C39_labels`, `C39_order`, `C39_refused`, `C39_violated_no_values`, `C39_violated_nan`, `C40_partition`, `C40_one_leaf`, `C40_no_data`, `C41_size_partial`, `C41_depth`, `C41_depth_arg`, `C41_fraction`, `C41_violated_size`, `C41_violated_zero`, `C42_rows`, `C42_exactly_one`, `C42_tree`, `C42_encode_partial`, `C42_violated_encode`, `C42_encode_total`, `C43_variance`, `C43_gini`, `C43_gini_formula`, `C43_reduction`, `C43_improvement_partial`, `C43_violated_average`, `C43_violated_exceeds`, `C43_violated_subset`, `C44_apply`, `C44_errors`, `C44_learned`, `C45_infer_partial`, `C45_infer_apart`, `C45_infer_prior`, `C45_range`, `C45_self_partial`, `C45_learned`, `C45_violated_self`, `C45_learned_mixed`, `C45_learned_leaves`, `C46_posterior_partial`, `C46_unsatisfiable`, `C46_evidence_partial`, `C46_learned`, `C46_violated_evidence`, `C46_learned_mixed_partial`, `C46_numeric_evidence_partial`, `C47_learned_mixed_partial`, `C47_conditional_partial`, `C47_empty`, `C47_infer_partial`, `C47_learned`, `C47_violated_twice`, `C47_violated_infer`, `C47_numeric_evidence_partial`, `C47_violated_beyond_greatest`, `C48_learned_mixed_partial`, `C48_most_likely_partial`, `C48_violated_single_value`, `C48_mpe_partial`, `C48_errors`, `C48_learned`, `C49_solve`, `C49_solve_k`, `C49_impossible`, `C49_no_variables`, `C49_likelihood_partial`, `C49_discrete`, `C49_discrete_partial`, `C49_violated_order`, `C50_states_partial`, `C50_single_partial`, `C50_violated_order`, `C50_violated_prior`, `C51_prune`, `C51_learned`, `C51_lossless`, `C51_learned_lossless`, `C51_violated_conditional`, `C52_learned_mixed`, `C52_nodes`, `C52_learned`, `C52_settings_partial`, `C52_variables_partial`, `C52_violated_eq`, `C52_violated_variables`, `C53_multiply`, `C53_zero`, `C53_missing`, `C54_history_partial`, `C54_observe`, `C54_copy`, `C54_deepcopy_partial`, `C54_eq`, `C54_json`, `C55_roundtrip_partial`, `C55_copy_partial`, `C55_violated_settings`, `C55_no_domain`, `C55_settings`, `C56_roundtrip`, `C56_roundtrip_values`, `C56_accepts_partial`, `C56_history_partial`, `C56_violated_valueset`, `C57_transition_model`, `C57_fit`, `C57_errors`, `C58_ground`, `C58_unsatisfiable`, `C58_marginals_partial`, `C58_violated_eleven_steps`, `C58_exact_partial`, `C58_fitted_partial`, `C58_violated_eleven_steps_witness`, `C59_update_partial`, `C59_update_bounds`, `C59_history_partial`, `C59_refused`, `C59_default_weights`, `C59_violated_small_variance`, `C59_violated_retract_only`, `C59_violated_update_after_retract`, `C60_support_points`, `C60_increasing`, `C60_too_few`, `C61_kl_divergence_partial`, `C61_violated_value`, `C62_violated_cdf`, `C63_moments`, `C64_update`, `C64_numeric_errors`, `C64_numeric_partial`, `C64_violated_numeric`, `C65_best`, `C65_leaf`, `C65_default`, `C65_violated_dependency`, `C66_best_split`, `C66_continue`, `C67_least_squares_partial`, `C67_violated_small_variance`, `C68_arithmetic`, `C68_violated_update_forgets`, `C69_only_features`, `C69_no_target`, `C70_windows`, `C70_errors`, `C71_fresh_partial`, `C71_violated_refit`, `C72_one_step`, `C72_equal_partial`, `C72_violated_square`, `C73_json`, `C73_fitted`, `C74_empty`, `C74_continuous`, `C74_fit_partial`, `C74_set`, `C74_range`, `C74_additive_partial`, `C74_dirac`, `C74_violated_duplicated_minimum`, `C74_violated_merged_values`, `C74_violated_overlap`, `C75_merge_partial`, `C75_variance_partial`, `C75_variance_nonneg`, `C75_fit_partial`, `C75_dirac_partial`, `C75_violated_duplicated_minimum`, `C75_violated_neighbours`, `C75_violated_scaled_value`, `C75_violated_center`, `C75_violated_merged_values`, `C76_explanations`, `C76_mpe`, `C76_dirac`, `C76_violated_repeated`, `C76_violated_merged_values`, `C76_violated_weight`, `C77_fit_partial`, `C77_dirac`, `C77_violated_duplicated_minimum`, `C77_violated_tail`, `C78_function_roundtrip`, `C78_fitted_roundtrip`, `C78_violated_quadratic`, `C79_crop_partial`, `C79_crop_set_partial`, `C79_violated_crop`, `C79_posterior_partial`, `C79_posterior_discrete`, `C79_violated_posterior`, `C80_jaccard_partial`, `C80_jaccard_dirac`, `C80_violated_nan`, `C81_kl_partial`, `C81_violated_infinite`, `C81_violated_zero`, `C81_violated_dirac`, `C82_density`, `C82_rebuild_partial`, `C82_violated_fitted`, `C82_violated_refused`, `C82_violated_impulses`, `C82_impulse`, `C82_violated_whole`, `C83_closed_partial`, `C83_single_value`, `C83_violated_dirac`, `C83_violated_mass`, `C83_violated_tight`, `C83_violated_wide`, `C84_world_partial`, `C84_training_partial`, `C84_probability`, `C84_total`, `C84_rejected`, `C84_violated_mpe`, `C85_expectation_mixed_partial`, `C85_unsatisfiable_mixed`, `C85_moment_mixed_partial`, `C85_violated_numeric`, `C85_expectation_partial`, `C85_unsatisfiable`, `C85_moment_partial`, `C85_frequency`, `C85_training_mean`, `C85_training_moment`, `C85_default`, `C85_violated_default`, `C85_violated_evidence`, `C85_violated_center`, `C86_rows`, `C86_distribution`, `C86_possible_partial`, `C86_violated_zero`, `C86_violated_numeric`, `C87_query`, `C87_frequency`, `C87_meaning`, `C87_accepts`, `C87_options`, `C87_unknown`, `C87_violated_integer`, `C88_leaves`, `C88_foreign`, `C88_violated_best`, `C89_errors`, `C89_actual`, `C89_probability_partial`, `C89_frequency_partial`, `C89_violated_label`, `C89_mixed_partial`, `C89_violated_nan`, `C89_violated_excluded`, `C89_mixed_errors`, `C90_modes`, `C90_maximum_partial`, `C90_violated_flat`, `C91_values`, `C91_errors`, `C91_area_partial`, `C91_violated_area`, `C92_forms`, `C92_rows`, `C92_frame`, `C92_errors`, `C92_learnable`, `C92_violated_missing`, `C92_violated_columns`, `C92_violated_long_rows`, `C93_inferred`, `C93_excluded`, `C93_errors`, `C93_violated_missing`, `C93_violated_scale`, `C94_consistent_partial`, `C94_training_rows`, `C94_wrong_kind`, `C94_violated_threshold`, `C94_leaf_consistent`, `C94_conditional_leaf_partial`, `C94_empty_interval`, `C94_numeric_evidence_partial`, `C95_total_samples`, `C95_depth`, `C95_nodes`, `C95_leaf_parameters`, `C95_violated_parameters`, `C96_convolution_partial`, `C96_violated_exact`, `C96_impulse`, `C96_violated_impulse`, `C96_errors`, `C97_continuous_partial`, `C97_gt_steps`, `C97_eq_partial`, `C97_errors`, `C97_violated_touch`, `C97_violated_flat`, `C97_violated_jump`, `C97_violated_begin`, `C98_tolerance_partial`, `C98_violated_last`, `C98_violated_stuck`, `C99_inverse`, `C99_root`, `C99_intersection`, `C99_intersects_partial`, `C99_violated_same_line`, `C99_parabola_roots_partial`, `C99_violated_flat_parabola`, `C99_vertex`, `C99_hmirror`, `C99_hinge`, `C99_text_partial`, `C99_short_text`, `C99_violated_constant`, `C100_steps`, `C100_lines_partial`, `C100_violated_crossing`, `C100_violated_unbounded`, `C100_violated_gap`, `C100_violated_whole_line`, `C100_abs_steps`, `C100_abs_lines_partial`, `C100_violated_abs`, `C101_constant_partial`, `C101_enough_partial`, `C101_lines_partial`, `C101_too_few`, `C101_other_class`, `C101_violated_shift`, `C101_violated_shift_line`, `C101_violated_area`, `C101_violated_gap`, `C102_sum_partial`, `C102_constant`, `C102_violated_constant`, `C103_approximation_partial`, `C103_violated_exact`, `C103_violated_hole`, `C104_interval_partial`, `C104_empty`, `C104_empty_union`, `C104_union_partial`, `C104_violated_reals`, `C104_violated_empty_interval`, `C104_size_partial`, `C104_infinite`, `C105_jaccard_partial`, `C105_symmetric`, `C105_range`, `C105_violated_domain`, `C106_knots`, `C106_round_values`, `C106_round_intervals`, `C106_drop`, `C106_violated_merge`, `C107_bounded_partial`, `C107_members_partial`, `C107_unbounded_partial`, `C107_single`, `C107_violated_overshoot`, `C107_violated_open`, `C108_variables_partial`, `C108_equivalence_partial`, `C108_violated_prefix`, `C108_violated_nan`, `C108_transformations`, `C108_symmetric`, `C108_assignments`, `C108_functions`, `C109_blur_partial`, `C109_violated_scaled`, `C109_violated_single`, `C109_violated_flat`, `C110_equal_iff`, `C110_copy`, `C110_learned_partial`, `C110_violated_distances`, `C110_violated_kinds`, `C110_total_partial`, `C111_items`, `C111_sorted`, `C111_assign`, `C111_bool_set`, `C111_violated_bool`, `C112_share`, `C112_wsample`, `C112_errors`, `C112_choice`, `C112_positive_partial`, `C112_violated_zero`, `C112_violated_index`, `C112_distribution`, `C113_from_dict`, `C113_overwrite_at`, `C113_overwrite`, `C113_zero`, `C113_multi_eval`, `C114_entropy`, `C114_max_entropy`, `C114_rel_entropy`, `C114_errors`, `C114_gini_partial`, `C114_violated_gini`, `C115_discrete`, `C115_values`, `C115_labels_partial`, `C115_path_partial`, `C115_violated_text`, `C115_infer`, `C115_posterior`, `C115_violated_error`, `C116_labels`, `C116_values`, `C117_check`, `C117_limit_partial`, `C117_should`, `C117_violated_scaled`, `C118_reasons`, `C118_first`, `C118_unsatisfiable`, `C119_interval`, `C119_points_partial`, `C119_anyPoint`, `C120_save`, `C120_load`, `C120_missing`, `C121_two_partial`, `C121_shapes`, `C121_index`, `C121_violated_mean`, `C121_violated_shape`, `C123_shift`, `C123_count`, `C123_distinct_partial`, `C123_violated_names`, `C124_entries`, `C124_keys`, `C125_accepts`, `C125_read_partial`, `C125_violated_rest`, `C125_violated_empty_space`, `C125_violated_union`, `C126_unchanged_partial`, `C126_values_partial`, `C126_violated_integral`, `C127_history_partial`, `C127_unchanged`, `C128_left_partial`, `C128_left_same_partial`, `C128_right_partial`, `C128_succeeds`, `C128_violated_right`, `C128_violated_left`, `C128_violated_closed`, `C129_distribution_partial`, `C130_everywhere_partial`, `C130_bounded_partial`, `C130_violated_step`, `C130_violated_room`, `C131_violated_round`, `C132_numeric`, `C132_symbolic`, `C132_accepted`, `C132_learner`, `C133_history_partial`, `C133_same`, `C133_sum`, `C133_violated_empty`, `C134_operations`, `C134_independent_partial`, `C134_violated_update`, `C134_violated_weights`, `C135_newline`, `C136_equal_partial`
