{
 "claims": [
  {
   "property": "C01",
   "status": "proved",
   "theorems": [
    "Verif.Iv.C01_contains_iff"
   ],
   "note": "Full equivalence for every interval object."
  },
  {
   "property": "C02",
   "status": "partial",
   "theorems": [
    "Verif.Iv.C02_isempty_iff",
    "Verif.Iv.C02_violated_by_parse"
   ],
   "note": "Full equivalence for every interval the constructor accepts; parse() can build lower > upper, where isempty is wrong (witness)."
  },
  {
   "property": "C03",
   "status": "partial",
   "theorems": [
    "Verif.Iv.C03_intersects_of_common",
    "Verif.Iv.C03_intersects_iff_partial",
    "Verif.Iv.C03_symmetric",
    "Verif.Iv.C03_violated_neighbours",
    "Verif.Iv.C03_violated_empty_receiver"
   ],
   "note": "A common point is never missed; the converse is proved except for an empty receiver and neighbouring-float overlaps, where the code is wrong (two witnesses)."
  },
  {
   "property": "C04",
   "status": "partial",
   "theorems": [
    "Verif.Iv.C04_intersection",
    "Verif.Iv.C04_intersectionEnds_partial",
    "Verif.Iv.C04_violated_requested_brackets",
    "Verif.Iv.C04_realset_half_open"
   ],
   "note": "intersection proved exact and total; with requested brackets exact when not empty, witness otherwise. Unions of half-open intervals: total and exact in any order."
  },
  {
   "property": "C05",
   "status": "proved",
   "theorems": [
    "Verif.Iv.C05_union",
    "Verif.Iv.C05_realset_half_open"
   ],
   "note": "Exact and total for all intervals without infinite members. Unions of half-open intervals: total and exact in any order."
  },
  {
   "property": "C06",
   "status": "partial",
   "theorems": [
    "Verif.Iv.C06_difference_partial",
    "Verif.Iv.C06_difference_returns_partial",
    "Verif.Iv.C06_raises_iff",
    "Verif.Iv.C06_violated_raises",
    "Verif.Iv.C06_violated_infinite",
    "Verif.Iv.C06_complement",
    "Verif.Iv.C06_realset_difference_partial",
    "Verif.Iv.C06_realset_difference_returns",
    "Verif.Iv.C06_realset_complement",
    "Verif.Iv.C06_half_open",
    "Verif.Iv.C06_realset_half_open",
    "Verif.Iv.C06_complement_half_open"
   ],
   "note": "Exact whenever it returns; exact characterisation of the ValueError; witnesses for the exception and for intervals containing -inf. Complement total and exact. RealSet versions exact for ordered receivers. For half-open intervals and unions of them in any order: total and exact, complement included."
  },
  {
   "property": "C07",
   "status": "partial",
   "theorems": [
    "Verif.Iv.C07_contains_interval_partial",
    "Verif.Iv.C07_proper_sound",
    "Verif.Iv.C07_violated_empty",
    "Verif.Iv.C07_realset_sound",
    "Verif.Iv.C07_violated_union"
   ],
   "note": "Exact for non-empty arguments; witnesses for the empty argument and for unions."
  },
  {
   "property": "C08",
   "status": "partial",
   "theorems": [
    "Verif.Iv.C08_realset_contains_iff",
    "Verif.Iv.C08_realset_isempty_iff",
    "Verif.Iv.C08_realset_intersects_of_common",
    "Verif.Iv.C08_realset_intersects_iff_partial",
    "Verif.Iv.C08_violated_neighbours"
   ],
   "note": "Membership and emptiness exact; intersects never misses a common point and is exact for non-empty intervals without neighbouring bounds; violated for neighbouring bounds as in C03."
  },
  {
   "property": "C09",
   "status": "partial",
   "theorems": [
    "Verif.Iv.C09_realset_intersection_partial",
    "Verif.Iv.C09_ordered",
    "Verif.Iv.C09_violated_loses_points"
   ],
   "note": "Never adds points; returns and is exact for unions in increasing order; loses points for unions given out of order (C09_violated_loses_points)."
  },
  {
   "property": "C10",
   "status": "partial",
   "theorems": [
    "Verif.Iv.C10_simplify_partial",
    "Verif.Iv.C10_simplify_returns",
    "Verif.Iv.C10_disjoint_returns",
    "Verif.Iv.C10_violated_loses_points",
    "Verif.Iv.C10_violated_raises",
    "Verif.Iv.C10_violated_mutates",
    "Verif.Iv.C10_half_open"
   ],
   "note": "Never adds points; exact and in normal form for ordered input; witnesses for lost points, raised error and mutated receiver. For half-open intervals: total, exact and in normal form in any order."
  },
  {
   "property": "C11",
   "status": "partial",
   "theorems": [
    "Verif.Iv.C11_chop",
    "Verif.Iv.C11_violated_realset",
    "Verif.Iv.C11_realset_chop_partial"
   ],
   "note": "Partition proved for every interval; RealSet.chop raises for single-interval unions (witness)."
  },
  {
   "property": "C12",
   "status": "partial",
   "theorems": [
    "Verif.Iv.C12_eq_iff_partial",
    "Verif.Iv.C12_eq_equivalence_partial",
    "Verif.Iv.C12_violated_infinite",
    "Verif.Iv.C12_violated_transitive",
    "Verif.Iv.C12_violated_hash",
    "Verif.Iv.C12_realset_eq_sound_partial",
    "Verif.Iv.C12_violated_realset",
    "Verif.Iv.C12_half_open",
    "Verif.Iv.C12_half_open_equivalence",
    "Verif.Iv.C12_realset_hash_partial",
    "Verif.Iv.C12_violated_realset_hash",
    "Verif.Iv.C12_bool"
   ],
   "note": "Equality = same members for intervals without infinite members, and for all unions of half-open intervals in any order; witnesses at infinity, for hashes and for unions of other intervals."
  },
  {
   "property": "C13",
   "status": "partial",
   "theorems": [
    "Verif.Iv.C13_json_roundtrip",
    "Verif.Iv.C13_json_invalid",
    "Verif.Iv.C13_text_roundtrip_partial",
    "Verif.Iv.C13_violated_point_text",
    "Verif.Iv.C13_violated_realset_json"
   ],
   "note": "JSON round trip exact; text round trip except {x}; RealSet JSON round trip always raises (theorem)."
  },
  {
   "property": "C14",
   "status": "partial",
   "theorems": [
    "Verif.Fun.C14_function_plus",
    "Verif.Fun.C14_function_times",
    "Verif.Fun.C14_function_returns",
    "Verif.Fun.C14_function_minus_number",
    "Verif.Fun.C14_violated_number_minus_function",
    "Verif.Fun.C14_violated_undefined",
    "Verif.Fun.C14_violated_quadratic",
    "Verif.Fun.C14_plus_function",
    "Verif.Fun.C14_times_function",
    "Verif.Fun.C14_function_pieces_return",
    "Verif.Fun.C14_divide",
    "Verif.Fun.C14_simplify",
    "Verif.Fun.C14_plus_piecewise",
    "Verif.Fun.C14_minus_piecewise",
    "Verif.Fun.C14_times_piecewise",
    "Verif.Fun.C14_piecewise_return",
    "Verif.Fun.C14_violated_different_domains",
    "Verif.Fun.C14_violated_gap",
    "Verif.Fun.C14_violated_middle"
   ],
   "note": "Sums and products of constant, linear and quadratic functions, of a piecewise function with a constant or linear function and of two piecewise functions, differences, division by a number and simplify are pointwise; sums and products exist for constant and linear pieces on the same domain. Violated: number minus linear function has the wrong sign; linear + undefined raises; quadratic * linear is None; sums on different domains or of a connected function and one with a gap raise; single-float pieces may be looked up in the wrong place."
  },
  {
   "property": "C15",
   "status": "partial",
   "theorems": [
    "Verif.Fun.C15_eval_partial",
    "Verif.Fun.C15_eval_error_partial",
    "Verif.Fun.C15_violated_outside",
    "Verif.Fun.C15_interval_at"
   ],
   "note": "Values proved for disjoint pieces; violated outside all pieces (error instead of NaN)."
  },
  {
   "property": "C16",
   "status": "partial",
   "theorems": [
    "Verif.Fun.C16_line",
    "Verif.Fun.C16_parabola",
    "Verif.Fun.C16_quadratic_from_points",
    "Verif.Fun.C16_violated_same_abscissa",
    "Verif.Fun.C16_polyline"
   ],
   "note": "Lines, parabolas and polylines, with existence; violated: quadratic from_points accepts equal abscissae."
  },
  {
   "property": "C17",
   "status": "partial",
   "theorems": [
    "Verif.Fun.C17_function",
    "Verif.Fun.C17_area_partial",
    "Verif.Fun.C17_additive",
    "Verif.Fun.C17_violated_linear_zero",
    "Verif.Fun.C17_violated_linear_sign"
   ],
   "note": "Exact area as Mathlib integral for constant and linear pieces, unbounded pieces being 0; additivity. Violated: LinearFunction with slope 0 over an unbounded range gives +inf."
  },
  {
   "property": "C18",
   "status": "partial",
   "theorems": [
    "Verif.Fun.C18_xshift",
    "Verif.Fun.C18_xshift_returns",
    "Verif.Fun.C18_crop",
    "Verif.Fun.C18_stretch_partial",
    "Verif.Fun.C18_violated_stretch",
    "Verif.Fun.C18_split",
    "Verif.Fun.C18_function_xmirror",
    "Verif.Fun.C18_function_xshift"
   ],
   "note": "Shift (with exactly representable bounds), crop (unconditional), split, stretch; violated: stretch leaves quadratic pieces alone."
  },
  {
   "property": "C19",
   "status": "partial",
   "theorems": [
    "Verif.Fun.C19_equal_partial",
    "Verif.Fun.C19_reflexive",
    "Verif.Fun.C19_violated_prefix",
    "Verif.Fun.C19_violated_equal"
   ],
   "note": "Equal lengths: same pieces and values; violated: prefix compares equal."
  },
  {
   "property": "C20",
   "status": "partial",
   "theorems": [
    "Verif.Ut.C20_normalized_list",
    "Verif.Ut.C20_normalized_distribution",
    "Verif.Ut.C20_normalized_zeros",
    "Verif.Ut.C20_normalized_zeros_error",
    "Verif.Ut.C20_normalized_containers",
    "Verif.Ut.C20_violated_integer_array"
   ],
   "note": "Complete functional specification for lists, float arrays and dicts (exact arithmetic); integer arrays lose the result to truncation (witness)."
  },
  {
   "property": "C21",
   "status": "partial",
   "theorems": [
    "Verif.HQ.C21_history_partial",
    "Verif.HQ.C21_spec_deterministic",
    "Verif.HQ.C21_peek",
    "Verif.HQ.C21_delete_contents",
    "Verif.HQ.C21_delete_last_partial",
    "Verif.HQ.C21_violated_delete"
   ],
   "note": "Refinement to a stable priority queue for every history of pushes and pops and every initial data; deletion by position keeps the contents but breaks the order (witness), except for the last position. Concrete heapq algorithms are modelled."
  },
  {
   "property": "C22",
   "status": "proved",
   "theorems": [
    "Verif.Ut.C22_pairwise",
    "Verif.Ut.C22_setstr_int",
    "Verif.Ut.C22_mapstr",
    "Verif.Ut.C22_list2intset"
   ],
   "note": "Full specification on the level of text pieces."
  },
  {
   "property": "C23",
   "status": "proved",
   "theorems": [
    "Verif.CU.C23_sort",
    "Verif.CU.C23_introsort_any_depth"
   ],
   "note": "Sortedness and permutation for every depth budget, heapsort included."
  },
  {
   "property": "C24",
   "status": "proved",
   "theorems": [
    "Verif.CU.C24_bisect_insertion_point",
    "Verif.CU.C24_bisect_unique",
    "Verif.CU.C24_neither_leftmost_nor_rightmost"
   ],
   "note": "Termination and insertion point for every ascending array; with duplicates neither end point is guaranteed."
  },
  {
   "property": "C25",
   "status": "partial",
   "theorems": [
    "Verif.CU.C25_linspace_partial",
    "Verif.CU.C25_linspace_ends_partial",
    "Verif.CU.C25_violated_single_point",
    "Verif.CU.C25_single_point_iff"
   ],
   "note": "Exact for two or more points; for one point the documented centroid is not returned (witness, and exact condition when it is)."
  },
  {
   "property": "C26",
   "status": "proved",
   "theorems": [
    "Verif.Ut.C26_construct",
    "Verif.Ut.C26_index_defined",
    "Verif.Ut.C26_index_interval",
    "Verif.Ut.C26_interval_length",
    "Verif.Ut.C26_normalize",
    "Verif.Ut.C26_get",
    "Verif.Ut.C26_zero_draw"
   ],
   "note": "Exact selection intervals; normalisation and zero total covered."
  },
  {
   "property": "C27",
   "status": "proved",
   "theorems": [
    "Verif.Disc.C27_symbolic_type",
    "Verif.Disc.C27_integer_type",
    "Verif.Disc.C27_p",
    "Verif.Disc.C27_measure",
    "Verif.Disc.C27_api"
   ],
   "note": "p() exact for every proper distribution (symbolic and integer); measure laws through the API; factories exact."
  },
  {
   "property": "C28",
   "status": "partial",
   "theorems": [
    "Verif.Disc.C28_crop_partial",
    "Verif.Disc.C28_integer_crop",
    "Verif.Disc.C28_crop_outside",
    "Verif.Disc.C28_crop_scalar_partial",
    "Verif.Disc.C28_violated_scalar"
   ],
   "note": "Conditioning exact for collections (symbolic) and for every restriction (integer), Unsatisfiability iff mass zero; a scalar symbolic restriction of probability zero is not refused (witness)."
  },
  {
   "property": "C29",
   "status": "partial",
   "theorems": [
    "Verif.Disc.C29_merge_partial",
    "Verif.Disc.C29_merge_errors",
    "Verif.Disc.C29_violated_length",
    "Verif.Disc.C29_violated_prefix"
   ],
   "note": "Exact mixture for equal types and as many weights as distributions; witnesses: surplus distributions silently ignored, prefix domains treated as equal."
  },
  {
   "property": "C30",
   "status": "proved",
   "theorems": [
    "Verif.Disc.C30_k_mpe",
    "Verif.Disc.C30_mpe"
   ],
   "note": "Full statement."
  },
  {
   "property": "C31",
   "status": "proved",
   "theorems": [
    "Verif.Disc.C31_fit"
   ],
   "note": "Full statement, including the ValueError for labels outside the domain."
  },
  {
   "property": "C32",
   "status": "proved",
   "theorems": [
    "Verif.Disc.C32_add",
    "Verif.Disc.C32_moments"
   ],
   "note": "Full statement: every function's expectation under the sum equals the double sum; expectations and variances add."
  },
  {
   "property": "C33",
   "status": "proved",
   "theorems": [
    "Verif.Disc.C33_roundtrip"
   ],
   "note": "Full statement for single items, lists, tuples and sets."
  },
  {
   "property": "C34",
   "status": "proved",
   "theorems": [
    "Verif.Disc.C34_jaccard"
   ],
   "note": "Full statement for proper distributions over the same domain."
  },
  {
   "property": "C35",
   "status": "proved",
   "theorems": [
    "Verif.Num.C35_fit",
    "Verif.Num.C35_constant",
    "Verif.Num.C35_empty",
    "Verif.Num.C35_bounds"
   ],
   "note": "Fitting is modelled with the in-place loop over the sorted buffer, the CDF regressor and the construction of the pieces; proved for every finite sample, every precision, with and without imaginary outermost points, over exact rationals. Missing values and infinities in the data are not modelled."
  },
  {
   "property": "C36",
   "status": "partial",
   "theorems": [
    "Verif.Num.C36_inverse_partial",
    "Verif.Num.C36_violated_flat",
    "Verif.Num.C36_violated_duplicate_minimum",
    "Verif.Num.C36_violated_single_value"
   ],
   "note": "Proved for the distributions fitted to any sample with two different values, under a density of at least 1e-4 between samples: ppf(cdf(x)) = x between the least and the greatest sample, (ppf(q), q) lies on the graph of the cdf from the cdf value of the least sample on, ppf is strictly increasing, NaN outside. Violated otherwise: is_invertible treats slopes below 1e-4 as flat, so ppf raises for wide data; with a repeated least sample low quantiles lie below every sample; for equal samples ppf is NaN except at 1."
  },
  {
   "property": "C37",
   "status": "partial",
   "theorems": [
    "Verif.Num.C37_violated_outside",
    "Verif.Num.C37_violated_set_weights",
    "Verif.Num.C37_violated_set_point",
    "Verif.Num.C37_crop_conditions_partial",
    "Verif.Num.C37_crop_fitted_partial",
    "Verif.Num.C37_unsatisfiable",
    "Verif.Num.C37_crop_dirac",
    "Verif.Num.C37_violated_jump",
    "Verif.Num.C37_violated_mass_at_lower_end",
    "Verif.Num.C37_violated_beyond_greatest",
    "Verif.Num.C37_violated_single_float",
    "Verif.Num.C37_violated_zero_mass"
   ],
   "note": "Proved for QuantileDistribution.crop on every piecewise linear cdf and every interval over which the cdf increases, in particular for distributions fitted to any sample: the result is 0 below the interval, 1 from its greatest float on and (F(n) - F(min I)) / (F(max I) - F(min I)) inside; Unsatisfiability for intervals entirely outside the samples; distributions on a single value above the least float of I are kept. Hypotheses: no jump inside the interval, no linear piece consisting of one float. Violated otherwise: jumps are multiplied with the mass of I instead of divided by it; mass on the least float of I is lost (a Dirac at 5 cropped to [5,8] becomes a Dirac at 8); beyond the greatest sample the result exceeds 1; a zero-mass interval inside a gap is not rejected. Numeric._crop for real sets and single numbers is modelled in Numeric/Props10."
  },
  {
   "property": "C38",
   "status": "partial",
   "theorems": [
    "Verif.Num.C38_merge_partial",
    "Verif.Num.C38_merge_rounded_weights_partial",
    "Verif.Num.C38_default_weights",
    "Verif.Num.C38_merge_fitted_partial",
    "Verif.Num.C38_rejects",
    "Verif.Num.C38_violated_duplicated_minimum",
    "Verif.Num.C38_violated_exceeds_one",
    "Verif.Num.C38_violated_small_slopes",
    "Verif.Num.C38_violated_jumps"
   ],
   "note": "Proved for every list of continuous cdfs and cdfs of single values, with every list of non-negative weights summing to 1 (exactly, or up to 1e-8), at every float; and for every list of fitted cdfs up to the rise of the last line over one float. Missing: equality for fitted cdfs, repeated least samples, slopes of at most 1e-8, jumps - there the code does not give the mixture (C38_violated_*). The sum is computed with rational numbers."
  },
  {
   "property": "C39",
   "status": "partial",
   "theorems": [
    "Verif.Sca.C39_invertible",
    "Verif.Sca.C39_lookup",
    "Verif.Sca.C39_normalised",
    "Verif.Sca.C39_labels",
    "Verif.Sca.C39_order",
    "Verif.Sca.C39_refused",
    "Verif.Sca.C39_violated_no_values",
    "Verif.Sca.C39_violated_nan"
   ],
   "note": "Exact real arithmetic; data are finite numbers (numpy.std is the square root of the mean squared deviation). C39_invertible: transform and inverse_transform invert each other for all data that are not empty, constant ones included, and all x (infinities and NaN too). C39_normalised: mean 0, variance 1, or all 0 for constant data. C39_labels / C39_order: value2label and label2value of a scaled numeric type invert each other on numbers, intervals and sets of intervals and keep membership. C39_refused: values with NaN or infinities give a ValueError. Fails: with no values every transformed number is NaN (C39_violated_no_values), and NaN becomes 0 in both directions (C39_violated_nan). Not covered: DataScaler fitted directly to non-finite data, rounding."
  },
  {
   "property": "C40",
   "status": "proved",
   "theorems": [
    "Verif.Learn.C40_partition",
    "Verif.Learn.C40_one_leaf",
    "Verif.Learn.C40_no_data"
   ],
   "note": "learn() on valid data: the leaves' rows are a permutation of all rows, with counts, priors and fitted distributions; no data raises ValueError."
  },
  {
   "property": "C41",
   "status": "partial",
   "theorems": [
    "Verif.Learn.C41_size_partial",
    "Verif.Learn.C41_depth",
    "Verif.Learn.C41_depth_arg",
    "Verif.Learn.C41_fraction",
    "Verif.Learn.C41_violated_size",
    "Verif.Learn.C41_violated_zero"
   ],
   "note": "Depth limit proved for every max_depth other than 0; size limit proved when there are symbolic targets or no symbolic features. Violated: symbolic feature without symbolic target (counter not reset), and max_depth=0 is ignored."
  },
  {
   "property": "C42",
   "status": "partial",
   "theorems": [
    "Verif.Learn.C42_rows",
    "Verif.Learn.C42_exactly_one",
    "Verif.Learn.C42_tree",
    "Verif.Learn.C42_encode_partial",
    "Verif.Learn.C42_violated_encode",
    "Verif.Learn.C42_encode_total"
   ],
   "note": "Rows satisfy their leaf's path, every valid sample satisfies exactly one leaf's path, encode returns it unless a number is a split threshold; encode always returns an existing leaf whose path holds with closed upper bounds (C42_encode_total). Violated at thresholds: encode returns the left leaf."
  },
  {
   "property": "C43",
   "status": "partial",
   "theorems": [
    "Verif.Learn.C43_variance",
    "Verif.Learn.C43_gini",
    "Verif.Learn.C43_gini_formula",
    "Verif.Learn.C43_reduction",
    "Verif.Learn.C43_improvement_partial",
    "Verif.Learn.C43_violated_average",
    "Verif.Learn.C43_violated_exceeds",
    "Verif.Learn.C43_violated_subset"
   ],
   "note": "Variance, gini (range, zero, one) and reduction range proved; improvement exact for one numeric target. Violated: two targets give r1 + r2/2, and impurities of a strict subset of symbolic targets use other variables' domain sizes."
  },
  {
   "property": "C44",
   "status": "proved",
   "theorems": [
    "Verif.Trees.C44_apply",
    "Verif.Trees.C44_errors",
    "Verif.Trees.C44_learned"
   ],
   "note": "The leaves yielded by apply are exactly those with a compatible path, each once, in every tree of the right shape and in every learned tree; errors for unknown variables and unfitted trees. Queries with unions of intervals are not modelled."
  },
  {
   "property": "C45",
   "status": "partial",
   "theorems": [
    "Verif.Trees.C45_infer_partial",
    "Verif.Trees.C45_infer_apart",
    "Verif.Trees.C45_infer_prior",
    "Verif.Trees.C45_range",
    "Verif.Trees.C45_self_partial",
    "Verif.Trees.C45_learned",
    "Verif.Trees.C45_violated_self",
    "Verif.Trees.C45_learned_mixed",
    "Verif.Trees.C45_learned_leaves"
   ],
   "note": "Value, range and failure of infer for any distributions that satisfy the laws (proved for symbolic, integer and fitted numeric distributions) and for all learned trees, discrete and mixed (close_convex_gaps=False for numeric variables, see C83). For numeric variables intervals must begin with their lower bound or have none, and table cells and their means must be floats. Violated for variables in both query and evidence that are not certain in a leaf: their probability is multiplied twice, so P(A|A) can be 1/3."
  },
  {
   "property": "C46",
   "status": "partial",
   "theorems": [
    "Verif.Trees.C46_posterior_partial",
    "Verif.Trees.C46_unsatisfiable",
    "Verif.Trees.C46_evidence_partial",
    "Verif.Trees.C46_learned",
    "Verif.Trees.C46_violated_evidence",
    "Verif.Trees.C46_learned_mixed_partial",
    "Verif.Trees.C46_numeric_evidence_partial"
   ],
   "note": "Posterior as mixture of conditionals and mass 1 on the evidence where the evidence variable is on the path or certain; violated where it is not on the path (no crop). For learned trees with numeric variables: posterior given evidence on any variables, the asked ones included (exact for symbolic and integer variables, merged conditional distributions for numeric ones), if the interval of a numeric variable can be cropped (C37). Point evidence on numeric variables is not covered."
  },
  {
   "property": "C47",
   "status": "partial",
   "theorems": [
    "Verif.Trees.C47_learned_mixed_partial",
    "Verif.Trees.C47_conditional_partial",
    "Verif.Trees.C47_empty",
    "Verif.Trees.C47_infer_partial",
    "Verif.Trees.C47_learned",
    "Verif.Trees.C47_violated_twice",
    "Verif.Trees.C47_violated_infer",
    "Verif.Trees.C47_numeric_evidence_partial",
    "Verif.Trees.C47_violated_beyond_greatest"
   ],
   "note": "Proved for any distributions with the conditioning laws, for learned discrete trees, and for learned trees with numeric variables with evidence on symbolic and integer variables, or on numeric variables by intervals inside the values of every leaf they reach: the conditional tree's masses are the conditional probabilities, and inference on it gives them. Conditioning twice and inference with evidence on the same variable differ, and numeric evidence that exceeds the greatest value of a leaf gives answers above one, see the violated theorems."
  },
  {
   "property": "C48",
   "status": "partial",
   "theorems": [
    "Verif.Trees.C48_learned_mixed_partial",
    "Verif.Trees.C48_most_likely_partial",
    "Verif.Trees.C48_violated_single_value",
    "Verif.Trees.C48_mpe_partial",
    "Verif.Trees.C48_errors",
    "Verif.Trees.C48_learned"
   ],
   "note": "Proved for any distributions whose own mpe is a maximum and for learned trees, discrete and with numeric variables: every explanation is exactly a set of worlds that agree with the evidence and attain the maximal density in a leaf, and none is missed; if no leaf holds a single number these are exactly the worlds of maximal likelihood. Violated where all numbers of a leaf are the same: infinite densities are replaced by the minimal distance itself, so that the most likely world can be missed. Partial: evidence on numeric variables, scaled variables."
  },
  {
   "property": "C49",
   "status": "partial",
   "theorems": [
    "Verif.Mpe.C49_solve",
    "Verif.Mpe.C49_solve_k",
    "Verif.Mpe.C49_impossible",
    "Verif.Mpe.C49_no_variables",
    "Verif.Mpe.C49_likelihood_partial",
    "Verif.Mpe.C49_discrete",
    "Verif.Mpe.C49_discrete_partial",
    "Verif.Mpe.C49_violated_order"
   ],
   "note": "Enumeration of all assignments exactly once in order of cost, for arbitrary costs; for symbolic/integer variables the likelihoods are ordered if no two states of a variable are equally likely; witness of the wrong order otherwise. Cost rounding and numeric distributions are not modelled."
  },
  {
   "property": "C50",
   "status": "partial",
   "theorems": [
    "Verif.Trees.C50_states_partial",
    "Verif.Trees.C50_single_partial",
    "Verif.Trees.C50_violated_order",
    "Verif.Trees.C50_violated_prior"
   ],
   "note": "Discrete variables. For every fitted tree, evidence and k: each explanation of each leaf is yielded exactly once, in its leaf's order, and k cuts the list off. The order across leaves is violated (the candidate heap gives out the least likely first) and the leaf priors are ignored; with one leaf left and no ties the order is proved."
  },
  {
   "property": "C51",
   "status": "partial",
   "theorems": [
    "Verif.Trees.C51_prune",
    "Verif.Trees.C51_learned",
    "Verif.Trees.C51_lossless",
    "Verif.Trees.C51_learned_lossless",
    "Verif.Trees.C51_violated_conditional"
   ],
   "note": "For every fitted binary tree with positive leaf priors and every threshold: success, prior sum, samples, leaf count, single-variable marginals, no mergeable siblings left; with a threshold of one or more all query answers are kept. Proved for all trees learned over discrete variables. Violated for trees from conditional_jpt (a node with one child raises ValueError). Only approximate=None is modelled; the original is unchanged because the model is functional and works on a copy (C52_nodes)."
  },
  {
   "property": "C52",
   "status": "partial",
   "theorems": [
    "Verif.Trees.C52_learned_mixed",
    "Verif.Trees.C52_nodes",
    "Verif.Trees.C52_learned",
    "Verif.Trees.C52_settings_partial",
    "Verif.Trees.C52_variables_partial",
    "Verif.Trees.C52_violated_eq",
    "Verif.Trees.C52_violated_variables"
   ],
   "note": "Proved: the nodes (leaves, priors, sample counts, distributions, decision nodes, paths) of every well-formed tree and every learned tree, with or without numeric variables, are read back exactly; the settings of every constructed or learned tree are read back when variables are passed (as copy does) or have default settings. Partial: variable settings are lost otherwise, and == can fail (violated theorems)."
  },
  {
   "property": "C53",
   "status": "proved",
   "theorems": [
    "Verif.Trees.C53_multiply",
    "Verif.Trees.C53_zero",
    "Verif.Trees.C53_missing"
   ],
   "note": "Proved: multiplying the leaf priors by given factors and normalising yields exactly the reweighted distribution, with the error cases zero total and missing leaf."
  },
  {
   "property": "C54",
   "status": "partial",
   "theorems": [
    "Verif.Vars.C54_history_partial",
    "Verif.Vars.C54_observe",
    "Verif.Vars.C54_constructor",
    "Verif.Vars.C54_copy",
    "Verif.Vars.C54_violated_reset",
    "Verif.Vars.C54_deepcopy_partial",
    "Verif.Vars.C54_violated_deepcopy",
    "Verif.Vars.C54_eq",
    "Verif.Vars.C54_json"
   ],
   "note": "VariableMap refines a finite map with insertion order for every history; deleting also removes the declaration (C54_violated_reset), deep copies drop or reject some values (C54_violated_deepcopy)"
  },
  {
   "property": "C55",
   "status": "partial",
   "theorems": [
    "Verif.Vars.C55_domain",
    "Verif.Vars.C55_roundtrip_partial",
    "Verif.Vars.C55_copy_partial",
    "Verif.Vars.C55_violated_settings",
    "Verif.Vars.C55_no_domain",
    "Verif.Vars.C55_settings"
   ],
   "note": "class, name and domain survive; settings are reset to defaults (C55_violated_settings)"
  },
  {
   "property": "C56",
   "status": "partial",
   "theorems": [
    "Verif.Vars.C56_roundtrip",
    "Verif.Vars.C56_roundtrip_values",
    "Verif.Vars.C56_accepts_partial",
    "Verif.Vars.C56_history_partial",
    "Verif.Vars.C56_violated_name",
    "Verif.Vars.C56_violated_valueset",
    "Verif.Vars.C56_violated_integer"
   ],
   "note": "round trips for all admissible assignments; type checks hold for variable objects of numeric and symbolic variables, but not for names, integer variables and value sets"
  },
  {
   "property": "C57",
   "status": "proved",
   "theorems": [
    "Verif.Seq.C57_transition_model",
    "Verif.Seq.C57_fit",
    "Verif.Seq.C57_errors"
   ],
   "note": "C57_transition_model is about any encoded sequences, C57_fit about the whole of fit: that it succeeds for proper sequences, that every sample is encoded to an existing leaf, and that the entries are the frequencies of the transitions. C57_errors covers missing and short sequences."
  },
  {
   "property": "C58",
   "status": "partial",
   "theorems": [
    "Verif.Seq.C58_ground",
    "Verif.Seq.C58_unsatisfiable",
    "Verif.Seq.C58_marginals_partial",
    "Verif.Seq.C58_violated_eleven_steps",
    "Verif.Seq.C58_exact_partial",
    "Verif.Seq.C58_fitted_partial",
    "Verif.Seq.C58_violated_eleven_steps_witness"
   ],
   "note": "C58_ground says what is handed to belief propagation; C58_marginals_partial holds for at most ten steps and any answer of belief propagation, C58_exact_partial for exact belief propagation, C58_fitted_partial for all fitted templates over symbolic and integer variables. C58_violated_eleven_steps: with eleven or more steps the names of the steps are sorted as strings, so that step 2 gets the distribution of step 10. Belief propagation itself is a library and a parameter of the model."
  },
  {
   "property": "C59",
   "status": "partial",
   "theorems": [
    "Verif.Gau.C59_update_partial",
    "Verif.Gau.C59_update_bounds",
    "Verif.Gau.C59_history_partial",
    "Verif.Gau.C59_refused",
    "Verif.Gau.C59_default_weights",
    "Verif.Gau.C59_violated_small_variance",
    "Verif.Gau.C59_violated_retract_only",
    "Verif.Gau.C59_violated_update_after_retract"
   ],
   "note": "Every sequence of points with positive weights in every dimension: equality with the weighted batch mean and covariance, and for histories of updates and retractions with at least two points left. Missing: differences and variances that are positive but at most 1e-15 (set to zero by the code; C59_update_bounds says what holds then), retraction down to one or no point (C59_violated_*). Exact rationals."
  },
  {
   "property": "C60",
   "status": "proved",
   "theorems": [
    "Verif.Num.C60_support_points",
    "Verif.Num.C60_increasing",
    "Verif.Num.C60_too_few"
   ],
   "note": "Termination and shape proved for every data array with at least two points, every eps and max_splits (with exact arithmetic)."
  },
  {
   "property": "C61",
   "status": "partial",
   "theorems": [
    "Verif.Disc.C61_kl_divergence_partial",
    "Verif.Disc.C61_violated_value"
   ],
   "note": "Non-negativity and zero-iff-equal proved; the value is not the KL divergence (witness)."
  },
  {
   "property": "C62",
   "status": "partial",
   "theorems": [
    "Verif.Disc.C62_violated_cdf"
   ],
   "note": "The claim is false for the code (witness)."
  },
  {
   "property": "C63",
   "status": "proved",
   "theorems": [
    "Verif.Disc.C63_moments"
   ],
   "note": "Full statement."
  },
  {
   "property": "C64",
   "status": "partial",
   "theorems": [
    "Verif.Disc.C64_update",
    "Verif.Num.C64_numeric_errors",
    "Verif.Num.C64_numeric_partial",
    "Verif.Num.C64_violated_numeric"
   ],
   "note": "Full statement for symbolic and integer distributions. Numeric distributions are updated with the weights 1 and w, normalised (violated theorem); the partial theorem says so for continuous distributions and single values."
  },
  {
   "property": "C65",
   "status": "partial",
   "theorems": [
    "Verif.Learn.C65_best",
    "Verif.Learn.C65_leaf",
    "Verif.Learn.C65_default",
    "Verif.Learn.C65_violated_dependency"
   ],
   "note": "Best split is optimal among admissible divisions with improvement computed from scratch, and leaves are justified; requires all targets to depend on all features (the default) and the size counter to be right (Respects). Violated with sparse dependencies."
  },
  {
   "property": "C66",
   "status": "proved",
   "theorems": [
    "Verif.Num.C66_best_split",
    "Verif.Num.C66_continue"
   ],
   "note": "Proved for exact arithmetic and increasing abscissae, as the fit of a quantile distribution provides them."
  },
  {
   "property": "C67",
   "status": "partial",
   "theorems": [
    "Verif.Gau.C67_least_squares_partial",
    "Verif.Gau.C67_violated_small_variance"
   ],
   "note": "Least squares optimality over all lines for all weighted point sets with variances above 1e-8; below, a perfect fit is reported (C67_violated_small_variance)."
  },
  {
   "property": "C68",
   "status": "partial",
   "theorems": [
    "Verif.Gau.C68_arithmetic",
    "Verif.Gau.C68_violated_update_forgets"
   ],
   "note": "Scaling, shifting and adding proved for all point sets and dimensions. Missing: updating the result, which forgets the points (C68_violated_update_forgets)."
  },
  {
   "property": "C69",
   "status": "proved",
   "theorems": [
    "Verif.Learn.C69_only_features",
    "Verif.Learn.C69_no_target"
   ],
   "note": "Proved for the whole learner by an invariant over its queue."
  },
  {
   "property": "C70",
   "status": "proved",
   "theorems": [
    "Verif.Seq.C70_windows",
    "Verif.Seq.C70_errors"
   ],
   "note": "The table is the flat list of windows in the specification's sense (windowRow). Windows of w = 0 steps are not modelled."
  },
  {
   "property": "C71",
   "status": "partial",
   "theorems": [
    "Verif.Seq.C71_fresh_partial",
    "Verif.Seq.C71_violated_refit"
   ],
   "note": "C71_fresh_partial holds for a template without leaves; C71_violated_refit: fitting a second time keeps stale leaves."
  },
  {
   "property": "C72",
   "status": "partial",
   "theorems": [
    "Verif.Seq.C72_one_step",
    "Verif.Seq.C72_equal_partial",
    "Verif.Seq.C72_violated_square"
   ],
   "note": "C72_one_step gives the actual result: the leaf priors of the conditional tree are squared and normalised, because the factor of the step is multiplied with the prior of the same tree again. C72_violated_square is a fitted example."
  },
  {
   "property": "C73",
   "status": "proved",
   "theorems": [
    "Verif.Seq.C73_json",
    "Verif.Seq.C73_fitted"
   ],
   "note": "The transition model is a list of rationals; the priors of the variables are covered by C52."
  },
  {
   "property": "C74",
   "status": "partial",
   "theorems": [
    "Verif.Num.C74_empty",
    "Verif.Num.C74_continuous",
    "Verif.Num.C74_fit_partial",
    "Verif.Num.C74_set",
    "Verif.Num.C74_range",
    "Verif.Num.C74_additive_partial",
    "Verif.Num.C74_dirac",
    "Verif.Num.C74_violated_duplicated_minimum",
    "Verif.Num.C74_violated_merged_values",
    "Verif.Num.C74_violated_overlap"
   ],
   "note": "For fitted distributions every interval with at least one float is covered, except intervals that begin with a duplicated least sample, whose mass is lost (C74_violated_duplicated_minimum). C74_continuous covers all continuous cdfs."
  },
  {
   "property": "C75",
   "status": "partial",
   "theorems": [
    "Verif.Num.C75_merge_partial",
    "Verif.Num.C75_variance_partial",
    "Verif.Num.C75_variance_nonneg",
    "Verif.Num.C75_fit_partial",
    "Verif.Num.C75_dirac_partial",
    "Verif.Num.C75_violated_duplicated_minimum",
    "Verif.Num.C75_violated_neighbours",
    "Verif.Num.C75_violated_scaled_value",
    "Verif.Num.C75_violated_center",
    "Verif.Num.C75_violated_merged_values"
   ],
   "note": "The result differs from the integral by a remainder up to the float behind the greatest sample, which the theorem gives exactly; duplicated minima, neighbouring floats, single values with scaling and single values in merges are violations. The moments of a merger are the weighted sums of those of its parts up to pieces of one float (C75_merge_partial). The variance is the second moment around the expectation and never negative."
  },
  {
   "property": "C76",
   "status": "partial",
   "theorems": [
    "Verif.Num.C76_explanations",
    "Verif.Num.C76_mpe",
    "Verif.Num.C76_dirac",
    "Verif.Num.C76_violated_repeated",
    "Verif.Num.C76_violated_merged_values",
    "Verif.Num.C76_violated_weight"
   ],
   "note": "Proved for all cdfs of constant and linear pieces; ties are listed once per piece (C76_violated_repeated), and mass points are ignored."
  },
  {
   "property": "C77",
   "status": "partial",
   "theorems": [
    "Verif.Num.C77_fit_partial",
    "Verif.Num.C77_dirac",
    "Verif.Num.C77_violated_duplicated_minimum",
    "Verif.Num.C77_violated_tail"
   ],
   "note": "Draws are parameters. The last probability is too great by an explicit tail, and numpy rejects it if it exceeds its tolerance (C77_violated_tail)."
  },
  {
   "property": "C78",
   "status": "partial",
   "theorems": [
    "Verif.Num.C78_function_roundtrip",
    "Verif.Num.C78_fitted_roundtrip",
    "Verif.Num.C78_violated_unfitted",
    "Verif.Num.C78_violated_quadratic",
    "Verif.Num.C78_violated_undefined"
   ],
   "note": "Round trip of every function with constant and linear pieces and of every fitted distribution. Violated for unfitted distributions, quadratic and undefined pieces."
  },
  {
   "property": "C79",
   "status": "partial",
   "theorems": [
    "Verif.Num.C79_crop_partial",
    "Verif.Num.C79_crop_set_partial",
    "Verif.Num.C79_violated_crop",
    "Verif.Trees.C79_posterior_partial",
    "Verif.Trees.C79_posterior_discrete",
    "Verif.Trees.C79_violated_posterior"
   ],
   "note": "posterior and crop keep the tree and the distribution for all evidence that is not a single float within a leaf, and always for trees without numeric variables. Violated for single values: the leaf's distribution is overwritten and later queries change."
  },
  {
   "property": "C80",
   "status": "partial",
   "theorems": [
    "Verif.Num.C80_jaccard_partial",
    "Verif.Num.C80_jaccard_dirac",
    "Verif.Num.C80_violated_nan"
   ],
   "note": "Proved for fitted distributions, provided that the middle of two points is not rounded to the greater one; it can be, if the points are neighbouring floats, and then two distributions with a single value get nan (violated). Distributions obtained by cropping or merging are not covered."
  },
  {
   "property": "C81",
   "status": "partial",
   "theorems": [
    "Verif.Num.C81_kl_partial",
    "Verif.Num.C81_violated_infinite",
    "Verif.Num.C81_violated_zero",
    "Verif.Num.C81_violated_dirac"
   ],
   "note": "The code sums p * |p - q| over intervals, which is not the Kullback-Leibler divergence (violated). Proved for fitted distributions: what the sum is, that it lies between 0 and 1, and that it is 0 exactly if the distribution functions agree at the bounds of the pieces."
  },
  {
   "property": "C82",
   "status": "partial",
   "theorems": [
    "Verif.Num.C82_density",
    "Verif.Num.C82_rebuild_partial",
    "Verif.Num.C82_violated_fitted",
    "Verif.Num.C82_violated_refused",
    "Verif.Num.C82_violated_impulses",
    "Verif.Num.C82_impulse",
    "Verif.Num.C82_violated_whole"
   ],
   "note": "Step densities that are 0 outside a bounded range, also with an impulse behind the steps: cdf, density and refusal are proved in full, except for impulses behind steps of area 1 (violation). Rebuilding is proved for continuous cdfs and single values; fitted distributions are not restored exactly (violations)."
  },
  {
   "property": "C83",
   "status": "partial",
   "theorems": [
    "Verif.Num.C83_closed_partial",
    "Verif.Num.C83_single_value",
    "Verif.Num.C83_violated_dirac",
    "Verif.Num.C83_violated_mass",
    "Verif.Num.C83_violated_tight",
    "Verif.Num.C83_violated_wide"
   ],
   "note": "For leaves with at least two values and at least one gap the new cdf is given exactly and the density is positive exactly on the range; for leaves with one value all cases are decided. Partial because slopes up to 1e-8 are dropped (hypotheses), because mass is lost or gained at the ends, and because leaves without a gap are changed (violations)."
  },
  {
   "property": "C84",
   "status": "partial",
   "theorems": [
    "Verif.Trees.C84_world_partial",
    "Verif.Trees.C84_training_partial",
    "Verif.Trees.C84_probability",
    "Verif.Trees.C84_total",
    "Verif.Trees.C84_rejected",
    "Verif.Trees.C84_violated_mpe"
   ],
   "note": "Proved for trees learned without close_convex_gaps (or before it) and for unscaled variables; the laws for symbolic and integer variables hold for every tree. Violated: mpe reports other likelihoods for the same worlds."
  },
  {
   "property": "C85",
   "status": "partial",
   "theorems": [
    "Verif.Trees.C85_expectation_mixed_partial",
    "Verif.Trees.C85_unsatisfiable_mixed",
    "Verif.Trees.C85_moment_mixed_partial",
    "Verif.Trees.C85_violated_numeric",
    "Verif.Trees.C85_expectation_partial",
    "Verif.Trees.C85_unsatisfiable",
    "Verif.Trees.C85_moment_partial",
    "Verif.Trees.C85_frequency",
    "Verif.Trees.C85_training_mean",
    "Verif.Trees.C85_training_moment",
    "Verif.Trees.C85_default",
    "Verif.Trees.C85_violated_default",
    "Verif.Trees.C85_violated_evidence",
    "Verif.Trees.C85_violated_center"
   ],
   "note": "Expectations and moments for symbolic, integer and numeric variables. Expectations of variables without evidence are the weighted sums of the labels, or the most probable labels; for numeric variables, the weighted sums of the expectations of the leaves, except that leaves with a single value count as 0 (C85_violated_numeric). Without evidence they are, for symbolic and integer variables, the mean and the moments of the training data, and infer gives each set of values its share of the training rows. Partial: evidence on the variable itself is missing (ignored unless the tree splits on it, C85_violated_evidence). Centers given as labels are wrong (C85_violated_center), and the default set of variables is not the documented one (C85_violated_default)."
  },
  {
   "property": "C86",
   "status": "partial",
   "theorems": [
    "Verif.Trees.C86_rows",
    "Verif.Trees.C86_distribution",
    "Verif.Trees.C86_possible_partial",
    "Verif.Trees.C86_violated_zero",
    "Verif.Trees.C86_violated_numeric"
   ],
   "note": "Trees of symbolic and integer variables: sampling succeeds, every row is a world, and the volume of the random numbers that lead to a world is its likelihood. Learned trees with numeric variables: every sampled row has a positive likelihood. Partial: such trees need not be samplable (C86_violated_numeric, C77); the random number 0 leads to impossible labels (C86_violated_zero)."
  },
  {
   "property": "C87",
   "status": "partial",
   "theorems": [
    "Verif.Trees.C87_query",
    "Verif.Trees.C87_frequency",
    "Verif.Vars.C87_meaning",
    "Verif.Vars.C87_accepts",
    "Verif.Vars.C87_forms",
    "Verif.Vars.C87_options",
    "Verif.Vars.C87_unknown",
    "Verif.Vars.C87_violated_additional",
    "Verif.Vars.C87_violated_integer",
    "Verif.Vars.C87_violated_foreign"
   ],
   "note": "Proved for variables without blur: the meaning of a query, exactly which queries of labels are accepted, the argument forms, and the share of training rows end to end. Disagreements: additional keyword pairs beside a dictionary are refused although documented; integers outside the domain and strings are accepted for integer variables and fail later; foreign variable objects are accepted although unknown names raise."
  },
  {
   "property": "C88",
   "status": "partial",
   "theorems": [
    "Verif.Trees.C88_leaves",
    "Verif.Trees.C88_foreign",
    "Verif.Trees.C88_violated_best"
   ],
   "note": "Proved for trees over symbolic and integer variables without blur: exactly which leaves are returned, with which shares, each once, sorted by the sum of the shares. Disagreement: the sum ranks leaves differently from the probability of the query, so the best match need not come first."
  },
  {
   "property": "C89",
   "status": "partial",
   "theorems": [
    "Verif.Trees.C89_errors",
    "Verif.Trees.C89_actual",
    "Verif.Trees.C89_probability_partial",
    "Verif.Trees.C89_frequency_partial",
    "Verif.Trees.C89_violated_label",
    "Verif.Trees.C89_mixed_partial",
    "Verif.Trees.C89_violated_nan",
    "Verif.Trees.C89_violated_excluded",
    "Verif.Trees.C89_mixed_errors"
   ],
   "note": "Full characterisation of what pdf computes for labels (C89_actual) and its errors; equality with the probability for label sets 0,1,2,… (_partial). Numbers and labels of a learned tree (C89_mixed_partial): density, infinity and NaN cases. Violated: the internal value is looked up among the labels; infinity times 0 gives NaN; of a single-float interval the excluded lower bound is taken."
  },
  {
   "property": "C90",
   "status": "partial",
   "theorems": [
    "Verif.Fun.C90_modes",
    "Verif.Fun.C90_maximum_partial",
    "Verif.Fun.C90_violated_flat"
   ],
   "note": "Constant and undefined pieces: returned value and set are exactly the maximum and the points that attain it. With linear pieces on bounded intervals: if the call returns, its value is the maximum. Violated: for a LinearFunction of slope 0 only the end points of the interval are returned."
  },
  {
   "property": "C91",
   "status": "partial",
   "theorems": [
    "Verif.Fun.C91_values",
    "Verif.Fun.C91_errors",
    "Verif.Fun.C91_area_partial",
    "Verif.Fun.C91_violated_area"
   ],
   "note": "Intervals kept, constant pieces unchanged, linear pieces get the mean of the values at their least and greatest float; errors. Violated: the greatest float is below the upper bound, so the area changes, by half of slope times width times the gap to the upper bound."
  },
  {
   "property": "C92",
   "status": "partial",
   "theorems": [
    "Verif.Tab.C92_forms",
    "Verif.Tab.C92_rows",
    "Verif.Tab.C92_frame",
    "Verif.Tab.C92_errors",
    "Verif.Tab.C92_learnable",
    "Verif.Tab.C92_violated_missing",
    "Verif.Tab.C92_violated_columns",
    "Verif.Tab.C92_violated_long_rows"
   ],
   "note": "All forms agree and represent the data if no value is missing; missing values are NaN for data frames. Violated: missing values in rows of scaled variables become the mean, short columns and long rows are accepted."
  },
  {
   "property": "C93",
   "status": "partial",
   "theorems": [
    "Verif.Tab.C93_inferred",
    "Verif.Tab.C93_excluded",
    "Verif.Tab.C93_errors",
    "Verif.Tab.C93_violated_missing",
    "Verif.Tab.C93_violated_scale"
   ],
   "note": "Frames without missing values and with at least one row and column: names, domains, and acceptance by the preprocessing. Violated: a missing label becomes a label of the domain that the table never uses; scaling uses mean and deviation of the different values, so scaled data need not have mean 0."
  },
  {
   "property": "C94",
   "status": "partial",
   "theorems": [
    "Verif.Trees.C94_consistent_partial",
    "Verif.Trees.C94_training_rows",
    "Verif.Trees.C94_wrong_kind",
    "Verif.Trees.C94_violated_threshold",
    "Verif.Trees.C94_leaf_consistent",
    "Verif.Trees.C94_conditional_leaf_partial",
    "Verif.Trees.C94_empty_interval",
    "Verif.Trees.C94_numeric_evidence_partial"
   ],
   "note": "Path consistency is existence of a sample, except for single numbers equal to a threshold (violated there). Leaf consistency is positive probability. Conditioned leaves are right for evidence on symbolic and integer variables and on intervals of numeric variables that can be cropped (C37)."
  },
  {
   "property": "C95",
   "status": "partial",
   "theorems": [
    "Verif.Trees.C95_total_samples",
    "Verif.Trees.C95_no_leaves",
    "Verif.Trees.C95_depth",
    "Verif.Trees.C95_nodes",
    "Verif.Trees.C95_leaf_parameters",
    "Verif.Trees.C95_violated_parameters"
   ],
   "note": "All counts proved for learned trees. Violated: the documented number of parameters includes the priors of the leaves and the decision nodes, the code counts neither."
  },
  {
   "property": "C96",
   "status": "partial",
   "theorems": [
    "Verif.Num.C96_convolution_partial",
    "Verif.Num.C96_violated_exact",
    "Verif.Num.C96_impulse",
    "Verif.Num.C96_violated_impulse",
    "Verif.Num.C96_errors"
   ],
   "note": "Right up to one float: the mirrored function lies one float too far to the right (violated_exact); a step of at most two floats is taken for an impulse and its position is lost (violated_impulse)."
  },
  {
   "property": "C97",
   "status": "partial",
   "theorems": [
    "Verif.Fun.LF.C97_continuous_partial",
    "Verif.Fun.LF.C97_gt_steps",
    "Verif.Fun.LF.C97_eq_partial",
    "Verif.Fun.LF.C97_errors",
    "Verif.Fun.LF.C97_violated_touch",
    "Verif.Fun.LF.C97_violated_flat",
    "Verif.Fun.LF.C97_violated_jump",
    "Verif.Fun.LF.C97_violated_begin"
   ],
   "note": "Exact for step functions (gt) and for continuous functions that cross the value inside the pieces; wrong where a function touches the value, is constant at it, jumps, or begins with a line."
  },
  {
   "property": "C98",
   "status": "partial",
   "theorems": [
    "Verif.Num.C98_tolerance_partial",
    "Verif.Num.C98_violated_last",
    "Verif.Num.C98_violated_stuck"
   ],
   "note": "Every piece meets the tolerance, except pieces that no single split improves and the last piece, which the backward pass measures only in part."
  },
  {
   "property": "C99",
   "status": "partial",
   "theorems": [
    "Verif.Fun.C99_inverse",
    "Verif.Fun.C99_root",
    "Verif.Fun.C99_intersection",
    "Verif.Fun.C99_intersects_partial",
    "Verif.Fun.C99_violated_same_line",
    "Verif.Fun.C99_parabola_roots_partial",
    "Verif.Fun.C99_violated_flat_parabola",
    "Verif.Fun.C99_vertex",
    "Verif.Fun.C99_hmirror",
    "Verif.Fun.C99_hinge",
    "Verif.Fun.C99_text_partial",
    "Verif.Fun.C99_short_text",
    "Verif.Fun.C99_violated_constant"
   ],
   "note": "Exact, except that a line is said not to intersect itself, that the roots of a parabola without square term divide by zero, and that the text of a constant cannot be read."
  },
  {
   "property": "C100",
   "status": "partial",
   "theorems": [
    "Verif.Fun.PF.C100_steps",
    "Verif.Fun.PF.C100_lines_partial",
    "Verif.Fun.PF.C100_violated_crossing",
    "Verif.Fun.PF.C100_violated_unbounded",
    "Verif.Fun.PF.C100_violated_gap",
    "Verif.Fun.PF.C100_violated_whole_line",
    "Verif.Fun.PF.C100_abs_steps",
    "Verif.Fun.PF.C100_abs_lines_partial",
    "Verif.Fun.PF.C100_violated_abs"
   ],
   "note": "Exact for step functions, and for lines except at the floats next to a crossing. Fails for constants on the whole line, for a second function with a gap, for lines on unbounded intervals and for crossings next to the end of an interval."
  },
  {
   "property": "C101",
   "status": "partial",
   "theorems": [
    "Verif.Fun.PF.C101_constant_partial",
    "Verif.Fun.PF.C101_enough_partial",
    "Verif.Fun.PF.C101_lines_partial",
    "Verif.Fun.PF.C101_too_few",
    "Verif.Fun.PF.C101_other_class",
    "Verif.Fun.PF.C101_violated_shift",
    "Verif.Fun.PF.C101_violated_shift_line",
    "Verif.Fun.PF.C101_violated_area",
    "Verif.Fun.PF.C101_violated_gap"
   ],
   "note": "For functions in which no two of the possible means or chords are equal. If an earlier piece has an equal function, the wrong one is removed; the area is not kept, since widths of neighbouring pieces do not add up; functions with gaps are refused."
  },
  {
   "property": "C102",
   "status": "partial",
   "theorems": [
    "Verif.Num.C102_sum_partial",
    "Verif.Num.C102_constant",
    "Verif.Num.C102_violated_constant"
   ],
   "note": "The floats are a grid. At the bends of the computed cdf the value is right up to twice the error of the convolution; between the bends it is linear where the true cdf is quadratic. If one of the two variables is a constant, it is not added at all."
  },
  {
   "property": "C103",
   "status": "partial",
   "theorems": [
    "Verif.Num.C103_approximation_partial",
    "Verif.Num.C103_violated_exact",
    "Verif.Num.C103_violated_hole"
   ],
   "note": "The floats are a grid, and no two of the possible means are equal. The value at a bend is that of the given cdf up to the distance of two floats times the sum of the values of the density. Densities with holes are refused."
  },
  {
   "property": "C104",
   "status": "partial",
   "theorems": [
    "Verif.Iv.C104_interval_partial",
    "Verif.Iv.C104_empty",
    "Verif.Iv.C104_empty_union",
    "Verif.Iv.C104_union_partial",
    "Verif.Iv.C104_violated_reals",
    "Verif.Iv.C104_violated_empty_interval",
    "Verif.Iv.C104_size_partial",
    "Verif.Iv.C104_violated_size",
    "Verif.Iv.C104_infinite"
   ],
   "note": "Nothing can be sampled from sets so wide that the difference of two members overflows, and an empty interval in a union shifts the choice. Sizes are exact for unions given in order."
  },
  {
   "property": "C105",
   "status": "partial",
   "theorems": [
    "Verif.Fun.PF.C105_jaccard_partial",
    "Verif.Fun.PF.C105_symmetric",
    "Verif.Fun.PF.C105_range",
    "Verif.Fun.PF.C105_violated_domain"
   ],
   "note": "Step functions that are defined on the whole interval. The domains are intersected first, so that what only one function covers is ignored."
  },
  {
   "property": "C106",
   "status": "partial",
   "theorems": [
    "Verif.Fun.C106_knots",
    "Verif.Fun.C106_round_values",
    "Verif.Fun.C106_round_intervals",
    "Verif.Fun.C106_drop",
    "Verif.Fun.C106_violated_merge"
   ],
   "note": "Merging always raises an error, since it calls a method that does not exist. Values of quadratic pieces at knots are not modelled."
  },
  {
   "property": "C107",
   "status": "partial",
   "theorems": [
    "Verif.Iv.Lin.C107_bounded_partial",
    "Verif.Iv.Lin.C107_members_partial",
    "Verif.Iv.Lin.C107_unbounded_partial",
    "Verif.Iv.Lin.C107_single",
    "Verif.Iv.Lin.C107_violated_overshoot",
    "Verif.Iv.Lin.C107_violated_open"
   ],
   "note": "Positions are exact for exact arithmetic. With doubles the last point can lie outside, and an open bound of 2^53 or more is returned itself."
  },
  {
   "property": "C108",
   "status": "partial",
   "theorems": [
    "Verif.Hash.C108_variables_partial",
    "Verif.Hash.C108_equivalence_partial",
    "Verif.Hash.C108_violated_prefix",
    "Verif.Hash.C108_violated_nan",
    "Verif.Hash.C108_transformations",
    "Verif.Hash.C108_symmetric",
    "Verif.Hash.C108_assignments",
    "Verif.Hash.C108_functions",
    "Verif.Hash.C108_violated_quadratic",
    "Verif.Hash.C108_violated_piecewise",
    "Verif.Hash.C108_violated_verbose"
   ],
   "note": "Exact for variables whose symbolic domains have the same number of labels. Violated for domains that extend each other, numeric domains without values, and the hashes of piecewise and quadratic functions and quantile distributions."
  },
  {
   "property": "C109",
   "status": "partial",
   "theorems": [
    "Verif.Num.C109_blur_partial",
    "Verif.Num.C109_violated_scaled",
    "Verif.Num.C109_violated_single",
    "Verif.Num.C109_violated_flat"
   ],
   "note": "Proved for unscaled domains and priors with at least two values and a density of at least 1e-4. Violated for scaled domains, priors with a single value and flat priors."
  },
  {
   "property": "C110",
   "status": "partial",
   "theorems": [
    "Verif.Trees.C110_equal_iff",
    "Verif.Trees.C110_copy",
    "Verif.Trees.C110_learned_partial",
    "Verif.Trees.C110_violated_distances",
    "Verif.Trees.C110_violated_kinds",
    "Verif.Trees.C110_total_partial"
   ],
   "note": "Equal nodes, copies and equal answers to queries are proved, and that the comparison raises no exception unless nodes with the same number split on a numeric and on another variable (violated there). Likelihoods are equal if the minimal distances are; they are not compared."
  },
  {
   "property": "C111",
   "status": "partial",
   "theorems": [
    "Verif.Disc.C111_items",
    "Verif.Disc.C111_sorted",
    "Verif.Disc.C111_assign",
    "Verif.Disc.C111_bool_set",
    "Verif.Disc.C111_violated_bool",
    "Verif.Disc.C111_str_partial",
    "Verif.Disc.C111_violated_str"
   ],
   "note": "Listing, sorting, assigning to labels and setting boolean distributions are proved. Violated: assigning to a value of a boolean distribution, and printing a distribution that has not been fitted."
  },
  {
   "property": "C112",
   "status": "partial",
   "theorems": [
    "Verif.Disc.C112_share",
    "Verif.Disc.C112_wsample",
    "Verif.Disc.C112_errors",
    "Verif.Disc.C112_choice",
    "Verif.Disc.C112_positive_partial",
    "Verif.Disc.C112_violated_zero",
    "Verif.Disc.C112_violated_index",
    "Verif.Disc.C112_distribution"
   ],
   "note": "Number of draws, the element that each random number selects, the length of the shares and the errors are proved. Violated: an element with weight zero is drawn at the random number zero if it is the first, and wchoicei returns a pair instead of an index."
  },
  {
   "property": "C113",
   "status": "proved",
   "theorems": [
    "Verif.Fun.C113_from_dict",
    "Verif.Fun.C113_overwrite_at",
    "Verif.Fun.C113_overwrite",
    "Verif.Fun.C113_zero",
    "Verif.Fun.C113_multi_eval"
   ],
   "note": "Proved for half-open pieces and segments. Strings as intervals or functions are not modelled."
  },
  {
   "property": "C114",
   "status": "partial",
   "theorems": [
    "Verif.Ut.C114_entropy",
    "Verif.Ut.C114_max_entropy",
    "Verif.Ut.C114_rel_entropy",
    "Verif.Ut.C114_errors",
    "Verif.Ut.C114_gini_partial",
    "Verif.Ut.C114_violated_gini"
   ],
   "note": "The entropies are proved. Violated: gini is the mean of p(1-p) instead of the sum, so it is the Gini impurity divided by the number of outcomes."
  },
  {
   "property": "C115",
   "status": "partial",
   "theorems": [
    "Verif.Vars.C115_discrete",
    "Verif.Vars.C115_values",
    "Verif.Vars.C115_labels_partial",
    "Verif.Vars.C115_path_partial",
    "Verif.Vars.C115_violated_text",
    "Verif.Trees.C115_infer",
    "Verif.Trees.C115_posterior",
    "Verif.Trees.C115_violated_error"
   ],
   "note": "The text of internal values is proved, and that of labels that cannot be confused with internal values. Violated: labels are printed as if they were internal values, so the text can name another label or a KeyError replaces the announced error."
  },
  {
   "property": "C116",
   "status": "proved",
   "theorems": [
    "Verif.Vars.C116_labels",
    "Verif.Vars.C116_values"
   ],
   "note": "Proved for scalars and sets as entries. Lists and tuples as entries of integer variables are returned as they are and are outside the statement."
  },
  {
   "property": "C117",
   "status": "partial",
   "theorems": [
    "Verif.Learn.C117_check",
    "Verif.Learn.C117_limit_partial",
    "Verif.Learn.C117_should",
    "Verif.Learn.C117_violated_scaled"
   ],
   "note": "Proved without scaling. Violated: for scaled variables the limit is divided by the square root of the scale, which is a standard deviation, instead of the scale. The only call of the check is commented out, so the setting has no effect on learning at all."
  },
  {
   "property": "C118",
   "status": "proved",
   "theorems": [
    "Verif.Trees.C118_reasons",
    "Verif.Trees.C118_first",
    "Verif.Trees.C118_unsatisfiable"
   ],
   "note": "Proved. The likelihoods are summed over leaves without their priors, as the unit test expects, so they can exceed 1. The conflicts are kept in internal values; errors of their translation to labels are in C115."
  },
  {
   "property": "C119",
   "status": "partial",
   "theorems": [
    "Verif.Iv.C119_interval",
    "Verif.Iv.C119_infinite",
    "Verif.Iv.C119_points_partial",
    "Verif.Iv.C119_twice",
    "Verif.Iv.C119_anyPoint",
    "Verif.Iv.C119_violated_open",
    "Verif.Iv.C119_violated_overlap"
   ],
   "note": "Proved for closed intervals. Violated: rounding an open interval can lose points or all of it, and disjoint intervals of a set can overlap afterwards."
  },
  {
   "property": "C120",
   "status": "partial",
   "theorems": [
    "Verif.Files.C120_save",
    "Verif.Files.C120_load",
    "Verif.Files.C120_others",
    "Verif.Files.C120_failed_partial",
    "Verif.Files.C120_missing",
    "Verif.Files.C120_stream_partial",
    "Verif.Files.C120_violated_pickle",
    "Verif.Files.C120_violated_crash",
    "Verif.Files.C120_violated_stream"
   ],
   "note": "Proved: successful saves can be loaded and touch nothing else. Violated: the file is emptied before pickle asks for the data of the tree, a crash while writing loses the earlier tree, and JSON trees in one stream cannot be told apart."
  },
  {
   "property": "C121",
   "status": "partial",
   "theorems": [
    "Verif.Mvg.C121_two_partial",
    "Verif.Mvg.C121_shapes",
    "Verif.Mvg.C121_index",
    "Verif.Mvg.C121_violated_mean",
    "Verif.Mvg.C121_violated_shape"
   ],
   "note": "Proved for two variables. Violated for more: the blocks of the covariances between given and other variables are swapped, so that conditioning raises an error unless half of the variables are given, and then gives wrong results. The module cannot be imported at the moment either."
  },
  {
   "property": "C122",
   "status": "partial",
   "theorems": [
    "Verif.ToJson.C122_plain_partial",
    "Verif.ToJson.C122_supported",
    "Verif.ToJson.C122_dict",
    "Verif.ToJson.C122_items_partial",
    "Verif.ToJson.C122_violated_keys",
    "Verif.ToJson.C122_violated_none"
   ],
   "note": "Proved for dictionaries whose keys have different texts. Violated: keys as 1 and '1' collide and an item is lost; None has no representation although JSON has null."
  },
  {
   "property": "C123",
   "status": "partial",
   "theorems": [
    "Verif.Seq.C123_shift",
    "Verif.Seq.C123_count",
    "Verif.Seq.C123_distinct_partial",
    "Verif.Seq.C123_violated_names"
   ],
   "note": "Proved if no variable of the template is named as another one at a later time step. Violated otherwise: with variables x and x+1 the expanded tree has two variables x+1."
  },
  {
   "property": "C124",
   "status": "proved",
   "theorems": [
    "Verif.Hyper.C124_entries",
    "Verif.Hyper.C124_keys"
   ],
   "note": "Names of settings contain no dot (all of them are literals in variables.py)."
  },
  {
   "property": "C125",
   "status": "partial",
   "theorems": [
    "Verif.Parse.C125_accepts",
    "Verif.Parse.C125_read_partial",
    "Verif.Parse.C125_violated_rest",
    "Verif.Parse.C125_violated_empty_space",
    "Verif.Parse.C125_violated_union"
   ],
   "note": "float(text) is a parameter that is assumed not to accept the empty text, commas and brackets. The texts that are accepted are characterised exactly; the property is violated by text behind an interval, a space beside the sign of the empty set, and the text of every union of two intervals."
  },
  {
   "property": "C126",
   "status": "partial",
   "theorems": [
    "Verif.Fun.Cells.C126_result",
    "Verif.Fun.Cells.C126_others",
    "Verif.Fun.Cells.C126_unchanged_partial",
    "Verif.Fun.Cells.C126_values_partial",
    "Verif.Fun.Cells.C126_violated_integral",
    "Verif.Fun.Cells.C126_violated_again"
   ],
   "note": "The result is that of the model on values; other functions are not changed; the values of the operand are kept, but its intervals are changed if neighbouring pieces have the same function: then its integral changes, and a second simplify() raises a ValueError."
  },
  {
   "property": "C127",
   "status": "partial",
   "theorems": [
    "Verif.Iv.RS.C127_history_partial",
    "Verif.Iv.RS.C127_unchanged",
    "Verif.Iv.RS.C127_violated_intervals",
    "Verif.Iv.RS.C127_violated_member"
   ],
   "note": "For sets whose intervals are in order, the members stay the same over every history of questions. The intervals do not: == and size() replace the first interval, and if the intervals are not in order a member can be lost."
  },
  {
   "property": "C128",
   "status": "partial",
   "theorems": [
    "Verif.Fun.PF.C128_left_partial",
    "Verif.Fun.PF.C128_left_same_partial",
    "Verif.Fun.PF.C128_right_partial",
    "Verif.Fun.PF.C128_succeeds",
    "Verif.Fun.PF.C128_violated_right",
    "Verif.Fun.PF.C128_violated_left",
    "Verif.Fun.PF.C128_violated_closed"
   ],
   "note": "Proved for functions that reach to the end in question, if the outer piece does not have the values of g already and, for ensure_right, x is not below the last piece; in the other cases the values are not those of g. ensure_right also closes the last piece at its lower bound."
  },
  {
   "property": "C129",
   "status": "partial",
   "theorems": [
    "Verif.Opts.C129_accepted",
    "Verif.Opts.C129_read",
    "Verif.Opts.C129_distribution_partial",
    "Verif.Opts.C129_assigned",
    "Verif.Opts.C129_attributes",
    "Verif.Opts.C129_violated_assigned"
   ],
   "note": "Given and default values are proved for every class; distributions have the settings of their variable as long as no attribute of the variable is assigned: an assigned setting does not reach them (nor ==, hash and to_json, which read the same dictionary)."
  },
  {
   "property": "C130",
   "status": "partial",
   "theorems": [
    "Verif.Fun.XS.C130_everywhere_partial",
    "Verif.Fun.XS.C130_bounded_partial",
    "Verif.Fun.XS.C130_violated_step",
    "Verif.Fun.XS.C130_violated_room"
   ],
   "note": "Proved without rounding for functions that are defined everywhere and have a bounded piece, and for functions with bounded pieces only. If no piece is bounded, there are nan samples; for a single unbounded piece the code writes outside of its array."
  },
  {
   "property": "C131",
   "status": "partial",
   "theorems": [
    "Verif.Fun.Cells.C131_copy",
    "Verif.Fun.Cells.C131_round",
    "Verif.Fun.Cells.C131_round_independent_partial",
    "Verif.Fun.Cells.C131_violated_round"
   ],
   "note": "Proved for copies and for rounding with the intervals; without them the interval objects are shared, and simplifying the rounded function changes values of the original."
  },
  {
   "property": "C132",
   "status": "partial",
   "theorems": [
    "Verif.Dep.C132_numeric",
    "Verif.Dep.C132_symbolic",
    "Verif.Dep.C132_accepted",
    "Verif.Dep.C132_default",
    "Verif.Dep.C132_violated_sparse",
    "Verif.Dep.C132_learner",
    "Verif.Dep.C132_learner_start"
   ],
   "note": "Proved for all sparse structures; a feature left out of the dependencies is a KeyError when learning starts, although the dictionary is offered as sparse."
  },
  {
   "property": "C133",
   "status": "partial",
   "theorems": [
    "Verif.Gau.C133_history_partial",
    "Verif.Gau.C133_same",
    "Verif.Gau.C133_sum",
    "Verif.Gau.C133_violated_empty"
   ],
   "note": "Proved for points as in C59 (no deviation from the mean or variance that is positive and at most 1e-15); a Gaussian without points refuses the operations."
  },
  {
   "property": "C134",
   "status": "partial",
   "theorems": [
    "Verif.Gau.C134_copy_partial",
    "Verif.Gau.C134_operations",
    "Verif.Gau.C134_independent_partial",
    "Verif.Gau.C134_violated_update",
    "Verif.Gau.C134_violated_weights"
   ],
   "note": "Proved for changes by operators in place and for empty Gaussians; updating a copy overwrites the arrays of the original, and a copy forgets the weights of its points."
  },
  {
   "property": "C135",
   "status": "partial",
   "theorems": [
    "Verif.Pretty.C135_lines",
    "Verif.Pretty.C135_faithful_partial",
    "Verif.Pretty.C135_newline"
   ],
   "note": "Proved for texts without line breaks; the texts contain the names of variables, in which the formatting does not protect them."
  },
  {
   "property": "C136",
   "status": "partial",
   "theorems": [
    "Verif.Gau.C136_equal_partial",
    "Verif.Gau.C136_violated_dimension",
    "Verif.Gau.C136_sym"
   ],
   "note": "Proved in one dimension; from two dimensions on every comparison is a ValueError."
  }
 ]
}