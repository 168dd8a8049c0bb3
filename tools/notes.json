{
 "C01": {
  "note": "Full equivalence for every interval object."
 },
 "C02": {
  "note": "Full equivalence for every interval the constructor accepts; parse() can build lower > upper, where isempty is wrong (witness)."
 },
 "C03": {
  "note": "A common point is never missed; the converse is proved except for an empty receiver and neighbouring-float overlaps, where the code is wrong (two witnesses)."
 },
 "C04": {
  "note": "intersection proved exact and total; with requested brackets exact when not empty, witness otherwise. Unions of half-open intervals: total and exact in any order."
 },
 "C05": {
  "note": "Exact and total for all intervals without infinite members. Unions of half-open intervals: total and exact in any order."
 },
 "C06": {
  "note": "Exact whenever it returns; exact characterisation of the ValueError; witnesses for the exception and for intervals containing -inf. Complement total and exact. RealSet versions exact for ordered receivers. For half-open intervals and unions of them in any order: total and exact, complement included."
 },
 "C07": {
  "note": "Exact for non-empty arguments; witnesses for the empty argument and for unions."
 },
 "C08": {
  "note": "Membership and emptiness exact; intersects never misses a common point and is exact for non-empty intervals without neighbouring bounds; violated for neighbouring bounds as in C03."
 },
 "C09": {
  "note": "Never adds points; returns and is exact for unions in increasing order; loses points for unions given out of order (C09_violated_loses_points)."
 },
 "C10": {
  "note": "Never adds points; exact and in normal form for ordered input; witnesses for lost points, raised error and mutated receiver. For half-open intervals: total, exact and in normal form in any order."
 },
 "C100": {
  "note": "Exact for step functions, and for lines except at the floats next to a crossing. Fails for constants on the whole line, for a second function with a gap, for lines on unbounded intervals and for crossings next to the end of an interval."
 },
 "C101": {
  "note": "For functions in which no two of the possible means or chords are equal. If an earlier piece has an equal function, the wrong one is removed; the area is not kept, since widths of neighbouring pieces do not add up; functions with gaps are refused."
 },
 "C102": {
  "note": "The floats are a grid. At the bends of the computed cdf the value is right up to twice the error of the convolution; between the bends it is linear where the true cdf is quadratic. If one of the two variables is a constant, it is not added at all."
 },
 "C103": {
  "note": "The floats are a grid, and no two of the possible means are equal. The value at a bend is that of the given cdf up to the distance of two floats times the sum of the values of the density. Densities with holes are refused."
 },
 "C104": {
  "note": "Nothing can be sampled from sets so wide that the difference of two members overflows, and an empty interval in a union shifts the choice. Sizes are exact for unions given in order."
 },
 "C105": {
  "note": "Step functions that are defined on the whole interval. The domains are intersected first, so that what only one function covers is ignored."
 },
 "C106": {
  "note": "Merging always raises an error, since it calls a method that does not exist. Values of quadratic pieces at knots are not modelled."
 },
 "C107": {
  "note": "Positions are exact for exact arithmetic. With doubles the last point can lie outside, and an open bound of 2^53 or more is returned itself."
 },
 "C108": {
  "note": "Exact for variables whose symbolic domains have the same number of labels. Violated for domains that extend each other, numeric domains without values, and the hashes of piecewise and quadratic functions and quantile distributions."
 },
 "C109": {
  "note": "Proved for unscaled domains and priors with at least two values and a density of at least 1e-4. Violated for scaled domains, priors with a single value and flat priors."
 },
 "C11": {
  "note": "Partition proved for every interval; RealSet.chop raises for single-interval unions (witness)."
 },
 "C110": {
  "note": "Equal nodes, copies and equal answers to queries are proved, and that the comparison raises no exception unless nodes with the same number split on a numeric and on another variable (violated there). Likelihoods are equal if the minimal distances are; they are not compared."
 },
 "C111": {
  "note": "Listing, sorting, assigning to labels and setting boolean distributions are proved. Violated: assigning to a value of a boolean distribution, and printing a distribution that has not been fitted."
 },
 "C112": {
  "note": "Number of draws, the element that each random number selects, the length of the shares and the errors are proved. Violated: an element with weight zero is drawn at the random number zero if it is the first, and wchoicei returns a pair instead of an index."
 },
 "C113": {
  "note": "Proved for half-open pieces and segments. Strings as intervals or functions are not modelled."
 },
 "C114": {
  "note": "The entropies are proved. Violated: gini is the mean of p(1-p) instead of the sum, so it is the Gini impurity divided by the number of outcomes."
 },
 "C115": {
  "note": "The text of internal values is proved, and that of labels that cannot be confused with internal values. Violated: labels are printed as if they were internal values, so the text can name another label or a KeyError replaces the announced error."
 },
 "C116": {
  "note": "Proved for scalars and sets as entries. Lists and tuples as entries of integer variables are returned as they are and are outside the statement."
 },
 "C117": {
  "note": "Proved without scaling. Violated: for scaled variables the limit is divided by the square root of the scale, which is a standard deviation, instead of the scale. The only call of the check is commented out, so the setting has no effect on learning at all."
 },
 "C118": {
  "note": "Proved. The likelihoods are summed over leaves without their priors, as the unit test expects, so they can exceed 1. The conflicts are kept in internal values; errors of their translation to labels are in C115."
 },
 "C119": {
  "note": "Proved for closed intervals. Violated: rounding an open interval can lose points or all of it, and disjoint intervals of a set can overlap afterwards."
 },
 "C12": {
  "note": "Equality = same members for intervals without infinite members, and for all unions of half-open intervals in any order; witnesses at infinity, for hashes and for unions of other intervals."
 },
 "C120": {
  "note": "Proved: successful saves can be loaded and touch nothing else. Violated: the file is emptied before pickle asks for the data of the tree, a crash while writing loses the earlier tree, and JSON trees in one stream cannot be told apart."
 },
 "C121": {
  "note": "Proved for two variables. Violated for more: the blocks of the covariances between given and other variables are swapped, so that conditioning raises an error unless half of the variables are given, and then gives wrong results. The module cannot be imported at the moment either."
 },
 "C122": {
  "note": "Proved for dictionaries whose keys have different texts. Violated: keys as 1 and '1' collide and an item is lost; None has no representation although JSON has null."
 },
 "C123": {
  "note": "Proved if no variable of the template is named as another one at a later time step. Violated otherwise: with variables x and x+1 the expanded tree has two variables x+1."
 },
 "C124": {
  "note": "Names of settings contain no dot (all of them are literals in variables.py)."
 },
 "C125": {
  "note": "float(text) is a parameter that is assumed not to accept the empty text, commas and brackets. The texts that are accepted are characterised exactly; the property is violated by text behind an interval, a space beside the sign of the empty set, and the text of every union of two intervals."
 },
 "C126": {
  "note": "The result is that of the model on values; other functions are not changed; the values of the operand are kept, but its intervals are changed if neighbouring pieces have the same function: then its integral changes, and a second simplify() raises a ValueError."
 },
 "C127": {
  "note": "For sets whose intervals are in order, the members stay the same over every history of questions. The intervals do not: == and size() replace the first interval, and if the intervals are not in order a member can be lost."
 },
 "C128": {
  "note": "Proved for functions that reach to the end in question, if the outer piece does not have the values of g already and, for ensure_right, x is not below the last piece; in the other cases the values are not those of g. ensure_right also closes the last piece at its lower bound."
 },
 "C129": {
  "note": "Given and default values are proved for every class; distributions have the settings of their variable as long as no attribute of the variable is assigned: an assigned setting does not reach them (nor ==, hash and to_json, which read the same dictionary)."
 },
 "C13": {
  "note": "JSON round trip exact; text round trip except {x}; RealSet JSON round trip always raises (theorem)."
 },
 "C130": {
  "note": "Proved without rounding for functions that are defined everywhere and have a bounded piece, and for functions with bounded pieces only. If no piece is bounded, there are nan samples; for a single unbounded piece the code writes outside of its array."
 },
 "C131": {
  "note": "Proved for copies and for rounding with the intervals; without them the interval objects are shared, and simplifying the rounded function changes values of the original."
 },
 "C132": {
  "note": "Proved for all sparse structures; a feature left out of the dependencies is a KeyError when learning starts, although the dictionary is offered as sparse."
 },
 "C133": {
  "note": "Proved for points as in C59 (no deviation from the mean or variance that is positive and at most 1e-15); a Gaussian without points refuses the operations."
 },
 "C134": {
  "note": "Proved for changes by operators in place and for empty Gaussians; updating a copy overwrites the arrays of the original, and a copy forgets the weights of its points."
 },
 "C135": {
  "note": "Proved for texts without line breaks; the texts contain the names of variables, in which the formatting does not protect them."
 },
 "C136": {
  "note": "Proved in one dimension; from two dimensions on every comparison is a ValueError."
 },
 "C14": {
  "note": "Sums and products of constant, linear and quadratic functions, of a piecewise function with a constant or linear function and of two piecewise functions, differences, division by a number and simplify are pointwise; sums and products exist for constant and linear pieces on the same domain. Violated: number minus linear function has the wrong sign; linear + undefined raises; quadratic * linear is None; sums on different domains or of a connected function and one with a gap raise; single-float pieces may be looked up in the wrong place."
 },
 "C15": {
  "note": "Values proved for disjoint pieces; violated outside all pieces (error instead of NaN)."
 },
 "C16": {
  "note": "Lines, parabolas and polylines, with existence; violated: quadratic from_points accepts equal abscissae."
 },
 "C17": {
  "note": "Exact area as Mathlib integral for constant and linear pieces, unbounded pieces being 0; additivity. Violated: LinearFunction with slope 0 over an unbounded range gives +inf."
 },
 "C18": {
  "note": "Shift (with exactly representable bounds), crop (unconditional), split, stretch; violated: stretch leaves quadratic pieces alone."
 },
 "C19": {
  "note": "Equal lengths: same pieces and values; violated: prefix compares equal."
 },
 "C20": {
  "note": "Complete functional specification for lists, float arrays and dicts (exact arithmetic); integer arrays lose the result to truncation (witness)."
 },
 "C21": {
  "note": "Refinement to a stable priority queue for every history of pushes and pops and every initial data; deletion by position keeps the contents but breaks the order (witness), except for the last position. Concrete heapq algorithms are modelled."
 },
 "C22": {
  "note": "Full specification on the level of text pieces."
 },
 "C23": {
  "note": "Sortedness and permutation for every depth budget, heapsort included."
 },
 "C24": {
  "note": "Termination and insertion point for every ascending array; with duplicates neither end point is guaranteed."
 },
 "C25": {
  "note": "Exact for two or more points; for one point the documented centroid is not returned (witness, and exact condition when it is)."
 },
 "C26": {
  "note": "Exact selection intervals; normalisation and zero total covered."
 },
 "C27": {
  "note": "p() exact for every proper distribution (symbolic and integer); measure laws through the API; factories exact."
 },
 "C28": {
  "note": "Conditioning exact for collections (symbolic) and for every restriction (integer), Unsatisfiability iff mass zero; a scalar symbolic restriction of probability zero is not refused (witness)."
 },
 "C29": {
  "note": "Exact mixture for equal types and as many weights as distributions; witnesses: surplus distributions silently ignored, prefix domains treated as equal."
 },
 "C30": {
  "note": "Full statement."
 },
 "C31": {
  "note": "Full statement, including the ValueError for labels outside the domain."
 },
 "C32": {
  "note": "Full statement: every function's expectation under the sum equals the double sum; expectations and variances add."
 },
 "C33": {
  "note": "Full statement for single items, lists, tuples and sets."
 },
 "C34": {
  "note": "Full statement for proper distributions over the same domain."
 },
 "C35": {
  "note": "Fitting is modelled with the in-place loop over the sorted buffer, the CDF regressor and the construction of the pieces; proved for every finite sample, every precision, with and without imaginary outermost points, over exact rationals. Missing values and infinities in the data are not modelled."
 },
 "C36": {
  "note": "Proved for the distributions fitted to any sample with two different values, under a density of at least 1e-4 between samples: ppf(cdf(x)) = x between the least and the greatest sample, (ppf(q), q) lies on the graph of the cdf from the cdf value of the least sample on, ppf is strictly increasing, NaN outside. Violated otherwise: is_invertible treats slopes below 1e-4 as flat, so ppf raises for wide data; with a repeated least sample low quantiles lie below every sample; for equal samples ppf is NaN except at 1."
 },
 "C37": {
  "note": "Proved for QuantileDistribution.crop on every piecewise linear cdf and every interval over which the cdf increases, in particular for distributions fitted to any sample: the result is 0 below the interval, 1 from its greatest float on and (F(n) - F(min I)) / (F(max I) - F(min I)) inside; Unsatisfiability for intervals entirely outside the samples; distributions on a single value above the least float of I are kept. Hypotheses: no jump inside the interval, no linear piece consisting of one float. Violated otherwise: jumps are multiplied with the mass of I instead of divided by it; mass on the least float of I is lost (a Dirac at 5 cropped to [5,8] becomes a Dirac at 8); beyond the greatest sample the result exceeds 1; a zero-mass interval inside a gap is not rejected. Numeric._crop for real sets and single numbers is modelled in Numeric/Props10."
 },
 "C38": {
  "note": "Proved for every list of continuous cdfs and cdfs of single values, with every list of non-negative weights summing to 1 (exactly, or up to 1e-8), at every float; and for every list of fitted cdfs up to the rise of the last line over one float. Missing: equality for fitted cdfs, repeated least samples, slopes of at most 1e-8, jumps - there the code does not give the mixture (C38_violated_*). The sum is computed with rational numbers."
 },
 "C39": {
  "note": "Exact real arithmetic; data are finite numbers (numpy.std is the square root of the mean squared deviation). C39_invertible: transform and inverse_transform invert each other for all data that are not empty, constant ones included, and all x (infinities and NaN too). C39_normalised: mean 0, variance 1, or all 0 for constant data. C39_labels / C39_order: value2label and label2value of a scaled numeric type invert each other on numbers, intervals and sets of intervals and keep membership. C39_refused: values with NaN or infinities give a ValueError. Fails: with no values every transformed number is NaN (C39_violated_no_values), and NaN becomes 0 in both directions (C39_violated_nan). Not covered: DataScaler fitted directly to non-finite data, rounding."
 },
 "C40": {
  "note": "learn() on valid data: the leaves' rows are a permutation of all rows, with counts, priors and fitted distributions; no data raises ValueError."
 },
 "C41": {
  "note": "Depth limit proved for every max_depth other than 0; size limit proved when there are symbolic targets or no symbolic features. Violated: symbolic feature without symbolic target (counter not reset), and max_depth=0 is ignored."
 },
 "C42": {
  "note": "Rows satisfy their leaf's path, every valid sample satisfies exactly one leaf's path, encode returns it unless a number is a split threshold; encode always returns an existing leaf whose path holds with closed upper bounds (C42_encode_total). Violated at thresholds: encode returns the left leaf."
 },
 "C43": {
  "note": "Variance, gini (range, zero, one) and reduction range proved; improvement exact for one numeric target. Violated: two targets give r1 + r2/2, and impurities of a strict subset of symbolic targets use other variables' domain sizes."
 },
 "C44": {
  "note": "The leaves yielded by apply are exactly those with a compatible path, each once, in every tree of the right shape and in every learned tree; errors for unknown variables and unfitted trees. Queries with unions of intervals are not modelled."
 },
 "C45": {
  "note": "Value, range and failure of infer for any distributions that satisfy the laws (proved for symbolic, integer and fitted numeric distributions) and for all learned trees, discrete and mixed (close_convex_gaps=False for numeric variables, see C83). For numeric variables intervals must begin with their lower bound or have none, and table cells and their means must be floats. Violated for variables in both query and evidence that are not certain in a leaf: their probability is multiplied twice, so P(A|A) can be 1/3."
 },
 "C46": {
  "note": "Posterior as mixture of conditionals and mass 1 on the evidence where the evidence variable is on the path or certain; violated where it is not on the path (no crop). For learned trees with numeric variables: posterior given evidence on any variables, the asked ones included (exact for symbolic and integer variables, merged conditional distributions for numeric ones), if the interval of a numeric variable can be cropped (C37). Point evidence on numeric variables is not covered."
 },
 "C47": {
  "note": "Proved for any distributions with the conditioning laws, for learned discrete trees, and for learned trees with numeric variables with evidence on symbolic and integer variables, or on numeric variables by intervals inside the values of every leaf they reach: the conditional tree's masses are the conditional probabilities, and inference on it gives them. Conditioning twice and inference with evidence on the same variable differ, and numeric evidence that exceeds the greatest value of a leaf gives answers above one, see the violated theorems."
 },
 "C48": {
  "note": "Proved for any distributions whose own mpe is a maximum and for learned trees, discrete and with numeric variables: every explanation is exactly a set of worlds that agree with the evidence and attain the maximal density in a leaf, and none is missed; if no leaf holds a single number these are exactly the worlds of maximal likelihood. Violated where all numbers of a leaf are the same: infinite densities are replaced by the minimal distance itself, so that the most likely world can be missed. Partial: evidence on numeric variables, scaled variables."
 },
 "C49": {
  "note": "Enumeration of all assignments exactly once in order of cost, for arbitrary costs; for symbolic/integer variables the likelihoods are ordered if no two states of a variable are equally likely; witness of the wrong order otherwise. Cost rounding and numeric distributions are not modelled."
 },
 "C50": {
  "note": "Discrete variables. For every fitted tree, evidence and k: each explanation of each leaf is yielded exactly once, in its leaf's order, and k cuts the list off. The order across leaves is violated (the candidate heap gives out the least likely first) and the leaf priors are ignored; with one leaf left and no ties the order is proved."
 },
 "C51": {
  "note": "For every fitted binary tree with positive leaf priors and every threshold: success, prior sum, samples, leaf count, single-variable marginals, no mergeable siblings left; with a threshold of one or more all query answers are kept. Proved for all trees learned over discrete variables. Violated for trees from conditional_jpt (a node with one child raises ValueError). Only approximate=None is modelled; the original is unchanged because the model is functional and works on a copy (C52_nodes)."
 },
 "C52": {
  "note": "Proved: the nodes (leaves, priors, sample counts, distributions, decision nodes, paths) of every well-formed tree and every learned tree, with or without numeric variables, are read back exactly; the settings of every constructed or learned tree are read back when variables are passed (as copy does) or have default settings. Partial: variable settings are lost otherwise, and == can fail (violated theorems)."
 },
 "C53": {
  "note": "Proved: multiplying the leaf priors by given factors and normalising yields exactly the reweighted distribution, with the error cases zero total and missing leaf."
 },
 "C54": {
  "note": "VariableMap refines a finite map with insertion order for every history; deleting also removes the declaration (C54_violated_reset), deep copies drop or reject some values (C54_violated_deepcopy)"
 },
 "C55": {
  "note": "class, name and domain survive; settings are reset to defaults (C55_violated_settings)"
 },
 "C56": {
  "note": "round trips for all admissible assignments; type checks hold for variable objects of numeric and symbolic variables, but not for names, integer variables and value sets"
 },
 "C57": {
  "note": "C57_transition_model is about any encoded sequences, C57_fit about the whole of fit: that it succeeds for proper sequences, that every sample is encoded to an existing leaf, and that the entries are the frequencies of the transitions. C57_errors covers missing and short sequences."
 },
 "C58": {
  "note": "C58_ground says what is handed to belief propagation; C58_marginals_partial holds for at most ten steps and any answer of belief propagation, C58_exact_partial for exact belief propagation, C58_fitted_partial for all fitted templates over symbolic and integer variables. C58_violated_eleven_steps: with eleven or more steps the names of the steps are sorted as strings, so that step 2 gets the distribution of step 10. Belief propagation itself is a library and a parameter of the model."
 },
 "C59": {
  "note": "Every sequence of points with positive weights in every dimension: equality with the weighted batch mean and covariance, and for histories of updates and retractions with at least two points left. Missing: differences and variances that are positive but at most 1e-15 (set to zero by the code; C59_update_bounds says what holds then), retraction down to one or no point (C59_violated_*). Exact rationals."
 },
 "C60": {
  "note": "Termination and shape proved for every data array with at least two points, every eps and max_splits (with exact arithmetic)."
 },
 "C61": {
  "note": "Non-negativity and zero-iff-equal proved; the value is not the KL divergence (witness)."
 },
 "C62": {
  "note": "The claim is false for the code (witness)."
 },
 "C63": {
  "note": "Full statement."
 },
 "C64": {
  "note": "Full statement for symbolic and integer distributions. Numeric distributions are updated with the weights 1 and w, normalised (violated theorem); the partial theorem says so for continuous distributions and single values."
 },
 "C65": {
  "note": "Best split is optimal among admissible divisions with improvement computed from scratch, and leaves are justified; requires all targets to depend on all features (the default) and the size counter to be right (Respects). Violated with sparse dependencies."
 },
 "C66": {
  "note": "Proved for exact arithmetic and increasing abscissae, as the fit of a quantile distribution provides them."
 },
 "C67": {
  "note": "Least squares optimality over all lines for all weighted point sets with variances above 1e-8; below, a perfect fit is reported (C67_violated_small_variance)."
 },
 "C68": {
  "note": "Scaling, shifting and adding proved for all point sets and dimensions. Missing: updating the result, which forgets the points (C68_violated_update_forgets)."
 },
 "C69": {
  "note": "Proved for the whole learner by an invariant over its queue."
 },
 "C70": {
  "note": "The table is the flat list of windows in the specification's sense (windowRow). Windows of w = 0 steps are not modelled."
 },
 "C71": {
  "note": "C71_fresh_partial holds for a template without leaves; C71_violated_refit: fitting a second time keeps stale leaves."
 },
 "C72": {
  "note": "C72_one_step gives the actual result: the leaf priors of the conditional tree are squared and normalised, because the factor of the step is multiplied with the prior of the same tree again. C72_violated_square is a fitted example."
 },
 "C73": {
  "note": "The transition model is a list of rationals; the priors of the variables are covered by C52."
 },
 "C74": {
  "note": "For fitted distributions every interval with at least one float is covered, except intervals that begin with a duplicated least sample, whose mass is lost (C74_violated_duplicated_minimum). C74_continuous covers all continuous cdfs."
 },
 "C75": {
  "note": "The result differs from the integral by a remainder up to the float behind the greatest sample, which the theorem gives exactly; duplicated minima, neighbouring floats, single values with scaling and single values in merges are violations. The moments of a merger are the weighted sums of those of its parts up to pieces of one float (C75_merge_partial). The variance is the second moment around the expectation and never negative."
 },
 "C76": {
  "note": "Proved for all cdfs of constant and linear pieces; ties are listed once per piece (C76_violated_repeated), and mass points are ignored."
 },
 "C77": {
  "note": "Draws are parameters. The last probability is too great by an explicit tail, and numpy rejects it if it exceeds its tolerance (C77_violated_tail)."
 },
 "C78": {
  "note": "Round trip of every function with constant and linear pieces and of every fitted distribution. Violated for unfitted distributions, quadratic and undefined pieces."
 },
 "C79": {
  "note": "posterior and crop keep the tree and the distribution for all evidence that is not a single float within a leaf, and always for trees without numeric variables. Violated for single values: the leaf's distribution is overwritten and later queries change."
 },
 "C80": {
  "note": "Proved for fitted distributions, provided that the middle of two points is not rounded to the greater one; it can be, if the points are neighbouring floats, and then two distributions with a single value get nan (violated). Distributions obtained by cropping or merging are not covered."
 },
 "C81": {
  "note": "The code sums p * |p - q| over intervals, which is not the Kullback-Leibler divergence (violated). Proved for fitted distributions: what the sum is, that it lies between 0 and 1, and that it is 0 exactly if the distribution functions agree at the bounds of the pieces."
 },
 "C82": {
  "note": "Step densities that are 0 outside a bounded range, also with an impulse behind the steps: cdf, density and refusal are proved in full, except for impulses behind steps of area 1 (violation). Rebuilding is proved for continuous cdfs and single values; fitted distributions are not restored exactly (violations)."
 },
 "C83": {
  "note": "For leaves with at least two values and at least one gap the new cdf is given exactly and the density is positive exactly on the range; for leaves with one value all cases are decided. Partial because slopes up to 1e-8 are dropped (hypotheses), because mass is lost or gained at the ends, and because leaves without a gap are changed (violations)."
 },
 "C84": {
  "note": "Proved for trees learned without close_convex_gaps (or before it) and for unscaled variables; the laws for symbolic and integer variables hold for every tree. Violated: mpe reports other likelihoods for the same worlds."
 },
 "C85": {
  "note": "Expectations and moments for symbolic, integer and numeric variables. Expectations of variables without evidence are the weighted sums of the labels, or the most probable labels; for numeric variables, the weighted sums of the expectations of the leaves, except that leaves with a single value count as 0 (C85_violated_numeric). Without evidence they are, for symbolic and integer variables, the mean and the moments of the training data, and infer gives each set of values its share of the training rows. Partial: evidence on the variable itself is missing (ignored unless the tree splits on it, C85_violated_evidence). Centers given as labels are wrong (C85_violated_center), and the default set of variables is not the documented one (C85_violated_default)."
 },
 "C86": {
  "note": "Trees of symbolic and integer variables: sampling succeeds, every row is a world, and the volume of the random numbers that lead to a world is its likelihood. Learned trees with numeric variables: every sampled row has a positive likelihood. Partial: such trees need not be samplable (C86_violated_numeric, C77); the random number 0 leads to impossible labels (C86_violated_zero)."
 },
 "C87": {
  "note": "Proved for variables without blur: the meaning of a query, exactly which queries of labels are accepted, the argument forms, and the share of training rows end to end. Disagreements: additional keyword pairs beside a dictionary are refused although documented; integers outside the domain and strings are accepted for integer variables and fail later; foreign variable objects are accepted although unknown names raise."
 },
 "C88": {
  "note": "Proved for trees over symbolic and integer variables without blur: exactly which leaves are returned, with which shares, each once, sorted by the sum of the shares. Disagreement: the sum ranks leaves differently from the probability of the query, so the best match need not come first."
 },
 "C89": {
  "note": "Full characterisation of what pdf computes for labels (C89_actual) and its errors; equality with the probability for label sets 0,1,2,\u2026 (_partial). Numbers and labels of a learned tree (C89_mixed_partial): density, infinity and NaN cases. Violated: the internal value is looked up among the labels; infinity times 0 gives NaN; of a single-float interval the excluded lower bound is taken."
 },
 "C90": {
  "note": "Constant and undefined pieces: returned value and set are exactly the maximum and the points that attain it. With linear pieces on bounded intervals: if the call returns, its value is the maximum. Violated: for a LinearFunction of slope 0 only the end points of the interval are returned."
 },
 "C91": {
  "note": "Intervals kept, constant pieces unchanged, linear pieces get the mean of the values at their least and greatest float; errors. Violated: the greatest float is below the upper bound, so the area changes, by half of slope times width times the gap to the upper bound."
 },
 "C92": {
  "note": "All forms agree and represent the data if no value is missing; missing values are NaN for data frames. Violated: missing values in rows of scaled variables become the mean, short columns and long rows are accepted."
 },
 "C93": {
  "note": "Frames without missing values and with at least one row and column: names, domains, and acceptance by the preprocessing. Violated: a missing label becomes a label of the domain that the table never uses; scaling uses mean and deviation of the different values, so scaled data need not have mean 0."
 },
 "C94": {
  "note": "Path consistency is existence of a sample, except for single numbers equal to a threshold (violated there). Leaf consistency is positive probability. Conditioned leaves are right for evidence on symbolic and integer variables and on intervals of numeric variables that can be cropped (C37)."
 },
 "C95": {
  "note": "All counts proved for learned trees. Violated: the documented number of parameters includes the priors of the leaves and the decision nodes, the code counts neither."
 },
 "C96": {
  "note": "Right up to one float: the mirrored function lies one float too far to the right (violated_exact); a step of at most two floats is taken for an impulse and its position is lost (violated_impulse)."
 },
 "C97": {
  "note": "Exact for step functions (gt) and for continuous functions that cross the value inside the pieces; wrong where a function touches the value, is constant at it, jumps, or begins with a line."
 },
 "C98": {
  "note": "Every piece meets the tolerance, except pieces that no single split improves and the last piece, which the backward pass measures only in part."
 },
 "C99": {
  "note": "Exact, except that a line is said not to intersect itself, that the roots of a parabola without square term divide by zero, and that the text of a constant cannot be read."
 }
}