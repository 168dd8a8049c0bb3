{"id": "C01", "title": "Interval membership means the bounds and brackets", "statement": "For a ContinuousSet with lower < upper, or a closed one-point interval, `x in I` is true exactly when x lies between the bounds, where a closed bracket admits its bound and an open bracket excludes it.", "quantifier": "every interval with lower <= upper that is not empty, every bracket combination, every number x", "why_tests_cant": "bounds range over all floats including infinities and neighbouring floats; tests sample a few", "anchors": ["src/jpt/base/intervals.pyx: ContinuousSet.__contains__, contains_value, intersects, ContinuousSet.isempty"]}
{"id": "C02", "title": "Interval.isempty is exact", "statement": "I.isempty() is true exactly when no number is a member of I: equal bounds without both brackets closed, or an open interval whose bounds are neighbouring floats.", "quantifier": "every interval with lower <= upper", "why_tests_cant": "the empty open interval between two neighbouring floats exists at every magnitude", "anchors": ["src/jpt/base/intervals.pyx: ContinuousSet.isempty, ContinuousSet.uppermost, ContinuousSet.lowermost"]}
{"id": "C03", "title": "isdisjoint/intersects decide whether a common point exists", "statement": "For non-empty intervals A, B: A.intersects(B) iff there is a number in both; it is symmetric, and isdisjoint is its negation.", "quantifier": "every pair of intervals", "why_tests_cant": "all relative positions, bracket combinations and shared end points", "anchors": ["src/jpt/base/intervals.pyx: ContinuousSet.intersects, ContinuousSet.isdisjoint"]}
{"id": "C04", "title": "Intersection of intervals is set intersection", "statement": "x in A.intersection(B) iff x in A and x in B, and the result is the canonical empty set when there is no common point.", "quantifier": "every pair of non-empty intervals and every number x", "why_tests_cant": "all bracket combinations at shared end points", "anchors": ["src/jpt/base/intervals.pyx: ContinuousSet.intersection"]}
{"id": "C05", "title": "Union of intervals is set union", "statement": "x in A.union(B) iff x in A or x in B.", "quantifier": "every pair of intervals, every number x", "why_tests_cant": "contiguity of half-open neighbours must hold for every bound", "anchors": ["src/jpt/base/intervals.pyx: ContinuousSet.union, ContinuousSet.contiguous, RealSet.simplify"]}
{"id": "C06", "title": "Difference and complement of intervals are set difference and complement", "statement": "x in A.difference(B) iff x in A and not x in B; x in A.complement() iff x is a real number not in A.", "quantifier": "every pair of non-empty intervals, every number x", "why_tests_cant": "the result changes shape (empty, one piece, two pieces) with the relative position of four bounds and four brackets", "anchors": ["src/jpt/base/intervals.pyx: ContinuousSet.difference, ContinuousSet.complement"]}
{"id": "C07", "title": "contains_interval decides the subset relation", "statement": "For non-empty A and B: A.contains_interval(B) iff every member of B is a member of A.", "quantifier": "every pair of non-empty intervals", "why_tests_cant": "all bracket combinations at shared end points", "anchors": ["src/jpt/base/intervals.pyx: ContinuousSet.contains_interval"]}
{"id": "C08", "title": "A union of intervals has the union of their members", "statement": "For a RealSet S, `x in S` iff x is in one of the intervals; intersects/isdisjoint with an interval or another RealSet decide whether a common member exists.", "quantifier": "every list of intervals, every number, every other set", "why_tests_cant": "lists are unbounded in length and order", "anchors": ["src/jpt/base/intervals.pyx: RealSet.__contains__, RealSet.contains_value, RealSet.intersects, RealSet.isdisjoint"]}
{"id": "C09", "title": "RealSet intersection is set intersection", "statement": "x in S.intersection(T) iff x in S and x in T, for T an interval or a RealSet.", "quantifier": "every pair of finite unions of intervals, every number", "why_tests_cant": "unbounded number of pieces, pairwise intersections", "anchors": ["src/jpt/base/intervals.pyx: RealSet.intersection, RealSet.intersections"]}
{"id": "C10", "title": "simplify never changes the set it describes", "statement": "S.simplify() has exactly the members of S, its pieces are disjoint, and calling it is invisible on the receiver.", "quantifier": "every finite list of intervals in any order", "why_tests_cant": "the merge loop depends on the order of the pieces; tests use sorted inputs", "anchors": ["src/jpt/base/intervals.pyx: RealSet.simplify, RealSet.union, RealSet.__eq__"]}
{"id": "C11", "title": "Chopping an interval partitions it", "statement": "I.chop(points) yields non-overlapping intervals whose union is I, cut at the requested interior points.", "quantifier": "every interval and every list of cut points", "why_tests_cant": "arbitrary many points at or outside the bounds", "anchors": ["src/jpt/base/intervals.pyx: ContinuousSet.chop"]}
{"id": "C12", "title": "Interval equality is set equality and hashing respects it", "statement": "Two intervals compare equal iff they have the same members; equal intervals have equal hashes; equality is an equivalence relation.", "quantifier": "every pair/triple of intervals", "why_tests_cant": "(a,b) and [a+eps,b-eps] are the same set of floats at every a,b", "anchors": ["src/jpt/base/intervals.pyx: ContinuousSet.__eq__, ContinuousSet.__hash__"]}
{"id": "C13", "title": "Interval and RealSet JSON/text round trip", "statement": "from_json(to_json(I)) and parse(str(I)) give back an interval with the same bounds and brackets; the same holds for unions of intervals.", "quantifier": "every interval and every finite union", "why_tests_cant": "every bracket combination, infinite bounds, any number of pieces", "anchors": ["src/jpt/base/intervals.pyx: ContinuousSet.to_json/from_json/parse/fromstring, RealSet.to_json/from_json"]}
{"id": "C14", "title": "Arithmetic on piecewise functions is pointwise", "statement": "(f + g)(x) = f(x) + g(x), (f * c)(x) = f(x) * c, and negation/subtraction likewise, wherever both are defined.", "quantifier": "every pair of piecewise constant/linear functions with arbitrary knots, every x", "why_tests_cant": "unbounded number of knots in any interleaving", "anchors": ["src/jpt/base/functions.pyx: PiecewiseFunction.add, PiecewiseFunction.mul, ConstantFunction, LinearFunction"]}
{"id": "C15", "title": "Evaluating a piecewise function picks the piece containing x", "statement": "f.eval(x) is the value of the piece whose interval contains x, and NaN (undefined) iff no piece does.", "quantifier": "every well-formed list of pieces, every x", "why_tests_cant": "index search over unboundedly many pieces and boundary points", "anchors": ["src/jpt/base/functions.pyx: PiecewiseFunction.eval, PiecewiseFunction.at, PiecewiseFunction.idx_at"]}
{"id": "C16", "title": "Interpolation hits its points", "statement": "LinearFunction.from_points(p,q) goes through p and q, and QuadraticFunction.fit(p,q,r) through p, q and r.", "quantifier": "every pair/triple of points with different abscissae", "why_tests_cant": "real valued coordinates", "anchors": ["src/jpt/base/functions.pyx: LinearFunction.from_points, QuadraticFunction.fit"]}
{"id": "C17", "title": "Integrals are exact and additive", "statement": "f.integrate(a,b) is the exact area under f on [a,b], integrate(a,c) = integrate(a,b) + integrate(b,c).", "quantifier": "every piecewise linear function and all bounds", "why_tests_cant": "arbitrary knots and bounds falling inside pieces", "anchors": ["src/jpt/base/functions.pyx: LinearFunction.integrate, ConstantFunction.integrate, PiecewiseFunction.integrate"]}
{"id": "C18", "title": "Shifting, mirroring, cropping act on the argument only", "statement": "f.xshift(d)(x) = f(x + d), f.crop(I)(x) = f(x) on I and undefined elsewhere, f.stretch(a)(x) = a*f(x).", "quantifier": "every piecewise function, shift, interval, x", "why_tests_cant": "arbitrary knots", "anchors": ["src/jpt/base/functions.pyx: PiecewiseFunction.xshift, PiecewiseFunction.crop, PiecewiseFunction.stretch"]}
{"id": "C19", "title": "Piecewise function equality is equality of functions", "statement": "Two piecewise functions compare equal only if they have the same pieces.", "quantifier": "every pair of piecewise functions", "why_tests_cant": "one may be a prefix of the other at any length", "anchors": ["src/jpt/base/functions.pyx: PiecewiseFunction.__eq__"]}
{"id": "C20", "title": "Normalising weights gives a proportional distribution", "statement": "normalized(w) sums to 1, keeps all ratios, keeps length and order, raises exactly when a weight is negative or all are zero, and with `zeros` set returns strictly positive entries.", "quantifier": "every finite list of non-negative weights", "why_tests_cant": "any length, any positions of zeros", "anchors": ["src/jpt/base/utils.py: normalized"]}
{"id": "C21", "title": "Heap is a stable priority queue under every history", "statement": "After any sequence of pushes and pops, pop returns the element with the least key, the earliest pushed among equal keys, and the heap holds exactly the elements pushed and not yet popped; this stays true after deleting an element by position.", "quantifier": "every initial data, every key function and every finite history of push/pop/delete", "why_tests_cant": "histories are unbounded; heap order is a global invariant", "anchors": ["src/jpt/base/utils.py: Heap"]}
{"id": "C22", "title": "Compact integer-set text denotes the set", "statement": "setstr_int(S) lists exactly the members of S, collapsing maximal runs of consecutive integers; pairwise yields exactly the adjacent pairs.", "quantifier": "every non-empty finite set of integers", "why_tests_cant": "every run structure", "anchors": ["src/jpt/base/utils.py: setstr_int, mapstr, pairwise"]}
{"id": "C23", "title": "The native sort sorts and keeps rows attached", "statement": "sort(Xf, samples) leaves Xf ascending, and the (value, sample) pairs are a permutation of the input pairs, whatever the recursion budget.", "quantifier": "every array of comparable values, every depth budget", "why_tests_cant": "introsort switches to heapsort at a data dependent depth", "anchors": ["src/jpt/base/cutils.pxd: sort, introsort, median3, heapsort, sift_down, swap"]}
{"id": "C24", "title": "Bisection finds an insertion point", "statement": "bisect(X, v) on an ascending array terminates and returns an index i such that everything before i is <= v and everything from i on is >= v.", "quantifier": "every ascending array and every value", "why_tests_cant": "every length and every duplicate structure", "anchors": ["src/jpt/base/cutils.pxd: _bisect, bisect"]}
{"id": "C25", "title": "linspace returns evenly spaced samples", "statement": "linspace(a,b,n) has n entries with constant spacing from a to b inclusive; for n = 1 it is the centroid of a and b.", "quantifier": "all a, b and n >= 1", "why_tests_cant": "accumulating loop, special case n = 1", "anchors": ["src/jpt/base/cutils.pxd: linspace"]}
{"id": "C26", "title": "Roulette wheel selection matches the weights", "statement": "index(x) succeeds exactly for 0 <= x <= total and returns the first field whose cumulative weight reaches x, so field i is selected exactly on an x-interval of length weight i.", "quantifier": "every list of non-negative weights and every x", "why_tests_cant": "measure statement over a continuum of draws", "anchors": ["src/jpt/base/sampling.py: RouletteWheelSampler"]}
{"id": "C27", "title": "Symbolic probabilities are additive", "statement": "For a fitted symbolic distribution P(S) = sum of P({v}) over v in S; P lies in [0,1], P(domain) = 1 and P(complement) = 1 - P(S).", "quantifier": "every distribution over every finite domain, every subset", "why_tests_cant": "all domain sizes and subsets", "anchors": ["src/jpt/distributions/univariate/multinomial.py: Multinomial.p, Multinomial._p"]}
{"id": "C28", "title": "Cropping a symbolic/integer distribution conditions it", "statement": "d.crop(S) satisfies P_crop(T) = P(S & T)/P(S) and raises Unsatisfiability exactly when P(S) = 0; the receiver is unchanged.", "quantifier": "every distribution, every S and T", "why_tests_cant": "all domain sizes and subsets", "anchors": ["src/jpt/distributions/univariate/multinomial.py: Multinomial.crop, Multinomial._crop", "src/jpt/distributions/univariate/integer.py: Integer.crop, Integer._crop"]}
{"id": "C29", "title": "Merging distributions gives the mixture", "statement": "merge(ds, ws) satisfies P(S) = sum_i w_i P_i(S) and is again a distribution.", "quantifier": "every finite list of distributions over one domain with weights summing to one", "why_tests_cant": "any number of components", "anchors": ["src/jpt/distributions/univariate/multinomial.py: Multinomial.merge", "src/jpt/distributions/univariate/integer.py: Integer.merge"]}
{"id": "C30", "title": "k-MPE states of a symbolic/integer distribution", "statement": "k_mpe() yields the values of positive probability grouped by equal probability, the groups in strictly decreasing order of probability, each value in exactly one group; k_mpe(k) yields the first k groups and mpe() is the first group, i.e. all values of maximal probability.", "quantifier": "every distribution", "why_tests_cant": "ties and sizes", "anchors": ["src/jpt/distributions/univariate/multinomial.py: Multinomial._k_mpe, Multinomial._mpe", "src/jpt/distributions/univariate/integer.py: Integer._k_mpe, Integer._mpe"]}
{"id": "C31", "title": "Fitting a symbolic/integer distribution gives relative frequencies", "statement": "After fit on n > 0 rows, P({v}) = (number of rows with value v)/n for every domain value; the parameters form a distribution.", "quantifier": "every data column over the domain", "why_tests_cant": "any number of rows", "anchors": ["src/jpt/distributions/univariate/multinomial.py: Multinomial._fit", "src/jpt/distributions/univariate/integer.py: Integer._fit"]}
{"id": "C32", "title": "Adding integer distributions is convolution", "statement": "P(X+Y = s) = sum over a+b = s of P(X=a)P(Y=b); the result is a distribution and expectations add up.", "quantifier": "every pair of integer distributions", "why_tests_cant": "arbitrary domains", "anchors": ["src/jpt/distributions/univariate/integer.py: Integer.add"]}
{"id": "C33", "title": "Labels and values are inverse to each other", "statement": "value2label and label2value of integer and symbolic domains are inverse bijections between labels and 0..n-1 (also on sets), and anything outside the domain is rejected.", "quantifier": "every domain, every label/value/set", "why_tests_cant": "any domain size", "anchors": ["src/jpt/distributions/univariate/integer.py: Integer.value2label, Integer.label2value, IntegerType", "src/jpt/distributions/univariate/multinomial.py: Multinomial.value2label, Multinomial.label2value, SymbolicType"]}
{"id": "C34", "title": "Jaccard similarity of distributions", "statement": "jaccard_similarity is symmetric, lies in [0,1], and equals 1 iff the two distributions are equal.", "quantifier": "every pair of distributions over a common domain", "why_tests_cant": "all parameters", "anchors": ["src/jpt/distributions/univariate/multinomial.py: Multinomial.jaccard_similarity", "src/jpt/distributions/univariate/integer.py: Integer.jaccard_similarity"]}
{"id": "C35", "title": "Fitted numeric CDFs are distribution functions", "statement": "After fitting on any sample the cdf is 0 before the least sample, 1 from the greatest sample on, monotone, and reaches exactly the empirical rank at each kept sample point.", "quantifier": "every finite sample with any duplicates", "why_tests_cant": "any number of samples and ties", "anchors": ["src/jpt/distributions/quantile/quantiles.pyx: QuantileDistribution.fit"]}
{"id": "C36", "title": "ppf inverts cdf", "statement": "For q in [0,1], ppf(q) is a generalized inverse of cdf: cdf(ppf(q)) = q on the strictly increasing part.", "quantifier": "every fitted distribution, every q", "why_tests_cant": "real valued q", "anchors": ["src/jpt/distributions/quantile/quantiles.pyx: QuantileDistribution.ppf"]}
{"id": "C37", "title": "Cropping a numeric distribution conditions it", "statement": "d.crop(I) satisfies P_crop(J) = P(I & J)/P(I) for intervals I of positive mass, and raises Unsatisfiability for mass zero.", "quantifier": "every piecewise linear cdf, all intervals", "why_tests_cant": "bounds may fall anywhere inside pieces", "anchors": ["src/jpt/distributions/quantile/quantiles.pyx: QuantileDistribution.crop", "src/jpt/distributions/univariate/numeric.py: Numeric._crop"]}
{"id": "C38", "title": "Merging numeric distributions gives the mixture", "statement": "merge(ds, ws).cdf(x) = sum_i w_i cdf_i(x) for every x.", "quantifier": "every finite list of piecewise linear cdfs and weights, every x", "why_tests_cant": "interleaving of unboundedly many knots", "anchors": ["src/jpt/distributions/quantile/quantiles.pyx: QuantileDistribution.merge", "src/jpt/distributions/univariate/numeric.py: Numeric.merge"]}
{"id": "C39", "title": "Data scaling is invertible", "statement": "inverse_transform(transform(x)) = x for every fitted scaler, including constant data; the transformed fitting data have mean 0 and (non constant data) variance 1.", "quantifier": "every data vector and every x", "why_tests_cant": "constant columns, any length", "anchors": ["src/jpt/distributions/utils.py: DataScaler, DataScalerProxy"]}
{"id": "C40", "title": "Learning partitions the training rows", "statement": "After learn(), every training row belongs to exactly one leaf; leaf sample counts add up to the number of rows, leaf priors are count/total and sum to 1.", "quantifier": "every data set, variable mix, hyperparameters and split choices", "why_tests_cant": "recursion over arbitrary data", "anchors": ["src/jpt/trees.py: JPT.learn, JPT.c45", "src/jpt/learning/impurity.pyx: Impurity.compute_best_split"]}
{"id": "C41", "title": "Leaf size and depth limits are respected", "statement": "No leaf of a tree with more than one leaf has fewer than min_samples_leaf rows and no leaf is deeper than max_depth.", "quantifier": "every data set and hyperparameters", "why_tests_cant": "split search over arbitrary data", "anchors": ["src/jpt/trees.py: JPT.c45", "src/jpt/learning/impurity.pyx: Impurity.evaluate_variable"]}
{"id": "C42", "title": "Rows satisfy the path of the leaf they were assigned to", "statement": "Every training row satisfies all conditions on the path of its leaf, every possible sample satisfies the path of exactly one leaf, and encode() returns that leaf.", "quantifier": "every learned tree, every sample", "why_tests_cant": "unbounded trees and real valued samples", "anchors": ["src/jpt/trees.py: JPT.encode, Node.contains, Node.path, DecisionNode.set_child", "src/jpt/learning/impurity.pyx: Impurity.move_best_values_to_front"]}
{"id": "C43", "title": "Impurity statistics are the textbook ones", "statement": "The variance computed from sums equals the mean squared deviation, gini impurity lies in [0,1] (0 iff pure, 1 iff uniform), and the reported improvement of several numeric targets is their average relative variance reduction and never exceeds 1.", "quantifier": "every sample, every histogram, every split", "why_tests_cant": "all sizes", "anchors": ["src/jpt/learning/impurity.pyx: variances, Impurity.gini_impurity, compute_var_improvements, sum_at, sq_sum_at"]}
{"id": "C44", "title": "apply() yields exactly the consistent leaves", "statement": "apply(query) yields every leaf whose path is compatible with the query in every split along the way, each exactly once, and no other leaf.", "quantifier": "every tree, every query", "why_tests_cant": "unbounded trees", "anchors": ["src/jpt/trees.py: JPT.apply, Leaf.applies"]}
{"id": "C45", "title": "infer() computes the conditional probability of the mixture", "statement": "infer(q, e) = sum_l prior_l P_l(q and e) / sum_l prior_l P_l(e), is in [0,1], P(q|e) for q = e is 1, and it fails (or returns None) iff P(e) = 0.", "quantifier": "every tree, query and evidence", "why_tests_cant": "unbounded number of leaves and variables; query and evidence may share variables", "anchors": ["src/jpt/trees.py: JPT.infer"]}
{"id": "C46", "title": "posterior() returns the conditional marginals", "statement": "posterior(vars, e)[v] has P(S) = sum_l prior_l P_l(e) P_l(v in S | e) / P(e); in particular an evidence variable has all mass on its evidence.", "quantifier": "every tree and evidence", "why_tests_cant": "unbounded number of leaves", "anchors": ["src/jpt/trees.py: JPT.posterior"]}
{"id": "C47", "title": "conditional_jpt() is the conditional model", "statement": "conditional_jpt(e) has leaf priors prior_l P_l(e)/P(e) that sum to one, contains exactly the leaves with positive probability, answers queries like infer(q,e), leaves the original tree unchanged, and fails iff P(e) = 0.", "quantifier": "every tree and evidence", "why_tests_cant": "worklist loop that deletes nodes while traversing", "anchors": ["src/jpt/trees.py: JPT.conditional_jpt, Leaf.probability, Leaf.conditional_leaf"]}
{"id": "C48", "title": "mpe() returns the best explanations", "statement": "mpe(e) returns the maximum over leaves of prior times the product of the maxima, with exactly the leaf states attaining it; these are the worlds that agree with e and have the greatest likelihood.", "quantifier": "every tree and evidence, over numeric, symbolic and integer variables", "why_tests_cant": "ties, number of leaves", "anchors": ["src/jpt/trees.py: JPT.mpe, Leaf.mpe"]}
{"id": "C49", "title": "The MPE solver enumerates all states best first", "statement": "MPESolver.solve() yields every combination of per-variable states with positive likelihood exactly once, in non-increasing order of likelihood, and terminates.", "quantifier": "every set of independent per-variable tables", "why_tests_cant": "branch and bound with restarts; exponential state spaces", "anchors": ["src/jpt/inference/mpe.py: MPESolver.solve, BnBNode"]}
{"id": "C50", "title": "kmpe() lists explanations in decreasing likelihood", "statement": "kmpe(e, k) yields states of the tree in non-increasing order of their likelihood under the tree.", "quantifier": "every tree, evidence and k", "why_tests_cant": "interleaving of several leaf solvers", "anchors": ["src/jpt/trees.py: JPT.kmpe", "src/jpt/base/utils.py: Heap"]}
{"id": "C51", "title": "Pruning keeps mass, samples and marginals", "statement": "prune() keeps the sum of leaf priors and the total number of samples, never alters the original tree, never increases the number of leaves, and (without approximation) keeps every single-variable marginal.", "quantifier": "every tree and threshold", "why_tests_cant": "queue of merges in data dependent order", "anchors": ["src/jpt/trees.py: JPT.prune"]}
{"id": "C52", "title": "Saving and loading a tree gives back the tree", "statement": "from_json(to_json(t)) has the same variables, settings, leaves, priors, distributions, paths and answers to queries as t.", "quantifier": "every learned tree", "why_tests_cant": "unbounded trees, every variable setting", "anchors": ["src/jpt/trees.py: JPT.to_json, JPT.from_json, DecisionNode.to_json/from_json, Leaf.to_json/from_json"]}
{"id": "C53", "title": "Re-weighting leaves normalises", "statement": "multiply_by_leaf_prior(m) makes leaf priors proportional to prior*m with sum 1, and raises exactly when all products are zero.", "quantifier": "every tree and every factor", "why_tests_cant": "any number of leaves", "anchors": ["src/jpt/trees.py: JPT.multiply_by_leaf_prior, JPT.normalize"]}
{"id": "C54", "title": "VariableMap behaves like a finite map keyed by variable name", "statement": "After any history of set/get/delete/update/copy a VariableMap holds exactly the last value set for each variable, addressed equivalently by name or variable, in insertion order; a deleted variable can be set again.", "quantifier": "every finite history", "why_tests_cant": "histories are unbounded", "anchors": ["src/jpt/variables.py: VariableMap"]}
{"id": "C55", "title": "Variables survive serialisation", "statement": "Variable.from_json(v.to_json()) and copies equal v including all settings.", "quantifier": "every variable with every admissible combination of settings", "why_tests_cant": "all combinations of settings", "anchors": ["src/jpt/variables.py: Variable.to_json/from_json, NumericVariable, IntegerVariable, SymbolicVariable"]}
{"id": "C56", "title": "Label and value assignments convert back and forth", "statement": "label_assignment(value_assignment(a)) = a for every admissible assignment, and an assignment only accepts values of the type of its variable, however addressed.", "quantifier": "every assignment", "why_tests_cant": "any number of variables", "anchors": ["src/jpt/variables.py: LabelAssignment, ValueAssignment, VariableAssignment"]}
{"id": "C57", "title": "The transition model of a sequential tree is a joint distribution", "statement": "All entries of the transition model are >= 0 and sum to 1, the entry (i,j) being the relative frequency of the transition leaf_i -> leaf_j.", "quantifier": "every list of encoded sequences", "why_tests_cant": "any number and length of sequences", "anchors": ["src/jpt/sequential_trees.py: SequentialJPT.fit"]}
{"id": "C58", "title": "Sequence marginals are attributed to the right time step", "statement": "independent_marginals(e) returns, at position t, the tree of step t re-weighted by the leaf distribution computed for step t.", "quantifier": "every sequence length", "why_tests_cant": "lengths beyond those tested; name ordering", "anchors": ["src/jpt/sequential_trees.py: SequentialJPT.independent_marginals"]}
{"id": "C59", "title": "Incremental Gaussian estimation equals batch estimation", "statement": "After updating with any weighted points, mean and covariance equal the weighted batch mean and (reliability weighted) covariance; retract undoes update.", "quantifier": "every finite sequence of points and weights, every dimension", "why_tests_cant": "unbounded sequences", "anchors": ["src/jpt/distributions/univariate/gaussian.py: Gaussian.update, Gaussian.retract, Gaussian.update_all"]}
{"id": "C60", "title": "CDF simplification keeps end points and order", "statement": "The support points chosen by the CDF regressor are a strictly increasing subsequence of the data that contains the first and the last point.", "quantifier": "every data array, every eps and max_splits", "why_tests_cant": "data dependent splitting and merging", "anchors": ["src/jpt/distributions/quantile/cdfreg.pyx: CDFRegressor.fit, _forward, _backward"]}
{"id": "C61", "title": "KL divergence of discrete distributions", "statement": "kl_divergence(p, q) is the Kullback-Leibler divergence: non-negative, zero iff p = q, infinite if q misses a value of p.", "quantifier": "every pair of distributions over the same domain", "why_tests_cant": "any domain size and any probabilities", "anchors": ["src/jpt/distributions/univariate/multinomial.py: Multinomial.kl_divergence", "src/jpt/distributions/univariate/integer.py: Integer.kl_divergence"]}
{"id": "C62", "title": "The cdf of an integer distribution", "statement": "cdf evaluated at a label x is P(X <= x).", "quantifier": "every integer distribution, every x", "why_tests_cant": "any bounds and probabilities", "anchors": ["src/jpt/distributions/univariate/integer.py: Integer.cdf"]}
{"id": "C63", "title": "Moments of integer distributions are consistent", "statement": "moment(0, c) = 1, moment(1, c) = E[X] - c, variance() = moment(2, E[X]) = E[X^2] - E[X]^2 >= 0, and it is zero iff X is almost surely constant.", "quantifier": "every integer distribution and centre", "why_tests_cant": "any domain size and probabilities", "anchors": ["src/jpt/distributions/univariate/integer.py: Integer.moment, Integer.variance, Integer.expectation"]}
{"id": "C64", "title": "Updating a distribution is the weighted mean", "statement": "d.update(e, w) gives P(S) = (1-w) P_d(S) + w P_e(S) for every event S, is again a distribution, and raises ValueError iff w is outside [0,1]. This is the same for symbolic, integer and numeric distributions.", "quantifier": "every pair of distributions, every weight and event", "why_tests_cant": "real weights, any domain", "anchors": ["src/jpt/distributions/univariate/multinomial.py: Multinomial.update", "src/jpt/distributions/univariate/integer.py: Integer.update", "src/jpt/distributions/univariate/numeric.py: Numeric.update"]}
{"id": "C65", "title": "The learner chooses the best admissible split", "statement": "At every node the split chosen by learn() divides the node's rows by a feature (a threshold for numeric and integer features, one value against the rest for symbolic ones) so that both sides have min_samples_leaf rows, its reported impurity improvement equals the improvement computed from scratch on the two sides, and no other admissible division has a larger improvement. A leaf is only made when max_depth is reached or no admissible division reaches min_impurity_improvement.", "quantifier": "all training data, variables, targets, features and hyperparameters", "why_tests_cant": "The scan updates sums, squares and histograms incrementally over sorted rows; that it never misses or misjudges a split must hold for every data set and every order of equal values.", "anchors": ["src/jpt/learning/impurity.pyx:Impurity.compute_best_split", "src/jpt/learning/impurity.pyx:Impurity.evaluate_variable", "src/jpt/trees.py:JPT.c45"]}
{"id": "C66", "title": "CDF simplification splits where the squared error is least", "statement": "When the CDF regressor splits a stretch of the empirical distribution function it picks the first point for which the sum of squared deviations from the two chords is minimal, only if this is an improvement, and goes on with a part iff its mean squared deviation is at least eps.", "quantifier": "every data array with increasing abscissae, every stretch of it, every eps", "why_tests_cant": "The error is accumulated incrementally in running sums; a wrong update shows only for particular data, and the minimum ranges over all points.", "anchors": ["src/jpt/distributions/quantile/cdfreg.pyx: CDFRegressor._forward"]}
{"id": "C67", "title": "Linear regression from a Gaussian is the least squares line", "statement": "linreg() of a two-dimensional Gaussian estimated from points returns the slope and intercept that minimise the weighted sum of squared residuals over all lines, the residual variance of that line and its coefficient of determination, which lies in [0, 1].", "quantifier": "all weighted point sets of the plane, all lines", "why_tests_cant": "Optimality compares with every line, for every data set.", "anchors": ["src/jpt/distributions/univariate/gaussian.py: Gaussian.linreg"]}
{"id": "C68", "title": "Arithmetic on Gaussians commutes with estimation", "statement": "Multiplying a Gaussian estimated from points with a number, or adding a number, gives the Gaussian estimated from the points transformed in the same way; adding Gaussians adds means and covariances; and the results can be updated with further points like any estimated Gaussian.", "quantifier": "all dimensions, weighted point sets and numbers", "why_tests_cant": "ranges over all data sets and dimensions", "anchors": ["src/jpt/distributions/univariate/gaussian.py: Gaussian.__add__, Gaussian.__mul__"]}
{"id": "C69", "title": "A learned tree splits only on features", "statement": "Every decision node of a learned tree, and every condition on the path of a leaf, is about one of the tree's features; if targets are given and features are not, no target is ever split on.", "quantifier": "every set of variables, targets, features and parameters, and every training table", "why_tests_cant": "the choice of the split depends on the data; all tables and configurations", "anchors": ["src/jpt/trees.py: JPT.learn, JPT.c45", "src/jpt/learning/impurity.pyx: Impurity.compute_best_split"]}
{"id": "C70", "title": "A sequential tree is trained on the sliding windows of its sequences", "statement": "SequentialJPT.fit(sequences, w) learns from one row for each sequence and each position at which a window of w steps fits: all variables at that step, followed by the targets at the w - 1 following steps, in order of time. It fails if there is no sequence or one is shorter than the window.", "quantifier": "every list of sequences, every set of targets, every window w >= 1", "why_tests_cant": "the order of the columns after reshaping depends on the numbers of variables, targets and steps", "anchors": ["src/jpt/sequential_trees.py: SequentialJPT.fit"]}
{"id": "C71", "title": "After fitting, the template tree describes the data it was fitted to", "statement": "After fit, the leaves of the template partition the windows of the sequences; each has the fraction of its windows as prior and the distributions fitted to the first step of its windows, and the priors sum to 1.", "quantifier": "every list of sequences and every earlier state of the template", "why_tests_cant": "depends on the history of fits", "anchors": ["src/jpt/sequential_trees.py: SequentialJPT.fit"]}
{"id": "C72", "title": "The marginal of a single step is the conditional tree", "statement": "For a sequence of one step, independent_marginals([e]) is the template conditioned on e, with the probability of each leaf given e as its prior.", "quantifier": "every fitted template and every evidence it allows", "why_tests_cant": "all trees, evidences and leaf priors", "anchors": ["src/jpt/sequential_trees.py: SequentialJPT.ground, SequentialJPT.independent_marginals"]}
{"id": "C73", "title": "Saving and loading a sequential tree preserves it", "statement": "SequentialJPT.from_json(s.to_json()) has the same template tree and the same transition model as s; to_json fails before the first fit.", "quantifier": "every fitted template and transition model", "why_tests_cant": "all trees and matrices", "anchors": ["src/jpt/sequential_trees.py: SequentialJPT.to_json, SequentialJPT.from_json"]}
{"id": "C74", "title": "Probabilities of intervals are those of the distribution function", "statement": "P(I) of a numeric distribution is the mass that its cdf gives to the interval I, honouring which bounds belong to I; it is 0 for empty intervals, 1 for the real line, from 0 to 1 always, and additive for disjoint intervals and sets.", "quantifier": "every fitted distribution and every interval, with finite or infinite bounds and all brackets", "why_tests_cant": "brackets, knots and mass points can coincide in arbitrary ways", "anchors": ["src/jpt/distributions/univariate/numeric.py: Numeric.p, Numeric._p", "src/jpt/base/functions.pyx: PiecewiseFunction.gt, PiecewiseFunction.eval"]}
{"id": "C75", "title": "Moments are those of the fitted distribution", "statement": "expectation(), variance() and moment(order, center) of a numeric distribution are the integrals of the powers of the (unscaled) value with respect to its distribution.", "quantifier": "every fitted distribution, every order and center, every linear scaling", "why_tests_cant": "all samples and all orders", "anchors": ["src/jpt/distributions/univariate/numeric.py: Numeric.moment, Numeric.expectation, Numeric.variance"]}
{"id": "C76", "title": "The most probable explanations of a numeric distribution maximise its density", "statement": "mpe() is the set of all values with the greatest density, and k_mpe(k) lists the sets of values with the k greatest densities in descending order.", "quantifier": "every piecewise linear distribution function and every k", "why_tests_cant": "ties between pieces and arbitrary numbers of pieces", "anchors": ["src/jpt/distributions/univariate/numeric.py: Numeric.mpe, Numeric.k_mpe, Numeric._mpe, Numeric._k_mpe"]}
{"id": "C77", "title": "Samples follow the fitted distribution", "statement": "sample(n) returns n numbers between the least and the greatest training value; each is drawn from a gap between neighbouring knots that is chosen with the probability the cdf gives to it.", "quantifier": "every fitted distribution, every outcome of the random number generator", "why_tests_cant": "every draw of the generator and every sample", "anchors": ["src/jpt/distributions/univariate/numeric.py: Numeric.sample, Numeric._sample", "src/jpt/distributions/quantile/quantiles.pyx: QuantileDistribution.sample"]}
{"id": "C78", "title": "Numeric distributions survive serialisation", "statement": "A numeric distribution that is written with to_json and read with from_json has the same settings and the same cdf, and so has a piecewise function.", "quantifier": "every fitted distribution and every piecewise function", "why_tests_cant": "every sample and every sequence of pieces", "anchors": ["src/jpt/distributions/univariate/numeric.py: Numeric.to_json, Numeric.from_json", "src/jpt/distributions/quantile/quantiles.pyx: QuantileDistribution.to_json, from_json", "src/jpt/base/functions.pyx: PiecewiseFunction.to_json, from_json"]}
{"id": "C79", "title": "Queries leave the model as it is", "statement": "Asking for a posterior, or cropping a distribution, returns a result and does not change the tree or the distribution: any later query returns what it would have returned before.", "quantifier": "every tree with numeric, symbolic and integer variables, every evidence", "why_tests_cant": "every tree, every evidence and every later query", "anchors": ["src/jpt/trees.py: JPT.posterior", "src/jpt/distributions/univariate/numeric.py: Numeric._crop, Numeric.create_dirac_impulse"]}
{"id": "C80", "title": "The similarity of two numeric distributions is the share of their common area", "statement": "jaccard_similarity of two fitted numeric distributions is the area under the lesser of the two densities divided by the area under the greater. It is symmetric and lies between 0 and 1, is 1 exactly for equal densities, and 0 exactly if there is no place where both are positive; in particular it is 0 for different distributions of which one has a single value.", "quantifier": "every two samples, with and without margins", "why_tests_cant": "every pair of samples and every arrangement of the pieces of their densities", "anchors": ["src/jpt/distributions/univariate/numeric.py: Numeric.jaccard_similarity", "src/jpt/base/functions.pyx: PiecewiseFunction.boundaries", "src/jpt/base/intervals.pyx: ContinuousSet.any_point"]}
{"id": "C81", "title": "The divergence of two numeric distributions measures how one differs from the other", "statement": "kl_divergence of two fitted numeric distributions is the Kullback-Leibler divergence: at least 0, 0 exactly for equal distributions, and infinite where the second gives no probability to something the first considers possible.", "quantifier": "every two samples, with and without margins", "why_tests_cant": "every pair of samples and every arrangement of the pieces of their densities", "anchors": ["src/jpt/distributions/univariate/numeric.py: Numeric.kl_divergence"]}
{"id": "C82", "title": "A numeric distribution can be given by its density, and rebuilding one from its density restores it", "statement": "QuantileDistribution.from_pdf of a step density gives the distribution whose cdf is the area under the density divided by the whole area, refuses densities whose area exceeds 1, and applied to the density of a distribution returns that distribution.", "quantifier": "every step density and every distribution that fit, crop or merge can give", "why_tests_cant": "every number, position and height of the steps", "anchors": ["src/jpt/distributions/quantile/quantiles.pyx: QuantileDistribution.from_pdf, pdf_to_cdf, pdf"]}
{"id": "C83", "title": "After learning, the density is positive on the whole range that the path of a leaf describes", "statement": "With close_convex_gaps (the default of learn), the distribution of a numeric variable in a leaf becomes the mixture of the fitted distribution and a uniform distribution, with the weight 1/(2N), on the gaps between the values of the leaf and the bounds in its path, so that its density is positive on the whole range and the values of the leaf stay possible.", "quantifier": "every sample of a leaf, every path and every number of samples", "why_tests_cant": "every sample and every position of the bounds relative to it", "anchors": ["src/jpt/trees.py: JPT.postprocess_leaves, JPT.learn", "src/jpt/distributions/univariate/numeric.py: Numeric.insert_convex_fragments"]}
{"id": "C84", "title": "The likelihood of complete worlds is what the leaves say about them, and every training row is possible", "statement": "JPT.likelihood gives for every row of a table the sum over the leaves of the share of the leaf times the product of the relative frequencies of the labels and of the densities of the numbers (with a finite value in place of the infinite density of a single value); it is positive for every training row; without numeric variables it is the probability that infer gives to the row, and the likelihoods of all worlds add up to 1; tables that do not fit the variables are rejected as a whole.", "quantifier": "every data set, every setting of the learner and every table of rows", "why_tests_cant": "every tree that can be learned and every world", "anchors": ["src/jpt/trees.py: JPT.likelihood, JPT._preprocess_data, Leaf.parallel_likelihood", "src/jpt/distributions/univariate/numeric.py: Numeric.pdf", "src/jpt/distributions/univariate/multinomial.py: Multinomial.probabilities"]}
{"id": "C85", "title": "Expectations and moments are those of the conditional distribution, and without evidence those of the training data", "statement": "JPT.expectation gives for an integer variable the sum of its labels weighted with their conditional probabilities given the evidence and for a symbolic variable its most probable labels; JPT.moment gives for the integer variables the moments about the given centers, by default about 0; without evidence the expectation and the moments of an integer variable are those of its column of the training data; impossible evidence raises Unsatisfiability or gives None.", "quantifier": "every data set of symbolic and integer variables, every setting of the learner, every evidence, order and center", "why_tests_cant": "every tree that can be learned and every evidence", "anchors": ["src/jpt/trees.py: JPT.expectation, JPT.moment, JPT.posterior", "src/jpt/distributions/univariate/integer.py: Integer._expectation, Integer._moment", "src/jpt/distributions/univariate/multinomial.py: Multinomial._expectation"]}
{"id": "C86", "title": "Sampling draws worlds with their likelihoods", "statement": "JPT.sample returns as many rows as wanted; every row of a tree of symbolic and integer variables is a world, and a world is drawn with the probability that is its likelihood (the part of the unit cube of random numbers that leads to it has this volume); every row that is sampled from a learned tree with numeric variables has a positive likelihood.", "quantifier": "every data set, every setting of the learner, every number of samples and all outcomes of the random number generator", "why_tests_cant": "sampling is random, so tests see some outcomes only; the claim is about all of them and their probabilities", "anchors": ["src/jpt/trees.py: JPT.sample, Leaf.sample", "src/jpt/base/sampling.py: RouletteWheelSampler", "src/jpt/distributions/univariate/multinomial.py: Multinomial._sample", "src/jpt/distributions/univariate/integer.py: Integer._sample", "src/jpt/distributions/quantile/quantiles.pyx: sample"]}
{"id": "C87", "title": "bind assigns to each variable what the user describes", "statement": "For every query that bind (or the preprocessing of queries) accepts, each variable that is given a value other than None is assigned exactly the labels described: a number or symbol stands for itself, a list of two bounds for everything between them (None meaning no bound, integers for integer variables), a list or set of symbols for its elements, intervals and unions of intervals for themselves; of several values for the same variable the last counts, and variables not mentioned stay unassigned. A query is accepted exactly if every value belongs to a known variable and is one its domain admits; unknown names raise. Keywords and dictionaries are equivalent. Asking a tree learned over symbolic and integer variables for what was bound gives the share of the training rows with such a label.", "quantifier": "all lists of variables with distinct names over numeric, scaled, symbolic and integer domains, all queries of any length in any of the argument forms, all options, all learned trees over symbolic and integer variables, all training data", "why_tests_cant": "The conversion branches on the type of the variable and on the type of the value; tests bind a few values to a few variables, but cannot cover all combinations, bounds, repeated keys and domains.", "anchors": ["src/jpt/trees.py: JPT.bind, JPT._preprocess_query, JPT.infer", "src/jpt/base/utils.py: list2interval, list2intset", "src/jpt/variables.py: LabelAssignment, ValueAssignment"]}
{"id": "C88", "title": "reverse finds the leaves that match a query", "statement": "For a tree learned over symbolic and integer variables, reverse(query, confidence) returns exactly the leaves in which, for every variable, the share of the leaf's training rows with a label that is asked for is at least the confidence (variables the query does not mention, or only with None, count as sure). Each leaf is returned once, together with these shares, and the list is sorted so that the best match comes first. A query that names none of the tree's variables has no match; names unknown to the tree are otherwise ignored.", "quantifier": "all lists of symbolic and integer variables with distinct names, all training data, all learned trees of any size, all queries in any of the forms of values, all confidences", "why_tests_cant": "The result depends on all leaves and all variables at once; tests look at a few queries on a few trees, where a wrong comparison, a forgotten variable or a lost leaf need not show.", "anchors": ["src/jpt/trees.py: JPT.reverse, JPT._preprocess_query"]}
{"id": "C89", "title": "pdf of a partial world is its probability or density under the tree", "statement": "For every tree over symbolic and integer variables and every assignment of single values to some of its variables, JPT.pdf(values) returns the sum over the leaves of the leaf's prior times the product of the probabilities the leaf gives to the assigned labels, i.e. the same number as infer; in a learned tree, pdf of one label is its share of the training rows. In trees learned from numbers and labels it is the sum over the leaves of the prior times the product of the densities of the numbers and the frequencies of the labels. Intervals and sets of several values and variables the tree does not have raise ValueError.", "quantifier": "every tree with any number of leaves and variables, every query assigning one value each to any subset of the variables, every label set", "why_tests_cant": "Whether internal values are confused with labels shows only for particular label sets (integer domains not starting at 0), and the equality with infer must hold for every tree and assignment.", "anchors": ["src/jpt/trees.py: JPT.pdf", "src/jpt/distributions/univariate/multinomial.py: Multinomial.pdf, p", "src/jpt/distributions/univariate/integer.py: Integer.pdf, p", "src/jpt/distributions/univariate/numeric.py: Numeric.pdf"]}
{"id": "C90", "title": "maximize finds the maximum of a piecewise function and where it is attained", "statement": "maximize() of a piecewise function returns the greatest value the function takes and the set of points where it takes it. For a function with constant (or undefined) pieces, such as the density of a numeric distribution, the set is exactly the set of modes; a function without any value gives the empty set and NaN.", "quantifier": "all piecewise functions with any number of pieces on half-open, non-overlapping intervals, all points (floats)", "why_tests_cant": "The maximum is found by visiting only the end points of the pieces and joining intervals; that no other point exceeds it, and that no mode is lost or added by the unions, is a statement about all points of all functions.", "anchors": ["src/jpt/base/functions.pyx: PiecewiseFunction.maximize"]}
{"id": "C91", "title": "rectify replaces lines by their mean", "statement": "rectify() keeps the intervals of a piecewise function, leaves constant and undefined pieces alone and replaces every linear piece by the constant that is its mean, so that the area under the function does not change. A sloped piece that reaches infinity raises ValueError, a quadratic piece TypeError.", "quantifier": "all piecewise functions with any number of pieces on half-open, non-overlapping intervals, all points (floats)", "why_tests_cant": "Tests compare a few functions up to a tolerance; which of the two end points are used and by how much the area changes shows only for all intervals.", "anchors": ["src/jpt/base/functions.pyx: PiecewiseFunction.rectify"]}
{"id": "C92", "title": "Training data mean the same in every form", "statement": "Data passed to fit/learn as a list or array of rows, a list or array of columns, or a data frame with the variables' columns in order give the same table, in which every number stands for the value at its position: the index of the label for symbolic and integer variables, the (scaled) number for numeric ones. Calls without data, with several forms at once, with other columns, or with a value outside a domain raise an error.", "quantifier": "all lists of variables (symbolic, integer, numeric, scaled numeric), all tables of any size, all forms of passing them", "why_tests_cant": "Each form takes its own path through the preprocessing (transposition, per-cell lookups, data frame transforms); that they agree and that no cell is lost, moved or left unset holds only as a statement about tables of every shape.", "anchors": ["src/jpt/trees.py: JPT._preprocess_data"]}
{"id": "C93", "title": "Variables inferred from a data frame fit it", "statement": "infer_from_dataframe returns one variable per column, of its name and in its order. The domain is the smallest of its type that contains the column: the occurring labels, both truth values, the integers from minimum to maximum, or numbers scaled by the mean and deviation of the data. User-given domains are used as they are. With these variables the same frame is accepted as training data and every value is represented. Unknown column types raise TypeError.", "quantifier": "all data frames with any number of columns and rows, all options of the call", "why_tests_cant": "That no frame yields a domain that misses one of its values depends on min/max/unique of arbitrary columns and on the later lookups in learning, a composition of two calls over all frames.", "anchors": ["src/jpt/variables.py: infer_from_dataframe, SymbolicType, IntegerType, NumericType", "src/jpt/trees.py: JPT._preprocess_data"]}
{"id": "C94", "title": "Nodes and leaves are consistent with exactly the evidence they allow", "statement": "A leaf of a learned tree reports its path to be consistent with evidence exactly if some sample satisfies both; each leaf is consistent with its own training rows. A leaf is consistent with evidence exactly if its distributions give it positive probability. The leaf conditioned on evidence gives every query its probability given the evidence, and conditioning fails exactly if the evidence is impossible in the leaf.", "quantifier": "all learned trees, all leaves, all evidence of numbers, intervals, labels and sets of labels, all queries", "why_tests_cant": "Paths are intersections of arbitrarily many splits, and existence of a common sample ranges over all real numbers and labels; only a proof relates the interval comparisons to it for every tree and evidence.", "anchors": ["src/jpt/trees.py: Node.consistent_with, Leaf.path_consistent_with, Leaf.consistent_with, Leaf.copy, Leaf.conditional_leaf"]}
{"id": "C95", "title": "Size statistics describe the tree", "statement": "total_samples() of a learned tree is the number of training rows. depth() is the greatest number of steps from the root to a leaf and never exceeds max_depth. The tree has one leaf more than decision nodes and at most as many leaves as training rows. number_of_parameters() counts the parameters of the distributions: one for constant columns, the number of labels for others, and at most one more than the number of different values for numeric columns.", "quantifier": "all training tables, all learning parameters, all learned trees and leaves", "why_tests_cant": "The counts are global facts about the recursively built tree; that the parent/child structure has no lost or duplicated node for any data needs induction over the learning loop.", "anchors": ["src/jpt/trees.py: JPT.depth, JPT.total_samples, JPT.number_of_parameters, Leaf.number_of_parameters, DecisionNode.number_of_parameters", "src/jpt/distributions/univariate: number_of_parameters"]}
{"id": "C96", "title": "The convolution of two step functions is their convolution", "statement": "For two piecewise constant functions with bounded supports, convolution returns a function whose value at every z is the integral of f(y) g(z - y); it is 0 outside the sum of the supports. Functions with slanted pieces are refused.", "quantifier": "all pairs of step functions with any number of knots and any values, all points z", "why_tests_cant": "The result is assembled from one integral for every pair of knots; tests compare a few boxes up to rounding and cannot rule out wrong support points for other knots, nor bound the error.", "anchors": ["src/jpt/base/functions.pyx: PiecewiseFunction.convolution, PiecewiseFunction.xmirror, PiecewiseFunction.is_impulse, PiecewiseFunction.boundaries"]}
{"id": "C97", "title": "eq, lt and gt find where a piecewise function equals, falls below or exceeds a value", "statement": "eq(y), lt(y) and gt(y) of a piecewise function return the set of all numbers x with f(x) = y, f(x) < y and f(x) > y; eq also reports the points at which the function jumps over y.", "quantifier": "all piecewise functions made of constants and lines, with any number of pieces, all values y and all numbers x", "why_tests_cant": "The loops carry a pending interval from piece to piece; which branch is taken depends on where every line crosses the value, and tests try only a few shapes.", "anchors": ["src/jpt/base/functions.pyx: PiecewiseFunction.eq, PiecewiseFunction.lt, PiecewiseFunction.gt, ConstantFunction.intersection, LinearFunction.intersection"]}
{"id": "C98", "title": "The simplified distribution function stays within the tolerance", "statement": "With a tolerance eps, the support points chosen for a cumulative distribution are such that on every piece between neighbouring support points the mean squared deviation of the data points from the line is below eps squared.", "quantifier": "all lists of at least two points with increasing abscissae, of any length, and all tolerances other than 0, without a limit on the number of splits", "why_tests_cant": "The support points come from a recursive best-first search with a pruning pass afterwards; whether a piece meets the tolerance depends on all the points, and tests look at a few samples.", "anchors": ["src/jpt/distributions/quantile/cdfreg.pyx: CDFRegressor.fit, CDFRegressor._forward, CDFRegressor._backward, CDFRegressor.support_points"]}
{"id": "C99", "title": "Inverses, roots, intersections, vertices and texts of elementary functions are exact", "statement": "invert undoes a line; root and roots give exactly the zeros; intersection gives exactly the numbers at which two lines or constants agree, and intersects tells whether there are any; argvertex is where a parabola is least or greatest; the derivative of a hinge is its slope; and the text of a function can be read again.", "quantifier": "all lines, constants, parabolas and hinges, with any parameters, and all arguments", "why_tests_cant": "The formulas have special cases at zero slopes, equal slopes and vanishing discriminants; tests try a handful of parameters.", "anchors": ["src/jpt/base/functions.pyx: LinearFunction.invert, LinearFunction.root, LinearFunction.intersection, LinearFunction.intersects, LinearFunction.hmirror, LinearFunction.parse, LinearFunction.__str__, ConstantFunction.intersection, ConstantFunction.intersects, QuadraticFunction.roots, QuadraticFunction.argvertex, Hinge, Jump"]}
{"id": "C100", "title": "The minimum, maximum and absolute value of piecewise functions are pointwise", "statement": "PiecewiseFunction.min and max of two functions are defined exactly where both are and take there the smaller or larger of the two values; abs takes the absolute value everywhere.", "quantifier": "all piecewise functions made of constants and lines on half-open intervals, all floats", "why_tests_cant": "The pieces of the two functions can lie in any relation to each other, and crossings can fall anywhere between two neighbouring floats.", "anchors": ["src/jpt/base/functions.pyx: PiecewiseFunction.combine, PiecewiseFunction.min, PiecewiseFunction.max, PiecewiseFunction.abs"]}
{"id": "C101", "title": "Approximating a piecewise function merges neighbouring pieces until the limits are reached", "statement": "PiecewiseFunction.approximate keeps the first and last knot and a selection of those between; every new piece is the mean, or the chord, of what it replaces. Without a maximal error the result has exactly the number of pieces asked for (or all pieces, if there are fewer); with one, no replacement deviates by more than it on average. Fewer than three pieces and other classes than constants and lines are refused.", "quantifier": "all step functions and all continuous piecewise linear functions on the whole line, all maximal errors, all numbers of pieces, all orders in which the heap returns the candidates", "why_tests_cant": "The replacements are kept in a doubly linked list and in a heap, which are updated by looking up equal items; every sequence of merges gives another state, and the order of the heap can be destroyed by deletions.", "anchors": ["src/jpt/base/functions.pyx: PiecewiseFunction.approximate, PLFApproximator", "src/jpt/base/utils.py: Heap"]}
{"id": "C102", "title": "The sum of two numeric distributions is the distribution of the sum", "statement": "For two Numeric distributions X and Y, X + Y is the distribution of the sum of two independent variables: its cdf at z is the probability that X + Y is less than z.  It does not decrease, is 0 to the left of the support and 1 to the right of it.", "quantifier": "all pairs of numeric distributions with finitely many steps in their densities, all values z", "why_tests_cant": "The true cdf is an integral over the plane for every z; the code replaces it by chords between sums of knots, means of these chords and a renormalisation, whose errors add up in a way that depends on all knots of both densities.", "anchors": ["src/jpt/distributions/univariate/numeric.py: Numeric.__add__", "src/jpt/base/functions.pyx: PiecewiseFunction.convolution, rectify, simplify, is_impulse", "src/jpt/distributions/quantile/quantiles.pyx: QuantileDistribution.from_pdf, pdf_to_cdf"]}
{"id": "C103", "title": "Approximating a numeric distribution keeps its cdf at the remaining knots", "statement": "Numeric.approximate returns a distribution with the same support whose density has the number of pieces asked for. Its cdf bends only at knots of the given density, and there it has the value of the given cdf; in between it is linear.", "quantifier": "all numeric distributions with finitely many steps in their densities, all numbers of pieces, all maximal errors, all orders in which the heap returns the candidates", "why_tests_cant": "Every sequence of merges gives another density; the means do not keep the area, and the result is normalised again, so that the error at one knot depends on all merges.", "anchors": ["src/jpt/distributions/univariate/numeric.py: Numeric.approximate", "src/jpt/base/functions.pyx: PiecewiseFunction.approximate, PLFApproximator", "src/jpt/distributions/quantile/quantiles.pyx: QuantileDistribution.from_pdf, pdf_to_cdf"]}
{"id": "C104", "title": "Samples of a number set are members of it, and its size is the number of its members", "statement": "Every sample drawn from an interval or a union of intervals is a member of it, as many samples are returned as asked for, and in a union each interval is chosen with a probability proportional to its length. Sampling from an empty set raises IndexError. A finite size is the number of members, and isninf, ispinf and isinf say whether there are members below or above every bound.", "quantifier": "all intervals and unions of intervals, all random numbers", "why_tests_cant": "The samples are random, and the choice of the interval depends on all the other intervals of the union; tests draw some hundred samples from two or three sets.", "anchors": ["src/jpt/base/intervals.pyx: ContinuousSet.sample, ContinuousSet._sample, RealSet.sample, ContinuousSet.size, RealSet.size, RealSet.isninf, RealSet.ispinf, RealSet.isinf"]}
{"id": "C105", "title": "The Jaccard similarity of two piecewise functions is the quotient of the areas they share and cover", "statement": "PiecewiseFunction.jaccard_similarity returns the area under the pointwise minimum of two functions divided by the area under their pointwise maximum within the interval (the real numbers by default). For functions without negative values it lies between 0 and 1, does not depend on the order of the arguments, and is 1 exactly for functions that agree everywhere in the interval.", "quantifier": "all pairs of step functions, all intervals", "why_tests_cant": "The areas run over all pieces of both functions, cut at the bounds of each other; equality of functions concerns every number.", "anchors": ["src/jpt/base/functions.pyx: PiecewiseFunction.jaccard_similarity, PiecewiseFunction.min, PiecewiseFunction.max, PiecewiseFunction.integrate"]}
{"id": "C106", "title": "Knots determine a polyline, rounding moves its values by a bounded amount, and dropping undefined pieces keeps its numbers", "statement": "The knots of a continuous piecewise linear function have increasing x, and the function built from them has the same values. Rounding the parameters leaves the domain alone and moves the value at x by at most eps(|x|+1) if no parameter moves by more than eps; it raises TypeError exactly for pieces that are neither lines nor constants. If the intervals are rounded too, the value at x is that of the rounded piece whose rounded bounds enclose x. Dropping undefined pieces keeps exactly the values that are numbers. Two functions can be merged at a number.", "quantifier": "all piecewise functions with disjoint pieces, all monotone roundings and all x", "why_tests_cant": "Whether a knot is missing or doubled depends on how many pieces there are and how they meet; rounding can make pieces vanish or collide, which no fixed example shows in general.", "anchors": ["src/jpt/base/functions.pyx: PiecewiseFunction.knots, PiecewiseFunction.round, PiecewiseFunction.drop_undef, PiecewiseFunction.merge, PiecewiseFunction.from_points"]}
{"id": "C107", "title": "linspace of an interval returns evenly spaced members", "statement": "linspace(num) of a non-empty interval returns num points in increasing order with equal distances. For a bounded interval the first and the last point are its least and greatest member, for a half-line the points start or end at its bound, for all numbers they lie on both sides of 0. All points are members of the interval. An empty interval raises IndexError.", "quantifier": "all intervals with all combinations of brackets and infinite bounds, all numbers of points from two on", "why_tests_cant": "The points of the real line are written in zigzag order by index arithmetic that must fill every position for every num; tests try a few small numbers.", "anchors": ["src/jpt/base/intervals.pyx: ContinuousSet.linspace"]}
{"id": "C108", "title": "Objects that are equal have equal hashes, and equality is an equivalence", "statement": "Two variables are equal exactly if they have the same class, name, domain and settings. Equality of variables is reflexive, symmetric and transitive, and equal variables have the same hash, so that they are one key of a dictionary and one element of a set. The same holds for the hashes of variable assignments, functions and quantile distributions.", "quantifier": "all variables over all numeric, symbolic and integer domains with all settings, all variable assignments, all constant, linear, quadratic and piecewise functions", "why_tests_cant": "Equality and hash are written separately for every class and have to agree for all pairs of objects; tests compare a few objects with themselves and with obviously different ones.", "anchors": ["src/jpt/variables.py: Variable.__eq__, Variable.__hash__, VariableMap.__hash__", "src/jpt/distributions/utils.py: DataScaler, DataScalerProxy, OrderedDictProxy", "src/jpt/distributions/univariate: equiv, hash", "src/jpt/base/functions.pyx: __eq__, __hash__", "src/jpt/distributions/quantile/quantiles.pyx: QuantileDistribution.__eq__, __hash__"]}
{"id": "C109", "title": "A number with blur means an interval around it that has the probability of the blur", "statement": "A query that gives a single number for a numeric variable with blur b is answered as a query for a closed interval that contains the number. The prior probability of that interval is b, half of it below and half of it above the number, as far as the samples reach on both sides; further out the first and the last line of the prior's cdf are extended. The query does not fail.", "quantifier": "all training samples, all numbers (also outside of the samples) and all positive blurs", "why_tests_cant": "The interval depends on the pieces of the cdf and of the quantile function, whose indices are moved off both ends; the two lists of pieces have to correspond for every prior. Tests try a few numbers.", "anchors": ["src/jpt/trees.py: JPT._preprocess_query", "src/jpt/base/functions.pyx: PiecewiseFunction.idx_at", "src/jpt/distributions/quantile/quantiles.pyx: QuantileDistribution.cdf, ppf"]}
{"id": "C110", "title": "Trees that compare equal give the same answers", "statement": "Comparing two trees over the same variables returns True or False and does not fail. It returns True if and only if the trees have the same nodes, with the same splits, distributions and priors. Two trees that compare equal give the same answer to every query and the same likelihood to every row. A tree compares equal to itself and to the tree that is read from its JSON form.", "quantifier": "all pairs of trees learned over the same numeric, symbolic and integer variables from any data, precisions and hyperparameters; all queries, evidence and rows", "why_tests_cant": "Tests compare a tree with its copy. That equal trees agree on all queries ranges over all pairs of trees and all queries, and depends on the comparison of piecewise functions, which stops at the end of the shorter one.", "anchors": ["src/jpt/trees.py: JPT.__eq__, DecisionNode.__eq__, Leaf.__eq__", "src/jpt/distributions/univariate/numeric.py: Numeric.__eq__", "src/jpt/distributions/univariate/multinomial.py: Multinomial.__eq__", "src/jpt/distributions/univariate/integer.py: Integer.__eq__", "src/jpt/base/intervals.pyx: ContinuousSet.__eq__"]}
{"id": "C111", "title": "Listing and changing symbolic and integer distributions", "statement": "items() lists every label once with the probability that indexing returns, and the probability of an event is the sum over the listed labels in it. sorted() lists the same pairs with falling probabilities, ties in the order of the domain. Assigning a probability to a label changes that label only; for a label outside of the domain it raises KeyError. Setting a boolean distribution to p makes p the probability of True, and a probability can be assigned to True or False. Every distribution can be printed, fitted or not.", "quantifier": "all domains, all fitted distributions over them, all labels and probabilities", "why_tests_cant": "Order, ties and the agreement of three ways to read a probability concern every parameter vector; tests look at a few distributions without ties, and none assigns to a boolean distribution or prints an unfitted one.", "anchors": ["src/jpt/distributions/univariate/multinomial.py: Multinomial.items, sorted, __getitem__, __setitem__, __str__, Bool.set, Bool.__setitem__", "src/jpt/distributions/univariate/integer.py: Integer.items, sorted, __str__"]}
{"id": "C112", "title": "Elements are drawn in proportion to their weights", "statement": "wsample(population, weights, k) and wsamplei return k elements; each is determined by one random number, the shares of the elements divide the unit interval, and the length of the share of an element is its weight divided by the sum of the weights. Only elements with a positive weight are drawn. wchoice, wchoicei and wchoiced draw one element in the same way, wchoicei returns its index. sample(n) and sample_one() of a symbolic or integer distribution draw labels with their probabilities. Different lengths raise ValueError, an empty population IndexError.", "quantifier": "all populations, all weights that are not negative, all numbers of draws, all outcomes of the random number generator", "why_tests_cant": "Drawing is random, so a test sees a few outcomes and compares frequencies at best; the claim is about every outcome and the exact share of each element.", "anchors": ["src/jpt/base/sampling.py: RouletteWheelSampler.sample, samplei, wchoice, wchoicei, wchoiced, wsample, wsamplei", "src/jpt/distributions/univariate/distribution.py: Distribution.sample, sample_one", "src/jpt/distributions/univariate/multinomial.py: Multinomial._sample, _sample_one", "src/jpt/distributions/univariate/integer.py: Integer._sample, _sample_one"]}
{"id": "C113", "title": "Building and overwriting piecewise functions", "statement": "PiecewiseFunction.from_dict gives the function that has, on every listed interval, the values of the function listed for it (a number is a constant, None is undefined), with the pieces in ascending order. overwrite_at replaces the values in the given interval and keeps all others; overwrite does this for several segments, where the segment that begins last wins if segments overlap. Neither raises an exception nor breaks the form or order of the pieces. zero() is zero on its interval. Evaluating an array gives the values at its numbers.", "quantifier": "all dicts of disjoint intervals, all piecewise functions with half-open pieces, all intervals and segments, all numbers", "why_tests_cant": "How an interval cuts the existing pieces (none, inside one, across several, at an end) and where the new piece is inserted has many cases; tests overwrite a few functions.", "anchors": ["src/jpt/base/functions.pyx: PiecewiseFunction.from_dict, overwrite_at, overwrite, zero, multi_eval"]}
{"id": "C114", "title": "Entropy and Gini index are the textbook quantities", "statement": "entropy(p) is the entropy of p in bits: not negative, at most the logarithm of the number of outcomes, zero exactly if one outcome is certain, maximal exactly if all outcomes are equally likely. max_entropy(n) is the greatest entropy with n outcomes, and rel_entropy(p) the share of it, between zero and one. gini(p) is the Gini impurity of p.", "quantifier": "all probability distributions with any number of outcomes", "why_tests_cant": "The bounds and the cases of equality are inequalities over all probability vectors; tests evaluate a few vectors.", "anchors": ["src/jpt/base/utils.py: entropy, max_entropy, rel_entropy, gini"]}
{"id": "C115", "title": "Printed assignments say what was assigned, and unsatisfiable evidence is reported as such", "statement": "The text that format_path prints for an assignment is true of exactly the rows the assignment describes. If the evidence of infer or posterior has probability zero, the announced ValueError or Unsatisfiability is raised, with the text of the evidence.", "quantifier": "all variables, all assignments bound by a user, all trees", "why_tests_cant": "Whether labels and internal values are confused depends on the domain: tests use strings or integers from zero, for which the confusion cannot be seen.", "anchors": ["src/jpt/base/utils.py: format_path", "src/jpt/variables.py: NumericVariable.str, IntegerVariable.str, SymbolicVariable.str", "src/jpt/trees.py: JPT.infer, JPT.posterior"]}
{"id": "C116", "title": "Turning scalars into sets keeps the meaning of an assignment", "statement": "scalar2sets returns an assignment of the same variables in the same order in which every entry is a set of the variable's type: an interval for a number, a one-element set for a symbol or an integer. The set stands for the same labels as the entry it replaces, and entries that already are sets are kept.", "quantifier": "all label and value assignments over any number of variables of any type", "why_tests_cant": "The items are replaced one after the other with type checks in between; tests look at single assignments.", "anchors": ["src/jpt/variables.py: VariableAssignment.scalar2sets, NumericVariable.assignment2set, IntegerVariable.assignment2set, SymbolicVariable.assignment2set"]}
{"id": "C117", "title": "The limit on the standard deviation is translated to scaled data", "statement": "The setting max_std of a numeric variable is given in the units of its labels. The check on the variances of the internal data is true exactly if there is a variable whose labels have a standard deviation above its max_std, whether or not the variable is scaled.", "quantifier": "all numbers of numeric variables, all limits and scalers, all non-empty columns of data", "why_tests_cant": "With unscaled or unit-scale data a wrong translation cannot be seen; the claim relates the variances of all data sets before and after scaling.", "anchors": ["src/jpt/variables.py: NumericVariable._max_std", "src/jpt/learning/impurity.pyx: Impurity.get_max_variances_from_tree, Impurity.check_max_variances"]}
{"id": "C118", "title": "The reasons of an Unsatisfiability are the conflicts in the leaves", "statement": "If evidence is unsatisfiable, the reasons of the raised Unsatisfiability are the different parts of the evidence that are impossible in one of the leaves the evidence leads to, each once, with the sum of the likelihoods of the rest of the evidence in the leaves with this conflict, most likely first. Without report_inconsistencies each reason has one variable only. Evidence is unsatisfiable exactly if each leaf it leads to has a conflict.", "quantifier": "all trees, all evidence, all distributions with non-negative likelihoods", "why_tests_cant": "The tests check one tree and one conflict; that no conflict is lost, counted twice or attributed to the wrong variables is a statement about all leaves of all trees.", "anchors": ["src/jpt/trees.py: JPT.posterior", "src/jpt/base/errors.py: Unsatisfiability.reasons"]}
{"id": "C119", "title": "Rounding a set of numbers keeps its points", "statement": "round of an interval or a set of intervals gives a set with the same kind of bounds that contains the rounding of each of its points; rounding twice is rounding once; disjoint intervals stay disjoint. Without a number of digits, infinite bounds raise an error. any_point of a set gives a point of it, and None exactly for the empty set.", "quantifier": "all intervals and sets of intervals, all points, all monotone roundings", "why_tests_cant": "A test compares rounded bounds of single intervals; whether a point is lost depends on how the bounds fall on the rounding grid.", "anchors": ["src/jpt/base/intervals.pyx: ContinuousSet.__round__, RealSet.__round__, RealSet.any_point"]}
{"id": "C120", "title": "A saved tree can be loaded, and a failed save loses nothing", "statement": "If saving a tree to a file returns, loading the file with the same protocol gives an equal tree, and no other file has changed. If saving fails or the process is stopped at any moment, the file still holds what was saved before. Several trees saved to a stream one after the other are loaded one after the other. Unknown protocols are rejected before anything is touched.", "quantifier": "all trees whose data round-trip, both protocols, all file systems, all crash points, all sequences of trees", "why_tests_cant": "Tests save and load once without failures; the claim is about every point at which writing can stop and every earlier content of the file.", "anchors": ["src/jpt/trees.py: JPT.save, JPT.load, JPT.__getstate__, JPT.__setstate__"]}
{"id": "C121", "title": "Conditioning a multivariate Gaussian", "statement": "The conditional distribution of a multivariate Gaussian given the values of some of its variables has the density of the joint distribution at these values, up to a constant factor. This holds for any choice of the given variables; evidence on a variable that does not exist is an error.", "quantifier": "all dimensions, means, positive definite covariances and evidence", "why_tests_cant": "There is no test; with two variables the result is right, so that a small example does not show the mixed-up blocks.", "anchors": ["src/jpt/distributions/multivariate.py: MultiVariateGaussian.conditional"]}
{"id": "C122", "title": "The JSON representation of arbitrary objects", "statement": "to_json turns lists, dictionaries, strings, numbers and objects with a to_json method into a JSON document: documents are their own representation, an object has a representation exactly if all its parts have one (otherwise TypeError), and each item of a dictionary occurs in its representation.", "quantifier": "all nested objects", "why_tests_cant": "Objects are nested to any depth; tests check a few documents with string keys.", "anchors": ["src/jpt/base/utils.py: to_json", "src/jpt/variables.py: VariableMap.to_json"]}
{"id": "C123", "title": "The variables of an expanded sequential tree have different names", "statement": "A SequentialJPT learns a tree over the variables of its template and over each target variable at each later time step. These variables have different names, so that each can be found by its name.", "quantifier": "all templates with different names, all selections of targets, all numbers of time steps", "why_tests_cant": "Names and numbers of time steps are unbounded; tests use one template.", "anchors": ["src/jpt/sequential_trees.py: SequentialJPT.fit, SequentialJPT._shift_variable_to_timestep"]}
{"id": "C124", "title": "The hyperparameters of a tree are complete and not mixed up", "statement": "The dictionary of hyperparameters of a tree has for each variable and each of its settings the value of this setting under the name of the variable, a dot and the name of the setting; it has the names of the variables, targets and features and the four parameters of the tree under their names; and nothing else.", "quantifier": "all trees whose variables have different names (which may contain dots), all settings", "why_tests_cant": "Names are joined with a dot, and a clash depends on the names, of which there are infinitely many.", "anchors": ["src/jpt/trees.py: JPT.get_hyperparameters_dict"]}
{"id": "C125", "title": "Intervals are read from text as it says", "statement": "The text of an interval (brackets, two numbers and a comma, with any number of spaces) is read as this interval, the text of a union is read as this union, and all other texts are a ValueError.", "quantifier": "all texts", "why_tests_cant": "The set of texts is infinite, and a regular expression with greedy wildcards accepts more than the intended ones.", "anchors": ["src/jpt/base/intervals.pyx: ContinuousSet.fromstring, re_int, RealSet.__init__"]}
{"id": "C126", "title": "Simplifying a piecewise function leaves it as it is", "statement": "simplify() of a piecewise function returns a simplified function and changes neither the function it is called on (its values, its pieces and its integral) nor any other function.", "quantifier": "all piecewise functions, all interval objects", "why_tests_cant": "The result shares interval objects with its operand; whether a change is visible depends on the pieces and on what is done afterwards.", "anchors": ["src/jpt/base/functions.pyx: PiecewiseFunction.simplify"]}
{"id": "C127", "title": "Asking about a set of numbers leaves it as it is", "statement": "Comparing a RealSet with another set, asking for its size or for a member, and simplifying it leave the set as it is: afterwards it has the same intervals and the same members, whatever is asked and however often.", "quantifier": "all lists of intervals, all sequences of questions of any length", "why_tests_cant": "The change depends on how the intervals touch and on their order, and is seen only in what is asked later.", "anchors": ["src/jpt/base/intervals.pyx: RealSet.simplify, RealSet.__eq__, RealSet.size, RealSet.__contains__"]}
{"id": "C128", "title": "Fixing the ends of a piecewise function", "statement": "After ensure_left(g, x) a piecewise function has the values of g below x, and after ensure_right(g, x) it has the values of g from x on; apart from a stretch up to the point where g crosses the function next to x, it keeps its values everywhere else.", "quantifier": "all piecewise functions, all functions g, all bounds x", "why_tests_cant": "There is a case for each way in which g and the last piece can lie (parallel, identical, crossing on either side of x), and the bound can lie in any piece.", "anchors": ["src/jpt/base/functions.pyx: PiecewiseFunction.ensure_left, PiecewiseFunction.ensure_right, ConstantFunction.intersection, LinearFunction.intersection"]}
{"id": "C129", "title": "Settings have the values that were given", "statement": "A variable or distribution can be made exactly with settings of its class, and then has the given value for each setting and the default for the others; a distribution that a variable makes has the settings of the variable; an assigned setting has the assigned value and does not affect other settings.", "quantifier": "all classes with any settings, all given values, all assignments", "why_tests_cant": "Settings are found by a fallback of the attribute lookup; what is read depends on class attributes, assigned attributes and two dictionaries.", "anchors": ["src/jpt/variables.py: Variable.__init__, Variable.__getattr__, Variable.distribution", "src/jpt/distributions/univariate/distribution.py: Distribution.__init__, Distribution.__getattr__"]}
{"id": "C130", "title": "The points at which a piecewise function is sampled lie in its domain", "statement": "xsamples() of a piecewise function returns two points for each of its pieces: for a bounded piece its ends, for an unbounded one its end and a point beyond it; all of them are numbers at which the function is defined, and sorted if wanted.", "quantifier": "all sequences of pieces of any length", "why_tests_cant": "any number of pieces, bounded or not, with any bounds", "anchors": ["src/jpt/base/functions.pyx: PiecewiseFunction.xsamples", "src/jpt/base/intervals.pyx: ContinuousSet.linspace"]}
{"id": "C131", "title": "Copies and rounded versions of a piecewise function are independent of it", "statement": "copy() and round() of a piecewise function return a function with the same, or the rounded, pieces and change no function; simplifying the result afterwards does not change the original, and simplifying the original does not change the result.", "quantifier": "all piecewise functions, all other functions, all contents of the interval objects", "why_tests_cant": "Sharing of interval objects is visible only after a later change of one of the functions.", "anchors": ["src/jpt/base/functions.pyx: PiecewiseFunction.copy, PiecewiseFunction.round, PiecewiseFunction.simplify"]}
{"id": "C132", "title": "The given dependencies decide which statistics a split looks at", "statement": "When a row of data moves to the left side of a split on a feature, its values are added to the statistics of exactly those targets that the dependencies given to the tree name for this feature, each once; the statistics of all other targets stay as they are. Without given dependencies these are all targets. An unknown variable in the dependencies is a ValueError, a feature without an entry a KeyError.", "quantifier": "all lists of variables, dependencies, features and targets, all rows of data and all statistics", "why_tests_cant": "The dependency matrices with their end markers must encode every sparse structure; tests use the full one.", "anchors": ["src/jpt/learning/impurity.pyx: Impurity.__init__, Impurity.get_dependency_indices_from_tree, Impurity.update_numeric_stats_with_dependencies, Impurity.update_symbolic_stats_with_dependencies", "src/jpt/trees.py: JPT.__init__"]}
{"id": "C133", "title": "Changing a Gaussian in place does not disturb its estimation", "statement": "Multiplying a Gaussian with a number or adding a number in place transforms all points it has seen: after any mixture of updates and changes in place, mean, covariance and weight are those of the points, each transformed by everything done after it came in. Out of place the mean and covariance are the same. sum() of Gaussians has the sums of the means and covariances.", "quantifier": "all histories of updates, multiplications and additions in any dimension, all lists of Gaussians", "why_tests_cant": "Only histories that mix both kinds of operations show whether the internal sums of weights survive.", "anchors": ["src/jpt/distributions/univariate/gaussian.py: Gaussian.__iadd__, Gaussian.__imul__, Gaussian.__radd__, Gaussian.update"]}
{"id": "C134", "title": "A copy of a Gaussian is independent of the original", "statement": "A copy of a Gaussian has the same mean and covariance, stands for the same points, and changing one of the two (by updates, multiplication or addition in place) does not change the other.", "quantifier": "all Gaussians of any dimension, all points, weights and numbers", "why_tests_cant": "Shared arrays show only when the copy is changed and the original is looked at afterwards.", "anchors": ["src/jpt/distributions/univariate/gaussian.py: Gaussian.copy, Gaussian.update, Gaussian.__iadd__, Gaussian.__imul__"]}
{"id": "C135", "title": "The pretty-printed tree shows the tree", "statement": "pfmt() prints every node on a line of its own, in preorder, indented by four spaces for every level; two trees that are printed alike have the same nodes in the same places.", "quantifier": "all trees of any shape and depth, all texts of nodes that are single lines not beginning with a space", "why_tests_cant": "That different trees are always printed differently is a statement about all pairs of trees.", "anchors": ["src/jpt/trees.py: JPT.pfmt, JPT._pfmt"]}
{"id": "C136", "title": "Comparing Gaussians", "statement": "Two Gaussians of the same dimension are equal exactly if they have the same mean and covariance, none is equal to None, and sym() says whether the covariance is symmetric.", "quantifier": "all Gaussians with arrays, in all dimensions", "why_tests_cant": "The comparison depends on the dimension, of which there is no greatest.", "anchors": ["src/jpt/distributions/univariate/gaussian.py: Gaussian.__eq__, Gaussian.sym"]}
