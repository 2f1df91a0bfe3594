{"id": "C01", "title": "Basis functions form a partition of unity", "statement": "For a clamped, non-decreasing knot vector on [0,1], every derivative order k <= p and every u in [0,1], the values Knots::evaluate(k, i, p, u) for i = 0..n-k sum to exactly 1 (exact arithmetic), including at u = 0, at u = 1 and at repeated interior knots.", "quantifier": "all degrees p, all segment counts n >= p, all valid knot vectors (any interior multiplicities up to p+1), all k <= p, all u in [0,1]", "why_tests_cant": "Infinitely many knot vectors and parameters; the half-open spans and the closed last span are boundary cases that samples miss.", "anchors": ["src/curve/basis/mod.rs:basis", "src/curve/knots/mod.rs:Knots::evaluate"]}
{"id": "C02", "title": "Basis functions are non-negative and at most one", "statement": "For a valid knot vector every value Knots::evaluate(k, i, p, u) with u in [0,1] lies in [0,1].", "quantifier": "all valid knot vectors, all k <= p, all i <= n-k, all u in [0,1]", "why_tests_cant": "Sign of a recursively defined rational function over a continuum.", "anchors": ["src/curve/basis/mod.rs:basis", "src/curve/knots/mod.rs:Knots::evaluate"]}
{"id": "C03", "title": "Basis functions have local support", "statement": "Knots::evaluate(k, i, p, u) is zero unless U_i <= u <= U_{i+p-k+1} (in the k-th knot vector), and on each knot span only the p-k+1 functions i = j-(p-k)..j can be non-zero.", "quantifier": "all valid knot vectors, all k, i, u in [0,1]", "why_tests_cant": "Requires every span and every index at every degree.", "anchors": ["src/curve/basis/mod.rs:basis", "src/curve/knots/mod.rs:Knots::evaluate"]}
{"id": "C04", "title": "Basis functions equal the documented Cox-de Boor-Mansfield formula", "statement": "The implementation (which skips zero-length supports and uses the rearranged second factor) computes exactly the function of the module documentation: N_{i,p} = mu_{i,p-1} N_{i,p-1} + (1 - mu_{i+1,p-1}) N_{i+1,p-1} with mu = 0 on zero-length supports and the closed last interval.", "quantifier": "all non-decreasing knot vectors whose last domain span is non-empty, all i, p, k, u in the domain", "why_tests_cant": "Equality of two recursive formulas for every knot vector including degenerate ones.", "anchors": ["src/curve/basis/mod.rs:basis", "doc-images/equations/basis-function.tex", "doc-images/equations/basis-prefactor.tex", "doc-images/equations/basis-function-zero.tex"]}
{"id": "C05", "title": "Curve evaluation equals the documented sum over all control points", "statement": "evaluate_derivative(u, k) returns the sum over i = 0..n-k of N_{i,p-k}(u) * P_i^(k): starting the loop at the span found by the knot search never drops a non-zero term, even with repeated knots where the search stops early.", "quantifier": "all valid curves (any multiplicities), all k <= p, all u in [0,1]", "why_tests_cant": "The loop start depends on a data-dependent search; correctness must hold for all multiplicity patterns.", "anchors": ["src/curve/mod.rs:Curve::evaluate_derivative", "src/curve/knots/mod.rs:Knots::find_idx", "doc-images/equations/curve.tex"]}
{"id": "C06", "title": "Evaluation is total and its error condition is exact", "statement": "For every curve whose knot and point counts match, evaluate_derivative(u,k) returns Err(ParameterOutOfBounds) exactly when u is not in [0,1] (including NaN) and otherwise returns Ok without panicking; for k > p the result is the zero vector.", "quantifier": "all curves with matching counts, all u (any number, including NaN), all k, any arithmetic on the coordinates", "why_tests_cant": "Absence of a panic for all inputs cannot be sampled.", "anchors": ["src/curve/mod.rs:Curve::evaluate_derivative", "src/curve/knots/mod.rs:Knots::evaluate", "src/curve/knots/mod.rs:Knots::find_idx"]}
{"id": "C07", "title": "Endpoint interpolation", "statement": "evaluate(0) is the first control point and evaluate(1) is the last control point.", "quantifier": "all valid (clamped) curves of every degree, dimension and size", "why_tests_cant": "Every degree and size.", "anchors": ["src/curve/mod.rs:Curve::evaluate_derivative", "src/curve/basis/mod.rs:basis"]}
{"id": "C08", "title": "Convex hull property", "statement": "evaluate(u) lies in the convex hull of the control points, indeed of the p+1 control points active on the span of u; each coordinate lies between the minimum and maximum of those points' coordinates.", "quantifier": "all valid curves, all u in [0,1]", "why_tests_cant": "Continuum of parameters and all control polygons.", "anchors": ["src/curve/mod.rs:Curve::evaluate_derivative"]}
{"id": "C09", "title": "Affine invariance", "statement": "Applying an affine map to all control points and evaluating gives the affine map of the evaluated point; derivatives transform by the linear part.", "quantifier": "all valid curves, all affine maps, all u in [0,1], all k", "why_tests_cant": "Universal over maps, polygons and parameters.", "anchors": ["src/curve/mod.rs:Curve::evaluate_derivative", "src/curve/points/mod.rs:ControlPoints::derive"]}
{"id": "C10", "title": "Local control", "statement": "Changing control point P_i changes evaluate(u) only for u with U_i <= u <= U_{i+p+1}.", "quantifier": "all valid curves, all i, all replacement points, all u", "why_tests_cant": "Universal over edits.", "anchors": ["src/curve/mod.rs:Curve::evaluate_derivative", "src/curve/basis/mod.rs:basis"]}
{"id": "C11", "title": "Derivatives are the true derivatives", "statement": "evaluate_derivative(u, k+1) is the derivative of u -> evaluate_derivative(u, k): the right derivative for every u in [0,1), the left derivative at u = 1, the two-sided derivative away from knots.", "quantifier": "all valid curves over the reals (any multiplicities), all k < p, all u in [0,1]", "why_tests_cant": "A limit statement over a continuum; finite differences in tests only approximate.", "anchors": ["src/curve/mod.rs:Curve::evaluate_derivative", "src/curve/points/mod.rs:ControlPoints::derive_single_point", "src/curve/knots/mod.rs:Knots::derive"]}
{"id": "C12", "title": "Smoothness at knots", "statement": "The k-th derivative curve is continuous on [0,1] when every interior knot has multiplicity at most p-k; with simple interior knots the curve is p-1 times continuously differentiable, as the crate documentation states.", "quantifier": "all valid curves over the reals, all k", "why_tests_cant": "A limit statement at every knot for every degree.", "anchors": ["src/curve/mod.rs:Curve::evaluate_derivative", "src/lib.rs"]}
{"id": "C13", "title": "Derivative curve object", "statement": "get_derivative_curve(k) returns a curve of degree p-k whose evaluate(u) equals evaluate_derivative(u,k) for all u, and the returned curve is a fully usable Curve (its own derivatives can be evaluated and max_derivative can be called).", "quantifier": "all valid curves, all k <= p, all u", "why_tests_cant": "All degrees and derivative orders.", "anchors": ["src/curve/mod.rs:Curve::get_derivative_curve", "src/curve/mod.rs:Curve::max_derivative"]}
{"id": "C14", "title": "A successfully constructed curve can be evaluated", "statement": "If Curve::new(knots, points) returns Ok, then evaluate(u) for u in [0,1] does not panic and its weights sum to one. Curve::new fails exactly when n < p.", "quantifier": "all knot vectors and control-point matrices", "why_tests_cant": "All combinations of lengths.", "anchors": ["src/curve/mod.rs:Curve::new"]}
{"id": "C15", "title": "Knot insertion preserves the curve", "statement": "After a successful insert(u), evaluate_derivative(v, k) returns the same value as before for every v and k.", "quantifier": "all valid curves, all u in (0,1), all v in [0,1], all k, including u equal to an existing knot of multiplicity up to p", "why_tests_cant": "Universal over curves, insertion points and evaluation points.", "anchors": ["src/manipulation/insert.rs:insert"]}
{"id": "C16", "title": "Knot insertion adds exactly the requested knot", "statement": "After a successful insert(u) the knot vector is the old one plus one copy of u in sorted position, it is still clamped, there is one more control point, degree and dimension are unchanged, and the cached derivative data are up to date.", "quantifier": "all valid curves, all u in (0,1)", "why_tests_cant": "Every multiplicity pattern of existing knots.", "anchors": ["src/manipulation/insert.rs:insert", "src/curve/knots/mod.rs:Knots::find_idx"]}
{"id": "C17", "title": "Insertion errors are exact and leave the curve untouched", "statement": "insert(u) returns OutOfBounds exactly when u <= 0 or u >= 1, MultiplicityError exactly when u already occurs more than p times, otherwise Ok; it never panics; on Err the curve is unchanged.", "quantifier": "all curves with matching counts, all u", "why_tests_cant": "Every input.", "anchors": ["src/manipulation/insert.rs:insert", "src/curve/mod.rs:Curve::insert"]}
{"id": "C18", "title": "insert_times(u, x) inserts exactly x knots or reports an error without side effects", "statement": "insert_times(u,x) with Ok has the effect of x single insertions and raises the multiplicity of u by x; with Err the curve is unchanged.", "quantifier": "all valid curves, all u, all x", "why_tests_cant": "Unbounded x and every starting multiplicity.", "anchors": ["src/curve/mod.rs:Curve::insert_times"]}
{"id": "C19", "title": "Insertions commute", "statement": "Inserting u then v gives the same knots and control points as inserting v then u. More generally the order of any number of insertions does not matter, as long as in both orders every inserted knot is accepted and has no repeated interior knot below it at that time; in particular u < v commute if u is new, however often v is a knot (at most p times) and whatever knots lie above v.", "quantifier": "all valid curves with interior multiplicities up to p+1, all lists of knots in (0,1) of which two orders meet the condition; for two insertions all new u < v without repeated knots below v", "why_tests_cant": "Universal over pairs of edits; needs uniqueness of the control polygon.", "anchors": ["src/manipulation/insert.rs:insert"]}
{"id": "C20", "title": "Inserted control points stay in the hull", "statement": "Every control point after insert(u) is a convex combination of two neighbouring old control points (weights in [0,1], finite: the divisor is never zero), the first and last control point are unchanged.", "quantifier": "all valid curves, all u in (0,1) accepted by insert", "why_tests_cant": "Divisor and weights range over all knot vectors.", "anchors": ["src/manipulation/insert.rs:insert"]}
{"id": "C21", "title": "Reversal is an involution", "statement": "reverse().reverse() restores the knots, control points and all cached derivatives.", "quantifier": "all curves (any knots, points, dimensions)", "why_tests_cant": "All sizes (odd and even) and degrees.", "anchors": ["src/curve/mod.rs:Curve::reverse", "src/curve/knots/mod.rs:reverse", "src/curve/points/mod.rs:ControlPoints::reverse"]}
{"id": "C22", "title": "The reversed curve traverses the same geometry backwards", "statement": "After reverse(), evaluate_derivative(u,k) = (-1)^k * old evaluate_derivative(1-u,k).", "quantifier": "all valid curves, all k, all u in [0,1] at which the k-th derivative of the original is continuous at 1-u (in particular everywhere for k = 0 when multiplicities are at most p)", "why_tests_cant": "Universal over curves and parameters; boundary behaviour at knots.", "anchors": ["src/curve/mod.rs:Curve::reverse", "src/manipulation/reverse.rs:reverse"]}
{"id": "C23", "title": "Reversal keeps the cached derivatives coherent", "statement": "The derivative knots and control points cached after reverse() are exactly those that recomputing the derivatives from the reversed curve would give, and the reversed knot vector is again valid.", "quantifier": "all valid curves", "why_tests_cant": "All degrees and multiplicities, including zero-length supports.", "anchors": ["src/curve/points/mod.rs:ControlPoints::reverse", "src/curve/points/mod.rs:ControlPoints::derive"]}
{"id": "C24", "title": "Splitting reproduces both halves", "statement": "split(u) returns (left,right) with left.evaluate(t) = c.evaluate(u*t) and right.evaluate(t) = c.evaluate(u + (1-u)*t) for all t in [0,1] (one-sided at u itself).", "quantifier": "all valid curves, all u in (0,1), existing knots of multiplicity up to p included, all t", "why_tests_cant": "Universal over curves, split points and evaluation points.", "anchors": ["src/manipulation/split.rs:split_and_normalize"]}
{"id": "C25", "title": "Split halves are valid curves", "statement": "Both results of split(u) have the same degree and dimension, clamped sorted knot vectors on [0,1], matching counts, the left ends where the right starts, and the outer end points are those of the input curve.", "quantifier": "all valid curves, all u in (0,1)", "why_tests_cant": "Index bookkeeping over all multiplicity patterns.", "anchors": ["src/manipulation/split.rs:split_and_normalize"]}
{"id": "C26", "title": "Split errors are exact and it never panics", "statement": "split(u) returns OutOfBounds exactly for u <= 0 or u >= 1, MultiplicityTooHigh exactly when u is a knot of multiplicity > p, otherwise Ok; it never panics.", "quantifier": "all valid curves, all u", "why_tests_cant": "Every multiplicity pattern.", "anchors": ["src/manipulation/split.rs:split_and_normalize"]}
{"id": "C27", "title": "Un-normalised split keeps the original parametrisation", "statement": "split_and_normalize(c,u,(false,false)) returns curves on [0,u] and [u,1] which agree with c at the same parameter.", "quantifier": "all valid curves, all u in (0,1), all v", "why_tests_cant": "Universal.", "anchors": ["src/manipulation/split.rs:split_and_normalize"]}
{"id": "C28", "title": "Merge rejects incompatible inputs with the documented errors", "statement": "merge returns DegreeMismatch, DimensionMismatch, UnclampedCurve, UnnormedCurve or TooManyConstraints, in this order of precedence, exactly in the documented situations.", "quantifier": "all pairs of curves, all constraint lists", "why_tests_cant": "All input combinations and precedence.", "anchors": ["src/manipulation/merge.rs:merge_with_constraints", "src/manipulation/merge.rs:merge", "src/manipulation/merge.rs:merge_from", "src/manipulation/merge.rs:merge_to"]}
{"id": "C29", "title": "Merge succeeds on all compatible inputs", "statement": "For two valid curves of equal degree and dimension and fewer than p constraints, merge returns Ok and never panics.", "quantifier": "all pairs of valid curves, with any numbers of control points", "why_tests_cant": "All size combinations.", "anchors": ["src/manipulation/merge.rs:merge_with_constraints", "src/manipulation/merge.rs:adjust_shifted_control_points_of_both_splines"]}
{"id": "C30", "title": "The merged curve follows both (shifted) inputs", "statement": "The merged curve's first half is the left curve with its last p control points shifted, its second half the right curve with its first p control points shifted, joined with p-1 continuous derivatives; its knot vector is the concatenation rescaled to [0,1].", "quantifier": "all pairs of valid curves that merge accepts, all parameters", "why_tests_cant": "All degrees, sizes, knots.", "anchors": ["src/manipulation/merge.rs:merge_with_constraints", "src/manipulation/merge.rs:adjust_shifted_control_points", "src/curve/mod.rs:Curve::append"]}
{"id": "C31", "title": "Merge moves control points minimally", "statement": "The shifts applied to the control points are the least-squares smallest ones that make the derivatives 0..p-1 of both curves agree at the junction; if they already agree nothing is shifted.", "quantifier": "all pairs of valid curves, assuming the linear solver solves the system", "why_tests_cant": "Optimality over a continuum of alternatives.", "anchors": ["src/manipulation/merge.rs:solve_linear_equation_system", "src/manipulation/merge.rs:construct_Nmat"]}
{"id": "C32", "title": "Split then merge is the identity", "statement": "If split(1/2) of a curve of degree p whose knots do not contain 1/2 yields two halves, then merging the halves gives a curve with the same evaluate(u) for every u.", "quantifier": "all valid curves whose halves have equal counts", "why_tests_cant": "Round trip over all curves.", "anchors": ["src/manipulation/merge.rs:merge_with_constraints", "src/manipulation/split.rs:split_and_normalize"]}
{"id": "C33", "title": "Merge constraints are honoured", "statement": "merge_from keeps the end of the first curve fixed and merge_to keeps the start of the second curve fixed: the junction point of the merged curve is that point; in general every constrained parameter keeps its curve point.", "quantifier": "all pairs of valid curves, all constraint parameters", "why_tests_cant": "All constraint lists.", "anchors": ["src/manipulation/merge.rs:calculateGV", "src/manipulation/merge.rs:calculateHW", "src/manipulation/merge.rs:merge_from", "src/manipulation/merge.rs:merge_to"]}
{"id": "C34", "title": "append and prepend mirror each other", "statement": "a.append(b) has the same result as b.prepend(a), and a.append_constrained(ca,b,cb) the same as b.prepend_constrained(cb,a,ca): each constraint list applies to the curve it is named after.", "quantifier": "all pairs of curves, all constraint lists", "why_tests_cant": "Argument order over all inputs.", "anchors": ["src/curve/mod.rs:Curve::append_constrained", "src/curve/mod.rs:Curve::prepend_constrained"]}
{"id": "C35", "title": "Uniform knots are valid and equidistant", "statement": "methods::uniform(p,n) for 1 <= p <= n returns a clamped, normed, strictly increasing (inside) knot vector of length n+p+2 whose interior knots are j/(n-p+1); is_uniform accepts it.", "quantifier": "all p, n", "why_tests_cant": "All sizes.", "anchors": ["src/curve/knots/methods.rs:uniform"]}
{"id": "C36", "title": "Averaged knots are valid", "statement": "methods::averaging(p,n,params) for strictly increasing params from 0 to 1 (n+1 of them) returns a valid clamped knot vector with strictly increasing interior knots in (0,1), each the mean of p consecutive parameters, and satisfying the interpolation condition U_i < params_i < U_{i+p+1} for interior i.", "quantifier": "all p, n, all parameter vectors", "why_tests_cant": "All parameter vectors.", "anchors": ["src/curve/knots/methods.rs:averaging"]}
{"id": "C37", "title": "De Boor knots are valid and every knot span contains a parameter", "statement": "methods::de_boor(p,n,params) returns a valid clamped knot vector and every knot span of the domain contains at least one parameter value, as its documentation guarantees.", "quantifier": "all p, n, all increasing parameter vectors with at least n+1 entries", "why_tests_cant": "All parameter vectors and index computations floor(j*d).", "anchors": ["src/curve/knots/methods.rs:de_boor"]}
{"id": "C38", "title": "Knot generation errors are exact", "statement": "uniform, averaging and de_boor return DegreeTooLow exactly for p = 0 and DegreeAndSegmentsMismatch exactly for p > n, otherwise Ok; no index panic occurs when the parameter vector has at least n+1 entries.", "quantifier": "all p, n, parameter vectors", "why_tests_cant": "All sizes.", "anchors": ["src/curve/knots/methods.rs:inputCheck", "src/curve/knots/mod.rs:generate"]}
{"id": "C39", "title": "Parameters are increasing from 0 to 1", "statement": "equally_spaced, chord_length and centripetal return segments+1 parameters that start at 0, end at 1, are non-decreasing (strictly if consecutive points differ), with increments proportional to 1, distance, sqrt(distance).", "quantifier": "all point sequences with positive total length", "why_tests_cant": "All point sets.", "anchors": ["src/curve/parameters/methods.rs:equally_spaced", "src/curve/parameters/methods.rs:chord_length", "src/curve/parameters/methods.rs:centripetal"]}
{"id": "C40", "title": "Interpolation passes through the data", "statement": "The curve generated by Interpolation{degree,points} has degree p, one control point per data point, and evaluate(g/m) equals data point g, whenever the linear solver solved the system.", "quantifier": "all data sets, all degrees 1 <= p <= m", "why_tests_cant": "All data sets.", "anchors": ["src/curve/points/methods/interpolation.rs:interpolate", "src/curve/generation/mod.rs:generate"]}
{"id": "C41", "title": "The interpolation system is always uniquely solvable", "statement": "The collocation matrix used by Interpolation (uniform knots, equally spaced parameters) is non-singular.", "quantifier": "all degrees p >= 1 and data counts m >= p", "why_tests_cant": "Non-singularity for every size and degree (Schoenberg-Whitney).", "anchors": ["src/curve/points/methods/interpolation.rs:interpolate", "src/curve/knots/methods.rs:uniform"]}
{"id": "C42", "title": "Loose least-squares fit is optimal", "statement": "The control points returned by the loose fit minimise the sum of squared distances to the data plus lambda times the squared kappa-th differences of the control points, whenever the solver solved the normal equations.", "quantifier": "all data sets, parameters, knots, penalties lambda >= 0", "why_tests_cant": "Optimality over a continuum of alternatives.", "anchors": ["src/curve/points/methods/fit/loose.rs:fit", "src/curve/points/methods/fit/mod.rs:compute_svd"]}
{"id": "C43", "title": "Fixed-ends fit interpolates the end points and is optimal", "statement": "The fixed fit starts exactly in the first and ends exactly in the last data point, and among all such curves minimises the sum of squared distances to the inner data points (plus penalty on the inner control points).", "quantifier": "all data sets, parameters, knots, penalties", "why_tests_cant": "Optimality over a continuum of alternatives.", "anchors": ["src/curve/points/methods/fit/fixed.rs:fit"]}
{"id": "C44", "title": "Fit input checks are exact and the fit never panics", "statement": "fit returns the documented error for n > m, m != mp, n < p, kappa > n-1, lambda < 0 and non-uniform knots with lambda > 0, and otherwise Ok; it does not panic.", "quantifier": "all inputs", "why_tests_cant": "All combinations of sizes and penalties.", "anchors": ["src/curve/points/methods/fit/mod.rs:input_checks", "src/curve/points/methods/fit/mod.rs:compute_svd", "src/curve/points/methods/fit/fixed.rs:calculate_finite_difference_matrix"]}
{"id": "C45", "title": "The penalty matrix is the kappa-th finite difference", "statement": "Applying the finite-difference matrix to control points gives their kappa-th forward difference (alternating binomial coefficients); it vanishes on polynomial sequences of degree below kappa.", "quantifier": "all kappa >= 1, all n", "why_tests_cant": "All orders.", "anchors": ["src/curve/points/methods/fit/mod.rs:difference_operator", "src/curve/points/methods/fit/loose.rs:calculate_finite_difference_matrix", "src/curve/points/methods/fit/fixed.rs:calculate_finite_difference_matrix"]}
{"id": "C46", "title": "find_idx returns the documented knot", "statement": "For each comparator find_idx returns the index of the nearest domain knot that is lower / lower-or-equal / greater-or-equal / greater than u, and it never panics.", "quantifier": "all valid knot vectors, all u in [0,1], all k <= p", "why_tests_cant": "Every position and multiplicity pattern.", "anchors": ["src/curve/knots/mod.rs:Knots::find_idx"]}
{"id": "C47", "title": "Bisection search agrees with its specification", "statement": "find_index(u,k) returns None exactly for u below the domain and otherwise the largest domain index whose knot is <= u.", "quantifier": "all valid knot vectors, all u, k", "why_tests_cant": "All sizes.", "anchors": ["src/curve/knots/mod.rs:Knots::find_index"]}
{"id": "C48", "title": "Knot accessors are consistent", "statement": "segments, segments_derivative, len, internal, domain, domain_derivative and multiplicity return n, n, n+p+2-2k, the n-p interior knots, the n-p+2 domain knots and the number of domain knots equal to u, for every derivative order that the knot vector offers.", "quantifier": "all knot vectors with n >= p, all k <= p", "why_tests_cant": "All sizes and derivative orders.", "anchors": ["src/curve/knots/mod.rs:Knots"]}
{"id": "C49", "title": "Normalising and rescaling knots is the affine map of the limits", "statement": "normalize maps the knots affinely onto [0,1] (order preserved, minimum to 0, maximum to 1) and commutes with derivation; rescale maps old limits to new limits; curve geometry is unchanged up to that reparametrisation.", "quantifier": "all knot vectors that are not constant", "why_tests_cant": "All vectors.", "anchors": ["src/curve/knots/mod.rs:normalize", "src/curve/knots/mod.rs:rescale", "src/curve/knots/mod.rs:Knots::normalize"]}
{"id": "C50", "title": "Knot predicates decide what they say", "statement": "is_sorted is true exactly for non-decreasing knots, is_clamped exactly if the first p+1 knots are 0 and the last p+1 are 1, is_normed exactly if minimum is 0 and maximum is 1, is_uniform exactly if equal to the uniform vector.", "quantifier": "all knot vectors", "why_tests_cant": "All vectors.", "anchors": ["src/curve/knots/mod.rs:is_sorted", "src/curve/knots/mod.rs:is_clamped", "src/curve/knots/mod.rs:is_normed", "src/curve/knots/mod.rs:is_uniform"]}
{"id": "C51", "title": "Every operation history leaves an evaluable curve", "statement": "Any curve obtained from a consistent Curve::new by any sequence of insert, insert_times, reverse and split steps (errors included) can be evaluated at every u and k without a panic, whatever the floating point values (NaN included).", "quantifier": "all histories, all arguments, any arithmetic", "why_tests_cant": "Unbounded histories.", "anchors": ["src/curve/mod.rs:Curve"]}
{"id": "C52", "title": "Editing histories preserve the geometry", "statement": "After any sequence of successful insertions and reversals that never inserts above a repeated knot the curve traces the original curve, forwards or backwards according to the parity of reversals.", "quantifier": "all histories, all parameters", "why_tests_cant": "Unbounded histories.", "anchors": ["src/curve/mod.rs:Curve"]}
{"id": "C53", "title": "No division by zero on valid input", "statement": "On valid curves evaluate, insert and split only perform divisions with a non-zero divisor, so finite input never yields NaN or infinity from a 0/0.", "quantifier": "all valid curves, all u", "why_tests_cant": "Every degenerate knot pattern.", "anchors": ["src/curve/basis/mod.rs:basis", "src/manipulation/insert.rs:insert", "src/manipulation/split.rs:split_and_normalize", "src/curve/points/mod.rs:ControlPoints::derive_single_point"]}
{"id": "C54", "title": "NaN parameters are rejected", "statement": "evaluate, insert and split return an error when given a NaN parameter.", "quantifier": "all curves", "why_tests_cant": "All curves.", "anchors": ["src/curve/mod.rs:Curve::evaluate_derivative", "src/manipulation/insert.rs:insert", "src/manipulation/split.rs:split_and_normalize"]}
{"id": "C55", "title": "Control points are uniquely determined by the curve", "statement": "Two curves with the same valid knots (multiplicities at most p+1) that evaluate equally on [0,1] have the same control points.", "quantifier": "all pairs of curves", "why_tests_cant": "All pairs.", "anchors": ["src/curve/mod.rs:Curve::evaluate_derivative"]}
{"id": "C56", "title": "Control polygon reversal", "statement": "DataPoints::reverse and ControlPoints::reverse put the columns in reverse order for every number of columns.", "quantifier": "all matrices", "why_tests_cant": "Odd and even sizes.", "anchors": ["src/curve/points/mod.rs:reverse", "src/curve/points/mod.rs:DataPoints::reverse"]}
{"id": "C57", "title": "Schoenberg-Whitney: regular collocation and determination by values", "statement": "If the parameters increase strictly, every basis function N_i is positive at parameter i (or i is an end and the parameter the end of the interval) and no parameter is a knot of multiplicity above p, then the matrix of basis function values is non-singular and a curve is determined by its values at the parameters. This covers knots made by averaging the parameters.", "quantifier": "all degrees, all clamped knot vectors on [0,1] including repeated knots, all parameter vectors satisfying the conditions", "why_tests_cant": "Non-singularity for every knot vector and every size.", "anchors": ["src/curve/points/methods/interpolation.rs:interpolate", "src/curve/knots/mod.rs:evaluate", "src/curve/knots/methods.rs:averaging"]}
{"id": "C58", "title": "The least-squares fit is the only minimiser", "statement": "Every other control polygon over the same knots (for fixed ends: with the same end points) has a strictly larger cost than the one returned by LeastSquaresFit.", "quantifier": "all data sets, all degrees 1 <= p <= n <= m, all penalties that are accepted, both end conditions", "why_tests_cant": "Strict optimality over a continuum of alternatives, for every size.", "anchors": ["src/curve/points/methods/fit/loose.rs:fit", "src/curve/points/methods/fit/fixed.rs:fit", "src/curve/generation/mod.rs:generate"]}
{"id": "C59", "title": "Interpolation and unpenalised fits reproduce curves", "statement": "If the data points are samples at g/m of a curve over the uniform knots with the requested degree and number of segments, then Interpolation and LeastSquaresFit without penalty (both end conditions) return exactly that curve.", "quantifier": "all curves over uniform knots, all sample counts m >= n; at least two segments for fixed ends (one segment panics, C44)", "why_tests_cant": "All curves and all sizes.", "anchors": ["src/curve/points/methods/fit/loose.rs:fit", "src/curve/points/methods/fit/fixed.rs:fit", "src/curve/points/methods/interpolation.rs:interpolate"]}
{"id": "C60", "title": "generate(Manual) builds the documented curve", "statement": "For Manual generation with points P of degree p: too few points and degree zero with uniform knots are errors; with no points the call panics; Uniform knots give the curve over the equally spaced clamped knots; a parameter method and a knot method give the curve over exactly the knots that the chosen pair of methods computes from P (averaging or de Boor of equally spaced, chord-length or centripetal parameters); manual knots are used as given, and then the degree argument only takes part in the count check, not in the degree of the curve.", "quantifier": "all degrees, all point lists (for the parameter methods: no two consecutive points equal, and for centripetal a total of at least 2^-26; C101 treats the other lists), all knot generation choices, every linear solver", "why_tests_cant": "Ranges over every combination of methods and all data; the unit tests use one combination each.", "anchors": ["src/curve/generation/mod.rs:generate", "src/curve/knots/mod.rs:generate", "src/curve/knots/methods.rs:de_boor", "src/curve/knots/methods.rs:averaging", "src/curve/parameters/mod.rs:generate"]}
{"id": "C61", "title": "Polynomial reproduction and linear precision", "statement": "For every polynomial of degree at most p there are control points over the given knots whose curve evaluates to that polynomial, with all its derivatives, at every u in [0,1]; for p >= 1 and interior multiplicities at most p+1, evaluate(u) = a + u*b for all u exactly if the control points are a + g_i*b at the Greville abscissae g_i; and Marsden's identity holds.", "quantifier": "all degrees, all clamped knot vectors on [0,1], all polynomials, all u in [0,1]", "why_tests_cant": "A statement about all polynomials, knots and parameters.", "anchors": ["src/curve/mod.rs:evaluate", "src/curve/mod.rs:evaluate_derivative", "src/curve/basis/mod.rs:basis"]}
{"id": "C62", "title": "Variation diminishing", "statement": "Every polygon inscribed in the curve arises from the control polygon by corner cutting; hence an affine function of the position changes its sign along the curve at most as often as along the control points.", "quantifier": "all valid curves of degree >= 1, all finite increasing lists of parameters in [0,1], all affine functions", "why_tests_cant": "All curves and arbitrarily many parameters; sign changes between samples cannot be excluded by sampling.", "anchors": ["src/curve/mod.rs:evaluate", "src/curve/basis/mod.rs:basis"]}
{"id": "C63", "title": "Monotone control points give a monotone curve", "statement": "If the control points do not move backwards in some direction (for example in one coordinate), then neither does evaluate(u) as u increases.", "quantifier": "all valid curves of degree >= 1, all directions, all pairs of parameters in [0,1]", "why_tests_cant": "Monotonicity over a continuum for all curves.", "anchors": ["src/curve/mod.rs:evaluate"]}
{"id": "C64", "title": "The curve is not longer than its control polygon", "statement": "The length of every polygon inscribed in the curve is at most the length of the control polygon.", "quantifier": "all valid curves of degree >= 1, all finite increasing lists of parameters in [0,1]", "why_tests_cant": "All inscribed polygons of all curves.", "anchors": ["src/curve/mod.rs:evaluate"]}
{"id": "C65", "title": "Laws between insert, reverse and split", "statement": "Inserting u and reversing gives the same curve as reversing and inserting 1-u. Splitting at u and reversing the halves gives the halves of the reversed curve split at 1-u, exchanged. Splitting into three parts at u < v gives the same three curves whether v or u is cut first. All three are equalities of the returned curves, with all cached derivatives.", "quantifier": "all valid curves on [0,1] whose interior knots other than the inserted or cut parameter are simple (the code mishandles repeated ones, C17/C22), all parameters in (0,1) with the multiplicity the operations accept", "why_tests_cant": "Equality of whole curves over exact arithmetic, for all curves and parameters.", "anchors": ["src/manipulation/insert.rs:insert", "src/manipulation/reverse.rs:reverse", "src/manipulation/split.rs:split"]}
{"id": "C66", "title": "Editing control points in place is live for values and stale for derivatives", "statement": "After the control points of a curve are overwritten through points.matrix_mut() or points.get_mut(i), evaluate, insert, split and merge behave exactly as on a curve newly built from the edited points, while evaluate_derivative(u, k) with k >= 1 still returns the derivative of the old curve if the number of points did not change, also after reverse. points.derive(&knots) makes the curve equal to the newly built one. get_mut(i) panics exactly when there is no column i.", "quantifier": "all curves returned by Curve::new over any scalar type (floats included), all new control points, all parameters, orders, constraints and other curves", "why_tests_cant": "Compares two whole-program behaviours, for every curve and every edit.", "anchors": ["src/curve/points/mod.rs:matrix_mut", "src/curve/points/mod.rs:get_mut", "src/curve/points/mod.rs:derive", "src/curve/mod.rs:evaluate_derivative"]}
{"id": "C67", "title": "Editing knots in place is live for values and stale for derivatives", "statement": "After the knot vector of a curve is overwritten through knots.vector_mut(), evaluate, insert and split behave exactly as on a curve newly built from the edited knots, while evaluate_derivative(u, k) with k >= 1 still returns the derivative of the old curve if the number of knots did not change. knots.derive() followed by points.derive(&knots) makes the curve equal to the newly built one.", "quantifier": "all curves returned by Curve::new over any scalar type (floats included), all new knot vectors for which Curve::new succeeds, all parameters and orders", "why_tests_cant": "Compares two whole-program behaviours, for every curve and every edit.", "anchors": ["src/curve/knots/mod.rs:vector_mut", "src/curve/knots/mod.rs:derive", "src/curve/points/mod.rs:derive", "src/curve/mod.rs:evaluate_derivative"]}
{"id": "C68", "title": "Basis functions in floating-point arithmetic", "statement": "With a rounding error in every operation, Knots::evaluate still returns non-negative numbers; each has a relative error of at most 5(p-k) roundings, so it is zero exactly where the exact value is zero, and the basis functions of order k sum to one up to 5(p-k) roundings.", "quantifier": "all roundings (monotone, idempotent, relative error eps < 1, without overflow and underflow), all clamped knot vectors, degrees, derivative orders, indices and parameters", "why_tests_cant": "A test compares with a tolerance for a few values; this bounds the error for all knots, however close together.", "anchors": ["src/curve/basis/mod.rs:basis", "src/curve/knots/mod.rs:Knots::evaluate"]}
{"id": "C69", "title": "Curve evaluation in floating-point arithmetic", "statement": "evaluate differs from the exact curve by at most ((1-eps)^-(6p+2) - 1) M in each coordinate in which the control points are bounded by M (for f64 at most (6p+2) 2^-52 M), independently of the number of control points; evaluate_derivative(u, k) by at most ((1-eps)^-(6p-k+2) - 1)(2p/h)^k M if different knots are at least h apart. At 0 and 1 the curve returns the first and last (derivative) control point without error. Replacing a control point changes no bit of the curve outside its support.", "quantifier": "all roundings without overflow and underflow, all valid curves on [0,1] of any degree, dimension and size, all parameters in [0,1], all derivative orders up to p", "why_tests_cant": "An error bound uniform in all curves; the worst case is not found by sampling.", "anchors": ["src/curve/mod.rs:evaluate", "src/curve/mod.rs:evaluate_derivative", "src/curve/points/mod.rs:derive_single_point"]}
{"id": "C70", "title": "Knot insertion in floating-point arithmetic", "statement": "insert(u) inserts exactly the knot u, and every new control point differs from the exact one by at most 2((1-eps)^-6 - 1) M in a coordinate in which the control points are bounded by M. The computed curve after a computed insertion stays within ((1-eps)^-(6p+2)(1 + 2((1-eps)^-6 - 1)) - 1) M of the exact curve before it.", "quantifier": "all roundings without overflow and underflow, all valid curves on [0,1], all u in (0,1) of multiplicity at most p above simple knots (C15 is false otherwise), all evaluation parameters in [0,1]", "why_tests_cant": "An error bound uniform in all curves and parameters.", "anchors": ["src/manipulation/insert.rs:insert", "src/curve/mod.rs:insert"]}
{"id": "C71", "title": "Generated knots and parameters in floating-point arithmetic", "statement": "equally_spaced(m) and uniform(p, n) return values between exactly 0 and exactly 1 that do not decrease (the domain knots increase strictly), each with a relative error of at most three roundings; is_uniform, is_clamped, is_normed and is_sorted accept the knots. chord_length and centripetal return non-decreasing parameters from exactly 0 to exactly 1, each the exact share of the polygon length up to 2m+2d+9 (2m+2d+11) roundings.", "quantifier": "all roundings without overflow and underflow; all m >= 1; all 1 <= p <= n with 6(n-p+1) eps < 1; all data points in any dimension that do not all coincide", "why_tests_cant": "Accumulated rounding errors break the order only for special data, which the claim about chord_length overlooks.", "anchors": ["src/curve/parameters/methods.rs:equally_spaced", "src/curve/parameters/methods.rs:chord_length", "src/curve/parameters/methods.rs:centripetal", "src/curve/knots/methods.rs:uniform"]}
{"id": "C72", "title": "Insertion and splitting cut corners of the control polygon", "statement": "The control polygon after insert(u), insert_times(u, x), or of the two parts of split(u) joined, arises from the control polygon before by repeated corner cutting. Hence it crosses no hyperplane more often, and it is not longer.", "quantifier": "all valid curves on [0,1], all u in (0,1), all x that keep the multiplicity of u at most p + 1, provided no interior knot below u is repeated (a counterexample shows that the condition is needed)", "why_tests_cant": "A statement about every hyperplane and every polygon.", "anchors": ["src/manipulation/insert.rs:insert", "src/curve/mod.rs:insert_times", "src/manipulation/split.rs:split"]}
{"id": "C73", "title": "Interpolation and fits commute with affine maps and reversal", "statement": "Mapping the data points by an affine map, also into another dimension, and then generating an interpolation, a fit with loose ends or a fit with fixed ends gives the same knots and the mapped control points. Generating from the data in reverse order gives exactly the curve that reverse() makes of the original result.", "quantifier": "all data points in any dimension, all degrees 1 <= p <= n <= m, all penalties for which the call succeeds, all affine maps, all exact solvers", "why_tests_cant": "Ranges over all affine maps and data; relates two runs of the generation.", "anchors": ["src/curve/generation/mod.rs:generate", "src/curve/points/methods/interpolation.rs", "src/curve/points/methods/fit/loose.rs", "src/curve/points/methods/fit/fixed.rs", "src/manipulation/reverse.rs:reverse"]}
{"id": "C74", "title": "A larger lambda makes fits smoother and worse", "statement": "If the penalty factor lambda increases, the sum of squared distances to the data does not decrease and the sum of the squared kappa-th differences of the (inner) control points does not increase. A penalty never improves the error over a fit without penalty, and leaves it equal only if the curve is the same. Samples of a curve over the uniform knots whose (inner) control points have no kappa-th differences are reproduced for every lambda. In the limits: with loose ends, lambda times the roughness of the control points is at most the sum of the squared distances of the data from any one point, and with fixed ends it is bounded by a constant independent of lambda (kappa >= 1), so the roughness tends to 0 as lambda grows and the (inner) control points approach, in every coordinate, a polynomial of degree below kappa in their index, lambda times the squared distance from it staying bounded (with loose ends by n^(2 kappa) times the sum of the squared distances of the data from any one point); the values at the parameters approach those of the curve that has the least squared error among the curves (with the same ends) whose (inner) control points have no roughness, lambda times the sum of the squared distances staying below (m+1) n^(2 kappa) times that error (with fixed ends: (m-1) (n-2)^(2 kappa)); with loose ends and kappa = 1, lambda times the squared distance of any control point from the mean of the data is, in every coordinate, at most n times the sum of the squared distances of the data from their mean, so that the curve contracts to the mean; as lambda tends to 0, the error exceeds that of the fit without penalty by at most lambda times the roughness of the latter's control points, and the squared distances of the two curves at the parameters stay below the same bound (with fixed ends: the roughness of the inner control points).", "quantifier": "all data points, all degrees 1 <= p <= n <= m, all lambda and kappa for which the calls succeed, both end conditions, exact solver", "why_tests_cant": "A monotonicity statement over all data and all pairs of penalties.", "anchors": ["src/curve/points/methods/fit/mod.rs", "src/curve/points/methods/fit/loose.rs:fit", "src/curve/points/methods/fit/fixed.rs:fit"]}
{"id": "C75", "title": "Generated knots depend only on the shape, and respect reversal", "statement": "Scaling, rotating, reflecting or translating the points does not change the parameters by chord length or the centripetal parameters, nor the knots generated from them. Reversing the points reverses the parameters (t becomes 1 - t) and, for uniform and averaged knots, gives the reversed curve. With de Boor's knots this symmetry fails.", "quantifier": "all control points without equal neighbours, all degrees 1 <= p <= n, all parameter and knot methods, all maps that multiply all distances by one positive factor (for the centripetal method: as long as the sum stays above the size check)", "why_tests_cant": "Ranges over all similarities and point sequences; relates two runs.", "anchors": ["src/curve/parameters/methods.rs:chord_length", "src/curve/parameters/methods.rs:centripetal", "src/curve/knots/methods.rs", "src/curve/generation/mod.rs:generate", "src/manipulation/reverse.rs:reverse"]}
{"id": "C76", "title": "Merging commutes with affine maps", "statement": "Mapping both curves by an affine map, also into another dimension, and merging them gives the mapped result of merging the original curves. True for linear maps; true for affine maps for degrees 1 and 2 and curves with the same number of control points; false for translations at degree 3.", "quantifier": "all clamped curves on [0, 1] of accepted sizes, all constraints that can be met, all linear (affine) maps, all exact solvers", "why_tests_cant": "Ranges over all maps, curves and constraints; relates two runs of a minimisation.", "anchors": ["src/manipulation/merge.rs:merge_with_constraints", "src/manipulation/merge.rs:merge"]}
{"id": "C77", "title": "Merging commutes with reversal", "statement": "Reversing both curves and merging them in the opposite order, with the constraints at the reflected parameters, gives exactly what reverse() makes of the original result. True for degrees 1 and 2, false for degree 3.", "quantifier": "all clamped curves on [0, 1] with the same number of control points and no interior knot of multiplicity p + 1, all constraint parameters in [0, 1], exact solver", "why_tests_cant": "Ranges over all curves and constraints; relates two runs of a minimisation.", "anchors": ["src/manipulation/merge.rs:merge_with_constraints", "src/manipulation/reverse.rs:reverse"]}
{"id": "C78", "title": "Whole sessions never corrupt a curve", "statement": "Whatever sequence of generate, insert, insert_times, reverse, split, split_and_normalize, merge, append and prepend calls a caller makes, with any arguments and whether the calls succeed or not, every curve they hold has consistent counts, and evaluate_derivative, insert, insert_times and reverse do not panic on it; evaluation fails exactly outside [0, 1]. Merged curves have the common degree and p control points less than both together. In exact arithmetic each held curve equals what Curve::new makes of its own knots and points.", "quantifier": "all finite sequences of calls with all arguments (manual generation with agreeing counts of points and knots, see C14 for the others), all linear solvers, in any arithmetic (the last sentence: in any ordered field)", "why_tests_cant": "Ranges over all sequences of calls of any length with all arguments.", "anchors": ["src/curve/mod.rs:insert_times", "src/curve/mod.rs:append", "src/curve/generation/mod.rs:generate", "src/manipulation/split.rs:split_and_normalize", "src/manipulation/merge.rs:merge_with_constraints", "src/manipulation/reverse.rs:reverse"]}
{"id": "C79", "title": "Careful sessions keep every curve valid", "statement": "If a caller generates curves with clamped knots, splits with normalisation and never inserts or splits above a repeated interior knot, every curve they hold has a sorted knot vector clamped on [0, 1] and the right number of control points, whatever else they do (edit, reverse, merge). Two such curves of the same degree always pass the checks of merging; merging succeeds exactly if the counts fit, and otherwise panics. Without that care knots can become unsorted.", "quantifier": "all finite sequences of calls with these restrictions, all arguments, all linear solvers", "why_tests_cant": "Ranges over all sequences of calls; an invariant over all reachable curves.", "anchors": ["src/curve/mod.rs:insert_times", "src/curve/mod.rs:append", "src/curve/generation/mod.rs:generate", "src/manipulation/split.rs:split", "src/manipulation/merge.rs:merge_with_constraints"]}
{"id": "C80", "title": "Which joined curves survive merging", "statement": "Merging two curves that already join with all derivatives up to p-1 returns a curve that runs through both of them, for all control points, exactly if the degree is 1 or 2 and both have the same number of control points. For every other degree and accepted pair of sizes even two curves that rest at the same point x are changed: the merged curve leaves x, unless x is the origin. Likewise a resting curve of degree 3 or more is never restored by splitting it in the middle and merging the halves.", "quantifier": "all degrees, all clamped knot vectors (right one without interior knots of multiplicity above p), all accepted sizes, all constraints, any exact linear solver", "why_tests_cant": "An equivalence over all degrees and knot vectors; the failing direction is shown for every knot vector, not one example.", "anchors": ["src/manipulation/merge.rs:merge_with_constraints", "src/manipulation/merge.rs:adjust_shifted_control_points", "src/manipulation/merge.rs:generate_control_point_vector_of_merged_spline", "src/manipulation/merge.rs:generateDerivativeControlPoint"]}
{"id": "C81", "title": "Exactly when insertion keeps curves", "statement": "insert(u) keeps the values of all curves over a given knot vector if and only if no interior knot below u is repeated. If one is repeated there is a control point index such that, for curves whose only non-zero control point is that one, the value changes at every parameter between the first repeated knot and u: it was zero and is not zero afterwards.", "quantifier": "all degrees, all clamped knot vectors with interior multiplicities below u at most p, all u in (0,1) that insert accepts, all dimensions", "why_tests_cant": "An equivalence over all knot vectors; the failing direction is shown for every knot vector with a repeated knot.", "anchors": ["src/manipulation/insert.rs:insert", "src/curve/knots/mod.rs:find_idx", "src/curve/mod.rs:insert"]}
{"id": "C82", "title": "Exactly when the claims about merging hold", "statement": "For curves over clamped normalized knot vectors of accepted sizes (m+1 and o+1 control points, m <= o < m+p, right interior multiplicities at most p): (1) the merged curve runs through curves that differ from the inputs only in the last p, respectively first p, control points and join with all derivatives below p, for all control points, if and only if o <= m+1; (2) constrained points of both curves stay where they are, for all control points and constraints that can be met, if and only if p <= 2 and o = m; (3) merging translated curves gives the translated result, for all control points and translations, if and only if p <= 2 and o = m.", "quantifier": "all degrees, all accepted sizes, all clamped normalized knot vectors, all dimensions; (1) for every linear solver, (2) and (3) for every exact solver", "why_tests_cant": "Equivalences over all knot vectors; the failing directions exhibit wrong results for every knot vector outside the region, not for single examples.", "anchors": ["src/manipulation/merge.rs:merge", "src/manipulation/merge.rs:merge_with_constraints"]}
{"id": "C83", "title": "Exactly when splitting works", "statement": "For a valid curve, split(u) panics if and only if 0 < u < 1, the degree is positive, an interior knot below u is repeated and u itself is a repeated knot. It returns two curves with clamped normalized knots if and only if 0 < u < 1, no interior knot below u is repeated and u has multiplicity at most p. If an interior knot below u is repeated and split returns, the knots of the right part are not sorted, and for some control points the left part rests at the origin although the curve does not; so split(u) cuts all curves over the knots correctly if and only if no interior knot below u is repeated and the multiplicity of u is at most p.", "quantifier": "all degrees (values: positive degrees), all clamped knot vectors of any interior multiplicity, all u, all control points and dimensions", "why_tests_cant": "Equivalences over all knot vectors and parameters; wrong values are found by a dimension argument, not by sampling.", "anchors": ["src/manipulation/split.rs:split", "src/manipulation/split.rs:split_and_normalize", "src/curve/knots/mod.rs:find_idx"]}
{"id": "C84", "title": "What the threshold of the linear solver costs", "statement": "All systems are solved by a singular value decomposition whose singular values up to a threshold eps are dropped. For every decomposition and every solvable system A x = b the computed solution misses b by at most eps times the size of x and is no larger than x; it is exact for all solvable right-hand sides if and only if no positive singular value is dropped. Hence: the curve returned by Interpolation misses the data points (root of the sum of squares) by at most eps times the size of the exactly interpolating control polygon; a least-squares fit exceeds the minimum of its functional by at most eps times the squared size of an optimal polygon, and with fixed ends still meets the ends exactly; every generation and every merge solves at most one system, so that all claims proved for an exact solver carry over whenever that system has no positive singular value up to eps. For eps = 0 the solver is exact, for eps > 0 it is not.", "quantifier": "all ordered fields, all matrices and right-hand sides, all decompositions (proved to exist for all real matrices), all eps >= 0, all data, degrees, sizes, parameters and penalties", "why_tests_cant": "Tests only see well-conditioned systems; the bounds hold for arbitrarily ill-conditioned ones and for every decomposition.", "anchors": ["src/curve/points/methods/interpolation.rs:interpolate", "src/curve/points/methods/fit/mod.rs:compute_svd", "src/curve/points/methods/fit/loose.rs:fit", "src/curve/points/methods/fit/fixed.rs:fit", "src/manipulation/merge.rs:solve_linear_equation_system", "src/curve/generation/mod.rs:generate"]}
{"id": "C85", "title": "Evaluation in real f64 arithmetic stays finite and accurate", "statement": "With IEEE 754 double precision numbers (infinities, NaN, signed zeros, subnormal numbers, rounding to nearest, ties to even): if the knots of a valid curve of degree p <= 600 are finite, different ones at least 2^-1000 apart, then at every parameter in [0,1] every coordinate of the evaluated point in which the control points are at most M <= 2^1000 is a finite number, and differs from the exact value by at most (6p+2) 2^-52 M + (p+1) 3^(p+3) (M+1) 2^-1075. The same holds for every derivative of order k with (2p/h)^k M in the first and (4p/h)^k (M+1) in the second term, h the smallest distance of different knots, and for every floating-point format with room for the degree. The condition on the distances is needed: a valid curve with a knot at 2^-1040 evaluates to NaN in the middle of its domain.", "quantifier": "all floating-point formats with room for the degree, all degrees, clamped knot vectors, numbers of points, dimensions, finite knots and control points, orders and parameters in the domain", "why_tests_cant": "There are 2^64 doubles per coordinate; overflow, underflow and NaN occur only in corners that no sample of curves reaches, and the bound is uniform in the number of control points.", "anchors": ["src/curve/mod.rs:evaluate_derivative", "src/curve/mod.rs:evaluate", "src/curve/basis/mod.rs:basis", "src/curve/points/mod.rs:matrix_derivative", "src/types.rs:VecD"]}
{"id": "C86", "title": "Knot insertion in real f64 arithmetic", "statement": "With IEEE 754 double precision numbers: inserting a finite parameter u strictly between 0 and 1, whose multiplicity is at most the degree p <= 600 and below which no interior knot is repeated, into a valid curve whose control points are at most M <= 2^1000 in absolute value succeeds. The new knots are exact (the old ones and u, sorted), the new control points are finite, and each coordinate differs from that of the exactly computed insertion by at most 3*2^-50 M + (M+1) 2^-1073, however close the knots are to each other. Evaluating the curve after the insertion gives a value close to the exact value before the insertion, with an explicit bound, if different knots are at least h apart. The same holds for every floating-point format with room for the degree.", "quantifier": "all floating-point formats with room for the degree, all degrees, clamped knot vectors, numbers of points, dimensions, finite knots and control points, and parameters satisfying the condition of C15", "why_tests_cant": "The effect of rounding, underflow and overflow on the new control points depends on all bits of all knots and control points; tests compare a few curves with a tolerance.", "anchors": ["src/manipulation/insert.rs:insert", "src/curve/mod.rs:insert", "src/curve/mod.rs:evaluate", "src/types.rs:VecD"]}
{"id": "C87", "title": "Smoothness of all curves over given knots is decided by the multiplicities", "statement": "For a given clamped knot vector and degree p the k-th derivative evaluated by evaluate_derivative is continuous at an interior parameter u for every choice of control points if and only if the multiplicity of u is at most p-k; it is continuous on [0,1] for every choice if and only if this holds for all interior knots; and all curves are m times continuously differentiable on [0,1] if and only if all interior multiplicities are at most p-m.", "quantifier": "all clamped knot vectors, degrees, orders k and m up to the degree, dimensions > 0, interior parameters", "why_tests_cant": "The 'if' is a statement about limits for all control points, the 'only if' needs control points with a jump for every knot vector.", "anchors": ["src/curve/mod.rs:evaluate_derivative", "src/curve/mod.rs:evaluate"]}
{"id": "C88", "title": "Reversing a curve in real f64 arithmetic", "statement": "With IEEE 754 double precision numbers, reversing a curve with finite clamped knots on [0,1] succeeds whatever the control points are: the control points come back in exactly reversed order, the new knots are finite, sorted, clamped with exactly 0 and 1, and each is 1-x with a relative error of at most 2^-53. The reversed curve evaluates like a curve constructed from these knots and points. If all interior knots are at least 2^-53 the new knots are again those of a valid curve; otherwise an interior knot can become 1. Reversing twice restores the control points exactly and moves knots by at most 2^-52; knots for which 1-x is exact return unchanged, but the knot 0.1 does not. The same holds for every floating-point format.", "quantifier": "all floating-point formats, degrees, finite clamped knot vectors on [0,1], control points (finite or not), dimensions", "why_tests_cant": "Tests compare with a tolerance; whether an interior knot collapses into the end or whether reversal is an involution depends on single bits.", "anchors": ["src/manipulation/reverse.rs:reverse", "src/curve/mod.rs:reverse", "src/curve/knots/mod.rs:reverse"]}
{"id": "C89", "title": "Splitting a curve in real f64 arithmetic", "statement": "With IEEE 754 double precision numbers: splitting a valid curve of degree p <= 600 on [0,1], whose control points are at most M <= 2^1000, at a finite parameter x strictly inside which is at most p-fold and below which no interior knot is repeated, succeeds. Both parts have exactly the numbers of points and knots of the exactly computed parts; without normalisation the knots are exact, with normalisation they are clamped to exactly 0 and 1, sorted and within 2^-51 of the exact ones; each control point coordinate is finite and within t (2^-48 M + 2^-1072) of the exact one, t being the number of insertions. This holds for all four combinations of the normalisation flags. Repeated insertion and normalisation have corresponding bounds for every floating-point format. Normalising can let an interior knot collapse into the end of the domain.", "quantifier": "all floating-point formats with room for the degree, all degrees, clamped knot vectors, numbers of points, dimensions, finite knots and control points, split parameters satisfying the condition of C15, normalisation flags, numbers of insertions", "why_tests_cant": "Rounding errors accumulate over up to p insertions which each change p points; underflow and overflow need extreme values; tests check a few curves with a tolerance.", "anchors": ["src/manipulation/split.rs:split", "src/manipulation/split.rs:split_and_normalize", "src/curve/mod.rs:insert_times", "src/curve/knots/mod.rs:normalize"]}
{"id": "C90", "title": "From points to values in real f64 arithmetic", "statement": "With IEEE 754 double precision numbers: generating a curve from n+1 finite control points up to M <= 2^1000, degree 1 <= p <= 600 and uniform knots with at most 2^50 domain intervals succeeds; the knots are finite, clamped to exactly 0 and 1, within 2^-52 of j/(n-p+1), all interior ones are simple and differ by at least half a step; and evaluating the curve at every f64 parameter in [0,1] gives a finite value within (6p+2) 2^-52 M + (p+1) 3^(p+3) (M+1) 2^-1075 of the exact curve with these knots. The knot statement holds for every floating-point format in which the integers up to the number of intervals are exact.", "quantifier": "all degrees 1..600, numbers of points, dimensions, finite control points up to 2^1000, f64 parameters in [0,1]", "why_tests_cant": "It ranges over all numbers of points, all control points and all parameters; a zero interval or a lost order among the knots would show only for particular numbers of points.", "anchors": ["src/curve/generation/mod.rs:generate", "src/curve/knots/methods.rs:uniform", "src/curve/mod.rs:evaluate"]}
{"id": "C91", "title": "Exactly when interpolation is possible", "statement": "For all clamped knots, with knots of any multiplicity, and strictly increasing parameters in [0,1]: the matrix of basis function values is regular if and only if it has no zero on its diagonal. Consequently a curve is determined by its values at the parameters, and interpolate passes through all data points for all data, if and only if the i-th basis function does not vanish at the i-th parameter, for every i.", "quantifier": "all degrees, all clamped knot vectors on [0,1] including knots of multiplicity above p+1, all increasing parameter vectors, all data", "why_tests_cant": "An equivalence over all knot vectors, sizes and parameters; tests only show single solvable systems.", "anchors": ["src/curve/points/methods/interpolation.rs:interpolate", "src/curve/knots/mod.rs:evaluate"]}
{"id": "C92", "title": "Exactly when a least-squares fit is unique", "statement": "For all clamped knots and strictly increasing parameters in [0,1]: the control points returned by the unpenalised fit with loose ends are the only ones with the smallest error if and only if one can choose, for each basis function, a parameter at which it does not vanish, the chosen parameters increasing with the functions. For fixed ends the same holds with the inner functions and the inner parameters. With a positive penalty on the first differences the fit with loose ends is always the only minimiser, whatever the parameters.", "quantifier": "all degrees, clamped knot vectors of any multiplicity, increasing parameter vectors, data sets, dimensions", "why_tests_cant": "Uniqueness compares with all other control polygons, and the equivalence ranges over all choices of parameters.", "anchors": ["src/curve/points/methods/fit/loose.rs:fit", "src/curve/points/methods/fit/fixed.rs:fit"]}
{"id": "C93", "title": "How far a curve moves with its points, knots and parameter", "statement": "For curves of the same degree and number of points on [0,1]: if in a coordinate the control points differ by at most eta, the knots by at most eps (none collapsing where they did not before), and the control polygon of one curve drawn over its knots, which have multiplicity at most p inside, has slopes of at most p*l, then the values at parameters t and s differ by at most eta + p l (3 eps + |t-s|). In particular a curve is nowhere steeper than its control polygon (the bound is attained by lines), and moving only points by eta moves the curve by at most eta, for all knots. The derivative of order k then moves by at most (2p/h)^k eta, if different knots are at least h apart; this is attained for degree 1.", "quantifier": "all degrees, numbers of points, dimensions, clamped knot vectors, control points, parameters in [0,1], scalars in an ordered field", "why_tests_cant": "A bound for all pairs of curves and parameters; tests compare single curves.", "anchors": ["src/curve/mod.rs:evaluate", "src/curve/knots/mod.rs:evaluate"]}
{"id": "C94", "title": "The whole f64 error of a curve over uniform knots", "statement": "Generating a curve with uniform knots from n+1 finite control points up to M <= 2^1000 and evaluating it, all in IEEE 754 double precision, gives at every parameter in [0,1] a finite value within (6p+2+6p(n-p+1)) 2^-52 M + (p+1) 3^(p+3) (M+1) 2^-1075 of what the same two calls give in exact arithmetic, including the rounding of the knots. For a cubic with 11 points up to 10 this is below 10^-12.", "quantifier": "all degrees 1..600, at most 2^50 intervals, dimensions, finite control points up to 2^1000, all f64 parameters in [0,1]", "why_tests_cant": "It compares with exact arithmetic for all control points and parameters.", "anchors": ["src/curve/generation/mod.rs:generate", "src/curve/knots/methods.rs:uniform", "src/curve/mod.rs:evaluate"]}
{"id": "C95", "title": "Inserting and splitting do not steepen the control polygon", "statement": "In any coordinate, if the differences of neighbouring control points are between l and m times the distance of the knots they span, then the same holds, with the same l and m, after any number of insertions of a knot, up to multiplicity p+1, below which no interior knot is repeated; and for both parts of a split there (l, m multiplied by the length of the part if it is normalised). If no interior knot has multiplicity above p, these slopes bound the curve: between any two parameters its mean slope is between p l and p m, so a coordinate that rises along the control points rises along the curve.", "quantifier": "all degrees, clamped knot vectors, control points, coordinates, bounds l and m, parameters, numbers of insertions, normalisation flags; scalars in an ordered field", "why_tests_cant": "A statement about all bounds, all knots and all pairs of parameters.", "anchors": ["src/curve/mod.rs:insert_times", "src/curve/mod.rs:evaluate", "src/manipulation/split.rs:split_and_normalize"]}
{"id": "C96", "title": "Manipulating and evaluating in f64 gives the values of the original exact curve", "statement": "With IEEE 754 double precision for both the manipulation and the evaluation, and exact arithmetic for the original curve: after t insertions of a knot, the computed value at any parameter in [0,1] differs from the exact value of the original curve by at most (6p+2+17t) 2^-52 M; its derivatives of order k <= p from those of the original by at most (6p+2+17t) 2^-52 (2p/h)^k M if different knots are at least h >= 2^-1000 apart and (4p/h)^k (M+1) <= 2^998; after a split, the computed values of the parts differ from the exact values of the original at the corresponding parameters by at most ((6p+2+17t) M + 6 p l x) 2^-52 on the left and with 1-x on the right; after a reversal from those at the mirrored parameter by at most ((6p+2) M + 2 p l) 2^-52. M bounds the control points, p l the slopes of the control polygon; each with an additional term below (p+1) 3^(p+4) (M+1) 2^-1075 for underflow. Distinct knots must be 2^-1000, 2^-49, 2^-51 apart, respectively.", "quantifier": "all degrees up to 600, clamped knots and finite control points up to 2^998, all f64 parameters in [0,1], all insertion and split parameters below which no interior knot is repeated", "why_tests_cant": "It bounds the accumulated rounding error for all inputs against exact arithmetic.", "anchors": ["src/curve/mod.rs:insert_times", "src/curve/mod.rs:reverse", "src/curve/mod.rs:evaluate", "src/manipulation/split.rs:split_and_normalize"]}
{"id": "C97", "title": "Interpolation in f64 passes through the data up to the residual of the linear solver", "statement": "With IEEE 754 double precision for the parameters, the knots, the matrix and the evaluation: generate with Interpolation succeeds for any finite data, and its control points are what the linear solver returned for the matrix of the basis functions, computed at the parameters g/m, and the data. If these control points are finite, at most M in a coordinate, and satisfy that system up to rho, then evaluating the curve at g/m returns the data point g in this coordinate up to rho + (12p+4) 2^-52 M + (p+1) 3^(p+3) (M+1) 2^-1074.", "quantifier": "all degrees up to 600, all numbers of data points up to 2^50, all finite data, all linear solvers with nalgebra's shape contract, all residuals and bounds M up to 2^1000", "why_tests_cant": "It holds for every solver behaviour and all data, and bounds the rounding of every step.", "anchors": ["src/curve/generation/mod.rs:generate", "src/curve/points/methods/interpolation.rs:interpolate", "src/curve/mod.rs:evaluate", "src/curve/knots/methods.rs:uniform"]}
{"id": "C98", "title": "What an inexact linear solver costs in interpolations and fits", "statement": "Interpolations and fits hand a solvable linear system to the solver. If the answer satisfies it up to rho in every coordinate of every row, then: the interpolating curve passes every data point at a distance of at most rho per coordinate; the cost (squared error plus penalty) of a fit exceeds the cost of any other control polygon of the same shape by at most 2 rho times the distance (sum over all coordinates) of the two polygons; for loose ends the squared distances of the two curves at the parameters can be added on the left, so a fit with a residual and the best fit differ at the parameters by at most that. The ends of a fit with fixed ends are met exactly whatever the solver does.", "quantifier": "all solvers with nalgebra's shape contract, residuals, degrees, clamped knots, data, parameters in [0,1], penalisations for which the fit succeeds, and all other control polygons; scalars in an ordered field", "why_tests_cant": "It compares with all other control polygons and holds for every solver behaviour.", "anchors": ["src/curve/points/methods/interpolation.rs:interpolate", "src/curve/points/methods/fit/loose.rs:fit", "src/curve/points/methods/fit/fixed.rs:fit", "src/curve/generation/mod.rs:generate"]}
{"id": "C99", "title": "Errors tell the truth on any receiver", "statement": "No matter how a curve or knot vector came about, whether it is valid, and how the arithmetic and comparisons behave: if a function returns an Err, the error carries the arguments of the call (parameter, degree, numbers of segments, constraints, kappa, lambda, multiplicity) and the condition it complains about is really violated. insert leaves the curve as it was; insert_times leaves it as a smaller number of complete insertions made it, and the error is true of that curve; the merge functions complain about degrees, dimensions, clamping, norming and constraints in this order, each only if no earlier complaint applies; interpolation and least-squares generation report only what is wrong with the request. The only exception in generation: in an arithmetic with values that differ from themselves the uniform knots may be reported as not uniform.", "quantifier": "all curves, knot vectors, caches, points, data, parameters, penalizations, constraints and solvers, valid or not; all scalars, arithmetics and comparisons, including NaN", "why_tests_cant": "It ranges over all invalid receivers and arithmetics, and tests only provoke a few errors on valid curves.", "anchors": ["src/curve/mod.rs:CurveError", "src/curve/mod.rs:new", "src/curve/mod.rs:evaluate_derivative", "src/curve/mod.rs:insert_times", "src/manipulation/insert.rs:InsertError", "src/manipulation/split.rs:SplitError", "src/manipulation/merge.rs:MergeError", "src/curve/points/methods/fit/mod.rs:FitError", "src/curve/knots/methods.rs:inputCheck", "src/curve/generation/mod.rs:generate"]}
{"id": "C100", "title": "Writing cached derivatives in place is local and undone by derive; the remaining predicates", "statement": "On a curve made by Curve::new, writing through points.matrix_derivative_mut(k) or knots.vector_derivative_mut(k) panics exactly if k exceeds the degree; otherwise what was written is read back and the other orders are untouched. For k >= 1 the write is seen by evaluate_derivative of order k alone: values, other derivatives, insertions and splits are as on the unedited curve, and derive restores the unedited curve. If the written points are the derivative points of another curve over the same knots, the derivative of order k is that of the other curve. is_empty is false for the points of every curve with at least one coordinate; is_valid never returns false: it panics for fewer than p + 2 knots and is true otherwise; segments of data points is the count minus one and panics exactly for no points.", "quantifier": "all curves made by Curve::new, all orders, all written matrices and vectors of any shape, all parameters, all scalars and arithmetics; all knot vectors (is_valid) and data points", "why_tests_cant": "It compares all observable operations before and after arbitrary writes, in any arithmetic.", "anchors": ["src/curve/points/mod.rs:matrix_derivative_mut", "src/curve/knots/mod.rs:vector_derivative_mut", "src/curve/points/mod.rs:is_empty", "src/curve/knots/mod.rs:is_valid", "src/curve/points/mod.rs:segments"]}
{"id": "C101", "title": "Curves from control points with repetitions", "statement": "For 1 <= p <= n and control points that do not all agree (centripetal: whose sum of square-rooted distances is at least 2^-26), generate(Manual with a parameter and a knot method) returns a curve of degree p with exactly the given control points and non-decreasing knots from 0 (p+1 times) to 1 (p+1 times), the interior ones by the formulas of the methods. With chord-length or centripetal parameters the knots are valid (interior knots strictly inside) exactly if n = p, or neither the points that the first interior knot depends on nor those that the last one depends on all coincide; for averaging these are the first and the last p+1 points. If the latter coincide, evaluate(1) of the returned curve is the origin. If all points agree and n > p, chord length and averaging still return Ok, and every evaluation of the curve is undefined in every coordinate.", "quantifier": "all degrees, numbers of control points, dimensions, point lists with arbitrary repetitions, all parameter and knot methods, all u in [0,1]", "why_tests_cant": "All patterns of repetition, for every degree and length, and an exact criterion.", "anchors": ["src/curve/generation/mod.rs:generate", "src/curve/parameters/methods.rs:chord_length", "src/curve/parameters/methods.rs:centripetal", "src/curve/knots/methods.rs:averaging", "src/curve/knots/methods.rs:de_boor"]}
{"id": "C102", "title": "Which knot methods lead to solvable systems", "statement": "For strictly increasing parameters from 0 to 1 (which every parameter method assigns to data without equal consecutive points), 1 <= p <= n, and knots from averaging or de_boor: with n+1 data points the collocation matrix is regular and interpolate returns a curve through every data set; with n+1 <= m+1 data points the loose fit, and for n >= 2 the fixed fit, without penalty succeeds and returns the only control polygon with the smallest error. Uniform knots do not have this property: with the chord-length parameters 0, 1/10, 1/5, 1 and p = 1 the system is singular. The knots of averaging and de_boor depend on the first n parameters only: with more data than control points the later parameters have no influence, and all of them lie in the last knot span.", "quantifier": "all degrees, numbers of control points and data points, dimensions, data, strictly increasing parameters, exact solvers, both knot methods", "why_tests_cant": "Regularity of matrices of every size for all admissible parameters, and uniqueness among infinitely many control polygons.", "anchors": ["src/curve/knots/methods.rs:averaging", "src/curve/knots/methods.rs:de_boor", "src/curve/knots/methods.rs:uniform", "src/curve/points/methods/interpolation.rs:interpolate", "src/curve/points/methods/fit/loose.rs:fit", "src/curve/points/methods/fit/fixed.rs:fit"]}
{"id": "C103", "title": "Convex control polygons give convex curves", "statement": "If every three control points of a plane curve (or of the projection of a curve to a plane), in their order, turn left or go straight on, so do every three points of the curve; insertions and splits (below which no interior knot is repeated) keep this property of the control polygon. If the slopes of one coordinate of the control points over the Greville abscissae do not decrease, that coordinate of evaluate(u) is a convex function of u and lies above every line through two consecutive control points.", "quantifier": "all valid curves of degree >= 1, all pairs of directions, all parameters in [0,1]; convex functions: interior multiplicities at most p", "why_tests_cant": "Shape preservation for all control polygons and all triples of parameters.", "anchors": ["src/curve/mod.rs:evaluate", "src/manipulation/insert.rs:insert", "src/manipulation/split.rs:split"]}
{"id": "C104", "title": "Merging polylines and quadratic curves in closed form", "statement": "merge of two polylines with equally many points returns the points of both, with the last of the first and the first of the second replaced by their midpoint. merge, merge_from and merge_to of two quadratic curves with equally many points drop the two end points at the junction, keep all other points except the two neighbours of the junction and move these by alpha*e and beta*e, where alpha : beta is the ratio of the first span of the second curve to the last span of the first curve (alpha + beta = 1) and e is (g - 2(alpha*s + beta*t))/(1 + 2(alpha^2 + beta^2)) for merge (s, t the neighbours, g the sum of the end points) and (x - (alpha*s + beta*t))/(alpha^2 + beta^2) for merge_from and merge_to (x the end point kept).", "quantifier": "all pairs of curves of degree 1 or 2 on clamped knots over [0,1] with equally many control points, all dimensions; exact linear solver", "why_tests_cant": "Tests compare merged curves of two hand-picked inputs; the formulas hold for all knots and points.", "anchors": ["src/manipulation/merge.rs:merge", "src/manipulation/merge.rs:merge_from", "src/manipulation/merge.rs:merge_to"]}
{"id": "C105", "title": "Refined control polygons converge to the curve", "statement": "Pairwise different new knots can be inserted one after the other into a curve without repeated interior knots; all calls succeed, the result does not depend on their order and has the same values and derivatives. If the slopes of the control polygon over the knots are at most l and neighbouring knots at most h apart, every control point is within p^2*l*h of every value evaluate(u) that depends on it, and every value is that close to a control point. After inserting the multiples of 1/N every control point is within p^2*l/N of the original curve at its Greville abscissa, l being the bound before the insertions.", "quantifier": "all valid curves of degree >= 1 with simple interior knots (distance bounds: all valid curves), all coordinates, all N >= 1, all orders of insertion", "why_tests_cant": "A limit over all refinements, and a statement about all orders of insertion.", "anchors": ["src/manipulation/insert.rs:insert", "src/curve/mod.rs:evaluate"]}
{"id": "C106", "title": "Refinement and derivatives, second order convergence", "statement": "Inserting a knot acts on the control points of the derivative of order k like an insertion into the derivative curve: each new one is a mean of two neighbouring old ones, so bounds on them remain true. After inserting the multiples of 1/N, every control point of the k-th derivative (k < p) is within (p-k)*b/N of evaluate_derivative of order k at its Greville abscissa, b bounding the control points of the derivative of order k+1 before the insertions. If neighbouring knots are at most h apart and b bounds the control points of the second derivative, every control point is within p(p+1)/2*b*h^2 of the curve at its Greville abscissa; after inserting the multiples of 1/N it is within p(p+1)/2*b/N^2 of the original curve.", "quantifier": "all valid curves with simple interior knots (single insertion: multiplicity of the knot + k <= p; second order bound: all interior knots of multiplicity at most p-1), all orders k, all coordinates, all N >= 1; degree >= 2 for the second order bounds", "why_tests_cant": "A rate of convergence over all refinements and all curves.", "anchors": ["src/manipulation/insert.rs:insert", "src/curve/mod.rs:evaluate_derivative", "src/curve/points/mod.rs:matrix_derivative"]}
{"id": "C107", "title": "The exact supports of basis functions and control points", "statement": "Knots::evaluate(k, i, p, u) is positive if u lies strictly between the first and the last knot of the function, if u is the first knot and this equals the last but one (where the function jumps), or if u is the end of the domain and i the last index; everywhere else in the domain it is zero. Strictly inside a span exactly the p-k+1 functions that may be non-zero are positive. Replacing a control point by a different one changes evaluate(u) exactly at these parameters.", "quantifier": "all degrees, clamped knot vectors of any length and multiplicities, derivative orders k <= p, indices, parameters in the closed domain; scalars in an ordered field", "why_tests_cant": "An equivalence at every parameter, including the ends of the supports and repeated knots.", "anchors": ["src/curve/knots/mod.rs:evaluate", "src/curve/basis/mod.rs:basis", "src/curve/mod.rs:evaluate"]}
{"id": "C108", "title": "Where the curve meets its control polygon", "statement": "At a knot u of multiplicity at least p-k, evaluate_derivative(u, k) is the control point of the k-th derivative whose inner knots all equal u. In particular, at a knot of multiplicity p the curve passes through a control point and leaves it in the direction of the next one, with p/(y-u) times this edge as derivative, y being the next knot; at both ends it is tangent to the first and last edge, with p/U[p+1] and p/(1-U[n]) times the edges as derivatives. insert_times(u, p - multiplicity) evaluates the curve: the new control point at the index (number of knots below u) - 1 is evaluate(u).", "quantifier": "all valid curves, degrees, orders k <= p, knots of sufficient multiplicity, end points; for the insertion all u in (0,1) below which no interior knot is repeated and of multiplicity at most p", "why_tests_cant": "Relates three operations (insert_times, evaluate, matrix_derivative) for all knot configurations.", "anchors": ["src/curve/mod.rs:evaluate_derivative", "src/curve/mod.rs:insert_times", "src/curve/points/mod.rs:matrix_derivative"]}
{"id": "C109", "title": "Antiderivatives and integrals", "statement": "Every curve whose interior knots have multiplicity at most p+1 is the derivative of a curve of degree p+1: with an additional knot at each end and control points A + sum_{j<i} (U[j+p+1]-U[j])/(p+1) P[j]. The knots and points of its first derivative are those of the given curve, evaluate(0) is A, and its evaluate_derivative(u, k+1) is evaluate_derivative(u, k) of the given curve for all u and k. Integrals of evaluate between two parameters are the differences of the values of this curve; the integral over the domain is the sum of the control points times (U[i+p+1]-U[i])/(p+1), and the integral of a basis function is the length of its support divided by p+1.", "quantifier": "all valid curves with interior multiplicities at most p+1, all starting points A, all parameters and orders (exact arithmetic in any ordered field); integrals over the real numbers for all 0 <= a <= b <= 1 and all coordinates", "why_tests_cant": "Integrals of all curves; an identity for all parameters and derivative orders.", "anchors": ["src/curve/mod.rs:evaluate_derivative", "src/curve/points/mod.rs:matrix_derivative", "src/curve/knots/mod.rs:evaluate"]}
{"id": "C110", "title": "Merging with an inexact linear solver", "statement": "merge of two polylines or two quadratic curves on [0,1] with the same number of control points always hands a solvable system to the linear solver. If the answer has a residual of at most rho, every control point and every value of the merged curve differs from that for an exact solver by at most 3/2 rho (degree 1) or 7/2 rho (degree 2) in every coordinate, whatever the knots and the points are; knots, degree and number of control points do not depend on the solver. The factor 3/2 is attained.", "quantifier": "all pairs of clamped curves on [0,1] of degree 1 or 2 with equally many control points, all solvers, all residuals, all parameters", "why_tests_cant": "A uniform error bound over all curves, knots and solvers.", "anchors": ["src/manipulation/merge.rs:merge_with_constraints", "src/manipulation/merge.rs:solve_linear_equation_system"]}
{"id": "C111", "title": "The control points are bounded by the curve", "statement": "For every degree p there is a factor kappa such that over all knot vectors, dimensions and sizes: if two curves over the same knots differ by at most M in a coordinate at all parameters inside the support of the i-th basis function, then their i-th control points differ by at most kappa M in this coordinate; in particular the control point of a single curve is at most kappa times as large as evaluate in this support. Hence a curve bounded by M whose knots U[i+1], U[i+p+1] are at least delta apart moves by at most 2 p kappa M / delta times the distance of the parameters. The factor is not one: for p = 2 it is at least 3.", "quantifier": "all degrees; for each one factor for all clamped knot vectors on [0,1] with interior multiplicities at most p+1, all control points, dimensions, indices and bounds", "why_tests_cant": "One factor for all knot vectors, including arbitrarily uneven ones.", "anchors": ["src/curve/mod.rs:evaluate", "src/curve/knots/mod.rs:evaluate", "src/curve/basis/mod.rs:basis"]}
{"id": "C112", "title": "Curves and fits approximate functions", "statement": "Let h be the largest gap between neighbouring knots. The curve with the control points f(mean of U[i+1],...,U[i+p]) differs from f(u) at u by at most b, if f is within b of a line through (u, f(u)) up to the distance (p+1)/2 h; so by at most (p+1)/2 l h for a function with Lipschitz constant l, and by at most q ((p+1)/2 h)^2 for a function within q (x-u)^2 of its tangents. An unpenalised least-squares fit to samples of f, with loose or fixed ends, is at least as good: the sum of the squared errors over the samples is at most (number of samples) d b^2. In particular generate with LeastSquaresFit of n+1 control points to m+1 >= n+1 samples of a smooth f succeeds and its mean squared error is at most d (q ((p+1)/(2(n-p+1)))^2)^2; with fixed ends it passes through f(0) and f(1).", "quantifier": "all degrees >= 1, clamped knot vectors on [0,1], functions, dimensions, parameters, sizes p <= n <= m; exact linear solver", "why_tests_cant": "Bounds for all functions and sizes with an order of convergence.", "anchors": ["src/curve/generation/mod.rs:generate", "src/curve/points/methods/fit/loose.rs:fit", "src/curve/points/methods/fit/fixed.rs:fit", "src/curve/mod.rs:evaluate"]}
{"id": "C113", "title": "Averaged knots and de Boor knots in floating-point arithmetic", "statement": "In floating-point arithmetic: averaging(p, n, params) with non-decreasing parameters in [0,1] returns knots that are sorted, clamped and within [0,1] (is_sorted, is_clamped and is_normed accept them), and every interior knot is the mean of its p parameters up to p+1 roundings. de_boor(p, n, params) does not panic although the truncated positions are rounded, every knot differs by at most (4n+24) eps from the one of exact arithmetic, none exceeds its successor by more than 48 eps, and if neighbouring parameters differ by at least 128 n eps the knots are strictly increasing and those of a valid curve. Without such a distance the order can be lost: for control points of which four coincide, generate with chord_length and de_boor returns a curve with unsorted knots.", "quantifier": "all degrees and segment numbers with 1 <= p <= n for which the integers up to n+1 are representable and 8 n eps <= 1 (validity: 8 n^2 eps <= 1), all parameters, all roundings that are monotone and have relative error at most eps", "why_tests_cant": "Rounding errors of all inputs; a truncation that jumps by one for rare sizes (first for n = 29, p = 4).", "anchors": ["src/curve/knots/methods.rs:averaging", "src/curve/knots/methods.rs:de_boor", "src/curve/generation/mod.rs:generate"]}
{"id": "C114", "title": "Bézier curves, interpolation polynomials and polylines", "statement": "A curve of degree p with p+1 control points is a Bézier curve: evaluate(u) = sum_i C(p,i) u^i (1-u)^(p-i) P_i, evaluate_derivative(u, k) is p!/(p-k)! times the Bernstein form over the k-th forward differences of the control points, and for every k it is the k-th derivative of one polynomial per coordinate. generate with degree = number of points - 1 makes such a curve for every method for knots and parameters. split at any 0 < u < 1 succeeds and returns two Bézier curves whose control points are those of de Casteljau's algorithm. Interpolation of m+1 data points with degree m returns the Lagrange polynomial for the parameters g/m with all its derivatives. The curve over the points f(i/n) differs from f(u) by at most q u(1-u)/n if f is within q (x-u)^2 of its tangent (attained by x^2), and over the reals it converges uniformly to f for every continuous f. A curve of degree one runs linearly from control point to control point, and interpolation with degree one returns the data points as control points.", "quantifier": "all degrees, all dimensions, all control points and data points, all parameters in [0,1], all derivative orders, all ordered fields (convergence: the reals), all exact solvers", "why_tests_cant": "Identities and limits over all degrees and parameters.", "anchors": ["src/curve/mod.rs:evaluate", "src/curve/mod.rs:evaluate_derivative", "src/curve/generation/mod.rs:generate", "src/curve/points/methods/interpolation.rs:interpolate", "src/manipulation/split.rs:split"]}
{"id": "C115", "title": "Cost of evaluation", "statement": "An evaluation of the k-th derivative of a curve of degree p with n segments makes at most (n-k+1) (2^(p-k+1) - 1) calls of the recursive basis function; one basis function of degree p costs at most 2^(p+1) - 1 calls, and exactly that many if its knots are pairwise different. Evaluation at 0 of a curve with simple knots makes at least (n+1-2p) (2^(p+1) - 1) calls, so it grows with the number of control points although a single one has an effect there, whereas evaluation inside the last segment makes at most (p+1) (2^(p+1) - 1). An entry of the penalty matrix of order kappa costs exactly 2^kappa - 1 calls of the difference operator.", "quantifier": "all curves, parameters, derivative orders and arithmetics (bounds); all valid curves with simple knots over all ordered fields (dependence on the parameter); all orders of the penalty", "why_tests_cant": "Running times measured on examples do not bound the number of calls for all degrees and sizes.", "anchors": ["src/curve/basis/mod.rs:basis", "src/curve/mod.rs:evaluate_derivative", "src/curve/knots/mod.rs:evaluate", "src/curve/points/methods/fit/mod.rs:difference_operator"]}
{"id": "C116", "title": "Release builds do what debug builds do", "statement": "Whatever a client program does with the public functions, in any order and with arguments that depend on earlier results: if it ends with a result when compiled in debug mode it ends with the same result when compiled in release mode (or with overflow checks or debug assertions switched on or off in any combination), and if it panics in debug mode for any reason other than a subtraction below zero or a failed debug_assert it panics for the same reason in every mode. For every curve that a caller can hold, evaluation of all derivatives and knot insertion are the same in every mode at every parameter.", "quantifier": "all client programs, all build modes, all arithmetics (NaN and rounding included), all linear solvers", "why_tests_cant": "Tests run in one build mode and on some programs.", "anchors": ["src/curve/mod.rs:Curve", "src/curve/knots/mod.rs:Knots", "src/curve/generation/mod.rs:generate", "src/curve/parameters/methods.rs:centripetal", "src/manipulation/insert.rs:insert", "src/manipulation/split.rs:split", "src/manipulation/merge.rs:merge_with_constraints"]}
{"id": "C117", "title": "How every call of generate ends", "statement": "From the arguments alone one can tell how generate ends in a debug build. An empty list of points panics. Otherwise a degree above the number of segments and the degree zero give their errors, except that manual generation with given knots allows the degree zero and takes the degree of the knots. Beyond that manual generation panics only when given knots of degree q >= 1 number fewer than the control points plus q, and when the centripetal method meets points whose square roots of distances sum to less than 2^-26 (this comes before the check for degree zero). Interpolation never panics on a non-empty list. A least-squares fit returns its documented errors, and panics only with fixed ends and either one segment or a penalty order of one less than the number of segments. In all other cases there is a curve of the requested degree with the expected number of control points.", "quantifier": "all generation requests (manual with uniform, given or computed knots, interpolation, least-squares fits with all penalties), all degrees, numbers of segments and points of all dimensions, all linear solvers, debug build", "why_tests_cant": "The claim classifies all combinations of degree, counts, methods and penalties; a test runs one of them.", "anchors": ["src/curve/generation/mod.rs:generate", "src/curve/parameters/methods.rs:centripetal", "src/curve/points/methods/fit/fixed.rs:fit", "src/curve/points/methods/fit/loose.rs:fit", "src/curve/points/methods/interpolation.rs:interpolate", "src/curve/mod.rs:Curve::new"]}
{"id": "C118", "title": "How every call of insert, insert_times, split and merge ends, for arbitrary knots", "statement": "On any curve whose numbers of knots and points match, however its knots look (unsorted, not normalized, NaN), insert returns OutOfBounds for u <= 0 or u >= 1, the multiplicity error if more than p knots of the domain equal u, and otherwise a curve with one more point; it never panics and does nothing on error. insert_times fails, for u which equals itself, exactly if one of its insertions would: out of bounds or more than p + 1 copies in the end; for other u exactly if the first insertion does, so that insert_times(NaN, x) in f64 succeeds on every curve and adds x NaN knots. split ends in OutOfBounds, MultiplicityTooHigh, a panic if its insertions fail, an error about degree and segments if u is the first knot of the domain, the same error or a panic if the copies of u reach beyond the domain, and otherwise in two curves with known numbers of points. merge of two curves of any degrees and dimensions returns the documented error or, without one, a curve exactly if m <= o < m + p and else panics.", "quantifier": "all curves with matching counts, all knots, points, parameters u, repetition counts and normalization flags in every arithmetic (merge: over ordered fields), all linear solvers, debug build", "why_tests_cant": "The claim covers all knot vectors, also unsorted ones and those with NaN, and says exactly which branch is taken.", "anchors": ["src/manipulation/insert.rs:insert", "src/manipulation/split.rs:split_and_normalize", "src/manipulation/merge.rs:merge_with_constraints", "src/curve/mod.rs:Curve::new"]}
{"id": "C119", "title": "Curves on a domain other than [0,1]", "statement": "Take a curve with clamped knots on [a,b], for instance an un-normalized half of a split. evaluate and its derivatives reject parameters outside [0,1] even if they lie in [a,b], return the origin for parameters in [0,1] outside [a,b], and on the rest agree with the curve with normalized knots up to the parametrization. insert(u) with u in (0,1) outside [a,b] reports success and leaves unsorted knots; after any successful insertion the knots are sorted exactly if u lies in [a,b] and no interior knot below u is repeated, and for u inside (a,b) the curve is then unchanged at all parameters. split at such a u outside [a,b] reports success and returns a part with unsorted knots; at u = a > 0 it returns an error about the degree; at u = b < 1 it succeeds and returns a right part all of whose knots coincide.", "quantifier": "all clamped curves on all intervals [a,b], all parameters, derivative orders, degrees and dimensions, over every ordered field; debug build", "why_tests_cant": "The claim is about every interval and every parameter inside and outside of it.", "anchors": ["src/curve/mod.rs:evaluate_derivative", "src/manipulation/insert.rs:insert", "src/manipulation/split.rs:split_and_normalize", "src/curve/knots/mod.rs:find_idx"]}
{"id": "C120", "title": "The operations commute with affine changes of the parameter", "statement": "Take two curves with the same control points where the knots of the second are s*x + t for the knots x of the first (s > 0), with arbitrary, even unsorted, knots. If v and s*v + t both lie in [0,1], the k-th derivative of the second curve at s*v + t is s^-k times that of the first at v. If u and s*u + t both lie in (0,1), insert, insert_times and split_and_normalize end alike for both: with the same kind of error, both with a panic, or both successfully with results related in the same way (equal ones where the part is normalized). Reversed curves are related by s and 1 - s - t. Consequently a split strictly inside the domain [a,b] of a clamped curve, at u in (0,1) of multiplicity at most the degree with no repeated interior knot below, returns curves on [a,u] and [u,b] which evaluate like the curve.", "quantifier": "all scales s > 0 and shifts t, all curves the constructor accepts, all parameters, degrees and dimensions, over every ordered field; debug build", "why_tests_cant": "A relation between two runs of the code over all parameters, scales and knot vectors; a test compares finitely many pairs.", "anchors": ["src/curve/mod.rs:evaluate_derivative", "src/manipulation/insert.rs:insert", "src/manipulation/split.rs:split_and_normalize", "src/curve/knots/mod.rs:reverse"]}
{"id": "C121", "title": "Where release builds access memory outside of a buffer", "statement": "In a release build, where usize arithmetic wraps modulo 2^64 in the crate and in the range check start + n <= len of nalgebra's views: a view is contained in its buffer if start + n does not wrap, and is not contained in it if the sum wraps and the check passes. Consequently tail(n) of a vector of length l is its last n elements for n <= l, and for n > l passes all checks with its first n - l elements before the vector, so reading or writing them touches memory outside. internal_knot(i) of knots accepted by the constructor behaves as in a debug build with at least 2p+2 knots; with 2p or 2p+1 knots, where a debug build panics, it returns the knot p+1+i while that exists and otherwise reads outside of the knot vector. domain has no such access and returns the knots from p on. find_idx panics in a release build exactly where it does in a debug build and otherwise returns the same index. Merging curves with m+1 and o+1 control points (clamped, normalized, same degree p >= 1, fewer than p constraints) gives the same result in both builds for m <= o < m+p, panics in both for o < m, and for m+p <= o, where a debug build panics, copies control points from outside of a matrix.", "quantifier": "all vectors shorter than 2^63 and all requested lengths below 2^64; all non-empty knots the constructor accepts, all indices i with p+1+i < 2^64 (and i < 2^64-2 for reads outside); all pairs of curves and constraints in the named class, all solvers, over law-free scalars", "why_tests_cant": "Tests run in debug builds, where the subtraction panics. In a release build an access out of bounds is undefined behaviour, which a test can pass by accident.", "anchors": ["src/types.rs:tail", "src/types.rs:tail_mut", "src/curve/knots/mod.rs:internal_knot", "src/curve/knots/mod.rs:domain", "src/curve/knots/mod.rs:find_idx", "src/manipulation/merge.rs:generate_control_point_vector_of_merged_spline"]}
{"id": "C122", "title": "Least-squares fits in double precision", "statement": "generate of a least-squares fit in f64, with degree 1 <= p <= 600, p <= n <= m <= 2^50, m+1 finite data points of size at most W <= 2^900, and either no penalty or a finite weight 0 <= lambda <= 2^900 and an order kappa <= 26 with kappa < n (fixed ends: 2 <= n and kappa <= n-2), returns a curve, whatever the linear solver does and in whatever order, rounded or fused, nalgebra adds up the products in its matrix products. All entries of the normal equations handed to the solver are finite. If the solver's answer is finite, of size at most M, and satisfies the computed normal equations up to rho in every coordinate of every row, then the exact cost (squared error plus penalty) of the curve with the returned control points and knots exceeds the cost of any other control polygon (with the same ends, for fixed ends) by at most twice the distance of the two polygons times rho + (10p+5+m) 2^-52 ((m+1)(W+M) + lambda 4^kappa M) + 5(m+1) 3^(p+2) ((n+1)M + W + 1) 2^-1074; with loose ends the squared distance of the two curves at the parameters can be added to the left. With fixed ends the bound has m-1, n-1 and 3W in place of m+1, n+1 and W, and the ends are the first and the last data point. The same holds for the fit functions themselves with arbitrary clamped knots and parameters in [0,1], in every binary format with enough room.", "quantifier": "all solvers with nalgebra's shape contract, all orders of summation in matrix products, all degrees, segment numbers, data, penalisations in the named ranges, both methods, all residuals and all other control polygons", "why_tests_cant": "The rounding errors depend on all inputs; a test sees one residual and has no exact optimum to compare with.", "anchors": ["src/curve/points/methods/fit/mod.rs:compute_svd", "src/curve/points/methods/fit/mod.rs:difference_operator", "src/curve/points/methods/fit/loose.rs:fit", "src/curve/points/methods/fit/fixed.rs:fit", "src/curve/generation/mod.rs:generate"]}
{"id": "C123", "title": "The integers of a penalty in 64 bits", "statement": "The penalty of a least-squares fit is built from a difference matrix of order kappa whose entries are computed with isize. For 1 <= kappa <= 66 no subtraction overflows, in debug and in release builds, and the entries are the binomial coefficients with alternating signs, so that all claims about penalised fits hold for isize as for unbounded integers. For every kappa >= 67 a debug build panics with an overflow while it fills the matrix, and a release build goes on with the binomial coefficients modulo 2^64, at least one of which is wrong.", "quantifier": "all orders kappa >= 1, all numbers of rows >= 1 (that is, all fits that pass the input checks), both fits, both kinds of build", "why_tests_cant": "The first overflow needs more than 2^66 recursive calls (C115), so no test can reach it or exclude a smaller one by running all matrices.", "anchors": ["src/curve/points/methods/fit/mod.rs:difference_operator", "src/curve/points/methods/fit/loose.rs:calculate_finite_difference_matrix", "src/curve/points/methods/fit/fixed.rs:calculate_finite_difference_matrix"]}
{"id": "C124", "title": "Local control in double precision, and where it fails", "statement": "In double precision the value of a curve at u depends only on the control points whose support [U[i], U[i+p+1]] contains u, as long as every coordinate of every control point is finite: two curves over the same knots whose control points agree there return the same numbers (up to the sign of a zero), whatever the others are. The rounding error of the value is bounded by the size of those control points alone, so control points of size 10^300 elsewhere cost nothing. This is false for non-finite control points: evaluation adds up the later control points as well, with weight zero, so an infinite or NaN coordinate in control point i makes that coordinate of the value NaN at every u < U[i].", "quantifier": "all clamped knot vectors on [0,1] with gaps not below the smallest allowed one, all degrees within the range of C85, all finite control points (first part) and all control points (second part), all u in [0,1]", "why_tests_cant": "A test compares a few curves at a few parameters; locality speaks about all values of the control points left out, including the largest finite ones and infinities.", "anchors": ["src/curve/mod.rs:evaluate", "src/curve/mod.rs:evaluate_derivative", "src/curve/basis/mod.rs:basis"]}
{"id": "C125", "title": "Merging in double precision", "statement": "Merging two curves of degree p with finite knots clamped to 0 and 1 succeeds in double precision exactly if it does in exact arithmetic, for all control points (also infinite and NaN ones) and all solutions of the linear system. The merged knots are finite, sorted and exactly 0 and 1 at the ends; the left ones are the correctly rounded halves of the knots of the first curve, the right ones deviate by at most 2^-51 from (1 + w)/2. They are valid knots if no knot of the first curve is in (0, 2^-1000) and none of the second in (1 - 2^-50, 1); otherwise interior knots can collapse into the ends or the junction, which is reported as a success. The first m + 1 - p control points are those of the first curve and the last ones those of the second, bit by bit. If all merged control points are finite, the values computed in the outer parts are those of the two curves up to the rounding error of a single evaluation.", "quantifier": "all degrees, all finite clamped knot vectors on [0,1] with m <= o < m + p, all control points, all admissible numbers of constraints, all solvers", "why_tests_cant": "The knots that collapse are next to 0, to 1 and to the junction, three places among 2^62 doubles; and the claims hold for every output of the singular value decomposition, which a test cannot vary.", "anchors": ["src/manipulation/merge.rs:merge_with_constraints", "src/manipulation/merge.rs:adjust_knots", "src/curve/knots/mod.rs:reverse", "src/curve/knots/mod.rs:is_clamped"]}
{"id": "C126", "title": "Refining a curve with many knots in double precision", "statement": "A caller who inserts t knots one after another in double precision, each of which may be inserted by the rules of exact arithmetic at that time (for example any different new knots in any order, if the interior knots are simple), sees every call succeed. The knots are exactly those of exact arithmetic. A value or derivative of order k computed afterwards in double precision differs from that of the original curve in exact arithmetic by at most (6p + 2 + 17t) 2^-52 (2p/h)^k M and a term for underflow, if the coordinates are at most M and different knots at least h apart: the error grows linearly with the number of insertions.", "quantifier": "all degrees up to 600, all finite clamped knot vectors on [0,1], all lists of up to 2^40 admissible finite parameters, all finite control points with coordinates up to 2^998, all parameters in [0,1], all orders k <= p; in any rounding format for the control points", "why_tests_cant": "Rounding errors of thousands of insertions cancel in any sampled session; only a bound over all lists of knots excludes that they build up exponentially.", "anchors": ["src/curve/mod.rs:insert", "src/curve/mod.rs:evaluate_derivative", "src/manipulation/insert.rs:insert"]}
{"id": "C127", "title": "The knots of a session in double precision", "statement": "A caller starts in double precision with curves whose knots are finite, sorted and clamped on [0,1] and then, in any order and number, inserts knots (once or several times), reverses, splits, merges, appends and prepends, with any constraints, whether the calls succeed or return errors. If each knot is inserted, and each split made, at a parameter above no repeated knot after the first p+1 ones, then every curve held has finite sorted knots in [0,1], whose first p+1 are exactly 0 and last p+1 exactly 1, and matching numbers of knots and control points. So evaluation of a value or derivative never panics and is an error exactly outside of [0,1] (and for NaN), and merging two such curves of equal degree never fails the checks for clamped and normed knots. The condition is needed even if no knot is ever inserted twice, because rounding makes knots coincide: merging two curves with simple knots and inserting one knot can leave unsorted knots.", "quantifier": "all sessions, all degrees, numbers of segments, finite knot vectors, control points (also infinite and NaN ones), solvers, constraints and parameters in double precision", "why_tests_cant": "The knots after a long session are rounded many times; that none of them ever leaves the order or the interval is a statement about every sequence of calls and every double.", "anchors": ["src/curve/mod.rs:insert", "src/curve/mod.rs:reverse", "src/manipulation/split.rs:split_and_normalize", "src/manipulation/merge.rs:merge_with_constraints", "src/manipulation/insert.rs:insert"]}
{"id": "C128", "title": "A knot which rounding moved into the right end", "statement": "In double precision a merge which reports success can leave p+2 knots equal to 1 (p >= 1), because halving and shifting turn a knot such as 1 - 2^-53 into 1. Every such curve with finite control points evaluates to the origin at 1, whatever its control points are, although its last control point is still the last one of the right curve.", "quantifier": "all degrees from 1, numbers of segments, finite sorted knots in [0,1] whose first p+1 are 0 and last p+2 are 1, and finite control points; the merge for all control points and solvers", "why_tests_cant": "Needs knots within a rounding error of the end of the domain; and that no choice of control points helps is a statement about all of them.", "anchors": ["src/curve/mod.rs:evaluate", "src/manipulation/merge.rs:merge"]}
{"id": "C129", "title": "The ends of a curve", "statement": "Inserting knots keeps the first and the last control point bit for bit, whether it succeeds or fails; one insertion computes at most p control points and copies the others. reverse exchanges the two end points; the halves of a split keep the outer ones, and the last control point of the left half is the first one of the right half; a merged curve starts at the first control point of the left curve and ends at the last one of the right curve, whatever the linear solver returns. In double precision the values at 0 and 1 are exactly the first and last control point, without any rounding error, if the control points are finite, exactly p+1 knots are 0 (1) and the knot differences are not too small.", "quantifier": "all degrees, numbers of segments, knot vectors (also unsorted and NaN), parameters, control points, solvers and any arithmetic for the control points; all finite clamped knots and control points in double precision for the values", "why_tests_cant": "That no rounding reaches the ends is a statement about all doubles and about every step of the recursion.", "anchors": ["src/curve/mod.rs:evaluate", "src/curve/mod.rs:reverse", "src/manipulation/insert.rs:insert", "src/manipulation/split.rs:split_and_normalize", "src/manipulation/merge.rs:merge_with_constraints"]}
{"id": "C130", "title": "The derivatives at the ends of a curve in double precision", "statement": "In double precision evaluate_derivative(0, k) is exactly the first, and evaluate_derivative(1, k) exactly the last stored control point of the k-th derivative, for every k up to the degree, if exactly p+1 knots are 0 (1), the knot differences are not too small and these control points are finite. For the first derivative each coordinate has a relative error of at most 3*2^-52 (and 2^-1075 for underflow) with respect to the exact derivative of the curve with the same knots and control points, however close neighbouring control points are to each other.", "quantifier": "all degrees up to 600, orders k, numbers of segments, clamped finite knots whose different values are at least 2^-1000 apart, and finite control points with p/h (M+1) at most 2^1000; the first part for every curve of a session (also reversed and split ones) and every binary format", "why_tests_cant": "The relative error must hold under any amount of cancellation between the first two control points.", "anchors": ["src/curve/mod.rs:evaluate_derivative", "src/curve/points/mod.rs:derive_single_point", "src/curve/basis/mod.rs:basis"]}
{"id": "C131", "title": "Values at repeated knots in double precision", "statement": "In double precision evaluate_derivative(x, k) at a knot 0 <= x < 1 of multiplicity p-k or more is exactly a stored control point of the k-th derivative: the one with index z-p, where z is the index of the last knot that is at most x. For k = 0 the curve passes through the control point of its matrix at every knot of multiplicity p or more. This holds whatever find_idx answers for the repeated knot. One consequence: a merge whose left curve has the knot 2^-1074 reports success and keeps the first control point, but the merged curve starts at the second one, because halving turned the knot into 0.", "quantifier": "all degrees up to 600, orders k up to the degree, numbers of segments, finite sorted knots in [0,1] whose first p+1 are 0 and last p+1 are 1 with different values at least 2^-1000 apart, finite control points; the first part for every curve of a session and every binary format, the merge for all control points and solvers", "why_tests_cant": "Exactness must hold for every degree, every position and multiplicity of the knot and all control points; the merge needs a subnormal knot.", "anchors": ["src/curve/mod.rs:evaluate_derivative", "src/curve/basis/mod.rs:basis", "src/curve/knots/mod.rs:find_idx", "src/manipulation/merge.rs:merge"]}
{"id": "C132", "title": "Coordinates do not influence each other", "statement": "Selecting, permuting or repeating coordinates of all points commutes with every operation: evaluate, evaluate_derivative, get_derivative_curve, reverse, insert, insert_times, split, merge with any constraints, interpolation, least-squares fits with loose and fixed ends and any penalisation, and generate, each including its errors and panics. So coordinate r of every value, derivative and control point of a result depends only on coordinate r of the points it was computed from, bit for bit: an overflow or NaN in one coordinate never reaches another one, and a 3D curve behaves like three 1D curves. The single exception is knot generation from chord-length or centripetal parameters, which mixes the coordinates.", "quantifier": "all dimensions, all selections of coordinates, all scalar arithmetics (no law is assumed, so f64 with NaN and infinities included), debug and release builds, curves in any state (also inconsistent ones), all parameters, orders, constraints and data; for merges, interpolations and fits all solvers that solve for each right-hand side separately, which SVD::solve does with any decomposition", "why_tests_cant": "The claim relates runs in all dimensions on all inputs, including non-finite ones and panicking ones.", "anchors": ["src/curve/mod.rs:evaluate_derivative", "src/manipulation/insert.rs:insert", "src/manipulation/split.rs:split", "src/manipulation/merge.rs:merge_with_constraints", "src/curve/generation/mod.rs:generate", "src/curve/points/methods/fit/fixed.rs:fit"]}
{"id": "C133", "title": "Mirroring is exact in double precision", "statement": "If the control points or data points are mirrored at coordinate planes (the sign of any chosen coordinates is changed), then every result in f64 is the mirrored result: values, derivatives, derivative curves, reversals, insertions, splits, merges with any constraints, interpolations, least-squares fits and generated curves with every knot method, including all errors and panics. The coordinates are equal in the sense of == or both NaN, so rounding, overflow and infinities behave symmetrically. With no coordinate mirrored this says that the sign of zeros in the control points never matters.", "quantifier": "all binary formats with a symmetric rounding (f64 included), dimensions, sets of mirrored coordinates, curves in any state, parameters, orders, constraints, data, debug and release builds; for merges, interpolations and fits all solvers that respect mirroring, which SVD::solve does with any decomposition", "why_tests_cant": "The claim compares two computations bit for bit on all inputs, non-finite ones included.", "anchors": ["src/curve/mod.rs:evaluate_derivative", "src/curve/points/mod.rs:derive", "src/manipulation/insert.rs:insert", "src/manipulation/split.rs:split", "src/manipulation/merge.rs:merge_with_constraints", "src/curve/generation/mod.rs:generate", "src/curve/parameters/methods.rs:chord_length"]}
{"id": "C134", "title": "Scaling by a power of two is exact", "statement": "If all control points or data points are multiplied by a power of two (of any sign of the exponent), then every result is the old result multiplied by the same power, digit for digit, in binary floating-point arithmetic of any precision, as long as exponents do not overflow or underflow: values, derivatives, derivative curves, reversals, insertions, splits, merges with any constraints, interpolations and penalised fits, with the same errors and panics. So the unit of length chosen by a caller influences no relative rounding error, if the units differ by a power of two. More generally this holds for every factor with which rounding commutes.", "quantifier": "all precisions, all powers of two, dimensions, curves in any state, knots, parameters, orders, constraints, penalisations, debug and release builds; SVD::solve with any decomposition", "why_tests_cant": "The claim compares two computations digit for digit on all inputs and for all factors.", "anchors": ["src/curve/mod.rs:evaluate_derivative", "src/curve/points/mod.rs:derive", "src/manipulation/insert.rs:insert", "src/manipulation/split.rs:split", "src/manipulation/merge.rs:merge_with_constraints", "src/curve/generation/mod.rs:generate"]}
{"id": "C135", "title": "NaN coordinates are tracked soundly", "statement": "If some coordinates of control points or data points are NaN, then every coordinate of every result either is NaN or is exactly the one that any numbers in place of the NaNs would give: values, derivatives, derivative curves, reversals, insertions, splits, merges with any constraints, interpolations and penalised fits, with the same errors and panics. So a caller may use NaN for unknown coordinates: a number in a result does not depend on them.", "quantifier": "all binary floating-point formats (f64 included), dimensions, curves in any state, sets of NaN coordinates and replacements (infinities included), parameters, orders, constraints, penalisations, debug and release builds; SVD::solve with any decomposition", "why_tests_cant": "A test samples some replacements; the claim is about all of them, and about all operations.", "anchors": ["src/curve/mod.rs:evaluate_derivative", "src/curve/points/mod.rs:derive", "src/manipulation/insert.rs:insert", "src/manipulation/split.rs:split", "src/manipulation/merge.rs:merge_with_constraints", "src/curve/generation/mod.rs:generate"]}
{"id": "C136", "title": "Cost of building and editing curves", "statement": "Building a curve of degree p with n segments makes at most S(p,n) calls of the recursive function that derives control points, where S(p,n) is the sum of (n-k+1)(2^(k+1)-1) over k = 1..p, and exactly that many if the interior knots are simple. S(p,n) lies between (n-p+1)(2^(p+1)-1) and n 2^(p+2): the cost is linear in the number of segments but exponential in the degree, although only about n p points are computed. insert_times(u, x) derives after every single insertion, at most x S(p,n+x) calls in total; a rejected call costs nothing. A split costs at most (p+2) S(p,n+p) calls.", "quantifier": "all degrees, numbers of segments, knots, control points and arithmetics (bounds; insertion and splitting: all curves whose vectors have the right lengths, as all curves of a session have); all valid curves with simple interior knots over all ordered fields (exact number)", "why_tests_cant": "A test times some sizes; the claim is a formula for all degrees and sizes.", "anchors": ["src/curve/points/mod.rs:derive_single_point", "src/curve/points/mod.rs:derive", "src/curve/mod.rs:new", "src/curve/mod.rs:insert_times", "src/manipulation/insert.rs:insert", "src/manipulation/split.rs:split_and_normalize"]}
{"id": "C137", "title": "The curves over given knots are all splines over these knots", "statement": "Take for every knot interval one polynomial of degree at most p such that at each interior knot of multiplicity m the two neighbouring polynomials have the same derivatives of the orders 0 to p-m. Then there are control points for which new builds a curve whose evaluate and evaluate_derivative return, at every parameter of [0,1] and for every order up to p, exactly the value and the derivatives of the polynomial of that interval; if no interior multiplicity exceeds p+1 these control points are unique. Conversely every curve is given by such polynomials.", "quantifier": "all degrees, knot vectors clamped on [0,1] with any interior multiplicities, all families of polynomial pieces with the stated smoothness, all dimensions, parameters and derivative orders, exact arithmetic over every ordered field", "why_tests_cant": "The claim is that nothing is missing from the space of curves: it ranges over all piecewise polynomials of the right smoothness.", "anchors": ["src/curve/mod.rs:evaluate_derivative", "src/curve/mod.rs:evaluate", "src/curve/points/mod.rs:derive", "src/curve/knots/mod.rs:evaluate"]}
{"id": "C138", "title": "Which curves can be expressed over other knots: inserting, removing and raising the degree", "statement": "A curve of degree p can be written as a curve over other clamped knots V with a degree p' >= p, with the same values on [0,1], if and only if at every interior parameter t its derivatives of the orders up to p' minus the multiplicity of t in V have the same value from both sides (evaluate_derivative gives the one from the right, the reversed curve the one from the left). All curves over the knots U have this property if and only if p <= p' and V contains every interior knot of U, at least p'-p times more often. A curve is a result of insert(t) on some curve over U if and only if it is a curve over these knots with one more t and its derivative of order p minus the former multiplicity of t does not jump at t. Curves with the same values have the same derivatives of all orders, whatever their knots and degrees are.", "quantifier": "all degrees, knot vectors clamped on [0,1] with any interior multiplicities (results of insert: up to p+1, no repeated knot below t), curves, dimensions (inclusion of all curves: d > 0), exact arithmetic over every ordered field", "why_tests_cant": "The claims quantify over the existence of control points over arbitrary other knots.", "anchors": ["src/curve/mod.rs:evaluate", "src/curve/mod.rs:evaluate_derivative", "src/curve/mod.rs:insert", "src/curve/mod.rs:reverse", "src/manipulation/insert.rs:insert"]}
{"id": "C139", "title": "Which finer knots can be reached with insert, and bringing a curve into Bezier form", "statement": "A clamped knot vector V can be reached from U by insertions that are all accepted and that never insert above a repeated interior knot if and only if every interior knot of U occurs in V at least as often, every added knot has at most multiplicity p+1 in V, and no interior knot of U below an added knot is repeated. In that case inserting the added knots in descending order succeeds, gives a curve over exactly the knots V, and keeps all values and derivatives. In particular, for a curve with simple interior knots, inserting every interior knot p-1 times in descending order succeeds, and the control points s*p, ..., s*p+p of the result (s = number of interior knots up to x) are the Bezier points of the original curve between the neighbouring knots x < y. Between any two neighbouring knots of multiplicity at least p a curve is the Bezier curve of the p+1 control points belonging to the interval.", "quantifier": "all degrees (Bezier form: p > 0), all clamped knot vectors and curves on [0,1], all numbers of insertions, all dimensions, exact arithmetic over every ordered field", "why_tests_cant": "The reachability claim ranges over all insertion sequences, and the Bezier claim over all parameters of all curves.", "anchors": ["src/curve/mod.rs:insert", "src/manipulation/insert.rs:insert", "src/curve/mod.rs:evaluate"]}
{"id": "C140", "title": "Cutting a curve into several pieces", "statement": "Splitting a curve at x1, the second part at x2, and so on for increasing parameters (each one converted to the parameter of the second part) succeeds if no knot strictly between two neighbouring cuts is repeated and no cut is a knot of multiplicity above p. It gives one piece more than there are cuts; each piece is a valid curve over the stretched knots between its two parameters, has the values of the original curve there, and its derivatives of order k are those of the curve times (y-x)^k (at the right end of a piece: the derivatives that are continuous there). So repeated knots, above which a single split fails, do no harm if the curve is cut at them first. In particular cutting any curve with interior multiplicities up to p once at each interior knot, in increasing order, always succeeds, and every piece is a Bezier curve whose p+1 control points are the Bezier points of the original curve between two neighbouring knots.", "quantifier": "all degrees, all clamped knot vectors and curves on [0,1], all numbers of cuts, all parameters, derivative orders and dimensions, exact arithmetic over every ordered field", "why_tests_cant": "The claim ranges over sequences of calls of any length on arbitrary knots, including those for which a single call fails.", "anchors": ["src/manipulation/split.rs:split", "src/curve/mod.rs:split", "src/curve/mod.rs:evaluate", "src/curve/mod.rs:evaluate_derivative"]}
{"id": "C141", "title": "Inserting and splitting from the other side avoids the failure above repeated knots", "statement": "insert(u) and split(u) fail above repeated interior knots (C81, C83). If no interior knot above u is repeated, then reverse, insert(1-u), reverse succeeds and returns a curve with exactly one more knot u and the same values and derivatives, whatever the multiplicities below u are; and reverse, split(1-u), reversing both parts gives the two parts of the curve at u. With each insertion made directly (no repeated interior knot below it) or in this way (none above it), the knots V can be reached from U if and only if every interior knot of U occurs in V at least as often, added knots have at most multiplicity p+1 in V, and each added knot has no repeated interior knot of U below it or none above it.", "quantifier": "all degrees, all clamped knot vectors and curves on [0,1] (split: interior multiplicities up to p), all parameters in (0,1), all numbers of insertions, all dimensions, exact arithmetic over every ordered field", "why_tests_cant": "The claim ranges over all knots for which the single calls fail and over all sequences of calls.", "anchors": ["src/curve/mod.rs:insert", "src/curve/mod.rs:reverse", "src/curve/mod.rs:split", "src/manipulation/insert.rs:insert", "src/manipulation/split.rs:split", "src/manipulation/reverse.rs:reverse"]}
{"id": "C142", "title": "Joining many curves: the order of merging decides", "statement": "Let clamped curves of one degree p >= 1 on [0,1] be joined by append (or prepend) in any order of merging. The outcome depends only on the numbers of control points and the order: if at every merge the right part has at least as many control points as the left part and fewer than p more, a valid curve on [0,1] results, whose number of control points is known and which starts at the first curve's start and ends at the last curve's end; otherwise the program panics. Curves with m+1 control points each can be joined in some order if and only if m <= 2p-2 or their number is a power of two. Appending them one by one in a loop panics for three or more curves; prepending r curves one by one succeeds exactly if (r-1)(m+1-p) < p.", "quantifier": "all degrees >= 1, all numbers of curves, all numbers of control points, all clamped knots on [0,1], all binary trees of merges, all dimensions, all linear solvers, exact arithmetic over every ordered field", "why_tests_cant": "The claim ranges over all numbers of curves and all orders of merging; the impossibility part says that no order works.", "anchors": ["src/curve/mod.rs:append", "src/curve/mod.rs:prepend", "src/manipulation/merge.rs:merge"]}
{"id": "C143", "title": "Cutting a curve into 2^k equal stretches and joining the pieces again", "statement": "2^k curves of degree 1 or 2 with equally many control points, each of which joins the next one with all derivatives below the degree, can be joined by append in the balanced order, and the result runs through all of them, the i-th one on [i/2^k,(i+1)/2^k], with derivatives of order j multiplied by 2^(kj). In particular a curve of degree 1 or 2 without repeated interior knots, with the same number of knots strictly inside each of the 2^k stretches, can be cut with split at i/2^k, and joining the pieces in this order gives a curve with the same values and derivatives of all orders.", "quantifier": "all k, all sizes, all clamped knots on [0,1] and control points in the named class, degrees 1 and 2, all parameters in [0,1] and derivative orders, all dimensions, every exact linear solver, exact arithmetic over every ordered field", "why_tests_cant": "The claim ranges over all numbers of pieces, knots and parameters.", "anchors": ["src/curve/mod.rs:append", "src/curve/mod.rs:split", "src/manipulation/merge.rs:merge", "src/manipulation/split.rs:split"]}
{"id": "C144", "title": "Generated parameters, knots and curves follow small movements of the points", "statement": "When every one of n+1 points moves by at most d (Euclidean distance), every chord length parameter moves by at most 2nd/L with L the length of the polygon, and every centripetal parameter by at most n*sqrt(2d)/S with S the sum of the square roots of the chords. When every parameter moves by at most e, so does every knot of the uniform, the averaging and the de Boor method. Consequently the curves which generate makes of the two sets of points with chord length parameters and averaged knots differ at t and s by at most (1+6np)d + pL|t-s| in every coordinate, and the speed of such a curve is at most p times the length of its polygon.", "quantifier": "all sizes, degrees 1<=p<=n, dimensions, points of which no two consecutive ones coincide (before and after the movement), all d, all parameters in [0,1], exact arithmetic over every ordered field with square roots", "why_tests_cant": "The bounds hold for all points and movements at once, and the factor of d does not depend on the points.", "anchors": ["src/curve/generation/mod.rs:generate", "src/curve/parameters/methods.rs:chord_length", "src/curve/parameters/methods.rs:centripetal", "src/curve/knots/methods.rs:averaging", "src/curve/knots/methods.rs:de_boor"]}
{"id": "C145", "title": "Superposition", "statement": "For any scalars x and y: if the control points of c are the combinations x P_i + y Q_i of those of a and b over the same knots, then the values and derivatives of c are the same combinations of those of a and b, and so are the control points after reverse, get_derivative_curve, insert_times, split with any flags, and merge with any constraints, each including its errors and panics: either all three calls end in the same way, or all three succeed and the results are combined. Interpolations and least-squares fits with loose or fixed ends of combined data are the combinations of those of the two data sets, and so are the curves generate makes of them.", "quantifier": "all scalars x and y, all dimensions, curves in any state (also inconsistent ones), all parameters, orders, constraints, sizes, penalties and data, every decomposition and threshold used by SVD::solve, debug and release builds, exact arithmetic over every ordered field", "why_tests_cant": "The claim ranges over all pairs of curves and all combinations of them, also for calls that fail.", "anchors": ["src/curve/mod.rs:evaluate_derivative", "src/curve/mod.rs:insert_times", "src/manipulation/split.rs:split_and_normalize", "src/manipulation/merge.rs:merge_with_constraints", "src/curve/points/methods/interpolation.rs:interpolate", "src/curve/points/methods/fit/loose.rs:fit", "src/curve/points/methods/fit/fixed.rs:fit", "src/curve/generation/mod.rs:generate"]}
{"id": "C146", "title": "What a least-squares fit keeps of its data, and what noise does to it", "statement": "With loose ends, the values of the fitted curve at the parameters have the same sum as the data points, with and without penalty; without penalty they also have the same moments, weighted with the k-th powers of the parameters, for every k up to the degree. The residuals are orthogonal to the values of every curve over the same knots that costs no penalty. The squares of the data add up to those of the values, plus the squared error, plus twice the penalty. If the data are moved, the squared distances of the two fitted curves at the parameters add up to at most the squared distances of the data. With fixed ends the residuals are orthogonal to all curves that are zero at the ends and cost no penalty, and moving inner data points moves the values by at most as much.", "quantifier": "all numbers of data points, segments, degrees and dimensions, all clamped knots and all parameters in [0,1], every penalty, all data, every solver that solves solvable systems, exact arithmetic over every ordered field; for generate all data with equally spaced parameters", "why_tests_cant": "The claims range over all pairs of data sets and over all curves as test functions; tests would need an exact solver and could only try samples.", "anchors": ["src/curve/points/methods/fit/loose.rs:fit", "src/curve/points/methods/fit/fixed.rs:fit", "src/curve/points/methods/fit/mod.rs:compute_svd", "src/curve/generation/mod.rs:generate"]}
{"id": "C147", "title": "The order of the control points is kept by computed points, without any error", "statement": "In floating-point arithmetic with rounding to nearest, infinities and NaN: take two curves over the same knots such that a coordinate of no control point of the first is above that of the corresponding control point of the second. Then at every parameter of the domain this coordinate of the computed point of the first curve is not above that of the second, unless one of them is NaN, and without any tolerance. If no control point has a negative coordinate, no computed point has one. If a coordinate of the control points never decreases from one to the next, its computed first derivative is nowhere negative. The same order holds for the control points after inserting the same knot into both curves. For f64 with a degree up to 600, knots at least 2^-1000 apart and coordinates up to 2^1000 the computed coordinates are finite numbers in the right order.", "quantifier": "all formats, degrees, numbers of control points and dimensions, all clamped vectors of finite knots in [0,1] however close, all control points including infinite ones and NaN, all parameters in [0,1]", "why_tests_cant": "The claim is exact: a single violation by one unit in the last place would break it, and the pairs of curves and parameters are too many to try.", "anchors": ["src/curve/mod.rs:evaluate", "src/curve/basis/mod.rs:evaluate", "src/manipulation/insert.rs:insert", "src/curve/mod.rs:Curve::evaluate_derivative"]}
{"id": "C148", "title": "One bad coordinate spoils a whole fit, and no error is reported", "statement": "In f64, let coordinate r of a single data point be NaN or infinite. Then interpolation and least-squares fits with loose ends return Ok with a curve whose coordinate r is NaN or infinite in every control point and at every parameter in [0,1]; a fit with fixed ends keeps the first and the last data point as ends and has a coordinate r that is NaN or infinite in every inner control point and at every parameter. The only other outcome is that nalgebra cuts off all singular values, which gives zero control points. In a fit with fixed ends the accumulator of the constant terms is reset by a multiplication with zero, so a constant term that overflows, even with finite data, makes all later constant terms NaN.", "quantifier": "all numbers of data points (up to 2^50 for generate), degrees, segments, dimensions, coordinates and penalisations, all positions of the bad coordinate, all orders of summation in matrix products, all singular value decompositions of the right shape and thresholds, all parameters in [0,1]", "why_tests_cant": "A test fixes one data set and one place for the bad value; that no place and no decomposition lets a finite coordinate through needs a proof over all of them.", "anchors": ["src/curve/points/methods/fit/loose.rs:fit", "src/curve/points/methods/fit/fixed.rs:fit", "src/curve/points/methods/interpolation.rs:interpolate", "src/curve/generation/mod.rs:generate"]}
{"id": "C149", "title": "Curves and planes", "statement": "A hyperplane contains a curve if and only if it contains all its control points; the curve and its control points span the same affine subspace, so that a curve is a point, straight or planar exactly if its control points are. The same holds for the stretch over a single knot span and the p+1 control points that act on it. If a hyperplane meets the curve at more than p parameters of one knot span, it contains these p+1 control points and the whole stretch; a hyperplane that contains no stretch meets the curve at no more than p parameters per knot span.", "quantifier": "all degrees, numbers of control points and dimensions, all clamped knots (interior multiplicities at most p+1 for the statements about the whole curve), all control points, all hyperplanes, all finite sets of parameters in [0,1]", "why_tests_cant": "The claims are equivalences over all hyperplanes and over infinitely many parameters; a test evaluates finitely many points of one curve.", "anchors": ["src/curve/mod.rs:evaluate", "src/curve/mod.rs:new", "src/curve/basis/mod.rs:evaluate"]}
{"id": "C150", "title": "Backward stability of evaluation in f64", "statement": "In f64 the point that evaluate returns is, without any error, the point at the same parameter of a curve over the same knots whose control points differ from the given ones in every coordinate by at most the fraction (6p+2) 2^-52 of that coordinate, plus an amount of the order of the smallest positive number. Consequently the error of a coordinate is bounded by the same fraction of the curve through the absolute values of the control points, only the control points whose knots reach to the parameter matter for its size, and a coordinate in which no control point is negative has a small relative error. With control points of both signs the relative error can be 1, and the absolute amount cannot be omitted.", "quantifier": "all degrees up to 600, numbers of control points and dimensions, all clamped knots that are finite numbers with different ones at least 2^-1000 apart, all finite control points whose active ones are at most 2^1000, all parameters in [0,1]; more generally all binary formats with enough room", "why_tests_cant": "It is a bound on rounding errors over all inputs, relative to each coordinate; tests compare a few values with a fixed tolerance and would not notice the loss of relative accuracy in a small coordinate.", "anchors": ["src/curve/mod.rs:evaluate", "src/curve/mod.rs:evaluate_derivative", "src/curve/basis/mod.rs:evaluate"]}
{"id": "C151", "title": "Total positivity and alternating data", "statement": "No minor of the matrix of values of basis functions at increasing parameters is negative; at strictly increasing parameters a minor is positive exactly if none of the chosen basis functions vanishes at its parameter, and zero otherwise; in particular this holds for the determinant of an interpolation problem, and a curve of which only some control points are unknown is determined by as many values exactly under this condition. Consequently a curve that is determined by its values at given parameters and whose values alternate in sign in a coordinate has control points that alternate in sign in this coordinate; a single datum different from zero makes all control points alternate; and of all data of a given size the alternating ones need the largest control points, one by one. generate with interpolation turns alternating data into alternating control points.", "quantifier": "all degrees including 0, all clamped knots, all numbers and choices of rows and columns of the matrix, all parameters in [0,1] in increasing order (strictly for the determinant and the data), all data; an exact linear solver for generate", "why_tests_cant": "There are exponentially many minors of matrices of unbounded size over a continuum of parameters; the bound on the control points ranges over all data.", "anchors": ["src/curve/knots/mod.rs:evaluate", "src/curve/basis/mod.rs:basis", "src/curve/points/methods/interpolation.rs:interpolate", "src/curve/generation/mod.rs:generate"]}
{"id": "C152", "title": "Curves that move forward", "statement": "If every control point lies further in some direction than the one before it, then so do the points of the curve, strictly: the curve passes no point twice and its derivative is nowhere zero. Quantitatively, in every direction the curve moves at least as fast as the slowest and at most as fast as the fastest control point of its derivative, between any two parameters, even where the curve jumps or has corners, and the derivative itself is bounded below in the same way. Over the reals, if no inner knot occurs more than p times, every plane across the direction between the first and the last control point is met at exactly one parameter.", "quantifier": "all degrees of at least 1, all clamped knots, all control points, all directions, all speeds, all pairs of parameters in [0,1]", "why_tests_cant": "Strict monotonicity and injectivity range over all pairs of parameters of a continuum, and the speed over all curves; a test compares finitely many points.", "anchors": ["src/curve/mod.rs:evaluate", "src/curve/mod.rs:evaluate_derivative", "src/curve/knots/mod.rs:evaluate"]}
{"id": "C153", "title": "How well sampled points describe a curve", "statement": "Connecting points of the curve by straight lines deviates from the curve by no more than the stored derivatives allow. If the control points of the first derivative lie between lo and hi in a coordinate, a chord from parameter a to b deviates, at the fraction s, by at most (hi - lo) s (1 - s) (b - a). If those of the second derivative lie between lo and hi, the chord minus the curve lies between lo s (1 - s) (b - a)^2 / 2 and hi s (1 - s) (b - a)^2 / 2. Hence the polyline through the points at the multiples of 1/N is in every coordinate within b/(2N), respectively b/(8N^2), of the curve when b bounds the control points of the derivative. The last bound is attained by the parabola for every N. In double precision, lines between computed points are within the same second-order bound plus the rounding error of one evaluation of the exact curve.", "quantifier": "all degrees of at least 1 (2), all clamped knots whose inner knots occur at most p (p - 1) times, all control points, all chords, all fractions, all numbers of samples", "why_tests_cant": "The bound holds at every parameter between the samples, for every curve and every number of samples; a test evaluates finitely many.", "anchors": ["src/curve/mod.rs:evaluate", "src/curve/points/mod.rs:matrix_derivative"]}
{"id": "C154", "title": "Comparing points and results with ==", "statement": "== on ControlPoints compares the control points, those of all stored derivatives and the number of these. In exact arithmetic it is equality. In f64 it is symmetric and transitive, and control points equal themselves exactly if no stored coordinate is NaN. The control points in a curve of degree at least 1 never equal the ControlPoints that were handed to Curve::new, since they carry the derivatives. Curves over the same knots made from equal points have equal control points exactly if no stored coordinate is NaN, which two infinite coordinates may produce. Equal control points are interchangeable: over the same knots they give the same errors and panics, and values and derivatives that are equal or NaN in the same coordinates. Reversing points twice gives equal points exactly if there is no NaN. A result of evaluate or evaluate_derivative equals itself exactly if the parameter is not NaN and no coordinate of the result is. Every error that insert, insert_times, split or a merging function returns equals itself: none is returned for NaN.", "quantifier": "all control points in any state, data points, curves, knots, parameters and orders; all binary floating-point formats, f64 included; exact arithmetic for the first claim", "why_tests_cant": "Equality involves every stored coordinate of every derivative, and NaN arises from infinities in combinations that a test would have to guess; interchangeability ranges over all pairs of equal curves and all parameters.", "anchors": ["src/curve/points/mod.rs:ControlPoints", "src/curve/points/mod.rs:DataPoints", "src/curve/mod.rs:CurveError", "src/curve/mod.rs:evaluate_derivative", "src/manipulation/insert.rs:InsertError", "src/manipulation/split.rs:SplitError", "src/manipulation/merge.rs:MergeError"]}
{"id": "C155", "title": "The curve turns around no more often than its control polygon", "statement": "In every direction, the points of the curve at increasing parameters turn from going forward to going backward at most as often as the control points, and their way back and forth is not longer. The same holds for the values of evaluate_derivative and the stored control points of that derivative, which also change their sign at least as often as the values. The first derivative changes its sign in a direction at most as often as the control polygon turns around in it. insert_times and split (the two parts joined) add no turns to the control polygon, if no interior knot below the parameter is repeated; above a repeated knot an insertion can add turns.", "quantifier": "all valid curves of degree >= 1, all finite increasing lists of parameters in [0,1], all directions; derivatives of order k < p, the first one for p >= 2; all insertions up to multiplicity p + 1 and all splits under that condition", "why_tests_cant": "Ranges over all control polygons, all knots with any multiplicities and all samples of parameters of any number; a wiggle could hide between the parameters of a test.", "anchors": ["src/curve/mod.rs:evaluate", "src/curve/mod.rs:evaluate_derivative", "src/curve/points/mod.rs:matrix_derivative", "src/manipulation/insert.rs:insert", "src/manipulation/split.rs:split"]}
{"id": "C156", "title": "Exactly when a penalised fit is unique", "statement": "For a least-squares fit with a positive penalty on the differences of order kappa, increasing parameters in [0,1] and an exact solver: the returned control points are the only ones with the smallest cost if and only if one can choose kappa basis functions and kappa parameters, both in increasing order, such that no function vanishes at its parameter. For fixed ends the same holds among the control polygons with these ends, with the inner functions, the inner parameters and the penalty on the inner control points. The choice is always possible if kappa is at most p + 1 (loose ends) or at most p (fixed ends), so the fit is then unique however badly the parameters are distributed; beyond that it can fail.", "quantifier": "all degrees p >= 1, clamped knots accepted by the fit, increasing parameters, data sets, dimensions, lambda > 0 and orders 1 <= kappa < n (kappa <= n - 2 for fixed ends)", "why_tests_cant": "Uniqueness is a statement about all other control polygons, and the condition ranges over all distributions of the parameters and all orders of the penalty.", "anchors": ["src/curve/points/methods/fit/loose.rs:fit", "src/curve/points/methods/fit/fixed.rs:fit", "src/curve/points/methods/fit/mod.rs:difference_operator", "src/curve/points/methods/fit/mod.rs:Penalization"]}
{"id": "C157", "title": "Which curves a penalised fit reproduces", "statement": "If a penalised least-squares fit passes all its data points (with fixed ends: all inner ones), then its own (inner) control points cost no penalty. So samples at g/m of a curve over the uniform knots are reproduced by a fit with lambda > 0 if and only if the (inner) control points of the curve have no differences of order kappa. In particular equidistant points on a straight line are in general not reproduced, whatever kappa is: with loose ends the fit is the line exactly if kappa >= 2 and (p = 1 or n = p), with fixed ends exactly if kappa >= 2 and (p <= 2 or n <= p + 1 or kappa is the largest possible order n - 2 and even).", "quantifier": "all degrees p >= 1, numbers of segments p <= n <= m, data sets, dimensions, curves over the uniform knots, lambda > 0, 1 <= kappa < n (fixed ends: kappa <= n - 2), all straight lines; exact arithmetic and solver", "why_tests_cant": "A test shows one fit that misses its line by an amount which looks like rounding for small lambda; that reproduction fails for all degrees, segments and lambda, and where exactly it holds, is a statement about all of them.", "anchors": ["src/curve/points/methods/fit/loose.rs:fit", "src/curve/points/methods/fit/fixed.rs:fit", "src/curve/points/methods/fit/mod.rs:difference_operator", "src/curve/generation/mod.rs:generate"]}
{"id": "C158", "title": "Data points influence a fit symmetrically and pull it along", "statement": "The map from the data points of a least-squares fit with loose ends to its values at the parameters of the data is symmetric. So moving data point a by a vector changes the value at the parameter of data point b exactly as moving data point b by that vector changes the value at the parameter of a; with fixed ends the same holds for inner data points. If data points move (with fixed ends: inner ones), the scalar products of their motions with the motions of the values add up to the squared motions of the values plus the penalty of the difference of the (inner) control polygons. So a single moved data point pulls the curve in its own direction, and the squared motions of all values are at most the scalar product of the two motions at that point.", "quantifier": "all degrees p >= 1, clamped knots, parameters in [0, 1], data sets of equal length, dimensions, penalties with lambda >= 0 for which the fits succeed, all pairs of data points and all motions; exact arithmetic and solver", "why_tests_cant": "A test moves a few points of one data set; that the influences agree for each pair of points, with any parameters, knots and penalty, is a statement about the solution operator as a whole.", "anchors": ["src/curve/points/methods/fit/loose.rs:fit", "src/curve/points/methods/fit/fixed.rs:fit", "src/curve/points/methods/fit/mod.rs:difference_operator", "src/curve/generation/mod.rs:generate"]}
