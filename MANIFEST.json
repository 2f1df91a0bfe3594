{"claims": [
{"property": "C01", "status": "proved", "theorems": ["BSpline.C01_partition_of_unity"], "note": "All clamped knot vectors, all degrees, all u in [0,1], every derivative order of the knot vector."},
{"property": "C02", "status": "proved", "theorems": ["BSpline.C02_between_zero_and_one"], "note": "Basis values in [0,1] for every clamped vector."},
{"property": "C03", "status": "proved", "theorems": ["BSpline.C03_local_support", "BSpline.C03_active_functions"], "note": "Support and set of active functions, arbitrary multiplicities."},
{"property": "C04", "status": "proved", "theorems": ["BSpline.C04_documented_formula", "BSpline.C04_evaluate"], "note": "Cox-de Boor recursion with the 0/0=0 convention made explicit; C04_evaluate states it for Knots::evaluate on the knots of every derivative order and for every u, inside or outside the domain."},
{"property": "C05", "status": "proved", "theorems": ["BSpline.C05_full_sum"], "note": "The truncated sum over active functions equals the full sum."},
{"property": "C06", "status": "proved", "theorems": ["BSpline.C06_evaluation_total", "BSpline.C06_nan_rejected"], "note": "Law-free: holds for every scalar type with arbitrary comparisons, so also for IEEE doubles; NaN stand-in covered."},
{"property": "C07", "status": "proved", "theorems": ["BSpline.C07_endpoints"], "note": "Endpoints of every clamped curve."},
{"property": "C08", "status": "proved", "theorems": ["BSpline.C08_convex_hull", "BSpline.C08_bounding_box"], "note": "Value is a convex combination of p+1 consecutive control points, with the weights exhibited."},
{"property": "C09", "status": "proved", "theorems": ["BSpline.C09_affine_invariance"], "note": "Affine maps of the control points commute with evaluation."},
{"property": "C10", "status": "proved", "theorems": ["BSpline.C10_local_control"], "note": "Changing control points outside the active window leaves the value unchanged."},
{"property": "C11", "status": "proved", "theorems": ["BSpline.C11_right_derivative", "BSpline.C11_left_derivative_at_one", "BSpline.C11_derivative_between_knots", "BSpline.C11_derivative_within"], "note": "Derivatives over the reals (HasDerivWithinAt), right-sided at knots, left-sided at 1."},
{"property": "C12", "status": "proved", "theorems": ["BSpline.C12_continuous", "BSpline.C12_contDiffOn", "BSpline.C12_simple_knots"], "note": "Continuity of order p - multiplicity at every knot, ContDiffOn on the whole interval."},
{"property": "C13", "status": "partial", "theorems": ["BSpline.C13_derivative_curve_partial", "BSpline.C13_derivative_curve_unusable", "BSpline.C13_full_false", "BSpline.C13_order_too_high", "BSpline.C13_full_iff"], "note": "Full statement is false for k<p (C13_full_false): the derivative curve panics on use. C13_full_iff: it holds exactly for k = p."},
{"property": "C14", "status": "partial", "theorems": ["BSpline.C14_new_error_iff", "BSpline.C14_constructed_partial", "BSpline.C14_one_knot_short", "BSpline.C14_full_false", "BSpline.C14_knots_iff", "BSpline.C14_too_few_knots", "BSpline.C14_enough_knots", "BSpline.C14_usable_iff", "BSpline.C14_extra_knots", "BSpline.C14_weights_partial", "BSpline.C14_weights_false"], "note": "Full statement is false (C14_full_false): lengths that do not match are accepted; partial for matching lengths. The exact picture for p >= 1, in any arithmetic: C14_too_few_knots (construction panics), C14_one_knot_short (every evaluation panics), C14_enough_knots, together C14_usable_iff. C14_extra_knots: surplus knots act like control points at the origin. C14_knots_iff: Knots::new succeeds exactly with at least 2p knots. Weights: C14_weights_partial (clamped knots: weights depend only on the knots, are non-negative, sum to one); C14_weights_false: for unsorted knots, which the constructor accepts, they sum to 2."},
{"property": "C15", "status": "partial", "theorems": ["BSpline.C15_insert_preserves_partial", "BSpline.C15_full_false"], "note": "Full statement is false (C15_full_false): find_idx stops at a repeated knot below u. Proved when no interior knot below u is repeated. C81_kept_iff shows the restriction is exact: over knots with interior multiplicities <= p, insert(u) keeps all curves iff no interior knot below u is repeated (C81_changed gives the control points and the parameters where it does not)."},
{"property": "C16", "status": "partial", "theorems": ["BSpline.C16_insert_adds_knot_partial", "BSpline.C16_full_false", "BSpline.C16_sorted_iff"], "note": "Same restriction as C15, counterexample C16_full_false. C16_sorted_iff shows the restriction is exact: after a successful insertion the knot vector is sorted iff no interior knot below u is repeated."},
{"property": "C17", "status": "proved", "theorems": ["BSpline.C17_insert_total", "BSpline.C17_insert_errors_exact"], "note": "Law-free totality plus exact error conditions."},
{"property": "C18", "status": "partial", "theorems": ["BSpline.C18_insert_times_partial", "BSpline.C18_error_leaves_insertions", "BSpline.C18_out_of_bounds", "BSpline.C18_full_false", "BSpline.C18_insert_times", "BSpline.C18_error_unchanged_iff", "BSpline.C18_unchanged_iff", "BSpline.C18_error_iff"], "note": "The Ok part is proved for every curve with matching counts and without scalar laws (C18_insert_times). The Err part of the claim is false for the code: an error in the middle leaves the insertions made before it. C18_error_unchanged_iff and C18_unchanged_iff say exactly when an error leaves the curve unchanged; C18_error_iff says exactly when an error is returned."},
{"property": "C19", "status": "proved", "theorems": ["BSpline.C19_order", "BSpline.C19_two", "BSpline.C19_insertions_commute"], "note": "Restriction as in C15. C19_insertions_commute: two fresh knots over simple knots; C19_order: any number of insertions; C19_two: knots with repetitions. An example shows that the lower knot must be new."},
{"property": "C20", "status": "partial", "theorems": ["BSpline.C20_outside_hull", "BSpline.C20_iff", "BSpline.C20_convex_combination_partial", "BSpline.C20_ends_partial", "BSpline.C20_full_false"], "note": "Same restriction as C15; counterexample C20_full_false. C20_iff: the restriction is exact, insertion forms convex combinations for all control points if and only if no interior knot below u is repeated. The ends are unchanged by every insertion, without the restriction: C129_insert_times."},
{"property": "C21", "status": "proved", "theorems": ["BSpline.C21_any_curve", "BSpline.C21_reverse_involutive"], "note": "Every curve value whose caches are present (C21_any_curve), whatever the knots, points and dimensions; knots over ordered fields (1-(1-x)=x needs exact arithmetic), control points in any arithmetic."},
{"property": "C22", "status": "proved", "theorems": ["BSpline.C22_reverse_iff_continuous", "BSpline.C22_reverse_iff_multiplicity", "BSpline.C22_reverse_geometry", "BSpline.C22_reverse_points", "BSpline.C22_reverse_left_limit", "BSpline.C22_everywhere_false"], "note": "C22_reverse_iff_continuous (over the reals): the reversed curve satisfies the formula at u if and only if the k-th derivative is continuous at 1-u. C22_reverse_geometry and C22_reverse_iff_multiplicity: over any ordered field, for all curves iff the multiplicity of 1-u is at most p-k. C22_everywhere_false and C22_reverse_left_limit: what happens where the derivative jumps."},
{"property": "C23", "status": "proved", "theorems": ["BSpline.C23_reverse_coherent", "BSpline.C23_reverse_valid"], "note": "Derivative caches after reverse equal those of the curve built from the reversed data."},
{"property": "C24", "status": "partial", "theorems": ["BSpline.C24_split_left_partial", "BSpline.C24_split_right_partial", "BSpline.C24_split_points_partial", "BSpline.C24_split_left_limit_partial", "BSpline.C24_full_false"], "note": "Full statement is false (C24_full_false): find_idx stops at a repeated interior knot, so a split above one returns garbage. Proved for all splits above simple knots, including the value at the split point (left limits). C83 shows that this region is exactly where the claim holds."},
{"property": "C25", "status": "partial", "theorems": ["BSpline.C25_split_knots_partial", "BSpline.C25_split_valid_partial", "BSpline.C25_full_false"], "note": "Full statement is false (C25_full_false), same cause as C24. Proved above simple knots. C83 shows that this region is exactly where the claim holds."},
{"property": "C26", "status": "partial", "theorems": ["BSpline.C26_out_of_bounds", "BSpline.C26_split_errors_partial", "BSpline.C26_full_false"], "note": "Full statement is false: a split above a repeated knot can panic (C26_full_false). Out-of-range errors are proved for any arithmetic; the exact error condition and absence of panics above simple knots. C83 shows that this region is exactly where the claim holds."},
{"property": "C27", "status": "partial", "theorems": ["BSpline.C27_unnormalized_partial", "BSpline.C27_full_false"], "note": "Full statement is false (C27_full_false), same cause as C24. Proved above simple knots. C83 shows that this region is exactly where the claim holds."},
{"property": "C28", "status": "proved", "theorems": ["BSpline.C28_degree", "BSpline.C28_dimension", "BSpline.C28_errors"], "note": "All five error cases in order of precedence for every pair of curves and constraint lists over an ordered field; any other error is a failed construction of the result. Degree and dimension mismatch are also proved without any law of arithmetic."},
{"property": "C29", "status": "partial", "theorems": ["BSpline.C29_outcome_partial", "BSpline.C29_valid_partial", "BSpline.C29_panics", "BSpline.C29_full_false"], "note": "False as claimed: for valid curves with m+1 and o+1 control points merging returns Ok exactly if m <= o < m+p and panics for all other sizes; proved for all sizes without laws of arithmetic."},
{"property": "C30", "status": "partial", "theorems": ["BSpline.C30_knots", "BSpline.C30_halves_partial", "BSpline.C30_full_false"], "note": "Knot vector: proved for all accepted sizes and any solver (C30_knots). Halves: proved for all degrees and any solver if the right curve has at most one control point more than the left one (C30_halves_partial); false otherwise (C30_full_false: the adjustment of the middle control points then overwrites points of the right curve). C82 shows that this region is exactly where the claim holds."},
{"property": "C31", "status": "partial", "theorems": ["BSpline.C31_nearest_partial", "BSpline.C31_points_partial", "BSpline.C31_already_partial", "BSpline.C31_full_false"], "note": "Assumes an exact linear solver (exists: exists_exact_solver). Proved for degree 1 and 2 and equal sizes, with minimality and uniqueness, and for all degrees and accepted sizes for the outer control points. False for degree 3 (C31_full_false): adjust_shifted_control_points pushes the control point twice, so the middle control points are wrong. C80 shows that the restriction on degree and sizes is exact."},
{"property": "C32", "status": "partial", "theorems": ["BSpline.C32_split_merge_partial", "BSpline.C32_full_false"], "note": "Proved for degree 1 and 2 with all derivatives (repeated knots below the middle excluded, as split itself fails there). False for degree 3 (C32_full_false), for the same reason as C31. See C80 for all degrees >= 3."},
{"property": "C33", "status": "partial", "theorems": ["BSpline.C33_full_false", "BSpline.C33_constraints_partial", "BSpline.C33_from_to_partial", "BSpline.C33_linear"], "note": "Proved for degree 1 and 2 and equal sizes, all constraint lists that merging accepts; merge_from and merge_to are always rejected for degree 1 (C33_linear). False for degree 3 (C33_full_false), for the same reason as C31. C82 shows that this region is exactly where the claim holds."},
{"property": "C34", "status": "partial", "theorems": ["BSpline.C34_append_prepend", "BSpline.C34_constrained_partial", "BSpline.C34_equal_constraints_partial", "BSpline.C34_unconstrained", "BSpline.C34_full_false"], "note": "append/prepend mirror each other for all inputs. False for the constrained versions: prepend_constrained attaches each constraint list to the other curve; what it does instead is proved, with a counterexample to the claim."},
{"property": "C35", "status": "proved", "theorems": ["BSpline.C35_uniform"], "note": "All p>=1, n>=p: closed form of every entry, sorted, clamped, normed, equal spacing of interior knots."},
{"property": "C36", "status": "proved", "theorems": ["BSpline.C36_averaging"], "note": "Closed form for all parameter lists; sorted/clamped for non-decreasing parameters."},
{"property": "C37", "status": "proved", "theorems": ["BSpline.C37_de_boor_value", "BSpline.C37_de_boor"], "note": "Closed form with exact truncation (LawfulTrunc); strictly increasing interior for strictly increasing parameters."},
{"property": "C38", "status": "proved", "theorems": ["BSpline.C38_uniform", "BSpline.C38_averaging", "BSpline.C38_de_boor_errors", "BSpline.C38_de_boor"], "note": "Error cases law-free; success of every generator on valid input, de_boor with lawful truncation."},
{"property": "C39", "status": "partial", "theorems": ["BSpline.C39_equally_spaced", "BSpline.C39_chord_length", "BSpline.C39_centripetal_build", "BSpline.C39_centripetal_release", "BSpline.C39_centripetal_partial", "BSpline.C39_centripetal_tiny_panics", "BSpline.C39_centripetal_full_false"], "note": "chord_length and equally_spaced in full; centripetal in full for builds without debug assertions (C39_centripetal_release); in debug builds partial because a debug_assert rejects sequences whose sum of roots is below 2^-26 (C39_centripetal_full_false)."},
{"property": "C40", "status": "proved", "theorems": ["BSpline.C40_interpolation"], "note": "For every solver that solves solvable systems; solvability itself is proved (C41), so the statement is unconditional for all data."},
{"property": "C41", "status": "proved", "theorems": ["BSpline.C41_regular"], "note": "Through the Schoenberg-Whitney theorem, proved here from knot insertion and sign changes."},
{"property": "C42", "status": "proved", "theorems": ["BSpline.C42_loose_optimal", "BSpline.C42_generate"], "note": "For every solver that solves solvable systems (the normal equations are proved solvable); law-free shape in C44."},
{"property": "C43", "status": "proved", "theorems": ["BSpline.C43_fixed_optimal", "BSpline.C43_generate"], "note": "Optimality over polygons with the same ends; the penalty acts on the inner control points, as in the code."},
{"property": "C44", "status": "partial", "theorems": ["BSpline.C44_loose", "BSpline.C44_fixed_partial", "BSpline.C44_fixed_panics", "BSpline.C44_full_false", "BSpline.C44_degree_zero_panics", "BSpline.C44_generate_loose", "BSpline.C44_generate_fixed_partial", "BSpline.C44_generate_knots_error", "BSpline.C44_loose_degree_zero", "BSpline.C44_fixed_degree_zero"], "note": "Loose ends: full, for all scalars and solvers, degree >= 1. Fixed ends: C44_fixed_partial needs n >= 2 and kappa <= n-2; C44_fixed_panics proves that all other accepted inputs panic; C44_full_false is a concrete counterexample. Degree 0, which fit accepts with hand-made knots: C44_loose_degree_zero and C44_fixed_degree_zero give the exact panic condition, and the documented error or n+1 points otherwise."},
{"property": "C45", "status": "proved", "theorems": ["BSpline.C45_loose", "BSpline.C45_fixed", "BSpline.C45_polynomial"], "note": "For kappa >= 1; kappa = 0 gives the zero matrix in the code (no penalty)."},
{"property": "C46", "status": "partial", "theorems": ["BSpline.C46_never_panics_partial", "BSpline.C46_left", "BSpline.C46_right", "BSpline.C46_left_or_equal_partial", "BSpline.C46_right_or_equal_partial", "BSpline.C46_right_or_equal_panics", "BSpline.C46_left_or_equal_wrong", "BSpline.C46_right_or_equal_wrong", "BSpline.C46_full_false", "BSpline.C46_left_or_equal_iff", "BSpline.C46_right_or_equal_iff", "BSpline.C46_panics_iff"], "note": "The full claim is false for the or-equal searches: they stop at repeated knots. C46_left_or_equal_iff and C46_right_or_equal_iff give the exact condition under which each returns the span the documentation promises, C46_panics_iff the exact condition for a panic, in any arithmetic."},
{"property": "C47", "status": "proved", "theorems": ["BSpline.C47_never_panics", "BSpline.C47_find_index"], "note": "All sorted knot vectors, all u; absence of panics law-free."},
{"property": "C48", "status": "partial", "theorems": ["BSpline.C48_accessors", "BSpline.C48_segments_derivative_partial", "BSpline.C48_segments_derivative_panics", "BSpline.C48_segments_derivative_full_false", "BSpline.C48_segments_derivative_release"], "note": "Accessors in full; segments_derivative(k) in full for release builds (C48_segments_derivative_release); in debug builds partial, because it panics exactly for 2k > p + 2 (C48_segments_derivative_panics, C48_segments_derivative_full_false)."},
{"property": "C49", "status": "partial", "theorems": ["BSpline.C49_normalize_vector", "BSpline.C49_rescale_vector", "BSpline.C49_rescale_commutes", "BSpline.C49_normalize_commutes_partial", "BSpline.C49_normalize_commutes_full_false", "BSpline.C49_geometry", "BSpline.C49_normalize_commutes_iff"], "note": "Vector level in full; rescale always commutes with derivation; geometry of rescaled curves with derivative scaling. That normalize commutes with derivation is false as claimed (C49_normalize_commutes_full_false); C49_normalize_commutes_iff: for sorted knots with a domain of positive length it holds if and only if the knots are clamped."},
{"property": "C50", "status": "proved", "theorems": ["BSpline.C50_is_sorted", "BSpline.C50_is_clamped", "BSpline.C50_is_normed", "BSpline.C50_is_uniform", "BSpline.C50_is_uniform_degree_zero", "BSpline.C50_valid"], "note": "Each predicate is equivalent to its mathematical meaning for every non-empty vector over a linear order."},
{"property": "C51", "status": "proved", "theorems": ["BSpline.C51_histories_never_panic", "BSpline.C51_histories_errors_exact"], "note": "Law-free, via a shape invariant. Splits that return are covered; a split itself can panic (see C26)."},
{"property": "C52", "status": "proved", "theorems": ["BSpline.C52_history_even", "BSpline.C52_history_odd", "BSpline.C52_history_backwards"], "note": "Even and odd numbers of reversals; failing insertions allowed as steps too."},
{"property": "C53", "status": "partial", "theorems": ["BSpline.C53_new", "BSpline.C53_evaluate", "BSpline.C53_reverse", "BSpline.C53_insert_partial", "BSpline.C53_insert_times_partial", "BSpline.C53_split_partial", "BSpline.C53_full_false", "BSpline.C53_insert_iff"], "note": "Scalars with an explicit NaN (every division by zero yields NaN): new, evaluate (all derivatives) and reverse agree with exact arithmetic for ALL curves, so they never divide by zero. The full claim is false: inserting above an interior knot of multiplicity p+1 divides by zero (C53_full_false). C53_insert_iff is the exact condition for insert: u is refused, or the first repeated interior knot below u has multiplicity <= p. insert_times and split_and_normalize are proved if the interior knots below u are simple."},
{"property": "C54", "status": "partial", "theorems": ["BSpline.C54_evaluate_partial", "BSpline.C54_insert_accepts", "BSpline.C54_split_accepts", "BSpline.C54_full_false"], "note": "evaluate rejects NaN for every curve and derivative. The claim is false for insert and split: both return Ok for EVERY curve with matching counts (C54_insert_accepts, C54_split_accepts)."},
{"property": "C55", "status": "proved", "theorems": ["BSpline.C55_control_points_unique"], "note": "Uniqueness for interior multiplicity at most p+1 (necessity shown by an example)."},
{"property": "C56", "status": "proved", "theorems": ["BSpline.C56_data_points_reverse", "BSpline.C56_control_points_reverse"], "note": "Law-free."},
{"property": "C57", "status": "proved", "theorems": ["BSpline.C57_schoenberg_whitney", "BSpline.C57_determined", "BSpline.C57_averaging"], "note": "Proved for all degrees, sizes and clamped knots on [0,1]; C57_averaging covers knots made by averaging strictly increasing parameters."},
{"property": "C58", "status": "proved", "theorems": ["BSpline.C58_loose_unique", "BSpline.C58_fixed_unique"], "note": "Penalties included: uniqueness already follows from the data term."},
{"property": "C59", "status": "proved", "theorems": ["BSpline.C59_interpolation_reproduces", "BSpline.C59_loose_reproduces", "BSpline.C59_fixed_reproduces"], "note": "Fixed ends need n >= 2 (one segment panics, see C44)."},
{"property": "C60", "status": "proved", "theorems": ["BSpline.C60_too_few_points", "BSpline.C60_degree_zero_uniform", "BSpline.C60_no_points", "BSpline.C60_manual_knots", "BSpline.C60_uniform", "BSpline.C60_method", "BSpline.C60_full_false"], "note": "The property describes what the code does; C60_full is the stronger reading that the degree argument is the degree of the curve, refuted by C60_full_false."},
{"property": "C61", "status": "proved", "theorems": ["BSpline.C61_polar_forms", "BSpline.C61_polynomials", "BSpline.C61_linear_precision", "BSpline.C61_marsden"], "note": "All clamped knots on [0,1], all degrees; C61_linear_precision is an equivalence."},
{"property": "C62", "status": "proved", "theorems": ["BSpline.C62_corner_cutting", "BSpline.C62_variation_diminishing"], "note": "Degree >= 1; degree-zero curves are step functions."},
{"property": "C63", "status": "proved", "theorems": ["BSpline.C63_monotone", "BSpline.C63_monotone_coordinate"], "note": "Any direction, and single coordinates."},
{"property": "C64", "status": "proved", "theorems": ["BSpline.C64_length"], "note": "Euclidean length with a square root satisfying its two laws (LawfulSqrt)."},
{"property": "C65", "status": "proved", "theorems": ["BSpline.C65_insert_reverse", "BSpline.C65_split_reverse", "BSpline.C65_split_split"], "note": "Equalities of curves including cached derivatives; interior knots other than the parameter simple, because find_idx mishandles repeated ones."},
{"property": "C66", "status": "proved", "theorems": ["BSpline.C66_edit_succeeds", "BSpline.C66_points_live", "BSpline.C66_derivatives_stale", "BSpline.C66_derive_refreshes", "BSpline.C66_set_point", "BSpline.C66_merge_live", "BSpline.C66_reverse", "BSpline.C66_stale_is_wrong"], "note": "Law-free. C66_stale_is_wrong shows that the stale derivative differs from the right one."},
{"property": "C67", "status": "proved", "theorems": ["BSpline.C67_edit_succeeds", "BSpline.C67_knots_live", "BSpline.C67_derivatives_stale", "BSpline.C67_derive_refreshes", "BSpline.C67_stale_is_wrong"], "note": "Law-free. C67_stale_is_wrong shows that the stale derivative differs from the right one. Merging after a knot edit is not covered: it reads the stale derivative knot vectors."},
{"property": "C68", "status": "proved", "theorems": ["BSpline.C68_basis", "BSpline.C68_partition"], "note": "Standard model of rounding, unbounded exponent range; f64 is the instance Rounding.binary 52."},
{"property": "C69", "status": "proved", "theorems": ["BSpline.C69_derivative", "BSpline.C69_evaluate", "BSpline.C69_binary", "BSpline.C69_endpoints", "BSpline.C69_local_control"], "note": "Same rounding model; C69_binary is the f64 form."},
{"property": "C70", "status": "proved", "theorems": ["BSpline.C70_insert", "BSpline.C70_curve"], "note": "Restricted like C15 to simple knots below u, because the exact insertion is wrong otherwise."},
{"property": "C71", "status": "partial", "theorems": ["BSpline.C71_equally_spaced", "BSpline.C71_chord_length_partial", "BSpline.C71_centripetal_partial", "BSpline.C71_uniform", "BSpline.C71_full_false", "BSpline.C71_generate_unsorted"], "note": "equally_spaced and uniform proved outright. chord_length and centripetal: everything except the order of the last two parameters; that is false in f64 (C71_full_false), and generate then returns a curve with unsorted knots (C71_generate_unsorted)."},
{"property": "C72", "status": "proved", "theorems": ["BSpline.C72_insert", "BSpline.C72_insert_times", "BSpline.C72_split", "BSpline.C72_variation", "BSpline.C72_length", "BSpline.C72_insert_times_polygon", "BSpline.C72_split_polygon", "BSpline.C72_repeated_knot"], "note": "Stated for insertions not above a repeated interior knot; C72_repeated_knot is the counterexample above one."},
{"property": "C73", "status": "proved", "theorems": ["BSpline.C73_interpolation_affine", "BSpline.C73_loose_affine", "BSpline.C73_fixed_affine", "BSpline.C73_interpolation_reverse", "BSpline.C73_loose_reverse", "BSpline.C73_fixed_reverse"], "note": "For any exact solver; solvers of the two runs may differ."},
{"property": "C74", "status": "proved", "theorems": ["BSpline.C74_loose_best", "BSpline.C74_fixed_best", "BSpline.C74_loose_mean", "BSpline.C74_loose_limit", "BSpline.C74_fixed_limit", "BSpline.C74_loose_smooth", "BSpline.C74_fixed_smooth", "BSpline.C74_loose_vanishing", "BSpline.C74_fixed_worse", "BSpline.C74_fixed_vanishing", "BSpline.C74_loose_monotone", "BSpline.C74_fixed_monotone", "BSpline.C74_loose_worse", "BSpline.C74_loose_reproduces", "BSpline.C74_fixed_reproduces", "BSpline.C74_difference_operator", "BSpline.C74_difference_bound"], "note": "For any exact solver."},
{"property": "C75", "status": "proved", "theorems": ["BSpline.C75_parameters", "BSpline.C75_generate_similar", "BSpline.C75_parameters_reverse", "BSpline.C75_generate_reverse", "BSpline.C75_de_boor_asymmetric"], "note": "Square root and truncation only by their laws. Reversal for de Boor's knots is refuted by C75_de_boor_asymmetric; the property is stated without it."},
{"property": "C76", "status": "partial", "theorems": ["BSpline.C76_linear_partial", "BSpline.C76_affine_partial", "BSpline.C76_full_false"], "note": "Linear maps for all degrees and accepted sizes; affine maps for p <= 2 and equal counts. False for translations at p = 3 (C76_full_false), because merging mixes points and derivatives up at the junction. See C80 for all degrees >= 3. C82 shows that this region is exactly where the claim holds."},
{"property": "C77", "status": "partial", "theorems": ["BSpline.C77_reverse_partial", "BSpline.C77_full_false", "BSpline.C77_direction_matters", "BSpline.C77_reverse_iff"], "note": "p <= 2 and equal counts; false for p = 3 (C77_full_false). C77_reverse_iff: over all knots without jumps and with equal counts the claim holds if and only if p <= 2 (C77_direction_matters gives the curves for every p >= 3). With different counts one of the two calls panics (C29)."},
{"property": "C78", "status": "proved", "theorems": ["BSpline.C78_nothing_stale", "BSpline.C78_merge_outcome", "BSpline.C78_sessions_never_panic", "BSpline.C78_merged_counts"], "note": "Held is inductive over all public calls; manual generation must pass points and knots whose counts agree (see C14 for the others). In-place mutation is C66, C67."},
{"property": "C79", "status": "proved", "theorems": ["BSpline.C79_careful_valid", "BSpline.C79_careful_merge", "BSpline.C79_careless"], "note": "C79_careless shows that the restriction is needed."},
{"property": "C80", "status": "proved", "theorems": ["BSpline.C80_resting_moves", "BSpline.C80_kept_iff", "BSpline.C80_split_merge"], "note": "Sharpens C31, C32, C76, C77: the restriction to p <= 2 and equal sizes there is exact. Cause: generateDerivativeControlPoint is called for k = 0 .. p-1 after the control point itself was already pushed, so every entry of the first row is shifted by one."},
{"property": "C81", "status": "proved", "theorems": ["BSpline.C81_changed", "BSpline.C81_kept_iff"], "note": "Sharpens C15 and C16 (C16_sorted_iff). For multiplicity p+1 the code divides by zero (C53)."},
{"property": "C82", "status": "proved", "theorems": ["BSpline.C82_halves_iff", "BSpline.C82_constraints_iff", "BSpline.C82_translation_iff"], "note": "Sharpens C30, C33 and C76: the regions proved there are exactly the regions where the claims hold."},
{"property": "C83", "status": "proved", "theorems": ["BSpline.C83_outcome", "BSpline.C83_panic_iff", "BSpline.C83_valid_iff", "BSpline.C83_changed", "BSpline.C83_kept_iff"], "note": "Sharpens C24 to C27: their restriction is exactly the region where the claims hold. The value part needs degree at least one; outcome and validity do not."},
{"property": "C84", "status": "proved", "theorems": ["BSpline.C84_residual", "BSpline.C84_smallest", "BSpline.C84_solves_iff", "BSpline.C84_exact", "BSpline.C84_not_exact", "BSpline.C84_interpolation", "BSpline.C84_loose", "BSpline.C84_fixed", "BSpline.C84_one_system", "BSpline.C84_one_system_merge", "BSpline.C84_transfer"], "note": "SVD::solve is modelled operation by operation from nalgebra's published code (its source is not in the sandbox); SVD::new enters as any function that returns a decomposition. Exact arithmetic. The hypothesis Solver.Exact of C30-C34, C40-C43, C57-C59, C76 and others is thereby reduced to: the one system solved has no positive singular value up to sqrt(f64::EPSILON)."},
{"property": "C85", "status": "proved", "theorems": ["BSpline.C85_derivative", "BSpline.C85_evaluate", "BSpline.C85_f64", "BSpline.C85_nan"], "note": "The scalars are IEEE 754 numbers with all special values (payloads of NaN not distinguished). Parametrised over Format; binary64 is constructed and its laws proved. Complements C68-C71, whose rounding model has unbounded exponents. C85_nan is the counterexample without the condition on knots."},
{"property": "C86", "status": "proved", "theorems": ["BSpline.C86_insert", "BSpline.C86_curve", "BSpline.C86_f64"], "note": "Same restriction on u as C15 (defect of the code, C81_kept_iff). C86_insert: any format; C86_curve: evaluation after insertion; C86_f64: numbers for f64. Signed zeros, infinities and NaN are in the model; the theorem shows that none of the non-finite ones occurs."},
{"property": "C87", "status": "proved", "theorems": ["BSpline.C87_continuousAt_iff", "BSpline.C87_continuous_iff", "BSpline.C87_contDiffOn_iff"], "note": "The converse of C12. The control points with a jump are the polar form of (t-u)^k to the right of the knot and zero to the left."},
{"property": "C88", "status": "proved", "theorems": ["BSpline.C88_reverse", "BSpline.C88_valid", "BSpline.C88_twice", "BSpline.C88_not_involutive", "BSpline.C88_collapse"], "note": "C88_reverse any format; C88_valid when the reversed knots stay valid, C88_collapse that the condition is needed; C88_twice, C88_not_involutive."},
{"property": "C89", "status": "proved", "theorems": ["BSpline.C89_insert_times", "BSpline.C89_normalize", "BSpline.C89_split", "BSpline.C89_f64", "BSpline.C89_collapse"], "note": "Same restriction on u as C15 (C81_kept_iff). C89_insert_times and C89_split any format, C89_f64 numbers for f64, C89_collapse the collapse of an interior knot."},
{"property": "C90", "status": "proved", "theorems": ["BSpline.C90_uniform", "BSpline.C90_f64"], "note": "C90_uniform any format, C90_f64 from generate to evaluate. Interpolation and least-squares fitting in f64 are not covered, as the solver is a parameter."},
{"property": "C91", "status": "proved", "theorems": ["BSpline.C91_regular_iff", "BSpline.C91_determined_iff", "BSpline.C91_interpolate_iff"], "note": "C91_regular_iff for the matrix, C91_determined_iff for curves, C91_interpolate_iff for interpolate with an exact solver. Strengthens C57, whose condition is only sufficient."},
{"property": "C92", "status": "proved", "theorems": ["BSpline.C92_loose_unique_iff", "BSpline.C92_fixed_unique_iff", "BSpline.C92_penalised_unique"], "note": "For an exact solver. C92_loose_unique_iff, C92_fixed_unique_iff without penalty; C92_penalised_unique for kappa = 1. C58 gives uniqueness for everything generated with uniform knots."},
{"property": "C93", "status": "proved", "theorems": ["BSpline.C93_points_derivative", "BSpline.C93_points_derivative_sharp", "BSpline.C93_stable", "BSpline.C93_lipschitz", "BSpline.C93_points", "BSpline.C93_sharp"], "note": "C93_stable the general bound, C93_lipschitz and C93_points special cases, C93_sharp that the slope bound is attained. C93_points_derivative for derivatives and moved points, C93_points_derivative_sharp that it is attained."},
{"property": "C94", "status": "proved", "theorems": ["BSpline.C94_f64", "BSpline.C94_instance"], "note": "C94_f64; C94_instance with numbers. Combines C90 with C93."},
{"property": "C95", "status": "proved", "theorems": ["BSpline.C95_insert_times", "BSpline.C95_split", "BSpline.C95_mean_slope"], "note": "C95_insert_times, C95_split for the control polygon, C95_mean_slope for the curve. The condition on repeated knots is the one of C15/C24."},
{"property": "C96", "status": "proved", "theorems": ["BSpline.C96_insert_times_derivative", "BSpline.C96_insert_times", "BSpline.C96_split", "BSpline.C96_reverse"], "note": "C96_insert_times, C96_insert_times_derivative, C96_split, C96_reverse."},
{"property": "C97", "status": "proved", "theorems": ["BSpline.C97_weighted", "BSpline.C97_interpolation", "BSpline.C97_f64"], "note": "C97_interpolation for any format, C97_f64 for double precision, C97_weighted for any curve. The residual is the one for the matrix that was handed over, in exact arithmetic."},
{"property": "C98", "status": "proved", "theorems": ["BSpline.C98_loose", "BSpline.C98_fixed", "BSpline.C98_values", "BSpline.C98_interpolation"], "note": "C98_interpolation, C98_loose, C98_fixed, C98_values. exact_iff_within: a residual of 0 is the hypothesis of C40, C42, C43."},
{"property": "C99", "status": "proved", "theorems": ["BSpline.C99_new", "BSpline.C99_evaluate", "BSpline.C99_insert", "BSpline.C99_insert_times", "BSpline.C99_split", "BSpline.C99_merge", "BSpline.C99_knots", "BSpline.C99_fit", "BSpline.C99_generate_manual", "BSpline.C99_generate_interpolation", "BSpline.C99_generate_fit"], "note": "No validity and no laws of arithmetic assumed. The texts of the errors are not modelled; two of them are inexact: the fit says that m must be greater than n although equality is accepted, and InsertError::MultiplicityError says that a further insertion would exceed the maximum although the check lets the multiplicity grow to p + 1."},
{"property": "C100", "status": "proved", "theorems": ["BSpline.C100_points_written", "BSpline.C100_points", "BSpline.C100_knots_written", "BSpline.C100_knots", "BSpline.C100_is_empty", "BSpline.C100_points_empty", "BSpline.C100_is_valid", "BSpline.C100_data"], "note": "Law-free."},
{"property": "C101", "status": "proved", "theorems": ["BSpline.C101_generate", "BSpline.C101_averaging", "BSpline.C101_all_equal"], "note": "C101_generate: all parameter and knot methods; C101_averaging: the criterion in terms of the first and last p+1 points; C101_all_equal: over a field extended by an undefined value (x/0 = nan), chord length with averaging."},
{"property": "C102", "status": "proved", "theorems": ["BSpline.C102_interpolation", "BSpline.C102_loose", "BSpline.C102_fixed", "BSpline.C102_late_parameters", "BSpline.C102_last_span", "BSpline.C102_parameters", "BSpline.C102_uniform_singular"], "note": "C102_parameters: where such parameters come from; C102_interpolation, C102_loose, C102_fixed: solvability and uniqueness over any ordered field, for exact solvers; C102_uniform_singular: the counterexample for uniform knots; C102_late_parameters, C102_last_span: only the first n parameters count."},
{"property": "C103", "status": "proved", "theorems": ["BSpline.C103_left_turning", "BSpline.C103_insert", "BSpline.C103_split", "BSpline.C103_convex", "BSpline.C103_above", "BSpline.C103_convexOn"], "note": "C103_left_turning, C103_insert, C103_split: plane polygons; C103_convex, C103_above, C103_convexOn: coordinates as functions of the parameter."},
{"property": "C104", "status": "proved", "theorems": ["BSpline.C104_polylines", "BSpline.C104_quadratic", "BSpline.C104_quadratic_from", "BSpline.C104_quadratic_to"], "note": "Right curves with more control points than the left one are not covered: their middle points are not those of the nearest joining curves (C31)."},
{"property": "C105", "status": "proved", "theorems": ["BSpline.C105_insert_all", "BSpline.C105_any_order", "BSpline.C105_distance", "BSpline.C105_greville", "BSpline.C105_cover", "BSpline.C105_converges"], "note": "C105_insert_all, C105_any_order: sequences of insertions; C105_distance, C105_greville, C105_cover: one curve; C105_converges: refinement."},
{"property": "C106", "status": "proved", "theorems": ["BSpline.C106_insert", "BSpline.C106_bounds", "BSpline.C106_derivatives_converge", "BSpline.C106_second_order", "BSpline.C106_quadratic"], "note": "C106_insert, C106_bounds: derivatives under insertion; C106_derivatives_converge; C106_second_order: one curve; C106_quadratic: refinement. The rate is shown to be attained for the parabola."},
{"property": "C107", "status": "proved", "theorems": ["BSpline.C107_positive_iff", "BSpline.C107_moved_iff", "BSpline.C107_active_iff"], "note": "C107_positive_iff, C107_active_iff: basis functions; C107_moved_iff: control points (sharp version of C03 and C10)."},
{"property": "C108", "status": "proved", "theorems": ["BSpline.C108_touch", "BSpline.C108_tangent", "BSpline.C108_end_tangents", "BSpline.C108_insert_times"], "note": "C108_touch: all orders; C108_tangent, C108_end_tangents: explicit first derivatives; C108_insert_times: de Boor's algorithm by insertion."},
{"property": "C109", "status": "proved", "theorems": ["BSpline.C109_antiderivative", "BSpline.C109_integral", "BSpline.C109_mean", "BSpline.C109_basis"], "note": "C109_antiderivative: any ordered field; C109_integral, C109_mean, C109_basis: real numbers, Lebesgue integral of Mathlib."},
{"property": "C110", "status": "proved", "theorems": ["BSpline.C110_near", "BSpline.C110_attained"], "note": "The residual is measured in exact arithmetic; how large the residual of the floating-point decomposition is is not modelled. Without constraints."},
{"property": "C111", "status": "proved", "theorems": ["BSpline.C111_points", "BSpline.C111_bound", "BSpline.C111_steep", "BSpline.C111_factor"], "note": "The factor is shown to exist (it is built from the inverse of a matrix that only depends on the degree), its value is not computed."},
{"property": "C112", "status": "proved", "theorems": ["BSpline.C112_sampled", "BSpline.C112_lipschitz", "BSpline.C112_smooth", "BSpline.C112_fit_loose", "BSpline.C112_fit_fixed", "BSpline.C112_generate", "BSpline.C112_fit_smooth"], "note": "Assumes an exact linear solver for the fits (exists: exists_exact_solver); unpenalised fits. With fixed ends generate panics for n = 1 (C44), hence 2 <= n there."},
{"property": "C113", "status": "proved", "theorems": ["BSpline.C113_averaging", "BSpline.C113_de_boor", "BSpline.C113_de_boor_valid", "BSpline.C113_generate_unsorted", "BSpline.C113_unsorted_f64"], "note": "Arithmetic without overflow and underflow (Fl R); the loss of order is also shown in the format of f64 with ties to even (C113_unsorted_f64)."},
{"property": "C114", "status": "proved", "theorems": ["BSpline.C114_bernstein", "BSpline.C114_derivative", "BSpline.C114_polynomial", "BSpline.C114_generate", "BSpline.C114_generate_method", "BSpline.C114_split", "BSpline.C114_interpolation", "BSpline.C114_rate", "BSpline.C114_rate_sharp", "BSpline.C114_weierstrass", "BSpline.C114_polyline", "BSpline.C114_interpolation_linear", "BSpline.C114_example"], "note": "generate with a method assumes control points without equal neighbours (and, for centripetal, the length check of the library), as in C60."},
{"property": "C115", "status": "proved", "theorems": ["BSpline.C115_faithful", "BSpline.C115_basis_bound", "BSpline.C115_basis_exact", "BSpline.C115_difference_operator", "BSpline.C115_evaluate_bound", "BSpline.C115_position"], "note": "Counting copies of the functions are in Model/Cost.lean; C115_faithful proves that their results are those of the model, panics included."},
{"property": "C116", "status": "proved", "theorems": ["BSpline.C116_clients", "BSpline.C116_clients_back", "BSpline.C116_held"], "note": "Refine/Builds.lean has one simulation lemma for each function of the model that depends on the build. What a release build does after a subtraction below zero is not modelled further (C116 exempts those programs)."},
{"property": "C117", "status": "proved", "theorems": ["BSpline.C117_unique", "BSpline.C117_manual_knots", "BSpline.C117_manual_uniform", "BSpline.C117_manual_method", "BSpline.C117_interpolation", "BSpline.C117_fit"], "note": "Everything but C117_manual_knots is over ordered fields with exact square root and truncation. In release builds C116 covers the calls that do not panic here, and the centripetal assertion is absent (C39_centripetal_release)."},
{"property": "C118", "status": "proved", "theorems": ["BSpline.C118_insert", "BSpline.C118_insert_times", "BSpline.C118_split", "BSpline.C118_merge", "BSpline.C118_insert_times_neq", "BSpline.C118_insert_times_nan"], "note": "Law-free for insert, insert_times (C118_insert_times for u with u == u, C118_insert_times_neq for the others) and split; merge over ordered fields. Debug build: in release builds the wrapped subtractions are exempt as in C116. Valid knots are the special case of C17, C18, C26 and C29."},
{"property": "C119", "status": "proved", "theorems": ["BSpline.C119_evaluate_gap", "BSpline.C119_evaluate_inside", "BSpline.C119_evaluate_rejected", "BSpline.C119_sorted_iff", "BSpline.C119_insert_gap", "BSpline.C119_insert_inside", "BSpline.C119_split_gap", "BSpline.C119_split_start", "BSpline.C119_split_end"], "note": "C119_split_end needs that no interior knot is repeated; splits strictly inside other domains are C120_split_inside."},
{"property": "C120", "status": "proved", "theorems": ["BSpline.C120_evaluate", "BSpline.C120_insert", "BSpline.C120_insert_times", "BSpline.C120_split", "BSpline.C120_reverse", "BSpline.C120_split_inside"], "note": "Both parameters must pass the test against [0,1], which is what fails to commute; C119 describes the parameters for which it fails."},
{"property": "C121", "status": "proved", "theorems": ["BSpline.C121_view", "BSpline.C121_tail", "BSpline.C121_internal_knot", "BSpline.C121_domain", "BSpline.C121_find_idx", "BSpline.C121_merge"], "note": "Rests on the range check of nalgebra 0.32 as described in Model/Machine.lean (nalgebra is not in /repo), on nalgebra being compiled with the same overflow settings, and for merge on a dimension of at least 1. Outcomes after an access outside of a buffer are not modelled: the model stops with the fault `outside`."},
{"property": "C122", "status": "proved", "theorems": ["BSpline.C122_loose", "BSpline.C122_fixed", "BSpline.C122_f64_loose", "BSpline.C122_f64_fixed", "BSpline.C122_generate_loose", "BSpline.C122_generate_fixed"], "note": "C122_loose, C122_fixed (any format), C122_f64_loose, C122_f64_fixed (through generate). The residual of nalgebra's solver is a hypothesis (Square.residual: some residual exists for every answer). The matrix products of the normal equations may be summed in any order, with or without fused operations (Products.AnyOrder; sequential_anyOrder shows that the order of the model is one of them)."},
{"property": "C123", "status": "proved", "theorems": ["BSpline.C123_debug", "BSpline.C123_release", "BSpline.C123_model"], "note": "C123_debug (exact result of the loops for every kappa), C123_release (exact result, and the right one exactly for kappa <= 66), C123_model (agreement with the matrices of the fits in Model/Generate.lean)."},
{"property": "C124", "status": "proved", "theorems": ["BSpline.C124_local", "BSpline.C124_evaluate", "BSpline.C124_poison", "BSpline.C124_f64"], "note": "C124_local (bitwise up to the sign of zero), C124_evaluate and C124_f64 (error bound from the control points that matter), C124_poison (NaN at every parameter before the first knot of a non-finite control point)."},
{"property": "C125", "status": "proved", "theorems": ["BSpline.C125_outcome", "BSpline.C125_merge", "BSpline.C125_left", "BSpline.C125_right", "BSpline.C125_f64", "BSpline.C125_collapse"], "note": "C125_outcome (success or panic), C125_merge (knots, outer control points), C125_left and C125_right (values; the right one for knots that are moved and halved without rounding), C125_f64 (valid knots within 2^-51), C125_collapse (knots lost without the conditions)."},
{"property": "C126", "status": "proved", "theorems": ["BSpline.C126_session", "BSpline.C126_derivative", "BSpline.C126_refine"], "note": "C126_session (any format: success, knots, control points within (1 + s)^t (M + 4 t eta) - M), C126_derivative (f64, all orders), C126_refine (f64, values, different new knots)."},
{"property": "C127", "status": "proved", "theorems": ["BSpline.C127_session", "BSpline.C127_evaluate", "BSpline.C127_merge", "BSpline.C127_unsafe"], "note": "C127_session (knots and counts), C127_evaluate, C127_merge (success exactly for m <= o < m + p, panic otherwise), C127_unsafe (why the condition is needed). Splits normalise both halves, as split does."},
{"property": "C128", "status": "proved", "theorems": ["BSpline.C128_end", "BSpline.C128_origin"], "note": "C128_end (any curve with p+2 ones), C128_origin (reached by merge; the condition that no control point overflowed is stated on the merged control points, of which all but one are those of the given curves)."},
{"property": "C129", "status": "proved", "theorems": ["BSpline.C129_insert_times", "BSpline.C129_insert_local", "BSpline.C129_reverse", "BSpline.C129_split", "BSpline.C129_merge", "BSpline.C129_start", "BSpline.C129_end", "BSpline.C129_f64"], "note": "Control points: C129_insert_times, C129_insert_local, C129_reverse, C129_split, C129_merge, without laws of arithmetic, also above repeated knots. Values: C129_start, C129_end (any curve of a session, see C127), C129_f64. What happens with p+2 ones: C128."},
{"property": "C130", "status": "proved", "theorems": ["BSpline.C130_start", "BSpline.C130_end", "BSpline.C130_tangents"], "note": "C130_start, C130_end for any curve of a session (Sound, see C127); C130_tangents compares with the exact curve (C108_end_tangents gives its value)."},
{"property": "C131", "status": "proved", "theorems": ["BSpline.C131_knot", "BSpline.C131_f64", "BSpline.C131_start"], "note": "C131_knot (any curve of a session, see C127; any order), C131_f64 (values, f64), C131_start (the merge)."},
{"property": "C132", "status": "proved", "theorems": ["BSpline.C132_evaluate", "BSpline.C132_reverse", "BSpline.C132_derivative_curve", "BSpline.C132_insert", "BSpline.C132_insert_times", "BSpline.C132_new", "BSpline.C132_split", "BSpline.C132_merge", "BSpline.C132_interpolate", "BSpline.C132_fit_loose", "BSpline.C132_fit_fixed", "BSpline.C132_generate", "BSpline.C132_isolated"], "note": "Generic in scalars and build mode. C132_evaluate, _reverse, _derivative_curve, _insert_times, _new, _split hold without hypotheses; C132_merge, _interpolate, _fit_loose, _fit_fixed, _generate for coordinate-wise solvers (Solver.svd_coordinatewise discharges this for SVD::solve); C132_isolated is the corollary for two curves."},
{"property": "C133", "status": "proved", "theorems": ["BSpline.C133_new", "BSpline.C133_evaluate", "BSpline.C133_operations", "BSpline.C133_merge", "BSpline.C133_svd", "BSpline.C133_generate"], "note": "Mirrored is the specification (== or both NaN, per coordinate). C133_new starts, C133_evaluate and C133_operations continue from any pair of mirrored states; C133_svd discharges the solver hypothesis of C133_merge and C133_generate."},
{"property": "C134", "status": "proved", "theorems": ["BSpline.C134_binary", "BSpline.C134_new", "BSpline.C134_evaluate", "BSpline.C134_operations", "BSpline.C134_merge", "BSpline.C134_fits"], "note": "Over Fl R (unbounded exponents). Scaled is the specification; C134_binary shows that rounding to m fractional bits commutes with powers of two, the hypothesis of the others. Chord-length and centripetal parameters are not part of the claim."},
{"property": "C135", "status": "proved", "theorems": ["BSpline.C135_new", "BSpline.C135_evaluate", "BSpline.C135_operations", "BSpline.C135_irrelevant", "BSpline.C135_merge", "BSpline.C135_fits"], "note": "Blotted is the specification. C135_irrelevant states the consequence for values: two curves that differ only in coordinates marked NaN agree in every coordinate where the marked curve has a number. generate is covered through its interpolation and fits; parameters computed from the points are not."},
{"property": "C136", "status": "proved", "theorems": ["BSpline.C136_faithful", "BSpline.C136_point_bound", "BSpline.C136_new_bound", "BSpline.C136_insert_times", "BSpline.C136_split", "BSpline.C136_size", "BSpline.C136_new_exact"], "note": "Counting copies of the functions are in Model/CostDerive.lean; C136_faithful proves that their results are those of the model, panics included."},
{"property": "C137", "status": "proved", "theorems": ["BSpline.C137_every_spline", "BSpline.C137_every_curve", "BSpline.C137_unique"], "note": "Theorem of Curry and Schoenberg for the model of the code. The pieces, their derivatives and the smoothness are stated with power sums, without any function of the model."},
{"property": "C138", "status": "proved", "theorems": ["BSpline.C138_values_decide", "BSpline.C138_expressible_iff", "BSpline.C138_contained_iff", "BSpline.C138_removable_iff", "BSpline.C138_inserted_iff"], "note": "Consequences of C137. The exclusion of repeated knots below t is the one of C15."},
{"property": "C139", "status": "proved", "theorems": ["BSpline.C139_reachable_iff", "BSpline.C139_descending", "BSpline.C139_piece", "BSpline.C139_bezier"], "note": "Consequences of C15-C17. Reachability is stated for sequences in which no insertion has a repeated interior knot below it; C81 shows that these are the insertions that keep all curves when multiplicities are at most p. For a whole sequence the condition is sufficient but not necessary: an example shows a sequence outside it that keeps a value, because the curves an earlier insertion returns are not all curves over the new knots."},
{"property": "C140", "status": "proved", "theorems": ["BSpline.C140_pieces", "BSpline.C140_bezier"], "note": "Induction over the cuts with C24-C26. The conditions on the cuts are sufficient; C83 shows for a single cut that they are necessary. At the last piece nothing is assumed about knots above the last cut."},
{"property": "C141", "status": "proved", "theorems": ["BSpline.C141_insert", "BSpline.C141_refine", "BSpline.C141_reachable_iff", "BSpline.C141_split"], "note": "Complements C81, C83, C139 and C140. As in C139, reachability is about sequences in which every single insertion meets the stated condition."},
{"property": "C142", "status": "proved", "theorems": ["BSpline.C142_join", "BSpline.C142_equal", "BSpline.C142_append_all", "BSpline.C142_prepend_all"], "note": "Consequence of C29 for sequences of merges: a loop over append works for at most two curves of one size, and e.g. three line segments cannot be joined in any order. Values of the joined curve: C30, C31."},
{"property": "C143", "status": "proved", "theorems": ["BSpline.C143_join", "BSpline.C143_restore"], "note": "Extends C32 from one cut to 2^k - 1 cuts. The restriction to degree 1 and 2 is needed (C80), and for other numbers of equally large pieces no order of merging may exist (C142)."},
{"property": "C144", "status": "proved", "theorems": ["BSpline.C144_chord_length", "BSpline.C144_centripetal", "BSpline.C144_knots", "BSpline.C144_generate", "BSpline.C144_speed"], "note": "The bound for the curve uses C93; the slopes of the polygon over averaged knots are at most pL because every averaged knot lies between the parameters it is taken from."},
{"property": "C145", "status": "proved", "theorems": ["BSpline.C145_new", "BSpline.C145_evaluate", "BSpline.C145_operations", "BSpline.C145_merge", "BSpline.C145_fits", "BSpline.C145_generate", "BSpline.C145_values"], "note": "No exactness of the linear solver is assumed: SVD::solve is linear in the right-hand side for every decomposition. Knots made from chord length or centripetal parameters depend on the points and are not covered. C145_values is the corollary for valid curves."},
{"property": "C146", "status": "proved", "theorems": ["BSpline.C146_orthogonal", "BSpline.C146_energy", "BSpline.C146_sum", "BSpline.C146_moments", "BSpline.C146_noise", "BSpline.C146_fixed_orthogonal", "BSpline.C146_fixed_noise", "BSpline.C146_generate", "BSpline.C146_generate_noise"], "note": "The two fits that are compared may use different solvers. With fixed ends the two data sets have the same first and the same last point."},
{"property": "C147", "status": "proved", "theorems": ["BSpline.C147_evaluate", "BSpline.C147_not_negative", "BSpline.C147_increasing", "BSpline.C147_insert", "BSpline.C147_f64"], "note": "Overflow is allowed in C147_evaluate, C147_not_negative and C147_insert: an infinite control point gives NaN where it is multiplied with zero (see the example), and nothing is claimed about NaN. C147_f64 has no NaN."},
{"property": "C148", "status": "proved", "theorems": ["BSpline.C148_evaluate", "BSpline.C148_loose", "BSpline.C148_fixed", "BSpline.C148_reset", "BSpline.C148_interpolation", "BSpline.C148_fit_loose", "BSpline.C148_fit_fixed", "BSpline.C148_generate"], "note": "SVD::new is a parameter of which only the shape is used. C148_loose, C148_fixed, C148_reset and C148_evaluate hold in every format and for every knot vector; C148_interpolation, C148_fit_loose, C148_fit_fixed and C148_generate state the result of generate in f64."},
{"property": "C149", "status": "proved", "theorems": ["BSpline.C149_piece", "BSpline.C149_plane_iff", "BSpline.C149_affine_span", "BSpline.C149_affine_span_piece", "BSpline.C149_constant", "BSpline.C149_count"], "note": "Exact arithmetic. The condition on the multiplicities is needed, see the example with a control point that acts nowhere; the bound of C149_count is attained by a parabola."},
{"property": "C150", "status": "proved", "theorems": ["BSpline.C150_componentwise", "BSpline.C150_backward", "BSpline.C150_relative", "BSpline.C150_f64", "BSpline.C150_cancellation", "BSpline.C150_underflow"], "note": "Rounding is that of IEEE 754 (Spec/Ieee.lean), in the order of the operations of the source. C150_cancellation and C150_underflow show that the sign condition of C150_relative and the absolute amount are needed."},
{"property": "C151", "status": "proved", "theorems": ["BSpline.C151_minor_positive", "BSpline.C151_known", "BSpline.C151_minors", "BSpline.C151_determinant", "BSpline.C151_alternating", "BSpline.C151_single", "BSpline.C151_worst", "BSpline.C151_interpolation"], "note": "Exact arithmetic; the determinants are those of Mathlib."},
{"property": "C152", "status": "proved", "theorems": ["BSpline.C152_at_least", "BSpline.C152_at_most", "BSpline.C152_forward", "BSpline.C152_injective", "BSpline.C152_derivative", "BSpline.C152_regular", "BSpline.C152_once"], "note": "Exact arithmetic. C152_once needs the real numbers (intermediate value theorem) and at most p equal inner knots; the other theorems hold over every ordered field and for all multiplicities."},
{"property": "C153", "status": "proved", "theorems": ["BSpline.C153_first", "BSpline.C153_second", "BSpline.C153_samples_first", "BSpline.C153_samples_second", "BSpline.C153_sharp", "BSpline.C153_f64"], "note": "Exact arithmetic over every ordered field, and C153_f64 for f64. A jump (more than p equal inner knots) or, for the second-order bound, a corner (p equal inner knots) is excluded, since there the derivative does not describe the curve."},
{"property": "C154", "status": "proved", "theorems": ["BSpline.C154_exact", "BSpline.C154_refl", "BSpline.C154_symm", "BSpline.C154_trans", "BSpline.C154_constructed", "BSpline.C154_evaluate", "BSpline.C154_built", "BSpline.C154_reverse", "BSpline.C154_result", "BSpline.C154_errors"], "note": "The derived PartialEq of the points, of all error types that the crate returns and of Result<VecD, CurveError> is modelled in Model/Equal.lean. Dimensions are part of the type in the model, so matrices of different dimension, which are never equal, do not occur."},
{"property": "C155", "status": "proved", "theorems": ["BSpline.C155_turns", "BSpline.C155_variation", "BSpline.C155_derivatives", "BSpline.C155_velocity", "BSpline.C155_insert_times", "BSpline.C155_split", "BSpline.C155_repeated_knot"], "note": "From the corner cutting of C62. Degree zero (and derivatives of order p) are step functions and left out, as in C62."},
{"property": "C156", "status": "proved", "theorems": ["BSpline.C156_unique_iff", "BSpline.C156_always", "BSpline.C156_fixed_unique_iff", "BSpline.C156_fixed_always"], "note": "Completes C92 (kappa = 1, or no penalty) for all orders, with loose and with fixed ends. Exact arithmetic and an exact solver; Cauchy-Binet is proved in Theory/CauchyBinet.lean."},
{"property": "C157", "status": "proved", "theorems": ["BSpline.C157_exact_fit", "BSpline.C157_fixed_exact_fit", "BSpline.C157_loose_reproduces_iff", "BSpline.C157_fixed_reproduces_iff", "BSpline.C157_loose_line", "BSpline.C157_fixed_line"], "note": "Converse of the reproduction in C74. Exact arithmetic and an exact solver."},
{"property": "C158", "status": "proved", "theorems": ["BSpline.C158_symmetric", "BSpline.C158_pull", "BSpline.C158_one_point", "BSpline.C158_exchange", "BSpline.C158_fixed_exchange", "BSpline.C158_fixed_pull", "BSpline.C158_generate"], "note": "Exact arithmetic and an exact solver. Both the exchange and the identity for moved data are proved for loose and fixed ends; the case of one moved point is spelled out for loose ends."}
]}
