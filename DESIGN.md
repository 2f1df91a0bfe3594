# Formal model of `bsplines` in Lean 4

This file is the plan and the trusted base. The properties are in `properties.jsonl`
(C01, C02, …), the theorem names per property in `MANIFEST.json`, the attempts to fool
the theorems with wrong programs in `seeded/LOG.jsonl`.

## 1. What is modelled, and how

* **Source**: the functions of `/repo/src` listed in section 5. Each Lean definition in
  `lean/Verif/Model/` cites file and lines.
* **Panics are values.** `Exec α = Except Panic α`. Index out of bounds, `usize`
  underflow (debug semantics: checked), failed `assert!`/`debug_assert!`, `unwrap` on
  `Err`, nalgebra shape assertions and the SVD of an empty matrix are all `Panic`s.
  Rust `Result<T, E>` is `Except E T` *inside* `Exec`. A `&mut self` method returns the
  new value next to its result, so the state after an `Err` is visible.
* **Scalars.** The model is polymorphic in the scalar type `K` and uses only the
  notation classes (`+ - * / neg 0 1 NatCast`) and a class `Cmp K` with *Boolean*
  `le`, `lt`, `eq` and **no laws**. So
  - theorems about shapes, error branches and absence of panics are proved for
    *every* such `K`: they hold for IEEE `f64` with NaN, rounding and −0;
  - theorems about values are proved for every linearly ordered field
    (`[Field K] [LinearOrder K] [IsStrictOrderedRing K]`; ℚ and ℝ are instances;
    statements about limits are for ℝ). They say nothing about rounding;
  - C68–C71 and C113 are proved for floating-point numbers `Fl R` (`Verif/Spec/Rounding.lean`): the
    numbers fixed by a rounding `R`, with every operation rounded and exact comparisons. `R` is
    any monotone, idempotent map with relative error at most `eps < 1` that fixes `1`
    (so round-to-nearest with any treatment of ties, or a directed rounding); `Rounding.binary 52` is
    `f64` with an unbounded exponent. Overflow, underflow, infinities and −0 are not in `Fl`;
  - C85, C86, C88–C90, C94, C96, C97 and C122 are proved for the numbers `Ieee F` of an IEEE 754 format (`Verif/Spec/Ieee.lean`), with
    infinities, NaN, signed zeros, subnormal numbers and overflow. `binary64` is `f64`: 53 bits, exponents
    −1022 to 1023, rounding to nearest with ties to even; the laws of `Format` are proved for it.
    Payloads of NaN are not distinguished.
  - Lean's `x / 0 = 0` could hide a Rust `0/0 = NaN`. For that there is the scalar
    type `NF K` ("NaN or finite number", `Verif/Spec/NaN.lean`), where `x / 0` is NaN and
    NaN propagates and compares false. C53 shows which operations agree over `NF K`
    and over `K` (so they never divide by zero), C54 what a NaN parameter does.
* **Containers.** `VecD` is `List K`; a `MatD` of points (`dim × count`) is a
  `List (Fin d → K)` of columns, with `d` the dimension; matrices of linear systems
  are lists of rows.
* **Builds.** The model is generic in a `Build` (`Model/Basic.lean`): what `a - b` does for `usize`
  operands with `a < b`, and whether `debug_assert!` is checked. `Model/Debug.lean` has the debug
  build, where the subtraction panics and the assertions are checked. No file of the model imports it,
  so no function can depend on it by accident. All theorems are about debug builds unless they
  mention a `Build`. C116 carries results over to all other builds: they differ only for calls that
  panic in a debug build from a subtraction below zero or a `debug_assert!`. `Model/Machine.lean`
  follows release builds beyond a wrapped subtraction for the functions that take a view with its
  result (C121): arithmetic modulo `2^64`, and a view with the range check `start + n <= len` of nalgebra
  0.32, which is trusted as described there (nalgebra is not in `/repo`; it is assumed to be compiled with
  the same overflow settings). Not followed: what a release build does after an access outside of a
  buffer, and `Knots::new` with fewer than `2p` knots, where a wrapped length is allocated.
* **usize** is `Nat` with checked subtraction; overflow above 2^64 is not modelled
  (it would need more memory than exists). The `isize` values of `difference_operator` are `Int`;
  `Model/Word.lean` has the same function with 64 bits, and C123 shows that the two agree exactly for
  `kappa ≤ 66` (for larger `kappa` the recursion would make `2^kappa` calls before it overflows).
* **Matrix products** (nalgebra) add up their products in row order in `Model/Generate.lean`. nalgebra may
  use another order, blocks, or fused operations. Over fields this makes no difference. `Model/Products.lean`
  has the fits with the two products as parameters, and C122 holds for every order of summation
  (`Products.AnyOrder`, `Spec/AnyOrder.lean`).
* **SVD solve** (nalgebra) is external: the model takes a `Solver`, an arbitrary function
  with the *shape* contract of nalgebra (one row per column of the matrix). Theorems about
  shapes, errors and panics hold for every solver. Theorems about values assume
  `Solver.Exact` (`A·x = b` whenever a solution exists: the least one could demand of an
  exact linear solver; `exists_exact_solver` shows that there is one) or, where stated, only
  that this very call solved its system. `Model/Svd.lean` models `SVD::solve` with its
  threshold `sqrt(EPSILON)` on top of any decomposition; C84 proves what the threshold costs
  and when the theorems for exact solvers carry over. The iteration in `SVD::new` and its
  rounding errors are not modelled.
* **`f64::sqrt`** (norms) is a class with the laws it needs stated as hypotheses;
  `f64 as usize` is a class `Trunc`, with the floor as its specification.

## 2. Layers

1. `Verif/Model/*` – executable model, function by function.
2. `Verif/Tests/*` – the repository's unit tests replayed on the model over ℚ (tests,
   not proofs; they check my reading of the code).
3. `Verif/Theory/*` – mathematics of B-splines independent of the model: polar form
   (blossom) by de Boor's recursion, symmetry, change of knots, derivative, smoothness,
   Schoenberg–Whitney, least squares, junction of two splines.
4. `Verif/Refine/*` – the monadic model run on well-formed input equals a pure function;
   `Relate.lean` is a relational reading of the model for two scalar types.
5. `Verif/Spec/*` – small specification vocabulary used in the statements.
6. `Verif/Props/*` – the theorems `Cnn_…`, with non-vacuity examples and counterexamples.

Naming: `Cnn_full` is the property as claimed, where it is false; `Cnn_full_false` refutes it
with a concrete input; `Cnn_…_partial` is what holds instead.

## 3. How each property is proved

| Id | model part | proof |
|----|------------|-------|
| C01–C04 | `basis`, `Knots.evaluate` | on the span `j` of `u` the degree-0 functions are `δ_ij`; induction on the degree |
| C05, C06 | `find_idx`, `evaluate_derivative` | loop invariant of the search: result in `[p-k, n-k]` and knot ≤ u; dropped terms vanish by local support. C06 law-free |
| C07–C10 | same | from C01–C05 |
| C11, C12 | `derive`, `derive_single_point` | polar form: derivative step commutes with de Boor steps; `HasDerivWithinAt` on each span; common control points across a knot |
| C13, C14 | `get_derivative_curve`, `Curve::new` | refinement; counterexamples by evaluation |
| C15, C16, C20 | `insert` | change-of-knots theorem for polar forms. False as stated when a repeated knot lies below `u` (search stops early): counterexample + `_partial` |
| C17, C18 | `insert`, `insert_times` | case analysis; induction on `x` |
| C19, C55 | `insert` | dual functionals of the polar form |
| C21–C23, C56 | `reverse` | list reversal; de Boor step commutes with reflection |
| C24–C27 | `split_and_normalize` | insertion theorem iterated, window of control points; counterexample for repeated knots below `u` |
| C28–C34 | `merge.rs` | decision logic outright; linear algebra of the Lagrange system; counterexamples for `p ≥ 3`, different counts, swapped constraints |
| C35–C39 | `knots/methods.rs`, `parameters/methods.rs` | closed forms, monotonicity |
| C40–C45, C57–C59 | `interpolation.rs`, `fit/*` | normal equations ⇒ minimiser; Schoenberg–Whitney by zero counting |
| C46–C50 | `knots/mod.rs` | loop invariants, list induction |
| C51, C52 | all edits | induction over the list of operations |
| C53, C54 | evaluation/insert/split over `NF K` | logical relation between `NF K` and `K`; NaN witnesses |
| C60 | `generate(Manual)`, `knots::generate`, `parameters::generate` | closed forms of C36–C39 chained; the ignored degree argument is `C60_full_false` |
| C61 | `evaluate` | the polar form of a polynomial, read at the knots, gives the control points |
| C62–C64 | `evaluate` | refine the knots at the sample parameters until the samples are control points; each refinement is corner cutting, which increases neither sign changes nor length |
| C65 | `insert`, `reverse`, `split` | both sides are canonical curves with the same knots and the same values, so equal by uniqueness of control points (C55) |
| C66–C67 | `matrix_mut`, `get_mut`, `vector_mut`, `derive` | congruence: each operation reads the base vectors or the caches, never both; law-free |
| C68–C71 | `basis`, `evaluate`, `insert`, `uniform`, `parameters/*` over `Fl R` | every basis value is a product of non-negative rounded factors, so relative errors only count roundings; sums of products by absolute error; counterexample in `f64` by evaluation |
| C72 | `insert`, `insert_times`, `split` | each inserted knot is one corner cut (C20); composed along the insertions |
| C73, C74 | `generate` (interpolation, fits) | normal equations are affine in the data and have a unique solution over uniform knots (C57, C58); costs compared for reversal and for two `lambda`; limits of large `lambda` by comparing with constant control points and summing differences (LimitMean, LimitPoly), orthogonality to all curves without roughness (LimitBest) |
| C75 | `generate` by methods | parameter sums are homogeneous in distances; sums from the other end; averages of reversed parameters |
| C76, C77 | `merge_with_constraints` | the shifts of least norm are unique, and the mapped (reversed) shifts satisfy the mapped (reversed) conditions; counterexamples for `p = 3` |
| C78, C79 | all calls that return curves | induction over sessions; shapes are law-free invariants, clamped knots an invariant in exact arithmetic |
| C80 | `merge` on curves that join already | explicit middle control point `(1+e)x`, uniqueness of control points (C55) |
| C81 | `insert` above repeated knots | the weight of one control point on the unsorted knots, by recursion over the degree |
| C82 | halves, constraints, translations of merged curves | the adjusted point is (1+e) times its neighbour; resting curves; uniqueness of control points |
| C83 | `split` above repeated knots | exact count of insertions; linear algebra: more active control points than the left part receives |
| C84 | linear solver with threshold | orthonormal expansions, Bessel's inequality, Cauchy-Schwarz on the normal equations; existence of the decomposition from the spectral theorem |
| C85 | `evaluate`, `evaluate_derivative` over `Ieee F` | induction over the Cox-de Boor recursion with relative and absolute errors; local support keeps quotients in [0,1]; differences never underflow |
| C86 | `insert` over `Ieee F` | the same span and multiplicity as in exact arithmetic; the weight is in [0,1] and its relative error is bounded as differences never underflow |
| C87 | `evaluate_derivative` for all control points over given knots | polar form of `(t-u)^k` glued to zero; derivatives of polar forms |
| C88 | `reverse` over `Ieee F` | rounding is monotone, fixes 0 and 1 and has relative error on differences |
| C89 | `insert_times`, `normalize`, `split` over `Ieee F` | induction over insertions: each is a convex combination up to a relative error; exact and computed parts are compared by a relation between curves |
| C90 | `generate` with uniform knots, then `evaluate`, over `Ieee F` | knots are quotients of exact integers, half a step apart; then C85 |
| C91 | `interpolate`, collocation matrix | zero counting (C57) one way; a zero on the diagonal gives a block of zeros that is too large for a regular matrix |
| C92 | `fit/loose.rs`, `fit/fixed.rs` | a matrix of full column rank contains a regular square one with rows in order, to which C91 applies |
| C93 | `evaluate`, `evaluate_derivative` | one step of de Boor's algorithm moves by the moved points plus slope times relative movement of argument and knots; slopes do not grow; spans are chained by continuity |
| C94 | `generate` with uniform knots and `evaluate` over `Ieee F`, against exact arithmetic | C90 for the arithmetic, C93 for the rounded knots |
| C95 | `insert_times`, `split_and_normalize`, `evaluate` | Boehm's formula writes new differences as sums of parts of old ones; the mean slope by subtracting a straight line (C61) and C93 |
| C96 | `insert_times`, `split`, `reverse`, then `evaluate` (after insertions also `evaluate_derivative`), over `Ieee F` | C86, C88, C89 for the manipulation, C85 for the evaluation, C93 and C95 for the effect on the values |
| C97 | `generate(Interpolation)`, `evaluate` over `Ieee F`, solver and order of summation in matrix products arbitrary | error of the computed basis functions (C85), uniform knots of C90, equally spaced parameters |
| C98 | `interpolate`, `Loose.fit`, `Fixed.fit`, solver arbitrary | the cost is a convex quadratic form; its gradient at the answer is the residual |
| C99 | every function that returns a `Result`, any receiver, law-free | inversion of each call back to the check that failed |
| C100 | `matrix_derivative_mut`, `vector_derivative_mut`, `is_empty`, `is_valid`, `DataPoints::count`/`segments`, law-free | edited curve shares knots and points with the old one (`SameBase`) |
| C101 | `generate(Manual)` with both methods, repeated control points; `evaluate` at 1 | parameters are 0/1 exactly on coincident ends; all basis functions vanish at an end of multiplicity p+2; undefined values propagate |
| C102 | `averaging`, `de_boor`, `uniform` followed by `interpolate`, `Loose.fit`, `Fixed.fit` | the knots interlace with the parameters (Schoenberg-Whitney), so C91 and C92 apply; counterexample for uniform knots |
| C103 | `evaluate`, `insert`, `split` | corner cutting keeps polygons that turn left; the graph of a coordinate is a curve with Greville abscissae (C61) |
| C104 | `merge`, `merge_from`, `merge_to` | closed form of the nearest joining curves (C31) for degrees 1 and 2 |
| C105 | `insert`, `evaluate` | slopes do not grow (C95), so the points of a refined polygon are close to each other and to the curve |
| C106 | `insert`, `matrix_derivative`, `evaluate_derivative` | insertion commutes with taking differences; second order by subtracting the tangent line, which curves reproduce (C61) |
| C107 | `basis`, `evaluate` | positivity of the recursion by induction on the degree, cases at the ends of the support |
| C108 | `evaluate_derivative`, `insert_times` | exact supports (C107): only one basis function is positive at such a knot |
| C109 | `Curve::new`, `evaluate_derivative` | derivation of the points of the antiderivative gives the points back; fundamental theorem of calculus with C11 and C12 |
| C110 | `merge` | rows of the system applied to the difference of two answers (`row_top`, `row_bot`); the two multipliers eliminated with a determinant bounded below, as both derivative coefficients are at least 2 |
| C111 | `evaluate` | the longest span of the support; the polar form on it from values at p+1 nodes (Schoenberg–Whitney for a single polynomial), then extrapolated to the knots of the support |
| C112 | `evaluate`, `fit`, `generate` | partition of unity and linear precision (`sum_nb_greville`) leave the deviation from the line; the means that matter at u are within (p+1)/2 h; fits by optimality (C42, C43) |
| C113 | `averaging`, `de_boor`, `generate` | sums and quotients are monotone in rounded arithmetic; the knot is a piecewise linear function of its position (`ramp`), whose slopes are the gaps of the parameters, so a truncation to a neighbouring index does not matter |
| C114 | `evaluate`, `evaluate_derivative`, `generate`, `interpolate`, `split` | over knots without interior ones the polar form is de Casteljau's algorithm (`bl_bezier`, `casteljaus_replicate`); Mathlib's Bernstein polynomials, Lagrange interpolation and Bernstein approximation are the specification |
| C115 | `evaluate_derivative`, `basis`, `difference_operator` | counting copies of the functions (`Model/Cost.lean`), proved to return the same results; induction on the degree |
| C116 | all public functions | simulation of the two builds function by function (`Refine/Builds.lean`), induction on client programs |
| C117 | generate | case analysis over the requests; each theorem gives the ending as a function of the arguments, and endings are unique |
| C118 | insert, insert_times, split_and_normalize, merge_with_constraints | case analysis on the search result and the run of copies, with the failing variants of both halves of split |
| C119 | evaluate_derivative, insert, split_and_normalize on [a,b] | all basis functions vanish outside the domain; the search of C16 with the ends included; C118_split and counting of copies |
| C120 | evaluate_derivative, insert, insert_times, split_and_normalize, reverse on two parametrizations | two runs compared step by step: the search, the multiplicity, the insertion ratios and the recursion are invariant; C118_split |
| C121 | tail, tail_mut, internal_knot, domain, find_idx, merge in a release build | machine arithmetic modulo 2^64 and explicit views; C116 for everything before the first wrapped subtraction |
| C122 | `generate(LeastSquaresFit)`, `fit::loose`, `fit::fixed` over `Ieee F`, solver and order of summation in matrix products arbitrary | error of the computed basis functions (C85), sums of products, exact integers of the penalty, C98 for the exact cost |
| C123 | `difference_operator` and the loops around it with 64-bit `isize`, checked and wrapping (Model/Word.lean) | closed form of the entries (C74), the central binomial coefficients around `2^63` |
| C124 | `evaluate` over `Ieee F` | basis functions outside their support are computed as exact zeros; adding a zero changes at most the sign of a zero; `0 * inf = NaN` for the converse |
| C125 | `merge_with_constraints` over `Ieee F` | the checks `is_clamped`, `is_normed` on finite numbers; right knots are reversed twice, moved and halved; C124 and the locality of the polar form for the values |
| C126 | a caller's loop over `insert` over `Ieee F` | induction over the list of knots with the step of C89; then C85 and C93 for the values |
| C127 | sessions over `Ieee F` | weakly clamped knots as invariant; insertion, splitting and merging use only knots and control points (`Refine/Twin.lean`) |
| C128 | `Curve.evaluate`, `merge` over `Ieee F` | every basis function of degree ≥ 1 vanishes at 1 when `p + 2` knots are 1 |
| C129 | insertion, reversal, splitting, merging in any arithmetic; `Curve.evaluate` over `Ieee F` | which control points are copied (`Refine/Ends.lean`); every rounded quotient at an end is 0 or 1 |
| C130 | `Curve.evaluateDerivative`, `deriveSinglePoint` over `Ieee F` | the basis functions of the derivative at an end are exactly 0 and 1; one subtraction, one quotient, one product for the first derivative |
| C131 | `Curve.evaluateDerivative`, `merge` over `Ieee F` | the basis functions at a repeated knot are exactly 0 and 1 by induction on the degree; the search never passes the last occurrence |
| C132 | all operations, generic scalars and builds | every operation commutes with the selection of coordinates, function by function |
| C133 | all operations over `Ieee F`, any build | every relation that is compatible with sums, differences and multiples of points is preserved by all operations (`Refine/PointRel.lean`); mirroring is one, and squares do not see it |
| C134 | all operations over `Fl R`, any build | scaling is a compatible relation (`Refine/PointRel.lean`), because rounding commutes with powers of two |
| C135 | all operations over `Ieee F`, any build | being NaN or unchanged is a compatible relation, because NaN absorbs |
| C136 | construction, insertion and splitting with a counter, any arithmetic | counting copies proved faithful; recursion `T(k) ≤ 1 + 2 T(k-1)`, equality if no two compared knots are equal |
| C137 | all piecewise polynomials of the right smoothness, exact | control point = polar form of a piece at its knots; neighbouring pieces have the same one because their polar forms agree when enough arguments are the knot |
| C138 | any two clamped knot vectors and degrees, exact | pieces of C137: between two knots of the other vector there is a single polynomial; polynomials agree if they agree on an interval or to all orders at a point |
| C139 | insertion sequences with no repeated interior knot below any insertion, exact | induction over the sequence; descending order never puts a repeated knot below a later insertion; counting knots gives the index of each Bezier piece |
| C140 | any number of cuts, exact | induction over the cuts: the second part has the knots above the cut, so repeated knots that have been cut at are gone |
| C141 | repeated knots on one side of the parameter, exact | reversal exchanges below and above and keeps equality of curves; knots with a repeated one below are inserted first, in ascending order |
| C142 | trees of merges, exact | induction on the tree with C29, C30 and C129; for one size the number of segments is an affine function of the number of curves |
| C143 | balanced merging of pieces, exact | induction on k with C31 and C82; the derivatives at the junctions carry the same power of 2 on both sides; cuts from C140 |
| C144 | continuity of generation, exact | shares of nonnegative weights; knots are convex combinations of parameters; C93 with the polygon length as slope |
| C145 | linearity of all operations in the points, exact | both curves as linear images of one curve of twice the dimension; relational framework of C132 |
| C146 | moments, orthogonality and noise of fits, exact | normal equations tested with other control polygons; difference of two fits |
| C147 | order of points kept in f64, no tolerance | monotone rounding; computed basis functions never negative for any finite clamped knots |
| C148 | `generate`, `interpolate`, `fit` over `Ieee F` | NaN and infinities are absorbing for sums of products in any order; `accum *= 0.0` does not reset them |
| C149 | `Curve.evaluate` | a linear function of a stretch is a polynomial of degree `≤ p`; with `p + 1` zeros its polar form vanishes |
| C150 | `Curve.evaluate` in `f64` | errors of the summands in proportion to `N_i abs(P_i)`; the total is distributed over the control points in the same proportion |
| C151 | `Knots.evaluate`, `interpolate` | inserting a knot writes every basis function as a nonnegative combination of two neighbours; the determinant is multilinear; at knots of full multiplicity the rows are unit vectors |
| C152 | `evaluate`, `evaluate_derivative` | the curve minus the straight movement along the Greville abscissae has monotone control points (C63); the derivative is a convex combination of its active control points |
| C153 | `evaluate`, `matrix_derivative` | the first bound from the speeds of C152; for the second the control points minus those of a parabola form a convex polygon (C103) |
| C154 | `==` of points and results | field by field; interchangeability from C133 without mirrored coordinates |
| C155 | turning points of the curve | corner cutting (C62) neither adds turns nor lengthens the way; derivative control points are multiples of the steps, by factors >= 0 |
| C156 | uniqueness of penalised fits | Cauchy–Binet: minors of the collocation matrix (C151) times minors of binomial coefficients, which are positive |
| C157 | reproduction by penalised fits | the normal equations tested with the solution itself; only two third differences of the means of uniform knots are not zero, and a polynomial with that many zeros vanishes; alternating sums of binomials for the largest order |
| C158 | influence of data points | the normal equations of two fits, each tested with the other solution; of the difference, tested with itself |

Not expressible in this model: performance (except for the number of calls of `basis`, C115), the convergence of nalgebra's SVD iteration.

## 4. Where the code violates a property

The unchanged code has these defects (each one is a theorem about the model, found while
proving the property):

1. `find_idx(LeftOrEqual)` stops at the first repeated interior knot, so `insert`/`split`
   above such a knot put the knot in the wrong place and change the curve
   (C15, C16, C20, C24–C27, C46). `evaluate` is not affected (C05).
2. `find_idx(RightOrEqual)` underflows at `u ≤ 0` for `p = k` and stops early at repeated
   knots (C46).
3. `segments_derivative(k)` subtracts `p + 2 - 2k`, which underflows for `2k > p + 2` (C48).
4. `get_derivative_curve` returns an object whose points carry no derivatives; it can be
   evaluated, but `evaluate_derivative(_, k ≥ 1)` and `max_derivative` panic (C13).
5. `Curve::new` only compares `n` with `p`; mismatched counts are accepted and panic in
   `evaluate` (C14).
6. `split_and_normalize(_, _, false)` yields halves that are not on `[0,1]`, and `evaluate`
   rejects or mis-evaluates them (C27).
7. `insert` and `split` accept NaN for every curve (C54), `insert_times` any number of times (C118).
8. `insert_times` leaves the insertions already made when it returns `Err` (C18).
9. `merge` panics unless the segment counts satisfy `m ≤ o < m + p` (C29), and for `p ≥ 3` the middle
   control points of the result are wrong (a control point is pushed twice in
   `adjust_shifted_control_points`), so that the result even depends on where the origin is (C76) and
   on the direction (C77); for `p ≤ 2` merging is right (C30–C33). A loop of `append` over curves of one
   size therefore panics at the third curve, and three lines cannot be joined in any order (C142).
10. `prepend_constrained` attaches each constraint list to the other curve (C34); the
    `append`/`prepend` family panics on every `MergeError`.
11. The fixed-ends fit panics for `kappa = n - 1` and for `n = 1`; for knots of degree zero, which `fit`
    accepts, every fit with `lambda > 0` or without segments panics, too (C44).
12. `Knots::normalize` normalises each derivative vector by its own limits (C49).
13. `insert` above an interior knot of multiplicity `p + 1` divides by zero (C53).
14. `reverse` of a curve with a knot of multiplicity `p + 1` changes the side from which the
    jump is evaluated (C22).
15. `equally_spaced(0) = [1]`; `chord_length` of coincident points is 0/0 (C39); a curve
    generated from them evaluates to NaN everywhere (C101).
16. `generate(Manual)` with given knots ignores the requested degree (C60).
17. Writing through `matrix_mut`, `get_mut` or `vector_mut` leaves the cached derivatives stale:
    `evaluate` sees the edit, `evaluate_derivative` does not (C66, C67).
18. In `f64`, `chord_length` and `centripetal` can return a parameter above `1` just before the last
    one, which is set to `1`; with `averaging` this gives unsorted knots (C71).
19. In `f64`, a valid curve evaluates to NaN if two of its knots are extremely close (about `2^-1024`):
    a quotient overflows and is then multiplied by a basis function that is zero (C85).
20. `generate(Manual)` with chord-length or centripetal parameters and `averaging` knots returns a curve
    that ends in the origin if the last `p + 1` control points coincide: the end then has multiplicity
    `p + 2`, and no basis function is different from zero there (C101).
21. `averaging` and `de_boor` use the number of control points where Piegl and Tiller's eq. 9.68 for
    least-squares fits uses the number of data points. With more data than control points the knots
    depend on the first `n` parameters only, and all later parameters lie in the last span (C102).
22. In `f64`, `de_boor` returns unsorted knots for sorted parameters if some of them coincide, for
    instance `chord_length` parameters of repeated points: `(1 - a) x + a x` need not be rounded to `x`
    (C113).
23. `evaluate`, `insert` and `split` compare the parameter with `[0, 1]` and not with the domain. For an
    un-normalised half, `evaluate` returns the origin beyond its end, `insert` and `split` report success
    there and produce unsorted knots, and `split` at the end itself returns a part whose knots all
    coincide (C119).
24. In release builds subtractions wrap, and the sum in nalgebra's range check of a view wraps back, so
    that views outside of their buffer pass it. This makes safe code access memory out of bounds:
    `tail(n)` and `tail_mut(n)` with `n` larger than the length, `internal_knot(i)` of `2p` or `2p + 1`
    knots, and `merge` when the second curve has at least `p` control points more than the first (C121).
25. `evaluate` adds up all control points from the first relevant one to the last, the irrelevant ones
    with weight zero. An infinite or NaN coordinate of control point `i` therefore makes the value NaN at
    every parameter before the knot `U[i]`, far outside of its support (C124).
26. In `f64`, `merge` moves the right knots by one after reversing them twice, so that interior knots next
    to 0 or 1 collapse into the junction or the end, and reports a success (C125). The next insertion above
    such a double knot leaves unsorted knots, although the caller never inserted a knot twice (C127).
27. If a knot collapses into the right end in this way, the merged curve evaluates to the origin at 1, whatever
    its control points are (C128).
28. If a knot collapses into the left end (`2^-1074` halved), the merged curve starts at its second control
    point instead of the first one (C131).
29. `fit/fixed.rs` resets its accumulator with `accum *= 0.0`. A constant term that overflows to an infinity is
    not reset: all later constant terms are NaN, although their exact values may be small (C148).
30. The penalty follows Eilers and Marx, who require equidistant knots so that data on a polynomial of degree
    below `kappa` are fitted exactly whatever `lambda` is. The knots that `is_uniform` accepts are equidistant
    only inside, the ends are clamped. Equidistant data on a straight line are therefore bent by every penalty
    unless `p = 1` or there is one span only (loose ends), or `p ≤ 2` or there are two spans (fixed ends;
    also if `kappa = n - 2` is even) (C157).

## 5. Modelled functions

| file | functions |
|------|-----------|
| `types.rs` | `head`, `tail`, `segment` and their `_mut` forms as list updates |
| `curve/basis/mod.rs` | `basis` |
| `curve/knots/mod.rs` | `generate`, `Knots::{new, vector, vector_derivative, degree, segments, segments_derivative, len, internal_count, internal, internal_knot, domain_count, domain, domain_derivative, domain_knot, multiplicity, reverse, normalize, rescale, max_derivative, derive, find_index, find_idx, evaluate}`, `is_valid`, `is_clamped`, `is_normed`, `is_sorted`, `is_uniform`, `reverse`, `reversed`, `normalize`, `normalized`, `rescale`, `rescaled` |
| `curve/knots/methods.rs` | all |
| `curve/parameters/*` | all |
| `curve/points/mod.rs` | `ControlPoints`, `DataPoints` and their methods, `reverse`, `reversed` |
| `curve/points/methods/*` | `interpolate`, `fit` (loose, fixed), `input_checks`, `compute_svd`, `difference_operator` |
| `curve/generation/mod.rs` | `generate` |
| `curve/mod.rs` | all methods of `Curve` |
| `manipulation/*` | all |

Mutable accessors (`vector_mut`, `matrix_mut`, `get_mut`, …) are modelled as one assignment of a
new value (`Model/Access.lean`).

The derived `PartialEq` of the points and of the errors is in `Model/Equal.lean`.

Not modelled: `Debug`/`Display` texts, `Clone`, `Vec::with_capacity` hints, doc-images, and
the iteration of nalgebra's `SVD::new` (`SVD::solve` is modelled in `Model/Svd.lean`).

## 6. Trusted base

* Lean 4.33.0 kernel. The axioms of the theorems in `MANIFEST.json` (`#print axioms`):
  `propext`, `Classical.choice`, `Quot.sound` for all, except that
  C26_out_of_bounds, C34_append_prepend, C34_constrained_partial, C34_equal_constraints_partial,
  C34_unconstrained, C60_no_points, C99_evaluate, C99_insert, C99_knots, C99_merge, C99_new and C117_unique need only
  `propext`, and C28_degree, C28_dimension, C38_de_boor_errors, C50_is_uniform_degree_zero, C53_new,
  C53_evaluate, C53_reverse, C54_evaluate_partial, C60_too_few_points, C84_one_system,
  C84_one_system_merge, C99_fit, C99_insert_times, C99_split, C100_data, C115_basis_exact, C115_difference_operator,
  C115_faithful, C116_clients, C116_clients_back, C119_evaluate_rejected, C121_tail, C121_view, C134_evaluate, C134_fits, C134_new, C135_evaluate, C135_fits, C135_irrelevant, C135_new, C136_faithful, C136_size, C154_exact and all of C132 except C132_merge and C132_reverse only `propext` and `Quot.sound`. No other axiom, no
  `sorry`, no `native_decide`.
* Mathlib definitions used in statements (ordered fields, `HasDerivWithinAt`,
  `ContinuousOn`, `convexHull`, `Matrix`).
* The reading of the Rust source and of nalgebra 0.32's documented behaviour
  (view/column/row bounds assertions, `insert_row`, `min`/`max`, `SVD::solve`).
