import Verif.Props.FitNoise
import Verif.Props.Smoothing
import Verif.Props.ConvergeFast
import Verif.Props.PenaltyUnique

/-!
# Which curves a penalised fit reproduces: C157

A penalised fit passes all its data points only if its own control points cost no penalty. So samples of a curve over
the uniform knots are reproduced exactly if the control points of the curve have no differences of the order of the
penalty, and a straight line, although it has no second derivative, usually is not.
-/

set_option linter.unusedSectionVars false

namespace BSpline

open Finset fwdDiff

variable {K : Type} [Field K] [LinearOrder K] [IsStrictOrderedRing K] [Trunc K] [Sqrt K] {d : ℕ}

/-- a minimiser without error costs no penalty -/
theorem lsq_exact {r l c : ℕ} {A D : ℕ → ℕ → K} {lam : K} {y x : ℕ → K}
    (hx : ∀ i, i < c → ∑ j ∈ range c, nm r l A D lam i j * x j = ∑ g ∈ range r, A g i * y g)
    (h0 : ∑ g ∈ range r, (mv c A x g - y g) ^ 2 = 0) : lam * ∑ h ∈ range l, mv c D x h ^ 2 = 0 := by
  rw [sum_eq_zero_iff_of_nonneg fun _ _ => sq_nonneg _] at h0
  have h1 := lsq_cross hx x
  rw [sum_eq_zero fun g hg => by rw [pow_eq_zero_iff two_ne_zero |>.mp (h0 g hg), zero_mul], zero_add] at h1
  rw [← h1]
  congr 1
  exact sum_congr rfl fun h _ => sq _

/-- **C157** If a fit with loose ends passes all data points, its control points cost no penalty. -/
theorem C157_exact_fit {p n m : ℕ} {U : List K} {kn : Knots K} {pts P : DataPoints K d} {params : Parameters K}
    {solver : Solver K d} {pen : Option (Penalization K)} {c : Curve K d} (hs : solver.Exact)
    (hk : Knots.new p U = .ok kn) (hU : ClampedKnots 0 1 p n U) (h1 : 1 ≤ p) (hm : List.length pts = m + 1)
    (hv : params.vector.length = params.segments + 1) (hτ : ∀ x ∈ params.vector, 0 ≤ x ∧ x ≤ 1)
    (hfit : Loose.fit solver kn pts params pen = .ok (.ok P)) (hc : Built c p U P)
    (he : SqError c params.vector pts (range (m + 1)) 0) : penaltyCost pen P = 0 := by
  obtain ⟨h2, h3, h5, hlen, key⟩ := loose_normal hs hk hU h1 hm hv hfit
  have h6 := (sqError_iff hU hlen hc (loose_range hm hv h3) hτ).mp he
  rw [sum_comm, eq_comm, sum_eq_zero_iff_of_nonneg fun _ _ => sum_nonneg fun _ _ => sq_nonneg _] at h6
  rw [penaltyCost_eq hlen]
  exact sum_eq_zero fun ρ hρ => lsq_exact (key ρ) (h6 ρ hρ)

/-- **C157** If a fit with fixed ends passes all inner data points, its inner control points cost no penalty. -/
theorem C157_fixed_exact_fit {p n m : ℕ} {U : List K} {kn : Knots K} {pts P : DataPoints K d} {params : Parameters K}
    {solver : Solver K d} {pen : Option (Penalization K)} {c : Curve K d} (hs : solver.Exact)
    (hk : Knots.new p U = .ok kn) (hU : ClampedKnots 0 1 p n U) (h1 : 1 ≤ p) (hm : List.length pts = m + 1)
    (hv : params.vector.length = params.segments + 1) (hτ : ∀ x ∈ params.vector, 0 ≤ x ∧ x ≤ 1)
    (hfit : Fixed.fit solver kn pts params pen = .ok (.ok P)) (hc : Built c p U P)
    (he : SqError c params.vector pts (Ico 1 m) 0) : penaltyCost pen P.tail.dropLast = 0 := by
  obtain ⟨hn, h2, h3, h5, hlen, hP0, hPn, key⟩ := fixed_normal hs hk hU h1 hm hv hfit
  have h6 := (sqError_iff hU hlen hc (fixed_range hm hv h3) hτ).mp he
  rw [sum_comm, eq_comm, sum_eq_zero_iff_of_nonneg fun _ _ => sum_nonneg fun _ _ => sq_nonneg _] at h6
  rw [penaltyCost_eq (length_inner hlen)]
  exact sum_eq_zero fun ρ hρ => lsq_exact (key ρ) (by rw [← fixed_error hn hlen hP0 hPn]; exact h6 ρ hρ)

/-- the control points of a curve -/
theorem Built.points_unique {p n : ℕ} {U : List K} {P P' : List (Pt K d)} {c : Curve K d} (hU : U.length = n + p + 2)
    (hpn : p ≤ n) (hP : P.length = n + 1) (hP' : P'.length = n + 1) (hc : Built c p U P) (hc' : Built c p U P') :
    P = P' := by
  have e1 := hc.eq_canon hU hpn hP
  rw [hc'.eq_canon hU hpn hP'] at e1
  have e2 : (canon p U P').points.matrix = .ok P := by rw [e1]; exact canon_matrix
  rw [canon_matrix] at e2
  injection e2 with e2
  exact e2.symm

/-- **C157** Samples of a curve over the uniform knots are reproduced by a fit with loose ends and a positive penalty if
and only if the control points of the curve have no differences of the order of the penalty. -/
theorem C157_loose_reproduces_iff {p n m : ℕ} {pts : DataPoints K d} {solver : Solver K d}
    {q : Penalization K} (hq0 : 0 < q.lambda) (hκ : 1 ≤ q.kappa) (hqn : q.kappa < n)
    (hs : solver.Exact) (h1 : 1 ≤ p) (h2 : p ≤ n) (h3 : n ≤ m) (hm : List.length pts = m + 1)
    {kn : Knots K} {U : List K} (hk : uniform p n = .ok (.ok kn)) (hkU : kn.vector = .ok U)
    {P₀ : List (Pt K d)} {c₀ : Curve K d} (hP₀ : P₀.length = n + 1) (hc₀ : Built c₀ p U P₀)
    (hsample : ∀ (g : ℕ) x, pts[g]? = some x → c₀.evaluate ((g : K) / (m : K)) = .ok (.ok x)) :
    generate solver (.leastSquaresFit p pts n .looseEnds (some q)) = .ok (.ok c₀) ↔ roughness q.kappa P₀ = 0 := by
  refine ⟨fun hgen => ?_, fun h => C74_loose_reproduces hq0.le hqn hs h1 h2 h3 hm hk hkU hP₀ hc₀ h hsample⟩
  obtain ⟨ps, a1, -, a2, a3, -⟩ := C39_equally_spaced (K := K) (m := m) (by omega)
  obtain ⟨ps', b1, b2, b3, b4⟩ := equallySpaced_shape (K := K) m
  rw [a1] at b1
  injection b1 with b1
  subst b1
  have hU := uniform_clamped (K := K) h1 h2
  rw [uniform_ok h1 h2] at hk
  injection hk with hk; injection hk with hk
  subst hk
  rw [canonKnots_vector] at hkU
  injection hkU with hkU
  subst hkU
  rw [generate_fit h1 h2 hm _ _ _ a1] at hgen
  obtain ⟨r, h7, h8⟩ := bind_ok_inv hgen
  cases r with
  | error e => cases h8
  | ok P =>
    obtain ⟨-, -, -, hlen, -⟩ := loose_normal hs (genKnots_new h2 _) hU h1 hm (by rw [b3, b2]) h7
    obtain rfl := Built.points_unique hU.length h2 hlen hP₀ h8 hc₀
    have h9 := C157_exact_fit hs (genKnots_new h2 _) hU h1 hm (by rw [b3, b2]) b4 h7 hc₀ (by
      apply sqError_zero
      intro g hg
      rw [mem_range] at hg
      rw [List.getD_eq_getElem?_getD, a3 g (by omega)]
      exact hsample g _ (by rw [List.getElem?_eq_getElem (by omega), List.getD_eq_getElem _ _ (by omega)]))
    rw [penaltyCost] at h9
    simp only [if_neg (show ¬ q.kappa = 0 by omega)] at h9
    exact (mul_eq_zero.mp h9).resolve_left hq0.ne'

/-- **C157** The same for fixed ends and the inner control points. -/
theorem C157_fixed_reproduces_iff {p n m : ℕ} {pts : DataPoints K d} {solver : Solver K d}
    {q : Penalization K} (hq0 : 0 < q.lambda) (hκ : 1 ≤ q.kappa) (hqn : q.kappa + 2 ≤ n)
    (hs : solver.Exact) (h1 : 1 ≤ p) (h2 : p ≤ n) (h3 : n ≤ m) (hm : List.length pts = m + 1)
    {kn : Knots K} {U : List K} (hk : uniform p n = .ok (.ok kn)) (hkU : kn.vector = .ok U)
    {P₀ : List (Pt K d)} {c₀ : Curve K d} (hP₀ : P₀.length = n + 1) (hc₀ : Built c₀ p U P₀)
    (hsample : ∀ (g : ℕ) x, pts[g]? = some x → c₀.evaluate ((g : K) / (m : K)) = .ok (.ok x)) :
    generate solver (.leastSquaresFit p pts n .fixedEnds (some q)) = .ok (.ok c₀) ↔
      roughness q.kappa P₀.tail.dropLast = 0 := by
  refine ⟨fun hgen => ?_, fun h => C74_fixed_reproduces hq0.le hqn hs h1 h2 h3 hm hk hkU hP₀ hc₀ h hsample⟩
  obtain ⟨ps, a1, -, a2, a3, -⟩ := C39_equally_spaced (K := K) (m := m) (by omega)
  obtain ⟨ps', b1, b2, b3, b4⟩ := equallySpaced_shape (K := K) m
  rw [a1] at b1
  injection b1 with b1
  subst b1
  have hU := uniform_clamped (K := K) h1 h2
  rw [uniform_ok h1 h2] at hk
  injection hk with hk; injection hk with hk
  subst hk
  rw [canonKnots_vector] at hkU
  injection hkU with hkU
  subst hkU
  rw [generate_fit h1 h2 hm _ _ _ a1] at hgen
  obtain ⟨r, h7, h8⟩ := bind_ok_inv hgen
  cases r with
  | error e => cases h8
  | ok P =>
    obtain ⟨-, -, -, -, hlen, -⟩ := fixed_normal hs (genKnots_new h2 _) hU h1 hm (by rw [b3, b2]) h7
    obtain rfl := Built.points_unique hU.length h2 hlen hP₀ h8 hc₀
    have h9 := C157_fixed_exact_fit hs (genKnots_new h2 _) hU h1 hm (by rw [b3, b2]) b4 h7 hc₀ (by
      apply sqError_zero
      intro g hg
      rw [mem_Ico] at hg
      rw [List.getD_eq_getElem?_getD, a3 g (by omega)]
      exact hsample g _ (by rw [List.getElem?_eq_getElem (by omega), List.getD_eq_getElem _ _ (by omega)]))
    rw [penaltyCost] at h9
    simp only [if_neg (show ¬ q.kappa = 0 by omega)] at h9
    exact (mul_eq_zero.mp h9).resolve_left hq0.ne'

/-! ### Straight lines -/

theorem diff_congr (k : ℕ) : ∀ (f g : ℕ → K) (i : ℕ), (∀ j, j ≤ i + k → f j = g j) → (Δ_[1]^[k] f) i = (Δ_[1]^[k] g) i := by
  induction k with
  | zero => intro f g i h; exact h i le_rfl
  | succ k ih =>
    intro f g i h
    rw [Function.iterate_succ_apply, Function.iterate_succ_apply]
    refine ih _ _ i fun j hj => ?_
    rw [fwdDiff, fwdDiff, h _ (by omega), h _ (by omega)]

theorem diff_shift (k o : ℕ) : ∀ (f : ℕ → K) (i : ℕ), (Δ_[1]^[k] fun j => f (j + o)) i = (Δ_[1]^[k] f) (i + o) := by
  induction k with
  | zero => intro f i; rfl
  | succ k ih =>
    intro f i
    rw [Function.iterate_succ_apply, Function.iterate_succ_apply, ← ih]
    refine diff_congr k _ _ i fun j _ => ?_
    simp only [fwdDiff]
    rw [show j + 1 + o = j + o + 1 by omega]

/-- a sequence without differences of order `k` that has `k` zeros vanishes -/
theorem diff_roots {k M : ℕ} {x : ℕ → K} (h : ∀ i, i + k ≤ M → (Δ_[1]^[k] x) i = 0) {e : Fin k → ℕ} (he : StrictMono e)
    (hM : ∀ s, e s ≤ M) (h0 : ∀ s, x (e s) = 0) : ∀ i, i ≤ M → x i = 0 := by
  have h1 := choose_of_diff x h
  have h2 : (fun r : Fin k => (Δ_[1]^[(r : ℕ)] x) 0) = 0 := by
    refine Matrix.eq_zero_of_mulVec_eq_zero (choose_minor_pos (K := K) he).ne' ?_
    funext s
    have := h1 (e s) (hM s)
    rw [h0, sum_range] at this
    exact this.symm
  intro i hi
  rw [h1 i hi, sum_range]
  refine sum_eq_zero fun r _ => ?_
  rw [show (Δ_[1]^[(r : ℕ)] x) 0 = 0 from congrFun h2 r, mul_zero]

/-- a sequence without differences of order `k` vanishes if all but two of its terms do -/
theorem diff_sparse {k M a b : ℕ} {x : ℕ → K} (h : ∀ i, i + k ≤ M → (Δ_[1]^[k] x) i = 0) (hk : k + 1 ≤ M) (hab : a ≤ b)
    (h0 : ∀ i, i ≤ M → i ≠ a → i ≠ b → x i = 0) : ∀ i, i ≤ M → x i = 0 := by
  refine diff_roots h (e := fun s => if s + 1 < b then (if (s : ℕ) < a then (s : ℕ) else s + 1) else s + 2) ?_ ?_ ?_
  · intro s t hst
    have : (s : ℕ) < t := hst
    beta_reduce
    split <;> split <;> (try split) <;> (try split) <;> omega
  · intro s
    have := s.isLt
    split <;> (try split) <;> omega
  · intro s
    have := s.isLt
    refine h0 _ ?_ ?_ ?_ <;> split <;> (try split) <;> omega

/-- the uniform knots as multiples of their distance -/
theorem uniform_fn {p n i : ℕ} (h2 : p ≤ n) (hi : i < n + p + 2) :
    fn (genU p n (uniK (K := K) p n)) i = ((min (i - p) (n - p + 1) : ℕ) : K) / ((n - p + 1 : ℕ) : K) := by
  have hpos : ((n - p + 1 : ℕ) : K) ≠ 0 := by exact_mod_cast Nat.succ_ne_zero (n - p)
  rw [genU, fn_map_range _ (by omega)]
  split
  · rw [show i - p = 0 by omega]; simp
  · split
    · rw [uniK, min_eq_left (by omega)]
    · rw [min_eq_right (by omega), div_self hpos]

/-- the second differences of the means of the uniform knots -/
theorem greville_second {p n i : ℕ} (h1 : 1 ≤ p) (h2 : p ≤ n) (hi : i + 2 ≤ n) :
    (Δ_[1]^[2] fun j : ℕ => greville p (genU p n (uniK (K := K) p n)) j) i =
      ((if i + 1 < n - p + 1 then 1 else 0) - (if p ≤ i + 1 then 1 else 0)) / ((n - p + 1 : ℕ) : K) / (p : K) := by
  have hl := genU_length p n (uniK (K := K) p n)
  have e1 : (Δ_[1]^[2] fun j : ℕ => greville p (genU p n (uniK (K := K) p n)) j) i =
      greville p (genU p n (uniK (K := K) p n)) (i + 2) - greville p (genU p n (uniK p n)) (i + 1) -
        (greville p (genU p n (uniK p n)) (i + 1) - greville p (genU p n (uniK (K := K) p n)) i) := rfl
  have k1 : min (i + 2) (n - p + 1) = min (i + 1) (n - p + 1) + (if i + 1 < n - p + 1 then 1 else 0) := by
    split <;> omega
  have k2 : min (i + 2 - p) (n - p + 1) = min (i + 1 - p) (n - p + 1) + (if p ≤ i + 1 then 1 else 0) := by
    split <;> omega
  rw [e1, greville_step (i := i + 1) (by omega), greville_step (i := i) (by omega), uniform_fn h2 (by omega),
    uniform_fn h2 (by omega), uniform_fn h2 (by omega), uniform_fn h2 (by omega),
    show i + 1 + p + 1 - p = i + 2 by omega, show i + p + 1 - p = i + 1 by omega,
    show i + 1 + 1 - p = i + 2 - p by omega, k1, k2]
  simp only [Nat.cast_add, Nat.cast_ite, Nat.cast_one, Nat.cast_zero]
  ring

/-- when the means of the uniform knots, without `o` of them at either end, have no differences of order `κ` -/
theorem greville_diff {p n o κ : ℕ} (h1 : 1 ≤ p) (h2 : p ≤ n) (hκ : 1 ≤ κ) (hκn : κ + 2 * o ≤ n)
    (hb : κ + 2 * o + 1 ≤ n ∨ κ ≤ 2) :
    (∀ i, i + κ + 2 * o ≤ n → (Δ_[1]^[κ] fun j : ℕ => greville p (genU p n (uniK (K := K) p n)) j) (i + o) = 0) ↔
      2 ≤ κ ∧ (p ≤ o + 1 ∨ n ≤ p + o) := by
  have hl := genU_length p n (uniK (K := K) p n)
  have hp0 : (p : K) ≠ 0 := by exact_mod_cast (by omega : p ≠ 0)
  have hpos : ((n - p + 1 : ℕ) : K) ≠ 0 := by exact_mod_cast Nat.succ_ne_zero (n - p)
  constructor
  · intro h
    have h0 := h 0 (by omega)
    rw [Nat.zero_add] at h0
    rcases Nat.lt_or_ge κ 2 with hκ2 | hκ2
    · obtain rfl : κ = 1 := by omega
      exfalso
      have e1 : (Δ_[1]^[1] fun j : ℕ => greville p (genU p n (uniK (K := K) p n)) j) o =
        greville p (genU p n (uniK (K := K) p n)) (o + 1) - greville p (genU p n (uniK p n)) o := rfl
      rw [e1, greville_step (by omega), uniform_fn h2 (by omega), uniform_fn h2 (by omega), ← sub_div, div_div,
        div_eq_zero_iff] at h0
      rcases h0 with h0 | h0
      · rw [sub_eq_zero, Nat.cast_inj] at h0
        omega
      · exact mul_ne_zero hpos hp0 h0
    · refine ⟨hκ2, ?_⟩
      by_contra hcon
      push Not at hcon
      rcases hκ2.eq_or_lt with rfl | hκ3
      · rw [greville_second h1 h2 (by omega), if_pos (by omega), if_neg (by omega), sub_zero, div_div] at h0
        exact one_div_ne_zero (mul_ne_zero hpos hp0) h0
      · obtain ⟨k, rfl⟩ : ∃ k, κ = k + 3 := ⟨κ - 3, by omega⟩
        -- the third differences vanish but for two of them
        set x : ℕ → K := fun i => (Δ_[1]^[3] fun j : ℕ => greville p (genU p n (uniK (K := K) p n)) j) (i + o) with hx
        have hx3 : ∀ i, i + o + 3 ≤ n → x i =
            (-(if i + o + 2 = n - p + 1 then 1 else 0) - (if p = i + o + 2 then 1 else 0)) /
              ((n - p + 1 : ℕ) : K) / (p : K) := by
          intro i hi
          have e1 : x i = (Δ_[1]^[2] fun j : ℕ => greville p (genU p n (uniK (K := K) p n)) j) (i + o + 1) -
            (Δ_[1]^[2] fun j : ℕ => greville p (genU p n (uniK (K := K) p n)) j) (i + o) := by
            rw [hx]
            beta_reduce
            rw [Function.iterate_succ_apply']
            rfl
          rw [e1, greville_second h1 h2 (by omega), greville_second h1 h2 (by omega), ← sub_div, ← sub_div]
          congr 2
          have c1 : (if i + o + 1 + 1 < n - p + 1 then (1 : K) else 0) =
              (if i + o + 1 < n - p + 1 then 1 else 0) - (if i + o + 2 = n - p + 1 then 1 else 0) := by
            by_cases q1 : i + o + 1 + 1 < n - p + 1
            · rw [if_pos q1, if_pos (by omega), if_neg (by omega), sub_zero]
            · by_cases q2 : i + o + 2 = n - p + 1
              · rw [if_neg q1, if_pos (by omega), if_pos q2, sub_self]
              · rw [if_neg q1, if_neg (by omega), if_neg q2, sub_zero]
          have c2 : (if p ≤ i + o + 1 + 1 then (1 : K) else 0) =
              (if p ≤ i + o + 1 then 1 else 0) + (if p = i + o + 2 then 1 else 0) := by
            by_cases q1 : p ≤ i + o + 1
            · rw [if_pos (by omega), if_pos q1, if_neg (by omega), add_zero]
            · by_cases q2 : p = i + o + 2
              · rw [if_pos (by omega), if_neg q1, if_pos q2, zero_add]
              · rw [if_neg (by omega), if_neg q1, if_neg q2, add_zero]
          rw [c1, c2]
          ring
        have hall := diff_sparse (k := k) (M := n - 3 - 2 * o) (x := x)
          (a := min (n - p + 1 - 2 - o) (p - 2 - o)) (b := max (n - p + 1 - 2 - o) (p - 2 - o))
          (fun i hi => by
            have := h i (by omega)
            rw [Function.iterate_add_apply] at this
            rw [hx, diff_shift]
            exact this)
          (by omega) (by omega)
          (fun i hi ha hb' => by
            rw [hx3 i (by omega), if_neg (by omega), if_neg (by omega), neg_zero, sub_zero, zero_div, zero_div])
        have := hall (p - 2 - o) (by omega)
        rw [hx3 _ (by omega), if_pos (by omega : p = p - 2 - o + o + 2), div_div, div_eq_zero_iff] at this
        rcases this with this | this
        · split at this <;> norm_num at this
        · exact mul_ne_zero hpos hp0 this
  · rintro ⟨hκ2, hpn⟩ i hi
    obtain ⟨k, rfl⟩ : ∃ k, κ = k + 2 := ⟨κ - 2, by omega⟩
    rw [Function.iterate_add_apply, ← diff_shift]
    refine diff_zero k _ i fun j hj => ?_
    rw [greville_second h1 h2 (by omega)]
    rcases hpn with hpn | hpn
    · rw [if_pos (by omega), if_pos (by omega), sub_self, zero_div, zero_div]
    · rw [if_neg (by omega), if_neg (by omega), sub_self, zero_div, zero_div]

/-- the fit to a straight line against the straight line -/
theorem line_control {p n m : ℕ} {c : Curve K d} {P : List (Pt K d)} {A B : Pt K d} (h1 : 1 ≤ p) (h2 : p ≤ n) (h3 : n ≤ m)
    (hc : ValidOn 0 1 c p n (genU p n (uniK (K := K) p n)) P) :
    (∀ u, 0 ≤ u → u ≤ 1 → c.evaluate u = .ok (.ok (A + u • B))) ↔
      c = canon p (genU p n (uniK p n)) ((List.range (n + 1)).map fun (i : ℕ) => A + greville p (genU p n (uniK (K := K) p n)) i • B) := by
  set Q := (List.range (n + 1)).map fun (i : ℕ) => A + greville p (genU p n (uniK (K := K) p n)) i • B with hQ
  have hQl : Q.length = n + 1 := by simp [hQ]
  have hv := validOn_canon hc.2.1 hQl
  have hline := (C61_linear_precision hv h1 A B).1 rfl
  constructor
  · intro h
    have hSW := uniform_schoenbergWhitney (K := K) h1 h2 h3
    rw [hc.eq_canon, C57_determined hc hv hSW fun g hg => by
      have hb := hSW.bounds g hg
      rw [h _ hb.1 hb.2, hline _ hb.1 hb.2]]
  · rintro rfl
    exact hline

/-- an alternating sum of the first binomials of a row -/
theorem alternating_first (L j : ℕ) (hL : 1 ≤ L) (hj : j ≤ L + 1) :
    ∑ k ∈ range (L + 1), (-1 : ℤ) ^ k * (L.choose k : ℤ) * (if k < j then 1 else 0) =
      if j = 0 then 0 else (-1) ^ (j - 1) * ((L - 1).choose (j - 1) : ℤ) := by
  have h1 : ∑ k ∈ range (L + 1), (-1 : ℤ) ^ k * (L.choose k : ℤ) * (if k < j then 1 else 0) =
      ∑ k ∈ range j, (-1 : ℤ) ^ k * (L.choose k : ℤ) := by
    rw [← sum_subset (range_subset_range.mpr hj) fun k _ hk => by
      rw [mem_range] at hk; rw [if_neg hk, mul_zero]]
    exact sum_congr rfl fun k hk => by rw [if_pos (mem_range.mp hk), mul_one]
  rw [h1]
  split
  · next h => subst h; simp
  · next h =>
    obtain ⟨j, rfl⟩ : ∃ i, j = i + 1 := ⟨j - 1, by omega⟩
    obtain ⟨L, rfl⟩ : ∃ i, L = i + 1 := ⟨L - 1, by omega⟩
    rw [Int.alternating_sum_range_choose_eq_choose, Nat.add_sub_cancel, Nat.add_sub_cancel]

/-- the difference of the largest order of the inner means of the uniform knots -/
theorem greville_last_diff {p n : ℕ} (h1 : 1 ≤ p) (h2 : p ≤ n) (hn : 5 ≤ n) :
    (Δ_[1]^[n - 2] fun j : ℕ => greville p (genU p n (uniK (K := K) p n)) j) 1 = 0 ↔
      p ≤ 2 ∨ n ≤ p + 1 ∨ Even n := by
  obtain ⟨L, rfl⟩ : ∃ L, n = L + 4 := ⟨n - 4, by omega⟩
  have hp0 : (p : K) ≠ 0 := by exact_mod_cast (by omega : p ≠ 0)
  have hpos : ((L + 4 - p + 1 : ℕ) : K) ≠ 0 := by exact_mod_cast Nat.succ_ne_zero (L + 4 - p)
  rw [show L + 4 - 2 = L + 2 by omega, Function.iterate_add_apply]
  set s : ℕ → ℤ := fun k => (if k + 2 < L + 4 - p + 1 then 1 else 0) - (if p ≤ k + 2 then 1 else 0) with hs
  have e1 : (Δ_[1]^[L] (Δ_[1]^[2] fun j : ℕ => greville p (genU p (L + 4) (uniK (K := K) p (L + 4))) j)) 1 =
      (((∑ k ∈ range (L + 1), (-1 : ℤ) ^ (L - k) * (L.choose k : ℤ) * s k : ℤ)) : K) /
        ((L + 4 - p + 1 : ℕ) : K) / (p : K) := by
    rw [fwdDiff_iter_eq_sum_shift]
    push_cast
    rw [sum_div, sum_div]
    refine sum_congr rfl fun k hk => ?_
    rw [mem_range] at hk
    rw [smul_eq_mul, mul_one, Nat.add_comm 1 k, greville_second h1 h2 (by omega), zsmul_eq_mul, hs]
    push_cast
    rw [mul_div_assoc, mul_div_assoc]
  rw [e1, div_eq_zero_iff, div_eq_zero_iff, or_iff_left hp0, or_iff_left hpos, Int.cast_eq_zero]
  by_cases hc : p ≤ 2 ∨ L + 4 ≤ p + 1
  · refine iff_of_true (sum_eq_zero fun k hk => ?_) (by omega)
    rw [mem_range] at hk
    have : s k = 0 := by
      simp only [hs]
      split <;> split <;> omega
    rw [this, mul_zero]
  push Not at hc
  have hL : 1 ≤ L := by omega
  have e2 : ∑ k ∈ range (L + 1), (-1 : ℤ) ^ (L - k) * (L.choose k : ℤ) * s k =
      (-1) ^ L * (∑ k ∈ range (L + 1), (-1 : ℤ) ^ k * (L.choose k : ℤ) * (if k < L + 3 - p then 1 else 0) +
        ∑ k ∈ range (L + 1), (-1 : ℤ) ^ k * (L.choose k : ℤ) * (if k < p - 2 then 1 else 0) -
        ∑ k ∈ range (L + 1), (-1 : ℤ) ^ k * (L.choose k : ℤ) * (if k < L + 1 then 1 else 0)) := by
    rw [← sum_add_distrib, ← sum_sub_distrib, mul_sum]
    refine sum_congr rfl fun k hk => ?_
    rw [mem_range] at hk
    have hpw : (-1 : ℤ) ^ (L - k) = (-1) ^ L * (-1) ^ k := by
      rw [← pow_add, show L + k = (L - k) + 2 * k by omega, pow_add, pow_mul, neg_one_sq, one_pow, mul_one]
    have hsk : s k = (if k < L + 3 - p then 1 else 0) + (if k < p - 2 then 1 else 0) - (if k < L + 1 then 1 else 0) := by
      simp only [hs]
      split <;> split <;> split <;> (try split) <;> omega
    rw [hsk, hpw]
    ring
  rw [e2, alternating_first L _ hL (by omega), alternating_first L _ hL (by omega), alternating_first L _ hL le_rfl,
    if_neg (by omega), if_neg (by omega), if_neg (by omega), Nat.add_sub_cancel,
    Nat.choose_eq_zero_of_lt (show L - 1 < L by omega)]
  have hch : (L - 1).choose (p - 2 - 1) = (L - 1).choose (L + 3 - p - 1) := by
    rw [← Nat.choose_symm (show p - 2 - 1 ≤ L - 1 by omega)]
    congr 1
    omega
  have hch0 : ((L - 1).choose (L + 3 - p - 1) : ℤ) ≠ 0 := by
    exact_mod_cast (Nat.choose_pos (show L + 3 - p - 1 ≤ L - 1 by omega)).ne'
  rw [hch]
  have hsgn : (-1 : ℤ) ^ (L + 3 - p - 1) = (-1) ^ (L + p) := by
    rw [show L + p = (L + 3 - p - 1) + 2 * (p - 1) by omega, pow_add, pow_mul, neg_one_sq, one_pow, mul_one]
  have hsgn2 : (-1 : ℤ) ^ (p - 2 - 1) = - (-1) ^ p := by
    rw [show p = (p - 2 - 1) + 2 + 1 by omega, pow_add, pow_add]
    simp
  rw [hsgn, hsgn2]
  have hor : (p ≤ 2 ∨ L + 4 ≤ p + 1 ∨ Even (L + 4)) ↔ Even L := by
    rw [or_iff_right (by omega), or_iff_right (by omega), Nat.even_add]
    simp [show Even 4 by decide]
  rw [hor]
  rcases Nat.even_or_odd L with h | h
  · refine iff_of_true ?_ h
    rw [pow_add, h.neg_one_pow]
    simp
  · refine iff_of_false ?_ (Nat.not_even_iff_odd.mpr h)
    rw [pow_add, h.neg_one_pow]
    rcases Nat.even_or_odd p with h' | h' <;> rw [h'.neg_one_pow] <;> simp <;> omega

/-- when points on a line at mean knots have no differences of order `κ` -/
theorem line_rough_iff {p n o k κ : ℕ} {L : List (Pt K d)} {A B : Pt K d} (hB : B ≠ 0)
    (hκ : 1 ≤ κ) (hL : L.length = k) (ho : k + 2 * o = n + 1)
    (hf : ∀ i, i < k → fn L i = A + greville p (genU p n (uniK (K := K) p n)) (i + o) • B) :
    roughness κ L = 0 ↔
      ∀ i, i + κ + 2 * o ≤ n → (Δ_[1]^[κ] fun j : ℕ => greville p (genU p n (uniK (K := K) p n)) j) (i + o) = 0 := by
  rw [roughness, sum_eq_zero_iff_of_nonneg fun _ _ => sum_nonneg fun _ _ => sq_nonneg _, hL]
  simp only [mem_range, sum_eq_zero_iff_of_nonneg fun _ _ => sq_nonneg _, mem_univ, true_implies,
    pow_eq_zero_iff two_ne_zero]
  have key : ∀ i, i + κ < k → ∀ r, (Δ_[1]^[κ] fun j => L.getD j 0 r) i =
      B r * (Δ_[1]^[κ] fun j : ℕ => greville p (genU p n (uniK (K := K) p n)) j) (i + o) := by
    intro i hi r
    rw [diff_congr κ _ (fun j => A r + B r * greville p (genU p n (uniK (K := K) p n)) (j + o)) i fun j hj => by
      rw [getD_eq_fn (by omega), hf j (by omega), Pi.add_apply, Pi.smul_apply, smul_eq_mul, mul_comm]]
    rw [← diff_shift]
    obtain ⟨κ, rfl⟩ : ∃ k', κ = k' + 1 := ⟨κ - 1, by omega⟩
    rw [Function.iterate_succ_apply, Function.iterate_succ_apply]
    have e1 : Δ_[1] (fun j => A r + B r * greville p (genU p n (uniK (K := K) p n)) (j + o)) =
        B r • Δ_[1] (fun j => greville p (genU p n (uniK (K := K) p n)) (j + o)) := by
      funext j
      simp only [fwdDiff, Pi.smul_apply, smul_eq_mul]
      ring
    rw [e1, fwdDiff_iter_const_smul, Pi.smul_apply, smul_eq_mul]
  constructor
  · intro h i hi
    obtain ⟨r, hr⟩ := Function.ne_iff.mp hB
    have := h i (by omega) r
    rw [key i (by omega)] at this
    exact (mul_eq_zero.mp this).resolve_left hr
  · intro h i hi r
    rw [key i (by omega), h i (by omega), mul_zero]

theorem line_rough {p n o k κ : ℕ} {L : List (Pt K d)} {A B : Pt K d} (h1 : 1 ≤ p) (h2 : p ≤ n) (hB : B ≠ 0)
    (hκ : 1 ≤ κ) (hκn : κ + 2 * o ≤ n) (hb : κ + 2 * o + 1 ≤ n ∨ κ ≤ 2) (hL : L.length = k) (ho : k + 2 * o = n + 1)
    (hf : ∀ i, i < k → fn L i = A + greville p (genU p n (uniK (K := K) p n)) (i + o) • B) :
    roughness κ L = 0 ↔ 2 ≤ κ ∧ (p ≤ o + 1 ∨ n ≤ p + o) := by
  rw [← greville_diff (K := K) h1 h2 hκ hκn hb, line_rough_iff hB hκ hL ho hf]

/-- **C157** A fit with loose ends and a positive penalty on the differences of order `κ` to equidistant points on a
straight line is that line, if and only if `κ` is at least two, and the degree is one or there is only one span. -/
theorem C157_loose_line {p n m κ : ℕ} {pts : DataPoints K d} {solver : Solver K d} {lam : K} {A B : Pt K d} {c : Curve K d}
    (hlam : 0 < lam) (hs : solver.Exact) (h1 : 1 ≤ p) (h2 : p ≤ n) (hκ : 1 ≤ κ) (hκn : κ < n) (h3 : n ≤ m)
    (hm : List.length pts = m + 1) (hB : B ≠ 0)
    (hpts : ∀ (g : ℕ) x, pts[g]? = some x → x = A + ((g : K) / (m : K)) • B)
    (hgen : generate solver (.leastSquaresFit p pts n .looseEnds (some ⟨lam, κ⟩)) = .ok (.ok c)) :
    (∀ u, 0 ≤ u → u ≤ 1 → c.evaluate u = .ok (.ok (A + u • B))) ↔ 2 ≤ κ ∧ (p = 1 ∨ n = p) := by
  obtain ⟨ps, kn, U, P, e, a1, a2, a3, a4, -, -⟩ := C58_loose_unique hs h1 h2 hm hgen
  have hm0 : (0 : K) < m := by exact_mod_cast (by omega : 0 < m)
  have hk := a2
  rw [uniform_ok h1 h2] at a2
  injection a2 with a2; injection a2 with a2
  subst a2
  have hkU := a3
  rw [canonKnots_vector] at a3
  injection a3 with a3
  subst a3
  rw [line_control h1 h2 h3 a4]
  set Q := (List.range (n + 1)).map fun (i : ℕ) => A + greville p (genU p n (uniK (K := K) p n)) i • B with hQ
  have hQl : Q.length = n + 1 := by simp [hQ]
  have hv := validOn_canon a4.2.1 hQl
  have hiff := C157_loose_reproduces_iff (q := ⟨lam, κ⟩) hlam hκ hκn hs h1 h2 h3 hm hk hkU hQl
    hv.1 (fun g x hx => by
      have hg : g ≤ m := by have := (List.getElem?_eq_some_iff.mp hx).1; omega
      rw [hpts g x hx]
      exact (C61_linear_precision hv h1 A B).1 rfl _ (by positivity)
        ((div_le_one hm0).mpr (by exact_mod_cast hg)))
  have e1 : c = canon p (genU p n (uniK p n)) Q ↔
      generate solver (.leastSquaresFit p pts n .looseEnds (some ⟨lam, κ⟩)) = .ok (.ok (canon p (genU p n (uniK p n)) Q)) := by
    rw [hgen]
    exact ⟨fun h => by rw [h], fun h => by injection h with h; injection h⟩
  rw [e1, hiff, line_rough (o := 0) h1 h2 hB hκ (by omega) (by omega) hQl (by omega) fun i hi => fn_map_range _ hi]
  refine and_congr_right fun _ => ?_
  omega

/-- **C157** With fixed ends it is that line, if and only if `κ` is at least two, and the degree is at most two or there
are at most two spans, or `κ` is the largest order `n - 2` and even. -/
theorem C157_fixed_line {p n m κ : ℕ} {pts : DataPoints K d} {solver : Solver K d} {lam : K} {A B : Pt K d} {c : Curve K d}
    (hlam : 0 < lam) (hs : solver.Exact) (h1 : 1 ≤ p) (h2 : p ≤ n) (hκ : 1 ≤ κ) (hκn : κ + 2 ≤ n)
    (h3 : n ≤ m)
    (hm : List.length pts = m + 1) (hB : B ≠ 0)
    (hpts : ∀ (g : ℕ) x, pts[g]? = some x → x = A + ((g : K) / (m : K)) • B)
    (hgen : generate solver (.leastSquaresFit p pts n .fixedEnds (some ⟨lam, κ⟩)) = .ok (.ok c)) :
    (∀ u, 0 ≤ u → u ≤ 1 → c.evaluate u = .ok (.ok (A + u • B))) ↔
      2 ≤ κ ∧ (p ≤ 2 ∨ n ≤ p + 1 ∨ κ + 2 = n ∧ Even n) := by
  obtain ⟨ps, kn, U, P, e, a1, a2, a3, a4, -, -, -, -⟩ := C58_fixed_unique hs h1 h2 hm hgen
  have hm0 : (0 : K) < m := by exact_mod_cast (by omega : 0 < m)
  have hk := a2
  rw [uniform_ok h1 h2] at a2
  injection a2 with a2; injection a2 with a2
  subst a2
  have hkU := a3
  rw [canonKnots_vector] at a3
  injection a3 with a3
  subst a3
  rw [line_control h1 h2 h3 a4]
  set Q := (List.range (n + 1)).map fun (i : ℕ) => A + greville p (genU p n (uniK (K := K) p n)) i • B with hQ
  have hQl : Q.length = n + 1 := by simp [hQ]
  have hv := validOn_canon a4.2.1 hQl
  have hiff := C157_fixed_reproduces_iff (q := ⟨lam, κ⟩) hlam hκ hκn hs h1 h2 h3 hm hk hkU hQl
    hv.1 (fun g x hx => by
      have hg : g ≤ m := by have := (List.getElem?_eq_some_iff.mp hx).1; omega
      rw [hpts g x hx]
      exact (C61_linear_precision hv h1 A B).1 rfl _ (by positivity)
        ((div_le_one hm0).mpr (by exact_mod_cast hg)))
  have e1 : c = canon p (genU p n (uniK p n)) Q ↔
      generate solver (.leastSquaresFit p pts n .fixedEnds (some ⟨lam, κ⟩)) = .ok (.ok (canon p (genU p n (uniK p n)) Q)) := by
    rw [hgen]
    exact ⟨fun h => by rw [h], fun h => by injection h with h; injection h⟩
  have hf : ∀ i, i < n - 1 → fn Q.tail.dropLast i = A + greville p (genU p n (uniK (K := K) p n)) (i + 1) • B :=
    fun i hi => by rw [fn_inner (by omega)]; exact fn_map_range _ (by omega)
  rw [e1, hiff]
  by_cases hb : κ + 3 ≤ n ∨ κ ≤ 2
  · rw [line_rough (o := 1) h1 h2 hB hκ (by omega) (by omega) (length_inner hQl) (by omega) hf]
    refine and_congr_right fun _ => ⟨fun h => h.imp_right .inl, fun h => ?_⟩
    omega
  · rw [line_rough_iff (o := 1) hB hκ (length_inner hQl) (by omega) hf]
    have hκ2 : κ = n - 2 := by omega
    have h4 := greville_last_diff (K := K) h1 h2 (by omega)
    rw [← hκ2] at h4
    rw [and_iff_right (show 2 ≤ κ by omega), and_iff_right (show κ + 2 = n by omega), ← h4]
    refine ⟨fun h => h 0 (by omega), fun h i hi => ?_⟩
    obtain rfl : i = 0 := by omega
    exact h

/-- the hypotheses of C157 are met: a quadratic fit with three segments to four points on a line; it exists and is not the
line. -/
example [Sqrt ℚ] : ∃ (solver : Solver ℚ 1) (c : Curve ℚ 1), solver.Exact ∧
    generate solver (.leastSquaresFit 2 [![0], ![1 / 3], ![2 / 3], ![1]] 3 .looseEnds (some ⟨1, 2⟩)) = .ok (.ok c) ∧
    ¬ ∀ u, 0 ≤ u → u ≤ 1 → c.evaluate u = .ok (.ok (![0] + u • ![1])) := by
  obtain ⟨s, hs⟩ := exists_exact_solver ℚ 1
  obtain ⟨c, -, -, -, -, -, hgen⟩ := (C44_generate_loose (p := 2) (n := 3) (m := 3)
    (pts := [![(0 : ℚ)], ![1 / 3], ![2 / 3], ![1]]) (by omega) (by omega) rfl s (some ⟨1, 2⟩)).2 (by decide +kernel)
  refine ⟨s, c, hs, hgen, ?_⟩
  rw [C157_loose_line (m := 3) one_pos hs (by omega) (by omega) (by omega) (by omega) le_rfl rfl (by decide +kernel) (fun g x hx => by
    have hg : g < 4 := (List.getElem?_eq_some_iff.mp hx).1
    interval_cases g <;> (injection hx with hx; subst hx; decide +kernel)) hgen]
  omega

/-- with fixed ends: a quadratic fit with four segments is the line -/
example [Sqrt ℚ] : ∃ (solver : Solver ℚ 1) (c : Curve ℚ 1), solver.Exact ∧
    generate solver (.leastSquaresFit 2 [![0], ![1 / 4], ![1 / 2], ![3 / 4], ![1]] 4 .fixedEnds (some ⟨1, 2⟩)) = .ok (.ok c) ∧
    ∀ u, 0 ≤ u → u ≤ 1 → c.evaluate u = .ok (.ok (![0] + u • ![1])) := by
  obtain ⟨s, hs⟩ := exists_exact_solver ℚ 1
  obtain ⟨c, -, -, -, -, -, hgen⟩ := (C44_generate_fixed_partial (p := 2) (n := 4) (m := 4)
    (pts := [![(0 : ℚ)], ![1 / 4], ![1 / 2], ![3 / 4], ![1]]) (by omega) (by omega) rfl s (some ⟨1, 2⟩)).2
    (by decide +kernel) (by omega) (by intro q hq; cases hq; exact le_rfl)
  refine ⟨s, c, hs, hgen, ?_⟩
  rw [C157_fixed_line (m := 4) one_pos hs (by omega) (by omega) (by omega) (by omega) le_rfl rfl (by decide +kernel) (fun g x hx => by
    have hg : g < 5 := (List.getElem?_eq_some_iff.mp hx).1
    interval_cases g <;> (injection hx with hx; subst hx; decide +kernel)) hgen]
  omega

/-- the exception for fixed ends occurs: for `p = 4`, `n = 6`, `κ = n - 2 = 4` the inner control points of a line
have no differences of order `κ`, although the degree is above two and there are three spans -/
example : roughness 4 (((List.range 7).map fun i => (![greville 4 (genU 4 6 (uniK (K := ℚ) 4 6)) i] : Pt ℚ 1)).tail.dropLast)
    = 0 ∧ ¬ (4 ≤ 2 ∨ 6 ≤ 4 + 1) := by
  decide +kernel

end BSpline
