import Verif.Props.FitNoise

/-!
# How single data points influence a fit: C158

Exact arithmetic and a solver that solves every solvable system. The map from the data to the values of a fit at its
parameters is symmetric: a data point acts on the value of another one as that one acts on it. Moved data pull the curve
along.
-/

set_option linter.unusedSectionVars false

namespace BSpline

open Finset

variable {K : Type} [Field K] [LinearOrder K] [IsStrictOrderedRing K] {d : ℕ}

/-- the map from the data to the values is symmetric -/
theorem lsq_symm {r l c : ℕ} {A D : ℕ → ℕ → K} {lam : K} {y x y' x' : ℕ → K}
    (hx : ∀ i, i < c → ∑ j ∈ range c, nm r l A D lam i j * x j = ∑ g ∈ range r, A g i * y g)
    (hx' : ∀ i, i < c → ∑ j ∈ range c, nm r l A D lam i j * x' j = ∑ g ∈ range r, A g i * y' g) :
    ∑ g ∈ range r, mv c A x g * y' g = ∑ g ∈ range r, y g * mv c A x' g := by
  have h1 := lsq_cross hx x'
  have h2 := lsq_cross hx' x
  have e1 : ∑ g ∈ range r, (mv c A x g - y g) * mv c A x' g =
      ∑ g ∈ range r, mv c A x g * mv c A x' g - ∑ g ∈ range r, y g * mv c A x' g := by
    rw [← sum_sub_distrib]; exact sum_congr rfl fun g _ => by ring
  have e2 : ∑ g ∈ range r, (mv c A x' g - y' g) * mv c A x g =
      ∑ g ∈ range r, mv c A x g * mv c A x' g - ∑ g ∈ range r, mv c A x g * y' g := by
    rw [← sum_sub_distrib]; exact sum_congr rfl fun g _ => by ring
  have e3 : ∑ h ∈ range l, mv c D x' h * mv c D x h = ∑ h ∈ range l, mv c D x h * mv c D x' h :=
    sum_congr rfl fun _ _ => mul_comm _ _
  rw [e1] at h1
  rw [e2, e3] at h2
  linarith

/-- the values move towards the data -/
theorem lsq_pull {r l c : ℕ} {A D : ℕ → ℕ → K} {lam : K} {y x y' x' : ℕ → K}
    (hx : ∀ i, i < c → ∑ j ∈ range c, nm r l A D lam i j * x j = ∑ g ∈ range r, A g i * y g)
    (hx' : ∀ i, i < c → ∑ j ∈ range c, nm r l A D lam i j * x' j = ∑ g ∈ range r, A g i * y' g) :
    ∑ g ∈ range r, (mv c A x g - mv c A x' g) * (y g - y' g) =
      ∑ g ∈ range r, (mv c A x g - mv c A x' g) ^ 2 + lam * ∑ h ∈ range l, mv c D (fun j => x j - x' j) h ^ 2 := by
  have h := lsq_cross (lsq_sub hx hx') (fun j => x j - x' j)
  have e1 : ∑ g ∈ range r, (mv c A (fun j => x j - x' j) g - (y g - y' g)) * mv c A (fun j => x j - x' j) g =
      ∑ g ∈ range r, (mv c A x g - mv c A x' g) ^ 2 - ∑ g ∈ range r, (mv c A x g - mv c A x' g) * (y g - y' g) := by
    rw [← sum_sub_distrib]; exact sum_congr rfl fun g _ => by rw [mv_sub]; ring
  have e2 : ∑ h ∈ range l, mv c D (fun j => x j - x' j) h * mv c D (fun j => x j - x' j) h =
      ∑ h ∈ range l, mv c D (fun j => x j - x' j) h ^ 2 := sum_congr rfl fun _ _ => by ring
  rw [e1, e2] at h
  linarith

/-- moving the datum `a` changes the value `b` as moving the datum `b` changes the value `a` -/
theorem lsq_exchange {r l c : ℕ} {A D : ℕ → ℕ → K} {lam : K} (hl : 0 ≤ lam) {y x y₁ x₁ y₂ x₂ : ℕ → K} {a b : ℕ} {δ : K}
    (hx : ∀ i, i < c → ∑ j ∈ range c, nm r l A D lam i j * x j = ∑ g ∈ range r, A g i * y g)
    (hx₁ : ∀ i, i < c → ∑ j ∈ range c, nm r l A D lam i j * x₁ j = ∑ g ∈ range r, A g i * y₁ g)
    (hx₂ : ∀ i, i < c → ∑ j ∈ range c, nm r l A D lam i j * x₂ j = ∑ g ∈ range r, A g i * y₂ g)
    (ha : a < r) (hb : b < r) (h₁ : ∀ g, g < r → y₁ g - y g = if g = a then δ else 0)
    (h₂ : ∀ g, g < r → y₂ g - y g = if g = b then δ else 0) :
    mv c A x₁ b - mv c A x b = mv c A x₂ a - mv c A x a := by
  have k1 := lsq_sub hx₁ hx
  have k2 := lsq_sub hx₂ hx
  have hs := lsq_symm k1 k2
  rw [sum_congr rfl fun g hg => by rw [h₂ g (mem_range.mp hg), mul_ite, mul_zero],
    sum_congr (s₁ := range r) (f := fun g => (y₁ g - y g) * mv c A (fun j => x₂ j - x j) g) rfl fun g hg => by
      rw [h₁ g (mem_range.mp hg), ite_mul, zero_mul],
    sum_ite_eq' , sum_ite_eq', if_pos (mem_range.mpr hb), if_pos (mem_range.mpr ha), mv_sub, mv_sub] at hs
  by_cases hδ : δ = 0
  · have hz : ∀ {y' x' : ℕ → K}, (∀ i, i < c → ∑ j ∈ range c, nm r l A D lam i j * x' j = ∑ g ∈ range r, A g i * y' g) →
        (∀ g, g < r → y' g - y g = 0) → ∀ g, g < r → mv c A x' g - mv c A x g = 0 := fun {y' x'} hx' h0 g hg => by
      have hp := lsq_pull hx' hx
      rw [sum_eq_zero fun g hg => by rw [h0 g (mem_range.mp hg), mul_zero]] at hp
      have p1 : 0 ≤ lam * ∑ h ∈ range l, mv c D (fun j => x' j - x j) h ^ 2 :=
        mul_nonneg hl (sum_nonneg fun _ _ => sq_nonneg _)
      have p2 := (sum_eq_zero_iff_of_nonneg fun g _ => sq_nonneg _).mp (le_antisymm (by linarith [p1])
        (sum_nonneg fun g _ => sq_nonneg (mv c A x' g - mv c A x g))) g (mem_range.mpr hg)
      exact pow_eq_zero_iff two_ne_zero |>.mp p2
    rw [hz hx₁ (fun g hg => by rw [h₁ g hg, hδ, ite_self]) b hb, hz hx₂ (fun g hg => by rw [h₂ g hg, hδ, ite_self]) a ha]
  · rw [mul_comm δ] at hs
    exact mul_right_cancel₀ hδ hs

section loose

variable {p n m : ℕ} {U : List K} {kn : Knots K} {pts P pts' P' : DataPoints K d} {params : Parameters K}
  {solver s' : Solver K d} {pen : Option (Penalization K)} {c c' : Curve K d} {v v' : ℕ → Pt K d}

/-- **C158** The map from the data to the values of a fit with loose ends is symmetric. -/
theorem C158_symmetric (hs : solver.Exact) (hs' : s'.Exact) (hk : Knots.new p U = .ok kn) (hU : ClampedKnots 0 1 p n U) (h1 : 1 ≤ p)
    (hm : List.length pts = m + 1) (hm' : List.length pts' = m + 1) (hv : params.vector.length = params.segments + 1)
    (hτ : ∀ x ∈ params.vector, 0 ≤ x ∧ x ≤ 1) (hfit : Loose.fit solver kn pts params pen = .ok (.ok P))
    (hfit' : Loose.fit s' kn pts' params pen = .ok (.ok P')) (hc : Built c p U P) (hc' : Built c' p U P')
    (hval : ValuesAt c params.vector (range (m + 1)) v) (hval' : ValuesAt c' params.vector (range (m + 1)) v') :
    ∑ g ∈ range (m + 1), dotp (v g) (pts'.getD g 0) = ∑ g ∈ range (m + 1), dotp (pts.getD g 0) (v' g) := by
  obtain ⟨h2, h3, h5, hlen, key⟩ := loose_normal hs hk hU h1 hm hv hfit
  obtain ⟨-, -, -, hlen', key'⟩ := loose_normal hs' hk hU h1 hm' hv hfit'
  have hI := loose_range hm hv h3
  simp only [dotp]
  rw [sum_comm, sum_comm (s := range (m + 1))]
  refine sum_congr rfl fun ρ _ => ?_
  refine Eq.trans ?_ ((lsq_symm (key ρ) (key' ρ)).trans ?_)
  · refine sum_congr rfl fun g hg => ?_
    rw [hval.eq hU hlen hc (fun g hg => (hI g hg).1) hτ hg, getD_eq_fn (by have := mem_range.mp hg; omega)]
    rfl
  · refine sum_congr rfl fun g hg => ?_
    rw [hval'.eq hU hlen' hc' (fun g hg => (hI g hg).1) hτ hg, getD_eq_fn (hI g hg).2]
    rfl

/-- **C158** Moved data pull the values of a fit with loose ends along: the products of both motions add up to the
squared motions of the values, plus the penalty of the difference of the polygons. -/
theorem C158_pull (hs : solver.Exact) (hs' : s'.Exact) (hk : Knots.new p U = .ok kn) (hU : ClampedKnots 0 1 p n U) (h1 : 1 ≤ p)
    (hm : List.length pts = m + 1) (hm' : List.length pts' = m + 1) (hv : params.vector.length = params.segments + 1)
    (hτ : ∀ x ∈ params.vector, 0 ≤ x ∧ x ≤ 1) (hfit : Loose.fit solver kn pts params pen = .ok (.ok P))
    (hfit' : Loose.fit s' kn pts' params pen = .ok (.ok P')) (hc : Built c p U P) (hc' : Built c' p U P')
    (hval : ValuesAt c params.vector (range (m + 1)) v) (hval' : ValuesAt c' params.vector (range (m + 1)) v') :
    ∑ g ∈ range (m + 1), dotp (fun r => v g r - v' g r) (fun r => pts.getD g 0 r - pts'.getD g 0 r) =
      ∑ g ∈ range (m + 1), sqDist (v g) (v' g) + penaltyCost pen (pointDiff P P') := by
  obtain ⟨h2, h3, h5, hlen, key⟩ := loose_normal hs hk hU h1 hm hv hfit
  obtain ⟨-, -, -, hlen', key'⟩ := loose_normal hs' hk hU h1 hm' hv hfit'
  have hI := loose_range hm hv h3
  have hl : (pointDiff P P').length = n + 1 := by simp [pointDiff, hlen, hlen']
  rw [penaltyCost_eq hl]
  simp only [dotp, sqDist]
  rw [sum_comm, sum_comm (s := range (m + 1)) (f := fun g r => (v g r - v' g r) ^ 2), ← sum_add_distrib]
  refine sum_congr rfl fun ρ _ => ?_
  refine Eq.trans ?_ ((lsq_pull (key ρ) (key' ρ)).trans ?_)
  · refine sum_congr rfl fun g hg => ?_
    rw [hval.eq hU hlen hc (fun g hg => (hI g hg).1) hτ hg, hval'.eq hU hlen' hc' (fun g hg => (hI g hg).1) hτ hg,
      getD_eq_fn (hI g hg).2, getD_eq_fn (by have := mem_range.mp hg; omega)]
    rfl
  · congr 1
    · refine sum_congr rfl fun g hg => ?_
      rw [hval.eq hU hlen hc (fun g hg => (hI g hg).1) hτ hg, hval'.eq hU hlen' hc' (fun g hg => (hI g hg).1) hτ hg]
      rfl
    · congr 1
      refine sum_congr rfl fun h _ => ?_
      congr 1
      refine sum_congr rfl fun j hj => ?_
      rw [mem_range] at hj
      congr 1
      exact (fn_pointDiff (by omega) (by omega) ρ).symm

/-- **C158** If only the data point `a` moves, its value moves in the same direction, and the squared motions of all
values add up to at most the product of both motions. -/
theorem C158_one_point (hs : solver.Exact) (hs' : s'.Exact) (hk : Knots.new p U = .ok kn) (hU : ClampedKnots 0 1 p n U) (h1 : 1 ≤ p)
    (hm : List.length pts = m + 1) (hm' : List.length pts' = m + 1) (hv : params.vector.length = params.segments + 1)
    (hτ : ∀ x ∈ params.vector, 0 ≤ x ∧ x ≤ 1) (hfit : Loose.fit solver kn pts params pen = .ok (.ok P))
    (hfit' : Loose.fit s' kn pts' params pen = .ok (.ok P')) (hc : Built c p U P) (hc' : Built c' p U P')
    (hval : ValuesAt c params.vector (range (m + 1)) v) (hval' : ValuesAt c' params.vector (range (m + 1)) v') {a : ℕ} (ha : a ≤ m)
    (hp : ∀ g, g ≤ m → g ≠ a → pts[g]? = pts'[g]?) :
    ∑ g ∈ range (m + 1), sqDist (v g) (v' g) ≤
      dotp (fun r => v a r - v' a r) (fun r => pts.getD a 0 r - pts'.getD a 0 r) := by
  have key := C158_pull hs hs' hk hU h1 hm hm' hv hτ hfit hfit' hc hc' hval hval'
  rw [sum_eq_single a ?_ fun h => absurd (mem_range.mpr (by omega)) h] at key
  · obtain ⟨-, -, h5, hlen, -⟩ := loose_normal hs hk hU h1 hm hv hfit
    obtain ⟨-, -, -, hlen', -⟩ := loose_normal hs' hk hU h1 hm' hv hfit'
    have h12 : 0 ≤ penaltyCost pen (pointDiff P P') := by
      rw [penaltyCost_eq (c := n + 1) (by simp [pointDiff, hlen, hlen'])]
      exact sum_nonneg fun ρ _ => mul_nonneg h5 (sum_nonneg fun _ _ => sq_nonneg _)
    linarith
  · intro g hg hga
    have := hp g (Nat.lt_succ_iff.mp (mem_range.mp hg)) hga
    simp only [List.getD_eq_getElem?_getD, this, dotp, sub_self, mul_zero, sum_const_zero]

/-- **C158** Moving the data point `a` changes the value at the parameter of `b` as moving the data point `b` by the same
vector changes the value at the parameter of `a`. -/
theorem C158_exchange {pts'' P'' : DataPoints K d} {s'' : Solver K d} {c'' : Curve K d} {v'' : ℕ → Pt K d} {a b : ℕ}
    {δ : Pt K d} (hs : solver.Exact) (hs' : s'.Exact) (hk : Knots.new p U = .ok kn) (hU : ClampedKnots 0 1 p n U) (h1 : 1 ≤ p)
    (hm : List.length pts = m + 1) (hm' : List.length pts' = m + 1) (hv : params.vector.length = params.segments + 1)
    (hτ : ∀ x ∈ params.vector, 0 ≤ x ∧ x ≤ 1) (hfit : Loose.fit solver kn pts params pen = .ok (.ok P))
    (hfit' : Loose.fit s' kn pts' params pen = .ok (.ok P')) (hc : Built c p U P) (hc' : Built c' p U P')
    (hval : ValuesAt c params.vector (range (m + 1)) v) (hval' : ValuesAt c' params.vector (range (m + 1)) v')
    (hs'' : s''.Exact) (hm'' : List.length pts'' = m + 1) (hfit'' : Loose.fit s'' kn pts'' params pen = .ok (.ok P''))
    (hc'' : Built c'' p U P'') (hval'' : ValuesAt c'' params.vector (range (m + 1)) v'') (ha : a ≤ m) (hb : b ≤ m)
    (hp' : ∀ g, g ≤ m → pts'.getD g 0 = if g = a then pts.getD g 0 + δ else pts.getD g 0)
    (hp'' : ∀ g, g ≤ m → pts''.getD g 0 = if g = b then pts.getD g 0 + δ else pts.getD g 0) :
    v' b - v b = v'' a - v a := by
  obtain ⟨h2, h3, h5, hlen, key⟩ := loose_normal hs hk hU h1 hm hv hfit
  obtain ⟨-, -, -, hlen', key'⟩ := loose_normal hs' hk hU h1 hm' hv hfit'
  obtain ⟨-, -, -, hlen'', key''⟩ := loose_normal hs'' hk hU h1 hm'' hv hfit''
  have hI := loose_range hm hv h3
  have ha' := mem_range.mpr (Nat.lt_succ_of_le ha)
  have hb' := mem_range.mpr (Nat.lt_succ_of_le hb)
  funext ρ
  rw [Pi.sub_apply, Pi.sub_apply, hval.eq hU hlen hc (fun g hg => (hI g hg).1) hτ ha',
    hval.eq hU hlen hc (fun g hg => (hI g hg).1) hτ hb', hval'.eq hU hlen' hc' (fun g hg => (hI g hg).1) hτ hb',
    hval''.eq hU hlen'' hc'' (fun g hg => (hI g hg).1) hτ ha']
  refine lsq_exchange h5 (key ρ) (key' ρ) (key'' ρ) (mem_range.mp ha') (mem_range.mp hb') (δ := δ ρ) ?_ ?_
  · intro g hg
    have := hp' g (by omega)
    rw [getD_eq_fn (by omega), getD_eq_fn (by omega)] at this
    rw [this]
    split_ifs <;> simp
  · intro g hg
    have := hp'' g (by omega)
    rw [getD_eq_fn (by omega), getD_eq_fn (by omega)] at this
    rw [this]
    split_ifs <;> simp

end loose

section fixed

variable {p n m : ℕ} {U : List K} {kn : Knots K} {pts P : DataPoints K d} {params : Parameters K} {solver : Solver K d}
  {pen : Option (Penalization K)} {c : Curve K d} {v : ℕ → Pt K d}

/-- **C158** for fixed ends: moving the inner data point `a` changes the value at the parameter of `b` as moving the
inner data point `b` by the same vector changes the value at the parameter of `a`. -/
theorem C158_fixed_exchange {pts' P' pts'' P'' : DataPoints K d} {s' s'' : Solver K d} {c' c'' : Curve K d}
    {v' v'' : ℕ → Pt K d} {a b : ℕ} {δ : Pt K d} (hs : solver.Exact) (hs' : s'.Exact) (hs'' : s''.Exact)
    (hk : Knots.new p U = .ok kn) (hU : ClampedKnots 0 1 p n U) (h1 : 1 ≤ p)
    (hm : List.length pts = m + 1) (hm' : List.length pts' = m + 1) (hm'' : List.length pts'' = m + 1)
    (hv : params.vector.length = params.segments + 1) (hτ : ∀ x ∈ params.vector, 0 ≤ x ∧ x ≤ 1)
    (hfit : Fixed.fit solver kn pts params pen = .ok (.ok P)) (hfit' : Fixed.fit s' kn pts' params pen = .ok (.ok P'))
    (hfit'' : Fixed.fit s'' kn pts'' params pen = .ok (.ok P'')) (hc : Built c p U P) (hc' : Built c' p U P')
    (hc'' : Built c'' p U P'') (hval : ValuesAt c params.vector (Ico 1 m) v)
    (hval' : ValuesAt c' params.vector (Ico 1 m) v') (hval'' : ValuesAt c'' params.vector (Ico 1 m) v'')
    (ha : 1 ≤ a ∧ a < m) (hb : 1 ≤ b ∧ b < m)
    (hp' : ∀ g, g ≤ m → pts'.getD g 0 = if g = a then pts.getD g 0 + δ else pts.getD g 0)
    (hp'' : ∀ g, g ≤ m → pts''.getD g 0 = if g = b then pts.getD g 0 + δ else pts.getD g 0) :
    v' b - v b = v'' a - v a := by
  obtain ⟨hn, h2, h3, h5, hlen, hP0, hPn, key⟩ := fixed_normal hs hk hU h1 hm hv hfit
  obtain ⟨-, -, -, -, hlen', hP0', hPn', key'⟩ := fixed_normal hs' hk hU h1 hm' hv hfit'
  obtain ⟨-, -, -, -, hlen'', hP0'', hPn'', key''⟩ := fixed_normal hs'' hk hU h1 hm'' hv hfit''
  have hI := fixed_range hm hv h3
  have f' : ∀ g, g ≤ m → fn pts' g = if g = a then fn pts g + δ else fn pts g := fun g hg => by
    have := hp' g hg
    rwa [getD_eq_fn (by omega), getD_eq_fn (by omega)] at this
  have f'' : ∀ g, g ≤ m → fn pts'' g = if g = b then fn pts g + δ else fn pts g := fun g hg => by
    have := hp'' g hg
    rwa [getD_eq_fn (by omega), getD_eq_fn (by omega)] at this
  have e0' : fn pts 0 = fn pts' 0 := by rw [f' 0 (by omega), if_neg (by omega)]
  have em' : fn pts m = fn pts' m := by rw [f' m le_rfl, if_neg (by omega)]
  have e0'' : fn pts 0 = fn pts'' 0 := by rw [f'' 0 (by omega), if_neg (by omega)]
  have em'' : fn pts m = fn pts'' m := by rw [f'' m le_rfl, if_neg (by omega)]
  have hq : ∀ {q : DataPoints K d}, fn pts 0 = fn q 0 → fn pts m = fn q m → ∀ g (ρ : Fin d),
      fn pts g ρ - fixQ p n m U pts params.vector g ρ = fn q g ρ - fixQ p n m U q params.vector g ρ := by
    intro q e0 em g ρ
    simp only [fixQ, Pi.sub_apply, e0, em, scale]
    ring
  obtain ⟨a, rfl⟩ : ∃ a', a = a' + 1 := ⟨a - 1, by omega⟩
  obtain ⟨b, rfl⟩ : ∃ b', b = b' + 1 := ⟨b - 1, by omega⟩
  have ha' := mem_Ico.mpr ha
  have hb' := mem_Ico.mpr hb
  funext ρ
  rw [Pi.sub_apply, Pi.sub_apply, hval.eq hU hlen hc (fun g hg => (hI g hg).1) hτ ha',
    hval.eq hU hlen hc (fun g hg => (hI g hg).1) hτ hb', hval'.eq hU hlen' hc' (fun g hg => (hI g hg).1) hτ hb',
    hval''.eq hU hlen'' hc'' (fun g hg => (hI g hg).1) hτ ha', value_inner hn hlen hP0 hPn, value_inner hn hlen hP0 hPn,
    value_inner hn hlen' hP0' hPn', value_inner hn hlen'' hP0'' hPn'', hq e0'' em'' (a + 1), hq e0' em' (b + 1)]
  have := lsq_exchange h5 (key ρ) (key' ρ) (key'' ρ) (a := a) (b := b) (δ := δ ρ) (by omega) (by omega) (fun g hg => by
    have h6 := hq e0' em' (g + 1) ρ
    have h7 := congrFun (f' (g + 1) (by omega)) ρ
    by_cases hga : g = a
    · rw [if_pos (by omega), Pi.add_apply] at h7
      rw [if_pos hga]
      linear_combination h6 + h7
    · rw [if_neg (by omega)] at h7
      rw [if_neg hga]
      linear_combination h6 + h7) (fun g hg => by
    have h6 := hq e0'' em'' (g + 1) ρ
    have h7 := congrFun (f'' (g + 1) (by omega)) ρ
    by_cases hga : g = b
    · rw [if_pos (by omega), Pi.add_apply] at h7
      rw [if_pos hga]
      linear_combination h6 + h7
    · rw [if_neg (by omega)] at h7
      rw [if_neg hga]
      linear_combination h6 + h7)
  linear_combination this

/-- **C158** for fixed ends: moved inner data pull the values along. -/
theorem C158_fixed_pull {pts' P' : DataPoints K d} {s' : Solver K d} {c' : Curve K d} {v' : ℕ → Pt K d}
    (hs : solver.Exact) (hs' : s'.Exact) (hk : Knots.new p U = .ok kn) (hU : ClampedKnots 0 1 p n U) (h1 : 1 ≤ p)
    (hm : List.length pts = m + 1) (hm' : List.length pts' = m + 1) (he0 : pts[0]? = pts'[0]?) (he1 : pts[m]? = pts'[m]?)
    (hv : params.vector.length = params.segments + 1) (hτ : ∀ x ∈ params.vector, 0 ≤ x ∧ x ≤ 1)
    (hfit : Fixed.fit solver kn pts params pen = .ok (.ok P)) (hfit' : Fixed.fit s' kn pts' params pen = .ok (.ok P'))
    (hc : Built c p U P) (hc' : Built c' p U P') (hval : ValuesAt c params.vector (Ico 1 m) v)
    (hval' : ValuesAt c' params.vector (Ico 1 m) v') :
    ∑ g ∈ Ico 1 m, dotp (fun r => v g r - v' g r) (fun r => pts.getD g 0 r - pts'.getD g 0 r) =
      ∑ g ∈ Ico 1 m, sqDist (v g) (v' g) + penaltyCost pen (pointDiff P P').tail.dropLast := by
  obtain ⟨hn, h2, h3, h5, hlen, hP0, hPn, key⟩ := fixed_normal hs hk hU h1 hm hv hfit
  obtain ⟨-, -, -, -, hlen', hP0', hPn', key'⟩ := fixed_normal hs' hk hU h1 hm' hv hfit'
  rw [getElem?_eq_iff_fn (by omega) (by omega)] at he0 he1
  have hI := fixed_range hm hv h3
  have hq : ∀ g (ρ : Fin d), fn pts g ρ - fixQ p n m U pts params.vector g ρ =
      fn pts' g ρ - fixQ p n m U pts' params.vector g ρ := by
    intro g ρ
    simp only [fixQ, Pi.sub_apply, he0, he1, scale]
    ring
  have hl : (pointDiff P P').length = n + 1 := by simp [pointDiff, hlen, hlen']
  have hdv : ∀ g ∈ range (m - 1), ∀ ρ, v (1 + g) ρ - v' (1 + g) ρ =
      mv (n - 1) (fun g i => nb p n U (i + 1) (fn params.vector (g + 1))) (fun j => fn P.tail.dropLast j ρ) g -
      mv (n - 1) (fun g i => nb p n U (i + 1) (fn params.vector (g + 1))) (fun j => fn P'.tail.dropLast j ρ) g := by
    intro g hg ρ
    have hg' : g + 1 ∈ Ico 1 m := by
      rw [mem_range] at hg
      rw [mem_Ico]; omega
    rw [Nat.add_comm 1 g, hval.eq hU hlen hc (fun g hg => (hI g hg).1) hτ hg',
      hval'.eq hU hlen' hc' (fun g hg => (hI g hg).1) hτ hg', value_inner hn hlen hP0 hPn,
      value_inner hn hlen' hP0' hPn', hq]
    ring
  rw [penaltyCost_eq (length_inner hl)]
  simp only [dotp, sqDist]
  rw [sum_comm, sum_comm (s := Ico 1 m) (f := fun g r => (v g r - v' g r) ^ 2), ← sum_add_distrib]
  refine sum_congr rfl fun ρ _ => ?_
  refine Eq.trans ?_ ((lsq_pull (key ρ) (key' ρ)).trans ?_)
  · rw [sum_Ico_eq_sum_range]
    refine sum_congr rfl fun g hg => ?_
    have hg' : g + 1 ∈ Ico 1 m := by
      rw [mem_range] at hg
      rw [mem_Ico]; omega
    rw [hdv g hg ρ, Nat.add_comm 1 g, getD_eq_fn (hI _ hg').2, getD_eq_fn (by rw [mem_Ico] at hg'; omega)]
    have := hq (g + 1) ρ
    congr 1
    linear_combination this
  · congr 1
    · rw [sum_Ico_eq_sum_range]
      exact sum_congr rfl fun g hg => by rw [hdv g hg ρ]
    · congr 1
      refine sum_congr rfl fun h _ => ?_
      congr 1
      refine sum_congr rfl fun j hj => ?_
      rw [mem_range] at hj
      congr 1
      show fn P.tail.dropLast j ρ - fn P'.tail.dropLast j ρ = fn (pointDiff P P').tail.dropLast j ρ
      rw [fn_inner (by omega), fn_inner (by omega), fn_inner (by omega)]
      exact (fn_pointDiff (by omega) (by omega) ρ).symm

end fixed

section generated
variable [Trunc K] [Sqrt K]

/-- **C158** for generated curves: a data point acts on the value at the parameter of another one as that one acts on
its own. -/
theorem C158_generate {p n m : ℕ} {pts pts' pts'' : DataPoints K d} {solver s' s'' : Solver K d}
    {pen : Option (Penalization K)} {c c' c'' : Curve K d} {v v' v'' : ℕ → Pt K d} {a b : ℕ} {δ : Pt K d}
    (hs : solver.Exact) (hs' : s'.Exact) (hs'' : s''.Exact) (h1 : 1 ≤ p) (h2 : p ≤ n) (hm : List.length pts = m + 1)
    (hm' : List.length pts' = m + 1) (hm'' : List.length pts'' = m + 1)
    (hgen : generate solver (.leastSquaresFit p pts n .looseEnds pen) = .ok (.ok c))
    (hgen' : generate s' (.leastSquaresFit p pts' n .looseEnds pen) = .ok (.ok c'))
    (hgen'' : generate s'' (.leastSquaresFit p pts'' n .looseEnds pen) = .ok (.ok c''))
    (hv : ∀ g, g ≤ m → c.evaluate ((g : K) / m) = .ok (.ok (v g)))
    (hv' : ∀ g, g ≤ m → c'.evaluate ((g : K) / m) = .ok (.ok (v' g)))
    (hv'' : ∀ g, g ≤ m → c''.evaluate ((g : K) / m) = .ok (.ok (v'' g))) (ha : a ≤ m) (hb : b ≤ m)
    (hp' : ∀ g, g ≤ m → pts'.getD g 0 = if g = a then pts.getD g 0 + δ else pts.getD g 0)
    (hp'' : ∀ g, g ≤ m → pts''.getD g 0 = if g = b then pts.getD g 0 + δ else pts.getD g 0) :
    v' b - v b = v'' a - v a := by
  obtain ⟨ps, P, h3, h4, h5, h6, h7, h8, h9⟩ := generate_loose_inv hs h1 h2 hm hgen
  obtain ⟨ps', P', g3, -, -, -, -, g8, g9⟩ := generate_loose_inv hs' h1 h2 hm' hgen'
  obtain ⟨ps'', P'', k3, -, -, -, -, k8, k9⟩ := generate_loose_inv hs'' h1 h2 hm'' hgen''
  rw [h3] at g3 k3
  injection g3 with g3
  subst g3
  injection k3 with k3
  subst k3
  have hval : ∀ {c : Curve K d} {v : ℕ → Pt K d}, (∀ g, g ≤ m → c.evaluate ((g : K) / m) = .ok (.ok (v g))) →
      ValuesAt c ps.vector (range (m + 1)) v := fun hv g hg => by
    have hg' : g ≤ m := Nat.lt_succ_iff.mp (mem_range.mp hg)
    rw [h7 g hg']
    exact hv g hg'
  exact C158_exchange hs hs' (genKnots_new (K := K) h2 (uniK p n)) (uniform_clamped (K := K) h1 h2) h1 hm hm'
    (by rw [h5, h4]) h6 h8 g8 h9 g9 (hval hv) (hval hv') hs'' hm'' k8 k9 (hval hv'') ha hb hp' hp''

end generated

/-- the hypotheses are met by three quadratic fits with a penalty, of five points each -/
example [Sqrt ℚ] : ∃ (s : Solver ℚ 2) (c c' c'' : Curve ℚ 2) (v v' v'' : ℕ → Pt ℚ 2), s.Exact ∧
    generate s (.leastSquaresFit 2 exPts 3 .looseEnds (some ⟨1/10, 2⟩)) = .ok (.ok c) ∧
    generate s (.leastSquaresFit 2 (exPts.set 1 (exPts.getD 1 0 + ![1, 2])) 3 .looseEnds (some ⟨1/10, 2⟩)) = .ok (.ok c') ∧
    generate s (.leastSquaresFit 2 (exPts.set 3 (exPts.getD 3 0 + ![1, 2])) 3 .looseEnds (some ⟨1/10, 2⟩)) = .ok (.ok c'') ∧
    (∀ g : ℕ, g ≤ 4 → c.evaluate ((g : ℚ) / (4 : ℕ)) = .ok (.ok (v g))) ∧
    (∀ g : ℕ, g ≤ 4 → c'.evaluate ((g : ℚ) / (4 : ℕ)) = .ok (.ok (v' g))) ∧
    (∀ g : ℕ, g ≤ 4 → c''.evaluate ((g : ℚ) / (4 : ℕ)) = .ok (.ok (v'' g))) ∧ v' 3 - v 3 = v'' 1 - v 1 := by
  obtain ⟨s, hs⟩ := exists_exact_solver ℚ 2
  have key : ∀ pts : DataPoints ℚ 2, List.length pts = 4 + 1 → ∃ (c : Curve ℚ 2) (v : ℕ → Pt ℚ 2),
      generate s (.leastSquaresFit 2 pts 3 .looseEnds (some ⟨1/10, 2⟩)) = .ok (.ok c) ∧
      ∀ g : ℕ, g ≤ 4 → c.evaluate ((g : ℚ) / (4 : ℕ)) = .ok (.ok (v g)) := by
    intro pts hm
    obtain ⟨c, U, P, hU, hP, hc, h⟩ := (C44_generate_loose (p := 2) (n := 3) (m := 4) (pts := pts)
      (by omega) (by omega) hm s (some ⟨1/10, 2⟩)).2 (by decide +kernel)
    obtain rfl := hc.eq_canon hU.length hU.le hP
    refine ⟨_, _, h, fun g hg => evaluate_sum hU hP (by positivity) ?_⟩
    rw [div_le_one (by norm_num)]
    exact_mod_cast hg
  obtain ⟨c, v, h1, h2⟩ := key exPts rfl
  obtain ⟨c', v', h3, h4⟩ := key (exPts.set 1 (exPts.getD 1 0 + ![1, 2])) rfl
  obtain ⟨c'', v'', h5, h6⟩ := key (exPts.set 3 (exPts.getD 3 0 + ![1, 2])) rfl
  refine ⟨s, c, c', c'', v, v', v'', hs, h1, h3, h5, h2, h4, h6, ?_⟩
  refine C158_generate (m := 4) hs hs hs (by omega) (by omega) rfl rfl rfl h1 h3 h5 h2 h4 h6 (by omega) (by omega)
    (δ := ![1, 2]) ?_ ?_
  · decide +kernel
  · decide +kernel

/-- with fixed ends, a penalty on the first differences of the inner control points and two inner data points moved -/
example : ∃ (s : Solver ℚ 1) (kn : Knots ℚ) (v v' v'' : ℕ → Pt ℚ 1) (P P' P'' : List (Pt ℚ 1)), s.Exact ∧
    Fixed.fit s kn [![0], ![1], ![3], ![2], ![5]] ⟨[0, 1 / 4, 1 / 2, 3 / 4, 1], 4⟩ (some ⟨1/3, 1⟩) = .ok (.ok P) ∧
    Fixed.fit s kn [![0], ![8], ![3], ![2], ![5]] ⟨[0, 1 / 4, 1 / 2, 3 / 4, 1], 4⟩ (some ⟨1/3, 1⟩) = .ok (.ok P') ∧
    Fixed.fit s kn [![0], ![1], ![3], ![9], ![5]] ⟨[0, 1 / 4, 1 / 2, 3 / 4, 1], 4⟩ (some ⟨1/3, 1⟩) = .ok (.ok P'') ∧
    v' 3 - v 3 = v'' 1 - v 1 ∧ 7 * (v' 1 0 - v 1 0) =
      ∑ g ∈ Ico 1 4, sqDist (v' g) (v g) + penaltyCost (some ⟨1/3, 1⟩) (pointDiff P' P).tail.dropLast := by
  obtain ⟨s, hs⟩ := exists_exact_solver ℚ 1
  have hU : ClampedKnots (0 : ℚ) 1 1 4 [0, 0, 1 / 4, 1 / 2, 3 / 4, 1, 1] := by decide +kernel
  have hk : Knots.new 1 [(0 : ℚ), 0, 1 / 4, 1 / 2, 3 / 4, 1, 1] = .ok _ := Knots.new_ok (by decide)
  have hb : 1 ≤ 4 → isUniform (canonKnots 1 [(0 : ℚ), 0, 1 / 4, 1 / 2, 3 / 4, 1, 1]) = .ok (.ok true) :=
    fun _ => by decide +kernel
  have hτ : ∀ x ∈ [(0 : ℚ), 1 / 4, 1 / 2, 3 / 4, 1], 0 ≤ x ∧ x ≤ 1 := by decide +kernel
  have key : ∀ pts : DataPoints ℚ 1, List.length pts = 4 + 1 → ∃ (P : DataPoints ℚ 1) (c : Curve ℚ 1) (v : ℕ → Pt ℚ 1),
      Fixed.fit s (canonKnots 1 [(0 : ℚ), 0, 1 / 4, 1 / 2, 3 / 4, 1, 1]) pts ⟨[0, 1 / 4, 1 / 2, 3 / 4, 1], 4⟩
        (some ⟨1/3, 1⟩) = .ok (.ok P) ∧ Built c 1 [0, 0, 1 / 4, 1 / 2, 3 / 4, 1, 1] P ∧
      ValuesAt c [0, 1 / 4, 1 / 2, 3 / 4, 1] (Ico 1 4) v := by
    intro pts hm
    obtain ⟨P, h1, -⟩ := (C44_fixed_partial (d := 1) (m := 4) (pts := pts)
      (params := ⟨[0, 1 / 4, 1 / 2, 3 / 4, 1], 4⟩) hk hU.length le_rfl hm rfl hb s (some ⟨1/3, 1⟩)).2
      (by decide +kernel) (by omega) (by intro q hq; cases hq; simp)
    obtain ⟨c, e, h3, -, -, -, -, -, ⟨v, h4, -⟩, -⟩ := C43_fixed_optimal hs hk hU le_rfl hm rfl hτ h1
    exact ⟨P, c, v, h1, h3, h4⟩
  obtain ⟨P, c, v, h1, h2, h3⟩ := key [![0], ![1], ![3], ![2], ![5]] rfl
  obtain ⟨P', c', v', h1', h2', h3'⟩ := key [![0], ![8], ![3], ![2], ![5]] rfl
  obtain ⟨P'', c'', v'', h1'', h2'', h3''⟩ := key [![0], ![1], ![3], ![9], ![5]] rfl
  refine ⟨s, _, v, v', v'', P, P', P'', hs, h1, h1', h1'', ?_, ?_⟩
  · refine C158_fixed_exchange (m := 4) (a := 1) (b := 3) (δ := ![7]) hs hs hs hk hU le_rfl rfl rfl rfl rfl hτ h1 h1' h1''
      h2 h2' h2'' h3 h3' h3'' (by omega) (by omega) ?_ ?_
    · decide +kernel
    · decide +kernel
  · have := C158_fixed_pull (m := 4) (pts := [![0], ![8], ![3], ![2], ![5]]) (pts' := [![0], ![1], ![3], ![2], ![5]])
      hs hs hk hU le_rfl rfl rfl rfl rfl rfl hτ h1' h1 h2' h2 h3' h3
    rw [← this]
    simp [Finset.sum_Ico_succ_top, dotp]
    ring

end BSpline
