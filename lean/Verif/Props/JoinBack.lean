import Verif.Props.JoinMany
import Verif.Props.Pieces

/-!
# C143: Cutting a curve into equal stretches and joining them again

C32 is about one cut in the middle. Here a curve of degree 1 or 2 is cut into `2 ^ k` pieces over equally long
stretches of the parameter, and the pieces are joined in the balanced order of C142.
-/

namespace BSpline

namespace JoinTree

variable {α : Type}

/-- the balanced order of joining the curves `f s, …, f (s + 2 ^ k - 1)` -/
def balanced (f : ℕ → α) : (k s : ℕ) → JoinTree α
  | 0, s => leaf (f s)
  | k + 1, s => node (balanced f k s) (balanced f k (s + 2 ^ k))

theorem toList_balanced (f : ℕ → α) : ∀ k s, (balanced f k s).toList = (List.range' s (2 ^ k)).map f
  | 0, s => by simp [balanced, toList]
  | k + 1, s => by
    rw [balanced, toList, toList_balanced f k, toList_balanced f k, ← List.map_append, List.range'_append_1, pow_succ]
    congr 2; omega

end JoinTree

variable {K : Type} [Field K] [LinearOrder K] [IsStrictOrderedRing K] {d p m : ℕ}

/-- **C143** `2 ^ k` curves of degree 1 or 2 with equally many control points which join already with all derivatives
below the degree, joined in the balanced order: the result runs through all of them, each over the same share of the
parameter. -/
theorem C143_join {solver : Solver K d} (hs : solver.Exact) (h1 : 1 ≤ p) (h2 : p ≤ 2) {f : ℕ → Curve K d} (k : ℕ) :
    ∀ s, (∀ i < 2 ^ k, ∃ U P, ValidOn 0 1 (f (s + i)) p m U P) →
      (∀ i, i + 1 < 2 ^ k → ∀ j < p, (f (s + i)).evaluateDerivative 1 j = (f (s + i + 1)).evaluateDerivative 0 j) →
      ∃ c U P n, joinTree solver (JoinTree.balanced f k s) = .ok c ∧ ValidOn 0 1 c p n U P ∧
        n + 1 = 2 ^ k * (m + 1 - p) + p ∧
        ∀ i < 2 ^ k, ∀ t j, 0 ≤ t → t ≤ 1 → (t = 1 → i + 1 < 2 ^ k → j < p) →
          ∃ w, (f (s + i)).evaluateDerivative t j = .ok (.ok w) ∧
            c.evaluateDerivative (((i : K) + t) / 2 ^ k) j = .ok (.ok (((2 : K) ^ k) ^ j • w)) := by
  induction k with
  | zero =>
    intro s hv _
    obtain ⟨U, P, h⟩ := hv 0 (by norm_num)
    refine ⟨f s, U, P, m, rfl, h, by have := h.2.1.le; omega, ?_⟩
    intro i hi t j t0 t1 _
    obtain rfl : i = 0 := by simpa using hi
    obtain ⟨w, hw⟩ : ∃ w, (f (s + 0)).evaluateDerivative t j = .ok (.ok w) := by
      refine (C06_evaluation_total h.1 h.2.1.length h.2.2 h.2.1.le t j).2.1 ?_
      simp [Cmp.le, t0, t1]
    refine ⟨w, hw, ?_⟩
    simpa using hw
  | succ k ih =>
    intro s hv hj
    have hk : 2 ^ (k + 1) = 2 ^ k + 2 ^ k := by rw [pow_succ]; omega
    have hk0 : 0 < 2 ^ k := by positivity
    obtain ⟨a, V, S, n, ea, ha, hn, va⟩ := ih s (fun i hi => hv i (by omega)) (fun i hi => hj i (by omega))
    obtain ⟨b, W, T, o, eb, hb, ho, vb⟩ := ih (s + 2 ^ k)
      (fun i hi => by rw [Nat.add_assoc]; exact hv _ (by omega))
      (fun i hi => by
        rw [show s + 2 ^ k + i = s + (2 ^ k + i) by omega]; exact hj _ (by omega))
    obtain rfl : n = o := by omega
    have hpw : ((2 : K) ^ k) ≠ 0 := by positivity
    obtain ⟨c, ec, hh⟩ := C31_already_partial (ua := []) (ub := []) hs ha.1 hb.1 ha.2.1 hb.2.1 ha.2.2 hb.2.2 h1 h2 (by
      intro j hjp
      obtain ⟨w, e1, e2⟩ := va (2 ^ k - 1) (by omega) 1 j zero_le_one le_rfl (fun _ _ => hjp)
      obtain ⟨w', e3, e4⟩ := vb 0 hk0 0 j le_rfl zero_le_one (fun h => absurd h zero_ne_one)
      have := hj (2 ^ k - 1) (by omega) j hjp
      rw [show s + (2 ^ k - 1) + 1 = s + 2 ^ k + 0 by omega, e1, e3] at this
      injection this with this; injection this with this; subst this
      rw [show ((2 ^ k - 1 : ℕ) : K) = 2 ^ k - 1 by rw [Nat.cast_sub (by omega)]; push_cast; ring,
        show ((2 : K) ^ k - 1 + 1) / 2 ^ k = 1 by field_simp; ring] at e2
      rw [show (((0 : ℕ) : K) + 0) / 2 ^ k = 0 by simp] at e4
      rw [e2, e4])
    obtain ⟨c', U, P, ec', hc', -⟩ := append_fits (by omega) ha hb solver ⟨le_rfl, by omega⟩
    obtain rfl : c = c' := by
      rw [Curve.append, merge, ec] at ec'
      exact Except.ok.inj ec'
    refine ⟨c, U, P, _, ?_, hc', ?_, ?_⟩
    · rw [JoinTree.balanced, joinTree, ea, eb]; exact ec'
    · have := ha.2.1.le
      rw [hk, add_mul]; omega
    · intro i hi t j t0 t1 hend
      by_cases hik : i < 2 ^ k
      · obtain ⟨w, e1, e2⟩ := va i hik t j t0 t1 (fun h _ => hend h (by omega))
        have hi' : (i : K) + 1 ≤ 2 ^ k := by exact_mod_cast hik
        have hp0 : (0 : K) < 2 ^ k := by positivity
        obtain ⟨w', e3, e4⟩ := hh.left (((i : K) + t) / 2 ^ k) j (by positivity)
          (by rw [div_le_one hp0]; linarith) (by
            intro h
            rw [div_eq_one_iff_eq hpw] at h
            exact hend (by linarith) (by omega))
        rw [e2] at e3
        injection e3 with e3; injection e3 with e3; subst e3
        refine ⟨w, e1, ?_⟩
        rw [show ((i : K) + t) / 2 ^ (k + 1) = ((i : K) + t) / 2 ^ k / 2 by rw [pow_succ, div_div], e4, smul_smul,
          ← mul_pow, pow_succ, mul_comm]
      · obtain ⟨w, e1, e2⟩ := vb (i - 2 ^ k) (by omega) t j t0 t1 (fun h _ => hend h (by omega))
        rw [show s + 2 ^ k + (i - 2 ^ k) = s + i by omega] at e1
        have hi' : (i : K) + 1 ≤ 2 ^ k + 2 ^ k := by rw [hk] at hi; exact_mod_cast hi
        have hi2 : (2 : K) ^ k ≤ i := by exact_mod_cast (not_lt.1 hik)
        have hp0 : (0 : K) < 2 ^ k := by positivity
        have hc : ((i - 2 ^ k : ℕ) : K) = i - 2 ^ k := by rw [Nat.cast_sub (by omega)]; push_cast; ring
        rw [hc] at e2
        obtain ⟨w', e3, e4⟩ := hh.right (((i : K) - 2 ^ k + t) / 2 ^ k) j (div_nonneg (by linarith) hp0.le)
          (by rw [div_le_one hp0]; linarith)
        rw [e2] at e3
        injection e3 with e3; injection e3 with e3; subst e3
        refine ⟨w, e1, ?_⟩
        rw [show ((i : K) + t) / 2 ^ (k + 1) = (1 + ((i : K) - 2 ^ k + t) / 2 ^ k) / 2 by
          rw [pow_succ]; field_simp; ring, e4, smul_smul, ← mul_pow, pow_succ, mul_comm]

/-- the parameters `1 / 2 ^ k, 2 / 2 ^ k, …` below 1 -/
def equalCuts (K : Type) [Field K] (k : ℕ) : List K := (List.range (2 ^ k - 1)).map fun i : ℕ => ((i : K) + 1) / 2 ^ k

theorem equalCuts_get (k : ℕ) {i : ℕ} (hi : i ≤ 2 ^ k) :
    (0 :: (equalCuts K k ++ [1]))[i]? = some ((i : K) / 2 ^ k) := by
  have h0 : 0 < 2 ^ k := by positivity
  cases i with
  | zero => simp
  | succ i =>
    rw [List.getElem?_cons_succ]
    by_cases h : i < 2 ^ k - 1
    · rw [List.getElem?_append_left (by simpa [equalCuts] using h)]
      simp [equalCuts, h]
    · obtain rfl : i = 2 ^ k - 1 := by omega
      rw [List.getElem?_append_right (by simp [equalCuts])]
      have : (((2 ^ k - 1 + 1 : ℕ) : K)) = 2 ^ k := by rw [show 2 ^ k - 1 + 1 = 2 ^ k by omega]; push_cast; rfl
      rw [this, div_self (by positivity)]
      simp [equalCuts]

omit [IsStrictOrderedRing K] in
theorem cuttable_simple {U : List K} (h1 : 1 ≤ p) (hm : ∀ z, 0 < z → z < 1 → U.count z ≤ 1) (xs : List K) :
    ∀ {a : K}, 0 ≤ a → (a :: xs).Pairwise (· < ·) → (∀ x ∈ xs, x < 1) → Cuttable p U a xs := by
  induction xs with
  | nil => exact fun _ _ _ => trivial
  | cons x xs ih =>
    intro a ha hp hx
    have hax : a < x := (List.pairwise_cons.1 hp).1 x (by simp)
    have hx1 := hx x (by simp)
    refine ⟨hax, hx1, fun z z0 z1 => hm z (by order) (by order), (hm x (by order) hx1).trans h1,
      ih (by order) (List.pairwise_cons.1 hp).2 fun y hy => hx y (by simp [hy])⟩

theorem equalCuts_cuttable {U : List K} (h1 : 1 ≤ p) (hm : ∀ z, 0 < z → z < 1 → U.count z ≤ 1) (k : ℕ) :
    Cuttable p U 0 (equalCuts K k) := by
  have hp : (0 : K) < 2 ^ k := by positivity
  refine cuttable_simple h1 hm _ le_rfl (List.pairwise_cons.2 ⟨?_, ?_⟩) ?_
  · intro x hx
    obtain ⟨i, -, rfl⟩ := List.mem_map.1 hx
    positivity
  · rw [equalCuts, List.pairwise_map]
    refine List.pairwise_lt_range.imp fun {i j} h => ?_
    have : (i : K) < j := by exact_mod_cast h
    exact div_lt_div_of_pos_right (by linarith) hp
  · intro x hx
    obtain ⟨i, hi, rfl⟩ := List.mem_map.1 hx
    rw [div_lt_one hp]
    have := List.mem_range.1 hi
    exact_mod_cast (show i + 1 < 2 ^ k by omega)

/-- every parameter lies in one of `N` equal stretches -/
theorem exists_stretch {N : ℕ} (hN : 0 < N) {u : K} (u0 : 0 ≤ u) (u1 : u ≤ 1) :
    ∃ i < N, ∃ t : K, 0 ≤ t ∧ t ≤ 1 ∧ u = ((i : K) + t) / N ∧ (t = 1 → i + 1 = N) := by
  have hN' : (0 : K) < N := by exact_mod_cast hN
  have key : ∀ M, M < N → u * N ≤ M + 1 → ∃ i ≤ M, (i : K) ≤ u * N ∧ (u * N < i + 1 ∨ i = M) := by
    intro M
    induction M with
    | zero => exact fun _ _ => ⟨0, le_rfl, by simpa using mul_nonneg u0 hN'.le, .inr rfl⟩
    | succ M ih =>
      intro hM h
      rcases le_or_gt ((M : K) + 1) (u * N) with h' | h'
      · exact ⟨M + 1, le_rfl, by push_cast; exact h', .inr rfl⟩
      · obtain ⟨i, hi, h3, h4⟩ := ih (by omega) h'.le
        refine ⟨i, by omega, h3, .inl ?_⟩
        rcases h4 with h4 | rfl
        · exact h4
        · exact h'
  have hle : u * N ≤ ((N - 1 : ℕ) : K) + 1 := by
    rw [Nat.cast_sub (by omega)]
    have := mul_le_mul_of_nonneg_right u1 hN'.le
    push_cast; linarith
  obtain ⟨i, hi, h1, h2⟩ := key (N - 1) (by omega) hle
  refine ⟨i, by omega, u * N - i, by linarith, ?_, by field_simp; ring, ?_⟩
  · rcases h2 with h2 | rfl
    · linarith
    · linarith
  · intro h
    rcases h2 with h2 | rfl
    · linarith
    · omega

/-- **C143** A curve of degree 1 or 2 without repeated interior knots, whose knots are distributed evenly over the `2 ^ k`
stretches, can be cut into `2 ^ k` pieces at equidistant parameters, and joining the pieces in the balanced order gives
back the curve with all derivatives. -/
theorem C143_restore {solver : Solver K d} (hs : solver.Exact) (h1 : 1 ≤ p) (h2 : p ≤ 2) {c : Curve K d} {n q k : ℕ}
    {U : List K} {P : List (Pt K d)} (hc : ValidOn 0 1 c p n U P) (hm : ∀ z, 0 < z → z < 1 → U.count z ≤ 1)
    (hq : ∀ i : ℕ, i < 2 ^ k → U.countP (fun z => decide ((i : K) / 2 ^ k < z ∧ z < ((i : K) + 1) / 2 ^ k)) = q) :
    ∃ cs c', cutAll c 0 (equalCuts K k) = .ok (.ok cs) ∧ cs.length = 2 ^ k ∧
      (∃ t, t.toList = cs ∧ joinTree solver t = .ok c') ∧
      ∀ u j, 0 ≤ u → u ≤ 1 → c'.evaluateDerivative u j = c.evaluateDerivative u j := by
  have h0 : 0 < 2 ^ k := by positivity
  have hpK : (0 : K) < 2 ^ k := by positivity
  obtain ⟨cs, hcut, hlen, hpc⟩ := C140_pieces hc (equalCuts_cuttable h1 hm k)
  have hlen' : cs.length = 2 ^ k := by rw [hlen]; simp [equalCuts]; omega
  obtain ⟨f, hf⟩ : ∃ f : ℕ → Curve K d, f = fun i => cs.getD i c := ⟨_, rfl⟩
  have hpiece : ∀ i : ℕ, i < 2 ^ k → IsPiece c p U ((i : K) / 2 ^ k) (((i : K) + 1) / 2 ^ k) (f i) := by
    intro i hi
    have e2 := equalCuts_get (K := K) k (i := i + 1) (by omega)
    push_cast at e2
    refine hpc i _ _ _ (equalCuts_get k hi.le) e2 ?_
    rw [hf]
    dsimp only
    rw [List.getD_eq_getElem _ _ (by omega), List.getElem?_eq_getElem (by omega)]
  have hw : ∀ i : ℕ, ((i : K) + 1) / 2 ^ k - (i : K) / 2 ^ k = 1 / 2 ^ k := by
    intro i; field_simp; ring
  have hder : ∀ i : ℕ, i < 2 ^ k → ∀ t j, 0 ≤ t → t ≤ 1 → (t = 1 → i + 1 < 2 ^ k → j < p) →
      ∃ w, c.evaluateDerivative (((i : K) + t) / 2 ^ k) j = .ok (.ok w) ∧
        (f i).evaluateDerivative t j = .ok (.ok ((1 / (2 : K) ^ k) ^ j • w)) := by
    intro i hi t j t0 t1 hend
    obtain ⟨w, e1, e2⟩ := (hpiece i hi).2.2 t j t0 t1 (by
      intro ht hy hj
      rw [div_lt_one hpK] at hy
      have := hend ht (by exact_mod_cast hy)
      have h' := hm (((i : K) + 1) / 2 ^ k) (by positivity) (by rwa [div_lt_one hpK])
      omega)
    rw [hw] at e1 e2
    refine ⟨w, ?_, e2⟩
    rw [← e1]; congr 1; field_simp
  obtain ⟨c', U', P', n', ej, -, -, hv⟩ := C143_join (m := p + q) hs h1 h2 (f := f) k 0
    (fun i hi => by
      obtain ⟨P', hP'⟩ := (hpiece i hi).1
      rw [hq i hi] at hP'
      rw [Nat.zero_add]
      exact ⟨_, P', hP'⟩)
    (fun i hi j hj => by
      rw [Nat.zero_add]
      obtain ⟨w, e1, e2⟩ := hder i (by omega) 1 j zero_le_one le_rfl (fun _ _ => hj)
      obtain ⟨w', e3, e4⟩ := hder (i + 1) hi 0 j le_rfl zero_le_one (fun h => absurd h zero_ne_one)
      push_cast at e3
      rw [add_zero, e1] at e3
      injection e3 with e3; injection e3 with e3; subst e3
      rw [e2, e4])
  refine ⟨cs, c', hcut, hlen', ⟨_, ?_, ej⟩, ?_⟩
  · rw [JoinTree.toList_balanced, hf]
    refine List.ext_getElem (by simp [hlen']) fun i h3 h4 => ?_
    simp [List.getElem?_eq_getElem h4]
  · intro u j u0 u1
    obtain ⟨i, hi, t, t0, t1, hu, hend⟩ := exists_stretch h0 u0 u1
    push_cast at hu
    obtain ⟨w, e1, e2⟩ := hder i hi t j t0 t1 (fun h h' => by have := hend h; omega)
    obtain ⟨w', e3, e4⟩ := hv i hi t j t0 t1 (fun h h' => by have := hend h; omega)
    rw [Nat.zero_add, e2] at e3
    injection e3 with e3; injection e3 with e3; subst e3
    rw [hu, e1, e4, smul_smul, ← mul_pow, mul_one_div_cancel hpK.ne', one_pow, one_smul]

/-! ### Examples -/

/-- a quadratic curve with one knot in each quarter -/
def exQuarters : Curve ℚ 1 := canon 2 [0, 0, 0, 1 / 8, 3 / 8, 5 / 8, 7 / 8, 1, 1, 1]
  [![0], ![1], ![3], ![2], ![5], ![4], ![7]]

/-- It is restored from its four quarters, by any exact solver. -/
example {solver : Solver ℚ 1} (hs : solver.Exact) : ∃ cs c', cutAll exQuarters 0 (equalCuts ℚ 2) = .ok (.ok cs) ∧
    cs.length = 4 ∧ (∃ t, t.toList = cs ∧ joinTree solver t = .ok c') ∧
    ∀ u j, 0 ≤ u → u ≤ 1 → c'.evaluateDerivative u j = exQuarters.evaluateDerivative u j :=
  C143_restore (q := 1) (k := 2) (n := 6) hs (by norm_num) le_rfl (validOn_canon (by decide +kernel) rfl)
    (fun z h0 h1 => by
      have : ∀ z ∈ [(0 : ℚ), 0, 0, 1 / 8, 3 / 8, 5 / 8, 7 / 8, 1, 1, 1], 0 < z → z < 1 →
        [(0 : ℚ), 0, 0, 1 / 8, 3 / 8, 5 / 8, 7 / 8, 1, 1, 1].count z ≤ 1 := by decide +kernel
      by_cases hz : z ∈ [(0 : ℚ), 0, 0, 1 / 8, 3 / 8, 5 / 8, 7 / 8, 1, 1, 1]
      · exact this z hz h0 h1
      · rw [List.count_eq_zero_of_not_mem hz]; omega)
    (by decide +kernel)

/-- the control points of the four quarters -/
def exQuarterPts : Exec (List (List (Pt ℚ 1))) := do
  match ← cutAll exQuarters 0 (equalCuts ℚ 2) with
  | .ok cs => cs.mapM fun c : Curve ℚ 1 => c.points.matrix
  | .error _ => pure []

example : exQuarterPts = .ok [[![0], ![1], ![7 / 3], ![61 / 24]], [![61 / 24], ![11 / 4], ![9 / 4], ![5 / 2]],
    [![5 / 2], ![11 / 4], ![17 / 4], ![107 / 24]], [![107 / 24], ![14 / 3], ![4], ![7]]] := by decide +kernel

end BSpline
