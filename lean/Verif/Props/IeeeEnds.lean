import Verif.Refine.Ends
import Verif.Props.IeeeClamped

/-!
# The ends of a curve in any arithmetic and in double precision (C129)
-/

set_option linter.unusedSectionVars false

namespace BSpline

section LawFree

variable {K : Type} [Add K] [Sub K] [Mul K] [Div K] [Neg K] [Zero K] [One K] [NatCast K] [Cmp K] {d : ℕ}
variable {a b c c' : Curve K d} {p q m n o : ℕ} {x y z w : Pt K d}

/-- **C129** Insertions do not change the first and the last control point, whether they succeed or fail. -/
theorem C129_insert_times (h : Shaped c p n) (he : Ends c x y) (u : K) (t : ℕ) :
    ∃ c' r, c.insertTimes u t = .ok (c', r) ∧ Ends c' x y := by
  obtain ⟨c', r, n', h1, -⟩ := h.insertTimes_shaped u t
  exact ⟨c', r, h1, he.insertTimes u t h h1⟩

/-- **C129** A single insertion computes at most `p` control points. It copies the ones before and after them. -/
theorem C129_insert_local (h : Shaped c p n) {P : List (Pt K d)} (hP : c.points.matrix = .ok P) {u : K}
    (e : c.insert u = .ok (c', .ok ())) :
    ∃ i P', c'.points.matrix = .ok P' ∧ i + p ≤ n ∧ P'.take (i + 1) = P.take (i + 1) ∧
      P'.drop (i + p + 1) = P.drop (i + p) ∧ P'.length = P.length + 1 := by
  rw [h.matrix] at hP
  obtain rfl := Except.ok.inj hP
  rw [Curve.insert_eq, h.insert_eq] at e
  split at e
  · injection e with e; injection e with _ e; cases e
  split at e
  · injection e with e; injection e with _ e; cases e
  injection e with e; injection e with e _
  have hb := lleq_bounds (fn (c.knots.Uk.getD 0 [])) u (n - p) p
  have hp := h.le
  have hl := h.lenP 0 (by omega)
  rw [Nat.sub_zero] at hl
  generalize lleq (fn (c.knots.Uk.getD 0 [])) u (n - p) p = l at e hb
  generalize c.points.Pk.getD 0 [] = P at e hl
  refine ⟨l - p, _, by rw [← e, canon_matrix], by omega, ?_, ?_, by simp; omega⟩
  · refine List.ext_getElem (by simp; omega) fun i h1 h2 => ?_
    simp only [List.length_take, List.length_map, List.length_range] at h1
    rw [List.getElem_take, List.getElem_take, List.getElem_map, List.getElem_range, insP, if_pos (by omega),
      fn_lt (by omega)]
  · refine List.ext_getElem (by simp; omega) fun i h1 h2 => ?_
    simp only [List.length_drop, List.length_map, List.length_range] at h1
    rw [List.getElem_drop, List.getElem_drop, List.getElem_map, List.getElem_range, insP]
    split
    · omega
    · rw [if_neg (by omega), fn_lt (by omega)]
      congr 1
      omega

/-- **C129** Reversal exchanges the first and the last control point. -/
theorem C129_reverse (h : Shaped c p n) (he : Ends c x y) : ∃ c', c.reverse = .ok c' ∧ Ends c' y x := by
  obtain ⟨c', e, -⟩ := h.reverse_shaped
  exact ⟨c', e, he.reverse h e⟩

/-- **C129** The halves of a split keep the outer control points, and the last control point of the left half is the
first one of the right half. -/
theorem C129_split {l r : Curve K d} {u : K} {norm : Bool × Bool} (h : Shaped c p n) (he : Ends c x y)
    (e : splitAndNormalize c u norm = .ok (.ok (l, r))) : ∃ z, Ends l x z ∧ Ends r z y := he.split h e

/-- **C129** A merged curve starts at the first control point of the left curve and ends at the last control point of
the right curve, whatever the linear solver returns. -/
theorem C129_merge {V W : List K} {ca cb : Constraints K} {solver : Solver K d} (ha : Shaped a p m)
    (hka : a.knots = canonKnots p V) (hb : Shaped b q o) (hkb : b.knots = canonKnots q W) (hea : Ends a x y)
    (heb : Ends b z w) (e : mergeWithConstraints solver ⟨a, ca⟩ ⟨b, cb⟩ = .ok (.ok c)) : Ends c x w := by
  have hta : Twin a (canon p V (a.points.Pk.getD 0 [])) := ⟨hka, by rw [ha.matrix, canon_matrix]⟩
  have htb : Twin b (canon q W (b.points.Pk.getD 0 [])) := ⟨hkb, by rw [hb.matrix, canon_matrix]⟩
  have hx := (ha.ends hea).1
  have hw := (hb.ends heb).2
  have hS := ha.lenP 0 (by omega)
  have hT := hb.lenP 0 (by omega)
  have hlV := ha.lenU 0 (by omega)
  have hlW := hb.lenU 0 (by omega)
  have g1 := ha.vector
  have g2 := hb.vector
  rw [hka, canonKnots_vector] at g1
  rw [hkb, canonKnots_vector] at g2
  rw [hka, ← Except.ok.inj g1] at hlV
  rw [hkb, ← Except.ok.inj g2] at hlW
  rw [hta.merge htb] at e
  generalize a.points.Pk.getD 0 [] = S at *
  generalize b.points.Pk.getD 0 [] = T at *
  have hpm := ha.le
  have hqo := hb.le
  rw [mergeWithConstraints] at e
  dsimp only at e
  split at e
  · simp at e
  rename_i hpq
  push Not at hpq
  obtain rfl : p = q := hpq
  rw [dif_pos rfl] at e
  obtain ⟨x1, -, e⟩ := bind_ok_inv e
  split at e
  · simp at e
  obtain ⟨x2, -, e⟩ := bind_ok_inv e
  split at e
  · simp at e
  split at e
  · simp at e
  rename_i hcon
  have h1 : 1 ≤ p := by
    have : ¬ p ≤ ca.count + cb.count := hcon
    omega
  simp only [Nat.mul_zero, Nat.sub_zero] at hlV hlW hS hT
  obtain ⟨ua⟩ := ca
  obtain ⟨ub⟩ := cb
  rcases Nat.lt_or_ge o m with hom | hmo
  · obtain ⟨e', he'⟩ := mergeBody_panics_gt (ua := ua) (ub := ub) hlV hS hpm hlW hT hqo h1 hom solver
    rw [he'] at e; cases e
  rcases Nat.lt_or_ge o (m + p) with hom | hom
  · rw [mergeBody_ok hlV hS hpm hlW hT hqo h1 hmo hom] at e
    obtain rfl := Except.ok.inj (Except.ok.inj e)
    rw [ends_canon, head_fn (by rw [ne_eq, ← List.length_eq_zero_iff]; simp [mergedPts]; omega),
      getLast_fn (n := m + o + 1 - p) (by simp [mergedPts]; omega),
      fn_mergedPts_left_free hpm hqo (by omega) (by omega), shiftL, fn_map_range _ (by omega), if_pos (by omega),
      fn_mergedPts_right_free hpm hmo hom (shiftR_length _ _ _ _) (by omega) le_rfl, shiftR, fn_map_range _ (by omega),
      if_neg (by omega), hx, hw, show m + o + 1 - p - (m + 1 - p) = o by omega]
    exact ⟨rfl, rfl⟩
  · rw [mergeBody_panics_lt hlV hS hpm hlW hT hqo h1 hom solver] at e
    cases e

end LawFree

open Finset Ieee

variable {K : Type} [Field K] [LinearOrder K] [IsStrictOrderedRing K] {F : Format K} {d : ℕ}

/-- one summand of the recursion if its value is known exactly -/
theorem summand_is {A B S T Y : Ieee F} {a b s t y h : K} (ha : Is A a) (hb : Is B b) (hs : Is S s) (ht : Is T t)
    (hY : Is Y y) (hab : |a - b| ≤ 1) (hst1 : |s - t| ≤ 1) (hh : 0 < h) (hst : s ≠ t → h ≤ s - t)
    (hmax : F.phi / h ≤ F.max) :
    (y = 0 ∨ a = b → Is (if Cmp.eq S T then 0 else (A - B) / (S - T) * Y) 0) ∧
    (s ≠ t → a - b = s - t → Is (if Cmp.eq S T then 0 else (A - B) / (S - T) * Y) y) := by
  rw [hs.cmp_eq ht]
  by_cases hc : s = t
  · simp only [hc, decide_true, if_true]
    exact ⟨fun _ => is_zero, fun h => absurd rfl h⟩
  rw [if_neg (by simpa using hc)]
  have hgap := hst hc
  have hpos : 0 < s - t := hh.trans_le hgap
  have hphi := F.phi_pos
  have e1 := ha.sub hb (hab.trans F.one_le_max)
  have e2 := hs.sub ht (hst1.trans F.one_le_max)
  have hsd := F.sub s t hs.rep ht.rep
  rw [abs_of_pos hpos] at hsd
  have hden : (s - t) * (1 - F.eps) ≤ F.rnd (s - t) := by have := (abs_le.mp hsd).1; linarith
  have hden0 : 0 < F.rnd (s - t) := (mul_pos hpos F.del_pos).trans_le hden
  have hnum := F.abs_rnd_le hab F.one
  have hquot : |F.rnd (a - b) / F.rnd (s - t)| ≤ F.max := by
    refine le_trans ?_ hmax
    rw [abs_div, abs_of_pos hden0, div_le_div_iff₀ hden0 hh]
    have h1 : h * (1 - F.eps) ≤ F.rnd (s - t) :=
      (mul_le_mul_of_nonneg_right hgap F.del_pos.le).trans hden
    calc |F.rnd (a - b)| * h ≤ 1 * h := mul_le_mul_of_nonneg_right hnum hh.le
      _ = F.phi * (h * (1 - F.eps)) := by
          rw [mul_left_comm, F.phi_del]; ring
      _ ≤ F.phi * F.rnd (s - t) := mul_le_mul_of_nonneg_left h1 hphi.le
  have e3 := e1.div e2 hden0.ne' hquot
  constructor
  · rintro (rfl | rfl)
    · have e4 := e3.mul hY (by rw [mul_zero, abs_zero]; exact F.max_nonneg)
      rwa [mul_zero, F.rnd_zero] at e4
    · rw [sub_self, F.rnd_zero, zero_div, F.rnd_zero] at e3
      have e4 := e3.mul hY (by rw [zero_mul, abs_zero]; exact F.max_nonneg)
      rwa [zero_mul, F.rnd_zero] at e4
  · intro _ hd
    rw [hd, div_self hden0.ne', F.one] at e3
    have e4 := e3.mul hY (by rw [one_mul]; exact hY.le_max)
    rwa [one_mul, hY.rep] at e4

variable {p n : ℕ} {U : List (Ieee F)} {V : List K} {h : K}

theorem WeaklyClamped.monotone (hV : WeaklyClamped p n V) : Monotone (fn V) := by
  have hl := hV.length
  have hV0 : V ≠ [] := by rintro rfl; simp at hl
  intro i j hij
  rcases Nat.lt_or_ge j (n + p + 2) with hj | hj
  · exact hV.mono hij hj
  · have : fn V j = fn V (n + p + 1) := by
      rw [fn_ge (by omega), fn_lt (by omega)]
      rw [List.getLastD_eq_getLast?, List.getLast?_eq_getElem?, List.getElem?_eq_getElem (by omega)]
      simp [hl]
    have h1 : fn V (n + p + 1) = 1 := hV.one (by omega) (by omega)
    rw [this, h1]
    exact (hV.unit _ (fn_mem hV0 i)).2

/-- the computed basis functions at 0 -/
theorem Nf_start_ieee (hU : List.Forall₂ Is U V) (hV : WeaklyClamped p n V) (hz : fn V (p + 1) ≠ 0) {u : Ieee F}
    (hu : Is u 0) (hh : 0 < h) (hgap : ∀ s ∈ V, ∀ t ∈ V, s < t → h ≤ t - s) (hmax : F.phi / h ≤ F.max) (q : ℕ)
    (hq : q ≤ p) : ∀ i, Is (Nf (fn U) 0 n u q i) (if i + q = p then 1 else 0) := by
  have hl := hV.length
  have hV0 : V ≠ [] := by rintro rfl; simp at hl
  have hm := hV.monotone
  have hun : ∀ i, 0 ≤ fn V i ∧ fn V i ≤ 1 := fun i => hV.unit _ (fn_mem hV0 i)
  have hlow : ∀ i, i ≤ p → fn V i = 0 := fun i hi => hV.zero hi
  have hpos : 0 < fn V (p + 1) := lt_of_le_of_ne (hun _).1 (Ne.symm hz)
  induction q with
  | zero =>
    intro i
    have h1 : fn V (n + 1) = 1 := hV.one (by omega) (by have := hV.le; omega)
    simp only [Nf, (fn_is hU _).cmp_le hu, hu.cmp_lt (fn_is hU _), hu.cmp_eq (fn_is hU _), Nat.sub_zero, h1,
      add_zero]
    have h01 : Cmp.eq (0 : K) 1 = false := by simp [Cmp.eq]
    by_cases hi : i = p
    · subst hi
      rw [if_pos rfl, if_pos]
      · exact is_one
      · simp [hlow i le_rfl, hpos]
    · rw [if_neg hi, if_neg]
      · exact is_zero
      · simp only [zero_ne_one, decide_false, Bool.and_false, Bool.or_false, Bool.and_eq_true, decide_eq_true_eq,
          not_and, not_lt]
        intro h2
        rcases Nat.lt_or_ge i p with h3 | h3
        · exact (hlow (i + 1) (by omega)).le
        · exact absurd (hpos.trans_le (hm (show p + 1 ≤ i by omega))) (not_lt.mpr h2)
  | succ q ih =>
    intro i
    have ih := ih (by omega)
    have hgap' : ∀ i j, i ≤ j → fn V j ≠ fn V i → h ≤ fn V j - fn V i := fun i j hij hne =>
      hgap _ (fn_mem hV0 i) _ (fn_mem hV0 j) (lt_of_le_of_ne (hm hij) (Ne.symm hne))
    have habs : ∀ i j, |fn V i - fn V j| ≤ 1 := fun i j => abs_le.mpr
      ⟨by linarith [(hun i).1, (hun j).2], by linarith [(hun i).2, (hun j).1]⟩
    have habs1 : ∀ i, |0 - fn V i| ≤ 1 := fun i => abs_le.mpr ⟨by linarith [(hun i).2], by linarith [(hun i).1]⟩
    have habs2 : ∀ i, |fn V i - 0| ≤ 1 := fun i => abs_le.mpr ⟨by linarith [(hun i).1], by linarith [(hun i).2]⟩
    have t1 := (summand_is hu (fn_is hU i) (fn_is hU (i + (q + 1))) (fn_is hU i) (ih i) (habs1 _) (habs _ _) hh
      (hgap' i (i + (q + 1)) (by omega)) hmax).1 (by
        by_cases hi : i + q = p
        · exact Or.inr (hlow i (by omega)).symm
        · exact Or.inl (if_neg hi))
    have t2 := summand_is (fn_is hU (i + 1 + (q + 1))) hu (fn_is hU (i + 1 + (q + 1))) (fn_is hU (i + 1)) (ih (i + 1))
      (habs2 _) (habs _ _) hh (hgap' (i + 1) (i + 1 + (q + 1)) (by omega)) hmax
    rw [Nf]
    by_cases hi : i + (q + 1) = p
    · have hip : i + 1 + (q + 1) = p + 1 := by omega
      have t3 := t2.2 (by rw [hip, hlow (i + 1) (by omega)]; exact hz) (by rw [hlow (i + 1) (by omega)])
      rw [if_pos (show i + 1 + q = p by omega)] at t3
      rw [if_pos hi]
      have := t1.add t3 (by rw [zero_add, abs_one]; exact F.one_le_max)
      rwa [zero_add, F.one] at this
    · have t3 := t2.1 (Or.inl (if_neg (by omega)))
      rw [if_neg hi]
      have := t1.add t3 (by rw [zero_add, abs_zero]; exact F.max_nonneg)
      rwa [zero_add, F.rnd_zero] at this

/-- the computed basis functions at 1 -/
theorem Nf_end_ieee (hU : List.Forall₂ Is U V) (hV : WeaklyClamped p n V) (hz : fn V n ≠ 1) {u : Ieee F}
    (hu : Is u 1) (hh : 0 < h) (hgap : ∀ s ∈ V, ∀ t ∈ V, s < t → h ≤ t - s) (hmax : F.phi / h ≤ F.max) (q : ℕ)
    (hq : q ≤ p) : ∀ i, Is (Nf (fn U) 0 n u q i) (if i = n then 1 else 0) := by
  have hl := hV.length
  have hV0 : V ≠ [] := by rintro rfl; simp at hl
  have hm := hV.monotone
  have hun : ∀ i, 0 ≤ fn V i ∧ fn V i ≤ 1 := fun i => hV.unit _ (fn_mem hV0 i)
  have hone : ∀ i, n < i → i < n + p + 2 → fn V i = 1 := fun i h1 h2 => hV.one h1 h2
  induction q with
  | zero =>
    intro i
    simp only [Nf, (fn_is hU _).cmp_le hu, hu.cmp_lt (fn_is hU _), hu.cmp_eq (fn_is hU _), Nat.sub_zero]
    by_cases hi : i = n
    · subst hi
      rw [if_pos rfl, if_pos]
      · exact is_one
      · simp [hone (i + 1) (by omega) (by omega)]
    · rw [if_neg hi, if_neg]
      · exact is_zero
      · simp [hi, (hun (i + 1)).2]
  | succ q ih =>
    intro i
    have ih := ih (by omega)
    have hgap' : ∀ i j, i ≤ j → fn V j ≠ fn V i → h ≤ fn V j - fn V i := fun i j hij hne =>
      hgap _ (fn_mem hV0 i) _ (fn_mem hV0 j) (lt_of_le_of_ne (hm hij) (Ne.symm hne))
    have habs : ∀ i j, |fn V i - fn V j| ≤ 1 := fun i j => abs_le.mpr
      ⟨by linarith [(hun i).1, (hun j).2], by linarith [(hun i).2, (hun j).1]⟩
    have habs1 : ∀ i, |1 - fn V i| ≤ 1 := fun i => abs_le.mpr ⟨by linarith [(hun i).2], by linarith [(hun i).1]⟩
    have habs2 : ∀ i, |fn V i - 1| ≤ 1 := fun i => abs_le.mpr ⟨by linarith [(hun i).1], by linarith [(hun i).2]⟩
    have t1 := summand_is hu (fn_is hU i) (fn_is hU (i + (q + 1))) (fn_is hU i) (ih i) (habs1 _) (habs _ _) hh
      (hgap' i (i + (q + 1)) (by omega)) hmax
    have t2 := (summand_is (fn_is hU (i + 1 + (q + 1))) hu (fn_is hU (i + 1 + (q + 1))) (fn_is hU (i + 1)) (ih (i + 1))
      (habs2 _) (habs _ _) hh (hgap' (i + 1) (i + 1 + (q + 1)) (by omega)) hmax).1 (by
        by_cases hi : i + 1 = n
        · exact Or.inr (hone _ (by omega) (by omega))
        · exact Or.inl (if_neg hi))
    rw [Nf]
    by_cases hi : i = n
    · have ho := hone (i + (q + 1)) (by omega) (by omega)
      have t3 := t1.2 (by rw [ho, hi]; exact Ne.symm hz) (by rw [ho])
      rw [if_pos hi] at t3 ⊢
      have := t3.add t2 (by rw [add_zero, abs_one]; exact F.one_le_max)
      rwa [add_zero, F.one] at this
    · have t3 := t1.1 (Or.inl (if_neg hi))
      rw [if_neg hi]
      have := t3.add t2 (by rw [zero_add, abs_zero]; exact F.max_nonneg)
      rwa [zero_add, F.rnd_zero] at this

theorem lleq_start {g : ℕ → K} {x : K} {p : ℕ} (h : x < g (p + 1)) (r : ℕ) : lleq g x r p = p := by
  cases r with
  | zero => rfl
  | succ r => rw [lleq, if_neg (by simpa [Cmp.le] using h)]

/-- values depend on the knots and the control points only -/
theorem Twin.evaluate {K : Type} [Add K] [Sub K] [Mul K] [Div K] [Neg K] [Zero K] [One K] [NatCast K] [Cmp K] {d : ℕ}
    {a a' : Curve K d} (h : Twin a a') (u : K) : a.evaluate u = a'.evaluate u := by
  have e : ∀ c : Curve K d, c.points.matrixDerivative 0 = c.points.matrix := fun c => by
    rw [ControlPoints.matrixDerivative, if_pos (Nat.zero_le _)]; rfl
  simp only [Curve.evaluate, Curve.evaluateDerivative, h.degree, h.segments, h.knots, e, h.matrix]

/-- **C129** If only `p + 1` knots are 0, then the value at 0 is exactly the first control point. -/
theorem C129_start {c : Curve (Ieee F) d} {x y : Pt (Ieee F) d} (hroom : Room F p) (hc : Sound c p n V) (he : Ends c x y)
    (hz : V[p + 1]? ≠ some 0) (hh : 0 < h) (hgap : ∀ s ∈ V, ∀ t ∈ V, s < t → h ≤ t - s) (hhm : 2 / h ≤ F.max)
    {u : Ieee F} (hu : Is u 0) :
    ∃ P v, c.points.matrix = .ok P ∧ c.evaluate u = .ok (.ok v) ∧
      ∀ r w, (∀ q ∈ P, ∃ y, Is (q r) y) → Is (x r) w → Is (v r) w := by
  obtain ⟨U, P, -, hU, hlU, hP, hm, ht⟩ := hc.twin
  have hV := hc.weak
  have hl := hV.length
  have hle := hV.le
  have hP0 : P ≠ [] := by rintro rfl; simp at hP
  have hz' : fn V (p + 1) ≠ 0 := by
    rw [List.getElem?_eq_getElem (by omega)] at hz
    rw [fn_lt (by omega)]
    exact fun h => hz (congrArg some h)
  have hmax : F.phi / h ≤ F.max := by
    refine le_trans ?_ hhm
    have := hroom.pow_le (k := 1) (by omega)
    rw [pow_one] at this
    exact div_le_div_of_nonneg_right (by linarith) hh.le
  have g0 : Cmp.le (0 : Ieee F) u = true := by rw [is_zero.cmp_le hu]; simp
  have g1 : Cmp.le u (1 : Ieee F) = true := by rw [hu.cmp_le is_one]; simp
  have hx : x = fn P 0 := by
    obtain ⟨P', h1, h2, -⟩ := he
    rw [hm] at h1
    obtain rfl := Except.ok.inj h1
    rw [head_fn hP0] at h2
    exact (Option.some.inj h2).symm
  refine ⟨P, _, hm, (ht.evaluate u).trans (evaluateDerivative_ok hlU hP hle (Nat.zero_le p) g0 g1), fun r w hf hw => ?_⟩
  have hlo : lleq (fun i => fn U (i + 0)) u (n - p) (p - 0) - (p - 0) = 0 := by
    simp only [add_zero, Nat.sub_zero]
    rw [lleq_is (fn_is hU) hu, lleq_start (lt_of_le_of_ne (hV.unit _ (fn_mem (by rintro rfl; simp at hl) _)).1
      (Ne.symm hz')), Nat.sub_self]
  rw [hlo, evalFold, foldl_coord, show n - 0 + 1 - 0 = n + 1 by omega, List.range'_succ, List.foldl_cons]
  have hN := Nf_start_ieee hU hV hz' hu hh hgap hmax p le_rfl
  refine foldl_zero_ieee _ _ _ _ ?_ fun i hi => ?_
  · have h1 := hN 0
    rw [if_pos (by omega)] at h1
    rw [hx] at hw
    have h2 := h1.mul hw (by rw [one_mul]; exact hw.le_max)
    rw [one_mul, hw.rep] at h2
    have h3 := (is_zero (F := F)).add h2 (by rw [zero_add]; exact hw.le_max)
    rw [zero_add, hw.rep] at h3
    exact h3
  · have h1 := hN i
    rw [if_neg (by have := (List.mem_range'_1.mp hi).1; omega)] at h1
    obtain ⟨z, iz⟩ := hf _ (fn_mem hP0 i)
    have h2 := h1.mul iz (by rw [zero_mul, abs_zero]; exact F.max_nonneg)
    rw [zero_mul, F.rnd_zero] at h2
    exact h2

/-- **C129** If only `p + 1` knots are 1, then the value at 1 is exactly the last control point. -/
theorem C129_end {c : Curve (Ieee F) d} {x y : Pt (Ieee F) d} (hroom : Room F p) (hc : Sound c p n V) (he : Ends c x y)
    (hz : V[n]? ≠ some 1) (hh : 0 < h) (hgap : ∀ s ∈ V, ∀ t ∈ V, s < t → h ≤ t - s) (hhm : 2 / h ≤ F.max)
    {u : Ieee F} (hu : Is u 1) :
    ∃ P v, c.points.matrix = .ok P ∧ c.evaluate u = .ok (.ok v) ∧
      ∀ r w, (∀ q ∈ P, ∃ y, Is (q r) y) → Is (y r) w → Is (v r) w := by
  obtain ⟨U, P, -, hU, hlU, hP, hm, ht⟩ := hc.twin
  have hV := hc.weak
  have hl := hV.length
  have hle := hV.le
  have hP0 : P ≠ [] := by rintro rfl; simp at hP
  have hz' : fn V n ≠ 1 := by
    rw [List.getElem?_eq_getElem (by omega)] at hz
    rw [fn_lt (by omega)]
    exact fun h => hz (congrArg some h)
  have hmax : F.phi / h ≤ F.max := by
    refine le_trans ?_ hhm
    have := hroom.pow_le (k := 1) (by omega)
    rw [pow_one] at this
    exact div_le_div_of_nonneg_right (by linarith) hh.le
  have g0 : Cmp.le (0 : Ieee F) u = true := by rw [is_zero.cmp_le hu]; simp
  have g1 : Cmp.le u (1 : Ieee F) = true := by rw [hu.cmp_le is_one]; simp
  have hy : y = fn P n := by
    obtain ⟨P', h1, -, h2⟩ := he
    rw [hm] at h1
    obtain rfl := Except.ok.inj h1
    rw [getLast_fn hP] at h2
    exact (Option.some.inj h2).symm
  refine ⟨P, _, hm, (ht.evaluate u).trans (evaluateDerivative_ok hlU hP hle (Nat.zero_le p) g0 g1), fun r w hf hw => ?_⟩
  have hb := lleq_bounds (fun i => fn U (i + 0)) u (n - p) (p - 0)
  generalize lleq (fun i => fn U (i + 0)) u (n - p) (p - 0) = l at hb ⊢
  have hN := Nf_end_ieee hU hV hz' hu hh hgap hmax p le_rfl
  rw [evalFold, foldl_coord, show n - 0 + 1 - (l - (p - 0)) = (n - (l - p)) + 1 by omega, List.range'_concat,
    List.foldl_append, List.foldl_cons, List.foldl_nil]
  have h0 := foldl_zero_ieee (F := F) (fun i => scale (Nf (fun j => fn U (j + 0)) 0 n u (p - 0) i)
      (dpt (fn U) p (fn P) 0 i) r) (List.range' (l - (p - 0)) (n - (l - p))) 0 0 is_zero fun i hi => by
    have h1 := hN i
    rw [if_neg (by have := (List.mem_range'_1.mp hi).2; omega)] at h1
    obtain ⟨z, iz⟩ := hf _ (fn_mem hP0 i)
    have h2 := h1.mul iz (by rw [zero_mul, abs_zero]; exact F.max_nonneg)
    rw [zero_mul, F.rnd_zero] at h2
    exact h2
  have h1 := hN n
  rw [if_pos rfl] at h1
  rw [hy] at hw
  have h2 := h1.mul hw (by rw [one_mul]; exact hw.le_max)
  rw [one_mul, hw.rep] at h2
  have h3 := h0.add h2 (by rw [zero_add]; exact hw.le_max)
  rw [zero_add, hw.rep] at h3
  rw [show l - (p - 0) + 1 * (n - (l - p)) = n by omega]
  exact h3

theorem ClampedKnots.ends_simple {p n : ℕ} {V : List K} (h : ClampedKnots 0 1 p n V) :
    V[p + 1]? ≠ some 0 ∧ V[n]? ≠ some 1 := by
  have hl := h.length
  have hle := h.le
  have hw := h.weaklyClamped
  rw [List.getElem?_eq_getElem (by omega), List.getElem?_eq_getElem (by omega), ← fn_lt, ← fn_lt]
  rcases Nat.lt_or_ge p n with hpn | hpn
  · have hmem : ∀ i, p < i → i ≤ n → fn V i ∈ (V.drop (p + 1)).take (n - p) := by
      intro i h1 h2
      rw [List.mem_iff_getElem]
      refine ⟨i - (p + 1), by simp; omega, ?_⟩
      rw [List.getElem_take, List.getElem_drop, fn_lt (by omega)]
      congr 1
      omega
    exact ⟨fun e => (h.inner _ (hmem (p + 1) (by omega) (by omega))).1.ne' (Option.some.inj e),
      fun e => (h.inner _ (hmem n hpn le_rfl)).2.ne (Option.some.inj e)⟩
  · obtain rfl : p = n := by omega
    rw [hw.one (by omega) (by omega), hw.zero le_rfl]
    simp

/-- **C129** for `f64`: the values at 0 and 1 of a curve with clamped knots are its first and last control point,
without any error. -/
theorem C129_f64 {c : Curve (Ieee binary64) d} {p n : ℕ} {U : List (Ieee binary64)} {V : List ℚ}
    {P : List (Pt (Ieee binary64) d)} (hp : p ≤ 600) (hc : Built c p U P) (hU : List.Forall₂ Is U V)
    (hV : ClampedKnots 0 1 p n V) (hP : P.length = n + 1)
    (hgap : ∀ s ∈ V, ∀ t ∈ V, s < t → (1 / 2) ^ 1000 ≤ t - s) :
    ∃ v w, c.evaluate 0 = .ok (.ok v) ∧ c.evaluate 1 = .ok (.ok w) ∧ ∀ r, (∀ q ∈ P, ∃ y, Is (q r) y) → ∀ x y,
      P.head? = some x → P.getLast? = some y →
      (∀ z, Is (x r) z → Is (v r) z) ∧ ∀ z, Is (y r) z → Is (w r) z := by
  have hlU := hU.length_eq.trans hV.length
  obtain rfl := hc.ieee_eq hlU hV.le hP
  have hs := sound_canon hU hV.weaklyClamped hP
  have hP0 : P ≠ [] := by rintro rfl; simp at hP
  have he : Ends (canon p U P) (fn P 0) (fn P n) := ends_canon.mpr ⟨head_fn hP0, getLast_fn hP⟩
  have hmax : 2 / (1 / 2 : ℚ) ^ 1000 ≤ binary64.max := by decide +kernel
  obtain ⟨P1, v, h1, h2, h3⟩ := C129_start (room_binary64 hp) hs he hV.ends_simple.1 (by positivity) hgap hmax is_zero
  obtain ⟨P2, w, h4, h5, h6⟩ := C129_end (room_binary64 hp) hs he hV.ends_simple.2 (by positivity) hgap hmax is_one
  rw [canon_matrix] at h1 h4
  obtain rfl := Except.ok.inj h1
  obtain rfl := Except.ok.inj h4
  refine ⟨v, w, h2, h5, fun r hf x y hx hy => ?_⟩
  rw [head_fn hP0] at hx
  rw [getLast_fn hP] at hy
  obtain rfl := Option.some.inj hx
  obtain rfl := Option.some.inj hy
  exact ⟨fun z hz => h3 r z hf hz, fun z hz => h6 r z hf hz⟩

/-! ### A concrete case -/

example : ∃ (c : Curve (Ieee binary64) 1) (V : List ℚ), Built c 2 [0, 0, 0, eq64 (1 / 10), 1, 1, 1]
      [![eq64 (1 / 10)], ![1], ![0], ![eq64 (3 / 10)]] ∧
    List.Forall₂ Is [0, 0, 0, eq64 (1 / 10), 1, 1, 1] V ∧ ClampedKnots 0 1 2 3 V ∧
    (∀ s ∈ V, ∀ t ∈ V, s < t → (1 / 2) ^ 1000 ≤ t - s) ∧ c.evaluate 1 = .ok (.ok ![eq64 (3 / 10)]) :=
  ⟨canon 2 [0, 0, 0, eq64 (1 / 10), 1, 1, 1] [![eq64 (1 / 10)], ![1], ![0], ![eq64 (3 / 10)]],
    [0, 0, 0, eq64 (1 / 10), 1, 1, 1].map exactOf, mkCurve_ok (n := 3) rfl (by decide) (by decide),
    forall₂_exactOf (by decide +kernel), by decide +kernel, by decide +kernel, by decide +kernel⟩

/-- a split in `f64` after an insertion: the curve has the required shape -/
example : Shaped (canon 2 [0, 0, 0, eq64 (1 / 10), 1, 1, 1] [![eq64 (1 / 10)], ![1], ![0], ![eq64 (3 / 10)]] :
    Curve (Ieee binary64) 1) 2 3 := shaped_canon rfl rfl (by decide)

end BSpline
