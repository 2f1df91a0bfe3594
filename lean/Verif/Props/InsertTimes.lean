import Verif.Props.Insert

/-!
# Repeated insertion: what C18 says about every curve, and when an error has no effect
-/

set_option linter.unusedSectionVars false

namespace BSpline

section LawFree

variable {K : Type} [Add K] [Sub K] [Mul K] [Div K] [Neg K] [Zero K] [One K] [NatCast K] [Cmp K]
variable {d : ℕ}

/-- one insertion: either an error and no effect, or one more knot and one more control point -/
theorem insert_step {p n : ℕ} {U : List K} {P : List (Pt K d)} (hU : U.length = n + p + 2)
    (hP : P.length = n + 1) (hp : p ≤ n) (u : K) :
    (∃ e, BSpline.insert (canon p U P) u = .ok (canon p U P, .error e)) ∨
    ∃ U' P', BSpline.insert (canon p U P) u = .ok (canon p U' P', .ok ()) ∧ U'.Perm (u :: U) ∧
      U'.length = n + 1 + p + 2 ∧ P'.length = n + 1 + 1 := by
  rw [insert_ok hU hP hp]
  split
  · exact Or.inl ⟨_, rfl⟩
  split
  · exact Or.inl ⟨_, rfl⟩
  have hperm : (insU U u (lleq (fn U) u (n - p) p)).Perm (u :: U) := by
    rw [insU]
    refine List.perm_middle.trans ?_
    rw [List.take_append_drop]
  refine Or.inr ⟨_, _, rfl, hperm, ?_, by simp⟩
  rw [hperm.length_eq, List.length_cons]; omega

/-- **C18** For any arithmetic and any curve with matching counts: `insert_times(u, x)` never panics.
It does the same as `y ≤ x` successful single insertions, which add `y` copies of `u` to the knots and
`y` control points. If it returns `Ok` then `y = x`; if it returns an error, then `y < x` and the error is
that of the next single insertion. -/
theorem C18_insert_times {c : Curve K d} {p n : ℕ} {U : List K} {P : List (Pt K d)} (hc : Built c p U P)
    (hU : U.length = n + p + 2) (hP : P.length = n + 1) (hp : p ≤ n) (u : K) (x : ℕ) :
    ∃ c' r y U' P', c.insertTimes u x = .ok (c', r) ∧ y ≤ x ∧ c.insertTimes u y = .ok (c', .ok ()) ∧
      Built c' p U' P' ∧ U'.Perm (List.replicate y u ++ U) ∧ P'.length = P.length + y ∧
      ((r = .ok () ∧ y = x) ∨ ∃ e, r = .error e ∧ y < x ∧ c'.insert u = .ok (c', .error e)) := by
  rw [Built, mkCurve_ok hP hp (by omega)] at hc
  injection hc with hc; injection hc with hc; subst hc
  induction x generalizing n U P with
  | zero =>
    exact ⟨_, _, 0, U, P, rfl, le_rfl, rfl, mkCurve_ok hP hp (by omega), .refl _, rfl, Or.inl ⟨rfl, rfl⟩⟩
  | succ x ih =>
    rcases insert_step hU hP hp u with ⟨e, he⟩ | ⟨U1, P1, hi, hperm, hU1, hP1⟩
    · refine ⟨_, _, 0, U, P, ?_, Nat.zero_le _, rfl, mkCurve_ok hP hp (by omega), .refl _, rfl,
        Or.inr ⟨e, rfl, by omega, by rw [Curve.insert_eq, he]⟩⟩
      rw [Curve.insertTimes, he]; rfl
    · obtain ⟨c', r, y, U', P', h1, h2, h3, h4, h5, h6, h7⟩ := ih hU1 hP1 (by omega)
      refine ⟨c', r, y + 1, U', P', ?_, by omega, ?_, h4, ?_, by omega, ?_⟩
      · rw [Curve.insertTimes, hi]; exact h1
      · rw [Curve.insertTimes, hi]; exact h3
      · refine h5.trans ?_
        rw [List.replicate_succ, List.cons_append]
        exact (List.Perm.append_left _ hperm).trans List.perm_middle
      · rcases h7 with ⟨h7, h8⟩ | ⟨e, h7, h8, h9⟩
        · exact Or.inl ⟨h7, by omega⟩
        · exact Or.inr ⟨e, h7, by omega, h9⟩

/-- **C18** An error of `insert_times` leaves the curve unchanged if and only if already the first
single insertion fails. -/
theorem C18_error_unchanged_iff {c c' : Curve K d} {p n : ℕ} {U : List K} {P : List (Pt K d)}
    (hc : Built c p U P) (hU : U.length = n + p + 2) (hP : P.length = n + 1) (hp : p ≤ n) {u : K} {x : ℕ}
    {e : InsertError K} (h : c.insertTimes u x = .ok (c', .error e)) :
    c' = c ↔ ∃ e', c.insert u = .ok (c, .error e') := by
  obtain ⟨c1, r, y, U', P', h1, h2, h3, h4, h5, h6, h7⟩ := C18_insert_times hc hU hP hp u x
  rw [h] at h1
  injection h1 with h1; injection h1 with h1 hr
  subst h1 hr
  rcases h7 with ⟨h7, -⟩ | ⟨e', h7, h8, h9⟩
  · cases h7
  constructor
  · rintro rfl
    exact ⟨_, h9⟩
  · rintro ⟨e'', he⟩
    cases y with
    | zero => injection h3 with h3; injection h3 with h3 _; exact h3.symm
    | succ y =>
      rw [Curve.insertTimes, ← Curve.insert_eq, he] at h3
      injection h3 with h3; injection h3 with _ h3; cases h3

/-- an insertion raises the multiplicity that the code computes by one, if `u` equals itself -/
theorem multF_insU_free {p n l : ℕ} {U : List K} (hU : U.length = n + p + 2) (hl : p ≤ l) (hl' : l ≤ n) {u : K}
    (hu : Cmp.eq u u = true) : multF p (n + 1) (insU U u l) u = multF p n U u + 1 := by
  have e1 : ((insU U u l).drop p).take (n + 1 - p + 2) =
      (U.drop p).take (l + 1 - p) ++ u :: (U.drop (l + 1)).take (n + 1 - l) := by
    rw [insU, List.drop_append_of_le_length (by simp; omega), List.take_append, List.drop_take]
    congr 1
    · rw [List.take_take, min_eq_right (by omega)]
    · rw [List.length_take, List.length_drop, min_eq_left (by omega),
        show n + 1 - p + 2 - (l + 1 - p) = (n + 1 - l) + 1 by omega, List.take_succ_cons]
  have e2 : (U.drop p).take (n - p + 2) = (U.drop p).take (l + 1 - p) ++ (U.drop (l + 1)).take (n + 1 - l) := by
    rw [show n - p + 2 = (l + 1 - p) + (n + 1 - l) by omega, List.take_add, List.drop_drop,
      show p + (l + 1 - p) = l + 1 by omega]
  rw [multF, multF, e1, e2, List.filter_append, List.filter_append, List.filter_cons, if_pos hu]
  simp only [List.length_append, List.length_cons]
  omega

theorem insertTimes_error_iff {p : ℕ} {u : K} (hin : (Cmp.le u 0 || Cmp.le 1 u) = false) (hu : Cmp.eq u u = true)
    (x : ℕ) : ∀ {n : ℕ} {U : List K} {P : List (Pt K d)}, U.length = n + p + 2 → P.length = n + 1 → p ≤ n →
      ((∃ c' e, (canon p U P).insertTimes u x = .ok (c', .error e)) ↔ 0 < x ∧ p + 1 < multF p n U u + x) := by
  induction x with
  | zero =>
    intro n U P _ _ _
    constructor
    · rintro ⟨c', e, h⟩
      injection h with h; injection h with _ h; cases h
    · rintro ⟨h, -⟩; omega
  | succ x ih =>
    intro n U P hU hP hp
    rw [Curve.insertTimes, insert_ok hU hP hp, if_neg (by simp [hin])]
    by_cases hm : p < multF p n U u
    · rw [if_pos hm]
      exact ⟨fun _ => ⟨by omega, by omega⟩, fun _ => ⟨_, _, rfl⟩⟩
    · rw [if_neg hm, ok_bind]
      have hb := lleq_bounds (fn U) u (n - p) p
      have := ih (n := n + 1) (U := insU U u (lleq (fn U) u (n - p) p))
        (P := (List.range (n + 2)).map (insP (fn U) p (fn P) u (lleq (fn U) u (n - p) p)))
        (by simp [insU]; omega) (by simp) (by omega)
      rw [multF_insU_free hU (by omega) (by omega) hu] at this
      refine Iff.trans this ?_
      omega

end LawFree

variable {K : Type} [Field K] [LinearOrder K] [IsStrictOrderedRing K] {d : ℕ}

/-- **C18** On a valid curve: a failing `insert_times` leaves the curve unchanged if and only if `u` is
not inside the domain or there are already more than `p` copies of `u`. -/
theorem C18_unchanged_iff {c c' : Curve K d} {p n : ℕ} {U : List K} {P : List (Pt K d)}
    (hc : ValidOn 0 1 c p n U P) {u : K} {x : ℕ} {e : InsertError K}
    (h : c.insertTimes u x = .ok (c', .error e)) : c' = c ↔ u ≤ 0 ∨ 1 ≤ u ∨ p < U.count u := by
  rw [C18_error_unchanged_iff hc.1 hc.2.1.length hc.2.2 hc.2.1.le h]
  obtain ⟨h1, h2, h3⟩ := C17_insert_errors_exact hc u
  constructor
  · rintro ⟨e', he⟩
    by_contra hn
    push Not at hn
    obtain ⟨c1, h4⟩ := h3 hn.1 hn.2.1 hn.2.2
    rw [he] at h4
    injection h4 with h4; injection h4 with _ h4; cases h4
  · intro hu
    by_cases hout : u ≤ 0 ∨ 1 ≤ u
    · exact ⟨_, h1 hout⟩
    · push Not at hout
      rcases hu with hu | hu | hu
      · exact absurd hu (not_le.mpr hout.1)
      · exact absurd hu (not_le.mpr hout.2)
      · exact ⟨_, h2 hout.1 hout.2 hu⟩

/-- **C18** On every valid curve `insert_times(u, x)` with `x > 0` returns an error if and only if `u` is
not inside the domain or the knots would contain more than `p + 1` copies of `u`. -/
theorem C18_error_iff {c : Curve K d} {p n : ℕ} {U : List K} {P : List (Pt K d)}
    (hc : ValidOn 0 1 c p n U P) (u : K) (x : ℕ) :
    (∃ c' e, c.insertTimes u x = .ok (c', .error e)) ↔ 0 < x ∧ (u ≤ 0 ∨ 1 ≤ u ∨ p + 1 < U.count u + x) := by
  obtain rfl := hc.eq_canon
  by_cases hout : u ≤ 0 ∨ 1 ≤ u
  · cases x with
    | zero =>
      constructor
      · rintro ⟨c', e, h⟩
        injection h with h; injection h with _ h; cases h
      · rintro ⟨h, -⟩; omega
    | succ x =>
      refine ⟨fun _ => ⟨by omega, by tauto⟩, fun _ => ⟨_, _, C18_out_of_bounds hc hout x⟩⟩
  · push Not at hout
    rw [insertTimes_error_iff (by simp [Cmp.le, hout.1, hout.2]) (by simp [Cmp.eq]) x hc.2.1.length hc.2.2 hc.2.1.le,
      multF_eq_count hc.2.1 hout.1 hout.2]
    constructor
    · rintro ⟨h1, h2⟩; exact ⟨h1, by tauto⟩
    · rintro ⟨h1, h2 | h2 | h2⟩
      · exact absurd h2 (not_le.mpr hout.1)
      · exact absurd h2 (not_le.mpr hout.2)
      · exact ⟨h1, h2⟩

/-- non-vacuity: two insertions into the quadratic `exC` with a double knot `1/2`; the second fails -/
example : ValidOn 0 1 exC 2 5 exU exP ∧ exU.count (1 / 2) + 2 = 2 + 1 + 1 :=
  ⟨validOn_canon (by decide +kernel) rfl, by decide +kernel⟩

end BSpline
