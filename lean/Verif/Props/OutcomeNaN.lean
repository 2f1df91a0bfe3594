import Verif.Props.Outcome
import Verif.Theory.Ieee

/-!
# Repeated insertion of a parameter which does not equal itself: C118

`C118_insert_times` without the hypothesis that `u == u`, which NaN violates.
-/

set_option linter.unusedSectionVars false

namespace BSpline

section LawFree

variable {K : Type} [Add K] [Sub K] [Mul K] [Div K] [Neg K] [Zero K] [One K] [NatCast K] [Cmp K]
variable {d : ℕ}

theorem multF_insU_neq {p n l : ℕ} {U : List K} (hU : U.length = n + p + 2) (hl : p ≤ l) (hl' : l ≤ n) {u : K}
    (hu : Cmp.eq u u = false) : multF p (n + 1) (insU U u l) u = multF p n U u := by
  have e1 : ((insU U u l).drop p).take (n + 1 - p + 2) =
      (U.drop p).take (l + 1 - p) ++ u :: (U.drop (l + 1)).take (n + 1 - l) := by
    rw [insU, List.drop_append_of_le_length (by simp; omega), List.take_append, List.drop_take]
    congr 1
    · rw [List.take_take, min_eq_right (by omega)]
    · rw [List.length_take, List.length_drop, min_eq_left (by omega),
        show n + 1 - p + 2 - (l + 1 - p) = (n + 1 - l) + 1 by omega, List.take_succ_cons]
  have e2 : (U.drop p).take (n - p + 2) = (U.drop p).take (l + 1 - p) ++ (U.drop (l + 1)).take (n + 1 - l) := by
    rw [show n - p + 2 = (l + 1 - p) + (n + 1 - l) by omega, List.take_add, List.drop_drop,
      show p + (l + 1 - p) = l + 1 by omega]
  rw [multF, multF, e1, e2, List.filter_append, List.filter_append, List.filter_cons, if_neg (by simp [hu])]

theorem insertTimes_ok_neq {p : ℕ} {u : K} (hin : (Cmp.le u 0 || Cmp.le 1 u) = false) (hu : Cmp.eq u u = false)
    (x : ℕ) : ∀ {n : ℕ} {U : List K} {P : List (Pt K d)}, U.length = n + p + 2 → P.length = n + 1 → p ≤ n →
    multF p n U u ≤ p → ∃ c' U' P', (canon p U P).insertTimes u x = .ok (c', .ok ()) ∧ Built c' p U' P' ∧
      U'.Perm (List.replicate x u ++ U) ∧ P'.length = n + x + 1 := by
  induction x with
  | zero =>
    intro n U P hU hP hp _
    exact ⟨_, U, P, rfl, mkCurve_ok hP hp (by omega), .refl _, hP⟩
  | succ x ih =>
    intro n U P hU hP hp hm
    have hb := lleq_bounds (fn U) u (n - p) p
    have hperm : (insU U u (lleq (fn U) u (n - p) p)).Perm (u :: U) := by
      rw [insU]
      refine List.perm_middle.trans ?_
      rw [List.take_append_drop]
    obtain ⟨c', U', P', h1, h2, h3, h4⟩ := ih (n := n + 1) (U := insU U u (lleq (fn U) u (n - p) p))
      (P := (List.range (n + 2)).map (insP (fn U) p (fn P) u (lleq (fn U) u (n - p) p)))
      (by rw [hperm.length_eq, List.length_cons]; omega) (by simp) (by omega)
      (by rw [multF_insU_neq hU (by omega) (by omega) hu]; exact hm)
    refine ⟨c', U', P', ?_, h2, ?_, by omega⟩
    · rw [Curve.insertTimes, insert_ok hU hP hp, if_neg (by simp [hin]), if_neg (by omega), ok_bind]
      exact h1
    · refine h3.trans ((hperm.append_left _).trans (List.perm_middle.trans ?_))
      rw [List.replicate_succ, List.cons_append]

/-- **C118** `insert_times(u, x)` for a `u` that does not equal itself, in any arithmetic: it fails exactly if `x > 0`
and the first insertion fails, since the copies inserted are not counted. Otherwise all `x` copies are added, however
many. -/
theorem C118_insert_times_neq {c : Curve K d} {p n : ℕ} {U : List K} {P : List (Pt K d)} (hc : Built c p U P)
    (hU : U.length = n + p + 2) (hP : P.length = n + 1) (hp : p ≤ n) {u : K} (hu : Cmp.eq u u = false) (x : ℕ) :
    if 0 < x ∧ ((Cmp.le u 0 || Cmp.le 1 u) = true ∨ p < domainCopies p n U u) then
      ∃ e, c.insertTimes u x = .ok (c, .error e)
    else ∃ c' U' P', c.insertTimes u x = .ok (c', .ok ()) ∧ Built c' p U' P' ∧
      U'.Perm (List.replicate x u ++ U) ∧ P'.length = n + x + 1 := by
  obtain rfl := hc.eq_canon' hU hP hp
  rw [domainCopies_eq hU u hp]
  cases x with
  | zero => rw [if_neg (by omega)]; exact ⟨_, U, P, rfl, hc, .refl _, hP⟩
  | succ x =>
    split
    · next h =>
      rw [Curve.insertTimes, insert_ok hU hP hp]
      by_cases hb : (Cmp.le u 0 || Cmp.le 1 u) = true
      · rw [if_pos hb]; exact ⟨_, rfl⟩
      · rw [if_neg hb, if_pos (h.2.resolve_left hb)]; exact ⟨_, rfl⟩
    · next h =>
      refine insertTimes_ok_neq ?_ hu (x + 1) hU hP hp ?_
      · by_contra hb; exact h ⟨by omega, Or.inl (by rwa [← Bool.not_eq_false])⟩
      · by_contra hb; exact h ⟨by omega, Or.inr (by omega)⟩

end LawFree

/-- **C118** In `f64`, as in every such format, `insert_times(NaN, x)` succeeds on every curve with matching counts and
adds `x` NaN knots. -/
theorem C118_insert_times_nan {K : Type} [Field K] [LinearOrder K] [IsStrictOrderedRing K] {F : Format K} {d : ℕ}
    {c : Curve (Ieee F) d} {p n : ℕ} {U : List (Ieee F)} {P : List (Pt (Ieee F) d)} (hc : Built c p U P)
    (hU : U.length = n + p + 2) (hP : P.length = n + 1) (hp : p ≤ n) (x : ℕ) :
    ∃ c' U' P', c.insertTimes .nan x = .ok (c', .ok ()) ∧ Built c' p U' P' ∧
      U'.Perm (List.replicate x .nan ++ U) ∧ P'.length = n + x + 1 := by
  have h := C118_insert_times_neq hc hU hP hp (u := Ieee.nan) rfl x
  have hz : domainCopies p n U Ieee.nan = 0 := by
    rw [domainCopies, List.length_eq_zero_iff, List.filter_eq_nil_iff]
    intro i _
    cases U[i]? with
    | none => simp
    | some y => cases y <;> simp [Cmp.eq, Ieee.eq]
  rw [hz, if_neg] at h
  · exact h
  · rintro ⟨-, h | h⟩
    · have hle : ∀ y : Ieee F, Ieee.le y .nan = false := fun y => by cases y <;> rfl
      have h1 : (Cmp.le (1 : Ieee F) .nan) = false := hle 1
      have h2 : (Cmp.le Ieee.nan (0 : Ieee F)) = false := rfl
      rw [h1, h2] at h
      cases h
    · omega

/-! ### An instance -/

/-- a line segment in `f64`, and NaN as a parameter -/
example (x : ℕ) : ∃ (c c' : Curve (Ieee binary64) 1) (U : List (Ieee binary64)) (P : List (Pt (Ieee binary64) 1)),
    Built c 1 [0, 0, 1, 1] [![0], ![1]] ∧ c.insertTimes .nan x = .ok (c', .ok ()) ∧ Built c' 1 U P ∧ U.count .nan = x := by
  have hc : Built (canon 1 [0, 0, 1, 1] [![0], ![1]] : Curve (Ieee binary64) 1) 1 [0, 0, 1, 1] [![0], ![1]] :=
    mkCurve_ok (n := 1) rfl le_rfl (by simp)
  obtain ⟨c', U, P, h1, h2, h3, -⟩ := C118_insert_times_nan (n := 1) hc rfl rfl le_rfl x
  refine ⟨_, c', U, P, hc, h1, h2, ?_⟩
  rw [h3.count_eq, List.count_append, List.count_replicate_self, List.count_eq_zero.mpr (by decide +kernel), add_zero]

end BSpline
