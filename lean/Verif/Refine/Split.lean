import Verif.Refine.Insert
import Verif.Refine.Normalize

/-!
# Splitting canonical curves
-/

set_option linter.unusedSectionVars false

namespace BSpline

section LawFree
variable {K : Type} [Add K] [Sub K] [Mul K] [Div K] [Neg K] [Zero K] [One K] [NatCast K] [Cmp K]
variable {d : ℕ}

theorem normalizeIf_length (f : Bool) (v : List K) : (normalizeIf f v).length = v.length := by
  cases f <;> simp [normalizeIf, normalizeKnots, rescaleKnots]

theorem splitLeft_ok {p q : ℕ} {U : List K} {P : List (Pt K d)} (u : K) (mp norm : Bool)
    (h1 : q + p ≤ U.length) (h2 : p + 1 ≤ q) (h3 : q ≤ P.length) :
    splitLeft p U P u (q + p) mp norm =
      .ok (.ok (canon p (normalizeIf norm (U.take (q + p) ++ [u])) (P.take q))) := by
  rw [splitLeft, head_ok h1, ok_bind, setSegment_ok (by simp [zeros, h1]), ok_bind]
  have e : (List.take 0 (zeros (q + p + 1)) ++ U.take (q + p) ++
      List.drop (0 + (U.take (q + p)).length) (zeros (q + p + 1)) : List K) = U.take (q + p) ++ [0] := by
    simp [zeros, List.length_take, Nat.min_eq_left h1]
  rw [e, setIdx_ok (by simp; omega), ok_bind]
  have e2 : (U.take (q + p) ++ [(0 : K)]).set (q + p) u = U.take (q + p) ++ [u] := by
    rw [List.set_append_right _ _ (by simp)]
    simp [Nat.min_eq_left h1]
  rw [e2]
  dsimp only
  have hl : (normalizeIf norm (U.take (q + p) ++ [u])).length = q + p + 1 := by
    rw [normalizeIf_length]; simp; omega
  have fin : (do let Pl ← segment P 0 q
                 mkCurve p (normalizeIf norm (U.take (q + p) ++ [u])) Pl) =
      .ok (.ok (canon p (normalizeIf norm (U.take (q + p) ++ [u])) (P.take q))) := by
    rw [segment_ok (by omega), ok_bind, List.drop_zero]
    exact mkCurve_ok (n := q - 1) (by simp; omega) (by omega) (by omega)
  cases mp
  · rw [if_neg (by simp), hl, usub_ok (by omega), ok_bind,
      show q + p + 1 + 1 - (p + 2) = q by omega]
    exact fin
  · rw [if_pos rfl, hl, usub_ok (by omega), ok_bind, pure_ok, ok_bind,
      show q + p + 1 - (p + 2) + 1 = q by omega]
    exact fin

theorem splitRight_ok {p q : ℕ} {U : List K} {P : List (Pt K d)} (u : K) (mp norm : Bool)
    (h1 : q + p + 1 ≤ P.length + 1) (h2 : 1 ≤ q) (h3 : U.length = P.length + p + 1) :
    splitRight p U P u q mp norm =
      .ok (.ok (canon p (normalizeIf norm (u :: U.drop q)) (P.drop (q - 1)))) := by
  rw [splitRight, usub_ok (by omega), ok_bind]
  dsimp only
  rw [setIdx_ok (by simp [zeros]; omega), ok_bind, usub_ok (by omega), ok_bind, tail_ok (by omega),
    ok_bind, show U.length - (U.length - q) = q by omega]
  have e : setTail ((zeros (U.length + 1 - q) : List K).set 0 u) (U.drop q) = .ok (u :: U.drop q) := by
    rw [setTail, usub_ok (by simp [zeros]; omega), ok_bind, setSegment_ok (by simp [zeros]; omega)]
    congr 1
    rw [show ((zeros (U.length + 1 - q) : List K).set 0 u).length - (U.drop q).length = 1 by
      simp [zeros]; omega]
    rw [show U.length + 1 - q = (U.length - q) + 1 by omega]
    simp [zeros, List.replicate_succ]
  rw [e, ok_bind]
  have hl : (normalizeIf norm (u :: U.drop q)).length = U.length - q + 1 := by
    rw [normalizeIf_length]; simp
  have fin : (do let s ← usub P.length (P.length + 1 - q)
                 let Pr ← segment P s (P.length + 1 - q)
                 mkCurve p (normalizeIf norm (u :: U.drop q)) Pr) =
      .ok (.ok (canon p (normalizeIf norm (u :: U.drop q)) (P.drop (q - 1)))) := by
    rw [usub_ok (by omega), ok_bind, segment_ok (by omega), ok_bind,
      show P.length - (P.length + 1 - q) = q - 1 by omega,
      List.take_of_length_le (by simp; omega)]
    exact mkCurve_ok (n := P.length - q) (by simp; omega) (by omega) (by omega)
  cases mp
  · rw [if_neg (by simp), hl, usub_ok (by omega), ok_bind,
      show U.length - q + 1 + 1 - (p + 2) = P.length + 1 - q by omega]
    exact fin
  · rw [if_pos rfl, hl, usub_ok (by omega), ok_bind, pure_ok, ok_bind,
      show U.length - q + 1 - (p + 2) + 1 = P.length + 1 - q by omega]
    exact fin

/-- insertions that all succeed -/
theorem insertUnwrapTimes_ok (u : K) (x : ℕ) : ∀ {c c' : Curve K d},
    c.insertTimes u x = .ok (c', .ok ()) → insertUnwrapTimes c u x = .ok c' := by
  induction x with
  | zero =>
    intro c c' h
    rw [Curve.insertTimes, pure_ok] at h
    injection h with h; injection h with h _
    rw [insertUnwrapTimes, h]; rfl
  | succ x ih =>
    intro c c' h
    rw [Curve.insertTimes] at h
    rw [insertUnwrapTimes]
    cases hi : BSpline.insert c u with
    | error e => rw [hi] at h; simp at h
    | ok r =>
      obtain ⟨c1, r⟩ := r
      rw [hi, ok_bind] at h
      cases r with
      | error e => simp at h
      | ok _ =>
        rw [ok_bind]
        exact ih h

end LawFree

theorem takeWhile_length_eq {α : Type} {f : α → Bool} : ∀ {l : List α} {m : ℕ} (_ : m ≤ l.length)
    (_ : ∀ i (_ : i < l.length), i < m → f l[i] = true)
    (_ : ∀ (_ : m < l.length), f l[m] = false), (l.takeWhile f).length = m := by
  intro l
  induction l with
  | nil => intro m hm _ _; simp at hm; simp [hm]
  | cons a l ih =>
    intro m hm h1 h2
    cases m with
    | zero =>
      have := h2 (by simp)
      simp only [List.getElem_cons_zero] at this
      simp [this]
    | succ m =>
      have h0 := h1 0 (by simp) (by omega)
      simp only [List.getElem_cons_zero] at h0
      rw [List.takeWhile_cons_of_pos h0, List.length_cons]
      congr 1
      apply ih (by simpa using hm)
      · intro i hi hm'
        have := h1 (i + 1) (by simpa using hi) (by omega)
        simpa using this
      · intro hi
        have := h2 (by simpa using hi)
        simpa using this

variable {K : Type} [Field K] [LinearOrder K] [IsStrictOrderedRing K] {d : ℕ}

/-- number of knots below `u` -/
def nlt (U : List K) (u : K) : ℕ := U.countP (fun x => decide (x < u))

theorem fn_lt_iff {U : List K} (hs : U.Pairwise (· ≤ ·)) (u : K) : ∀ {i : ℕ}, i < U.length →
    (fn U i < u ↔ i < nlt U u) := by
  induction U with
  | nil => intro i hi; simp at hi
  | cons a U ih =>
    intro i hi
    rw [List.pairwise_cons] at hs
    by_cases ha : a < u
    · rw [nlt, List.countP_cons_of_pos (by simpa using ha)]
      cases i with
      | zero => rw [fn_cons_zero]; simp [ha]
      | succ i =>
        have hi' : i < U.length := by simpa using hi
        rw [fn_cons_succ hi', ih hs.2 hi', nlt]; omega
    · have h0 : nlt (a :: U) u = 0 := by
        rw [nlt, List.countP_eq_zero]
        intro x hx
        simp only [decide_eq_true_eq, not_lt]
        rcases List.mem_cons.mp hx with rfl | hx
        · exact not_lt.mp ha
        · exact (not_lt.mp ha).trans (hs.1 x hx)
      rw [h0]
      simp only [not_lt_zero, iff_false, not_lt]
      rw [fn_lt hi]
      rcases List.mem_cons.mp (List.getElem_mem hi) with h | h
      · rw [h]; exact not_lt.mp ha
      · exact (not_lt.mp ha).trans (hs.1 _ h)

theorem fn_le_iff {U : List K} (hs : U.Pairwise (· ≤ ·)) (u : K) : ∀ {i : ℕ}, i < U.length →
    (fn U i ≤ u ↔ i < nlt U u + U.count u) := by
  induction U with
  | nil => intro i hi; simp at hi
  | cons a U ih =>
    intro i hi
    rw [List.pairwise_cons] at hs
    by_cases ha : a ≤ u
    · have hcnt : nlt (a :: U) u + (a :: U).count u = nlt U u + U.count u + 1 := by
        rcases ha.lt_or_eq with h | rfl
        · rw [nlt, List.countP_cons_of_pos (by simpa using h), List.count_cons_of_ne h.ne, nlt]; omega
        · rw [nlt, List.countP_cons_of_neg (by simp), List.count_cons_self, nlt]; omega
      rw [hcnt]
      cases i with
      | zero => rw [fn_cons_zero]; simp [ha]
      | succ i =>
        have hi' : i < U.length := by simpa using hi
        rw [fn_cons_succ hi', ih hs.2 hi']; omega
    · have hall : ∀ x ∈ a :: U, u < x := by
        intro x hx
        rcases List.mem_cons.mp hx with rfl | hx
        · exact not_le.mp ha
        · exact (not_le.mp ha).trans_le (hs.1 x hx)
      have h0 : nlt (a :: U) u = 0 := by
        rw [nlt, List.countP_eq_zero]
        intro x hx
        simp only [decide_eq_true_eq, not_lt]
        exact (hall x hx).le
      have h1 : (a :: U).count u = 0 := by
        apply List.count_eq_zero_of_not_mem
        intro h; exact lt_irrefl _ (hall u h)
      rw [h0, h1]
      simp only [add_zero, not_lt_zero, iff_false, not_le]
      rw [fn_lt hi]
      exact hall _ (List.getElem_mem hi)

theorem nlt_perm {U U' : List K} (h : U.Perm U') (u : K) : nlt U u = nlt U' u := h.countP_eq _

/-- where the search for an admissible parameter ends -/
theorem lleq_first {U : ℕ → K} {p n : ℕ} {a b u : K} (hc : Clamp U p n a b) (hau : a < u)
    (hub : u < b) (hrep : ∀ i, p < i → i ≤ n → U i < u → U (i + 1) ≠ U i) (r : ℕ) : ∀ i, p ≤ i →
    i + r = n → U i ≤ u → (i = p ∨ (U (i - 1) < U i ∧ U (i + 1) ≠ U i)) →
    (U (lleq U u r i) < u ∧ u < U (lleq U u r i + 1)) ∨
      (p < lleq U u r i ∧ U (lleq U u r i) = u ∧ U (lleq U u r i - 1) < u) := by
  have stop : ∀ i, p ≤ i → U i ≤ u → (i = p ∨ (U (i - 1) < U i ∧ U (i + 1) ≠ U i)) →
      u < U (i + 1) → (U i < u ∧ u < U (i + 1)) ∨ (p < i ∧ U i = u ∧ U (i - 1) < u) := by
    intro i hp hi hinv hnext
    rcases hi.lt_or_eq with h | h
    · exact Or.inl ⟨h, hnext⟩
    · right
      rcases hinv with rfl | ⟨h2, _⟩
      · rw [hc.left i le_rfl] at h; exact absurd h hau.ne
      · refine ⟨?_, h, h ▸ h2⟩
        rcases hp.lt_or_eq with h3 | rfl
        · exact h3
        · rw [hc.left p le_rfl] at h; exact absurd h hau.ne
  induction r with
  | zero =>
    intro i hp hr hi hinv
    simp only [lleq]
    apply stop i hp hi hinv
    rw [hc.right _ (by omega)]; exact hub
  | succ r ih =>
    intro i hp hr hi hinv
    simp only [lleq, Cmp.le, Cmp.eq, decide_eq_true_eq]
    split
    · rename_i h1
      have hlt : U i < U (i + 1) := by
        rcases hinv with rfl | ⟨_, h2⟩
        · rw [hc.left i le_rfl]; exact hc.a_lt (by omega)
        · exact lt_of_le_of_ne (hc.mono (by omega)) (Ne.symm h2)
      split
      · rename_i h2
        right
        have hu : U (i + 1) = u := by
          rcases h1.lt_or_eq with h3 | h3
          · exact absurd h2 (hrep (i + 1) (by omega) (by omega) h3)
          · exact h3
        exact ⟨by omega, hu, by rw [Nat.add_sub_cancel]; exact hu ▸ hlt⟩
      · rename_i h2
        exact ih (i + 1) (by omega) (by omega) h1 (Or.inr ⟨by rw [Nat.add_sub_cancel]; exact hlt, h2⟩)
    · rename_i h1
      exact stop i hp hi hinv (not_le.mp h1)

/-- the search result and the multiplicity that `split` computes -/
theorem split_search {p n : ℕ} {U : List K} {u : K} (h : ClampedKnots 0 1 p n U) (h0 : 0 < u)
    (h1 : u < 1) (hr : SimpleBelow U u) :
    (((U.drop (lleq (fn U) u (n - p) p)).takeWhile (fun x => Cmp.eq x u)).length = U.count u) ∧
    (if 0 < U.count u then lleq (fn U) u (n - p) p else lleq (fn U) u (n - p) p + 1) = nlt U u := by
  have hc := h.clamp
  have hlen := h.length
  have hle := h.le
  have hb := lleq_bounds (fn U) u (n - p) p
  have hf := lleq_first hc h0 h1 (fun i => hr.not_eq h) (n - p) p le_rfl (by omega)
    (by rw [hc.left p le_rfl]; exact h0.le) (Or.inl rfl)
  generalize lleq (fn U) u (n - p) p = l at hb hf
  have i1 : ∀ {i}, i < U.length → (fn U i < u ↔ i < nlt U u) := fun hi => fn_lt_iff h.sorted u hi
  have i2 : ∀ {i}, i < U.length → (fn U i ≤ u ↔ i < nlt U u + U.count u) :=
    fun hi => fn_le_iff h.sorted u hi
  have hq : U.count u = 0 ∧ nlt U u = l + 1 ∨ 0 < U.count u ∧ nlt U u = l := by
    rcases hf with ⟨h2, h3⟩ | ⟨hpl, h2, h3⟩
    · left
      have a1 := (i1 (by omega)).mp h2
      have a2 := (not_congr (i2 (i := l + 1) (by omega))).mp (not_le.mpr h3)
      omega
    · right
      have a1 := (i1 (by omega)).mp h3
      have a2 := (not_congr (i1 (i := l) (by omega))).mp (by rw [h2]; exact lt_irrefl _)
      have a3 := (i2 (i := l) (by omega)).mp h2.le
      omega
  have htot : nlt U u + U.count u ≤ U.length := by
    by_contra hcon
    have := (i2 (i := n + 1) (by omega)).mpr (by omega)
    rw [hc.right (n + 1) le_rfl] at this
    exact absurd (lt_of_le_of_lt this h1) (lt_irrefl _)
  constructor
  · apply takeWhile_length_eq
    · simp; omega
    · intro i hi him
      simp only [List.length_drop] at hi
      simp only [Cmp.eq, decide_eq_true_eq, List.getElem_drop]
      rw [← fn_lt]
      apply le_antisymm
      · exact (i2 (by omega)).mpr (by omega)
      · exact not_lt.mp ((not_congr (i1 (by omega))).mpr (by omega))
    · intro hi
      simp only [List.length_drop] at hi
      simp only [Cmp.eq, decide_eq_false_iff_not, List.getElem_drop]
      rw [← fn_lt]
      rcases hq with ⟨h2, h3⟩ | ⟨h2, h3⟩
      · rw [h2, Nat.add_zero]
        exact ((i1 (by omega)).mpr (by omega)).ne
      · intro he
        have := (i2 (i := l + U.count u) (by omega)).mp he.le
        omega
  · rcases hq with ⟨h2, h3⟩ | ⟨h2, h3⟩
    · rw [if_neg (by omega), h3]
    · rw [if_pos h2, h3]

/-! ### The two halves -/

/-- a clamped vector that contains `u` exactly `p` times, `q` knots below it -/
structure Cut (U : List K) (u : K) (p n q : ℕ) : Prop where
  cl : ClampedKnots 0 1 p n U
  h0 : 0 < u
  h1 : u < 1
  low : ∀ i, i < q → fn U i < u
  mid : ∀ i, q ≤ i → i < q + p → fn U i = u
  high : ∀ i, q + p ≤ i → u < fn U i
  lo_q : p + 1 ≤ q
  q_hi : q + p ≤ n + 1

theorem cut_of_count {U : List K} {u : K} {p n : ℕ} (h : ClampedKnots 0 1 p n U) (h0 : 0 < u)
    (h1 : u < 1) (hm : U.count u = p) : Cut U u p n (nlt U u) := by
  have hc := h.clamp
  have hlen := h.length
  have hle := h.le
  have i1 : ∀ {i}, i < U.length → (fn U i < u ↔ i < nlt U u) := fun hi => fn_lt_iff h.sorted u hi
  have i2 : ∀ {i}, i < U.length → (fn U i ≤ u ↔ i < nlt U u + U.count u) :=
    fun hi => fn_le_iff h.sorted u hi
  rw [hm] at i2
  have hlo := (i1 (i := p) (by omega)).mp (by rw [hc.left p le_rfl]; exact h0)
  have hhi := (not_congr (i2 (i := n + 1) (by omega))).mp
    (by rw [hc.right (n + 1) le_rfl]; exact not_le.mpr h1)
  refine ⟨h, h0, h1, ?_, ?_, ?_, by omega, by omega⟩
  · intro i hi; exact (i1 (by omega)).mpr hi
  · intro i h2 h3
    exact le_antisymm ((i2 (by omega)).mpr h3) (not_lt.mp ((not_congr (i1 (by omega))).mpr (by omega)))
  · intro i hi
    by_cases h2 : i < U.length
    · exact not_le.mp ((not_congr (i2 h2)).mpr (by omega))
    · rw [hc.right i (by omega)]; exact h1

namespace Cut

variable {U : List K} {u : K} {p n q : ℕ}

theorem fn_left (h : Cut U u p n q) (i : ℕ) :
    fn (U.take (q + p) ++ [u]) i = if i < q then fn U i else u := by
  have hlen := h.cl.length
  have := h.q_hi
  have hl : (U.take (q + p)).length = q + p := by simp; omega
  have last : fn (U.take (q + p) ++ [u]) (q + p) = u := by
    rw [fn_append_right (by omega) (by simp; omega), hl, Nat.sub_self, fn_cons_zero]
  by_cases h1 : i < q + p
  · rw [fn_append_left (by omega), fn_take h1 (by omega)]
    split
    · rfl
    · exact h.mid i (by omega) h1
  · rw [if_neg (by omega)]
    rcases Nat.eq_or_lt_of_le (Nat.not_lt.mp h1) with h2 | h2
    · rw [← h2]; exact last
    · rw [fn_ge (by simp; omega), fn_last (by simp)]
      rw [show (U.take (q + p) ++ [u]).length - 1 = q + p by simp; omega]
      exact last

theorem left_clamped (h : Cut U u p n q) : ClampedKnots 0 u p (q - 1) (U.take (q + p) ++ [u]) := by
  have hlen := h.cl.length
  have hc := h.cl.clamp
  have h1 := h.lo_q
  have h2 := h.q_hi
  apply ClampedKnots.of_clamp (by simp; omega)
  refine ⟨?_, ?_, ?_, ?_, h.h0, by omega⟩
  · intro i j hij
    rw [h.fn_left, h.fn_left]
    split
    · split
      · exact hc.mono hij
      · rename_i h3 _; exact (h.low i h3).le
    · rw [if_neg (by omega)]
  · intro i hi; rw [h.fn_left, if_pos (by omega)]; exact hc.left i hi
  · intro i hi; rw [h.fn_left, if_neg (by omega)]
  · intro i h3 h4
    rw [h.fn_left, if_pos (by omega)]
    exact ⟨hc.a_lt h3, h.low i (by omega)⟩

theorem fn_right (h : Cut U u p n q) (i : ℕ) :
    fn (u :: U.drop q) i = if i = 0 then u else fn U (i + q - 1) := by
  have hlen := h.cl.length
  have := h.q_hi
  cases i with
  | zero => rw [fn_cons_zero, if_pos rfl]
  | succ i =>
    rw [if_neg (by omega)]
    by_cases h1 : i < (U.drop q).length
    · simp only [List.length_drop] at h1
      rw [fn_cons_succ (by simp; omega), fn_drop (by omega)]
      congr 1; omega
    · simp only [List.length_drop] at h1
      rw [fn_ge (by simp; omega), fn_last (by simp), h.cl.clamp.right _ (by omega)]
      rw [show (u :: U.drop q).length - 1 = (U.length - q - 1) + 1 by simp; omega]
      rw [fn_cons_succ (by simp; omega), fn_drop (by omega), h.cl.clamp.right _ (by omega)]

theorem right_clamped (h : Cut U u p n q) : ClampedKnots u 1 p (n + 1 - q) (u :: U.drop q) := by
  have hlen := h.cl.length
  have hc := h.cl.clamp
  have h1 := h.lo_q
  have h2 := h.q_hi
  have hge : ∀ i, q ≤ i → u ≤ fn U i := by
    intro i hi
    rcases Nat.lt_or_ge i (q + p) with h3 | h3
    · exact (h.mid i hi h3).ge
    · exact (h.high i h3).le
  apply ClampedKnots.of_clamp (by simp; omega)
  refine ⟨?_, ?_, ?_, ?_, h.h1, by omega⟩
  · intro i j hij
    rw [h.fn_right, h.fn_right]
    split
    · split
      · exact le_rfl
      · exact hge _ (by omega)
    · rw [if_neg (by omega)]; exact hc.mono (by omega)
  · intro i hi; rw [h.fn_right]
    split
    · rfl
    · exact h.mid _ (by omega) (by omega)
  · intro i hi; rw [h.fn_right, if_neg (by omega)]; exact hc.right _ (by omega)
  · intro i h3 h4
    rw [h.fn_right, if_neg (by omega)]
    exact ⟨h.high _ (by omega), hc.lt_b (by omega)⟩

theorem cv_left (h : Cut U u p n q) {P : List (Pt K d)} (hP : P.length = n + 1) {k j : ℕ} (hk : k ≤ p)
    (hj : p ≤ j) (hj' : j ≤ q - 1) (v : K) :
    cv (fn (U.take (q + p) ++ [u])) p (fn (P.take q)) k j v = cv (fn U) p (fn P) k j v := by
  have h1 := h.lo_q
  have h2 := h.q_hi
  apply cv_congr_of_bl _ k hk _ (by simp)
  intro ts hts
  apply bl_congr
  · intro m hm
    rw [h.fn_left]
    split
    · rfl
    · exact (h.mid _ (by omega) (by omega)).symm
  · intro m hm
    exact fn_take (by omega) (by omega)

theorem cv_right (h : Cut U u p n q) {P : List (Pt K d)} (hP : P.length = n + 1) {k j : ℕ}
    (hk : k ≤ p) (hj : p ≤ j) (hj' : j ≤ n + 1 - q) (v : K) :
    cv (fn (u :: U.drop q)) p (fn (P.drop (q - 1))) k j v = cv (fn U) p (fn P) k (j + q - 1) v := by
  have h1 := h.lo_q
  have h2 := h.q_hi
  apply cv_congr_of_bl _ k hk _ (by simp)
  intro ts hts
  apply bl_congr
  · intro m hm
    rw [h.fn_right, if_neg (by omega)]
    congr 1; omega
  · intro m hm
    rw [fn_drop (by omega)]
    congr 1; omega

theorem span_left (h : Cut U u p n q) {v : K} (hv : v < u) {j : ℕ}
    (hs : IsSpan (fn (U.take (q + p) ++ [u])) (q - 1) v j) : IsSpan (fn U) n v j := by
  have h1 := h.lo_q
  have h2 := h.q_hi
  have h3 := hs.le_n
  refine ⟨by omega, ?_, Or.inl ?_⟩
  · have := hs.lo; rwa [h.fn_left, if_pos (by omega)] at this
  · rcases hs.hi with h4 | ⟨_, h4⟩
    · rw [h.fn_left] at h4
      split at h4
      · exact h4
      · rename_i h5
        rcases Nat.eq_zero_or_pos p with hp | hp
        · exact hv.trans (h.high _ (by omega))
        · rw [h.mid _ (by omega) (by omega)]; exact hv
    · rw [h.fn_left, if_neg (by omega)] at h4
      exact absurd h4 hv.ne

theorem span_left_end (h : Cut U u p n q) {j : ℕ}
    (hs : IsSpan (fn (U.take (q + p) ++ [u])) (q - 1) u j) : j = q - 1 := by
  have h1 := h.lo_q
  by_contra hne
  have h3 := hs.le_n
  have h4 := h.low (j + 1) (by omega)
  rcases hs.hi with h5 | ⟨h5, _⟩
  · rw [h.fn_left, if_pos (by omega)] at h5
    exact absurd (h4.trans h5) (lt_irrefl _)
  · omega

theorem span_right (h : Cut U u p n q) {v : K} (hv : u ≤ v) {j : ℕ} (hpj : p ≤ j)
    (hs : IsSpan (fn (u :: U.drop q)) (n + 1 - q) v j) : IsSpan (fn U) n v (j + q - 1) := by
  have h1 := h.lo_q
  have h2 := h.q_hi
  have h3 := hs.le_n
  refine ⟨by omega, ?_, ?_⟩
  · have := hs.lo
    rw [h.fn_right] at this
    split at this
    · exact (h.low _ (by omega)).le.trans hv
    · exact this
  · have := hs.hi
    rw [h.fn_right, h.fn_right, if_neg (by omega), if_neg (by omega)] at this
    rcases this with h4 | ⟨h4, h5⟩
    · left; rwa [show j + 1 + q - 1 = j + q - 1 + 1 by omega] at h4
    · right; refine ⟨by omega, ?_⟩
      rwa [show n + 1 - q + 1 + q - 1 = n + 1 by omega] at h5

end Cut

end BSpline
