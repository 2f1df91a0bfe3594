import Verif.Props.Pieces
import Verif.Props.History

/-!
# A way around repeated knots: inserting and splitting from the other side (C141)
-/

set_option linter.unusedSectionVars false

namespace BSpline

open Finset

variable {K : Type} [Field K] [LinearOrder K] [IsStrictOrderedRing K] {d : ℕ}

/-! ### Specification -/

/-- no interior knot above `u` is repeated -/
def SimpleAbove (U : List K) (u : K) : Prop := ∀ x, u < x → x < 1 → U.count x ≤ 1

/-- `reverse`, `insert(1 - u)`, `reverse`, all successful, turn the first curve into the second -/
def InsertedBackwards (c : Curve K d) (u : K) (c' : Curve K d) : Prop :=
  ∃ r r', c.reverse = .ok r ∧ r.insert (1 - u) = .ok (r', .ok ()) ∧ r'.reverse = .ok c'

/-- inserting the given parameters one after the other, each one directly or backwards -/
inductive EitherWay : Curve K d → List K → Curve K d → Prop
  | nil {c} : EitherWay c [] c
  | direct {c c' c'' x xs} : c.insert x = .ok (c', .ok ()) → EitherWay c' xs c'' → EitherWay c (x :: xs) c''
  | backwards {c c' c'' x xs} : InsertedBackwards c x c' → EitherWay c' xs c'' → EitherWay c (x :: xs) c''

/-- each insertion is accepted and has no repeated interior knot below it or none above it -/
def Refinable₂ (p : ℕ) (V : List K) : List K → Prop
  | [] => True
  | x :: xs => 0 < x ∧ x < 1 ∧ (SimpleBelow V x ∨ SimpleAbove V x) ∧ V.count x ≤ p ∧ Refinable₂ p (x :: V) xs

/-! ### Insertion -/

theorem simpleBelow_revU {U : List K} {u : K} (h : SimpleAbove U u) : SimpleBelow (revU U) (1 - u) := by
  intro x h0 h1
  rw [count_revU]
  exact h (1 - x) (by linarith) (by linarith)

/-- **C141** If no interior knot *above* `u` is repeated, a curve can be refined by reversing it, inserting `1 - u` and
reversing it again, whatever the multiplicities below `u` are: all calls succeed, the knots are those of the curve and one
more `u`, and all values and derivatives are kept. -/
theorem C141_insert {c : Curve K d} {p n : ℕ} {U : List K} {P : List (Pt K d)} (hc : ValidOn 0 1 c p n U P) {u : K}
    (h0 : 0 < u) (h1 : u < 1) (hm : U.count u ≤ p) (hs : SimpleAbove U u) :
    ∃ c' U' P', InsertedBackwards c u c' ∧ ValidOn 0 1 c' p (n + 1) U' P' ∧ U'.Perm (u :: U) ∧
      ∀ v k, c'.evaluateDerivative v k = c.evaluateDerivative v k := by
  obtain rfl := hc.eq_canon
  obtain ⟨-, hU, hP⟩ := hc
  have hR := revU_clamped hU
  simp only [sub_self, sub_zero] at hR
  have hPr : P.reverse.length = n + 1 := by simpa using hP
  obtain ⟨l, l1, l2, l3, l4, hi, hV, hsame⟩ := insert_valid hR hPr (u := 1 - u) (by linarith) (by linarith)
    (by rw [count_revU, sub_sub_cancel]; exact hm) (simpleBelow_revU hs)
  set V := insU (revU U) (1 - u) l
  set Q := (List.range (n + 2)).map (insP (fn (revU U)) p (fn P.reverse) (1 - u) l)
  have hQ : Q.length = n + 1 + 1 := by simp [Q]
  have hV' := revU_clamped hV
  simp only [sub_self, sub_zero] at hV'
  have hback := Same.rev hR hV hPr hQ hsame
  rw [revU_revU, List.reverse_reverse] at hback
  refine ⟨canon p (revU V) Q.reverse, revU V, Q.reverse, ⟨_, _, reverse_canon hU.length hP hU.le, hi,
    reverse_canon hV.length hQ hV.le⟩, validOn_canon hV' (by simpa using hQ), ?_, fun v k =>
    evaluateDerivative_same hU hV' hP (by simpa using hQ) hback v k⟩
  rw [List.perm_iff_count]
  intro x
  rw [count_revU, (insU_perm (revU U) (1 - u) l).count_eq, List.count_cons, List.count_cons, count_revU, sub_sub_cancel]
  congr 1
  simp only [beq_iff_eq, sub_right_inj]

theorem Refinable₂.perm {p : ℕ} {xs : List K} : ∀ {V W : List K}, V.Perm W → Refinable₂ p V xs → Refinable₂ p W xs := by
  induction xs with
  | nil => intros; trivial
  | cons x xs ih =>
    rintro V W h ⟨a, b, c, e, f⟩
    refine ⟨a, b, ?_, by rwa [← h.count_eq], ih (h.cons x) f⟩
    rcases c with c | c
    · exact .inl fun z h0 h1 => by rw [← h.count_eq]; exact c z h0 h1
    · exact .inr fun z h0 h1 => by rw [← h.count_eq]; exact c z h0 h1

/-- **C141** Any sequence of such insertions, each one from the side without repeated knots, succeeds and keeps the curve. -/
theorem C141_refine {p : ℕ} (xs : List K) : ∀ {n : ℕ} {c : Curve K d} {U : List K} {P : List (Pt K d)},
    ValidOn 0 1 c p n U P → Refinable₂ p U xs →
    ∃ c' U' P', EitherWay c xs c' ∧ ValidOn 0 1 c' p (n + xs.length) U' P' ∧ U'.Perm (xs ++ U) ∧
      ∀ v k, c'.evaluateDerivative v k = c.evaluateDerivative v k := by
  induction xs with
  | nil => exact fun hc _ => ⟨_, _, _, .nil, hc, .refl _, fun _ _ => rfl⟩
  | cons x xs ih =>
    rintro n c U P hc ⟨h0, h1, hs, hm, hr⟩
    have step : ∃ c1 U1 P1, (c.insert x = .ok (c1, .ok ()) ∨ InsertedBackwards c x c1) ∧ ValidOn 0 1 c1 p (n + 1) U1 P1 ∧
        U1.Perm (x :: U) ∧ ∀ v k, c1.evaluateDerivative v k = c.evaluateDerivative v k := by
      rcases hs with hs | hs
      · obtain ⟨c1, hi⟩ := (C17_insert_errors_exact hc x).2.2 h0 h1 hm
        obtain ⟨U1, P1, hc1, hp1⟩ := C16_insert_adds_knot_partial hc hs hi
        exact ⟨c1, U1, P1, .inl hi, hc1, hp1, fun v k => C15_insert_preserves_partial hc hs hi v k⟩
      · obtain ⟨c1, U1, P1, hi, hc1, hp1, hv⟩ := C141_insert hc h0 h1 hm hs
        exact ⟨c1, U1, P1, .inr hi, hc1, hp1, hv⟩
    obtain ⟨c1, U1, P1, hi, hc1, hp1, hv⟩ := step
    obtain ⟨c', U', P', a1, a2, a3, a4⟩ := ih hc1 (hr.perm hp1.symm)
    refine ⟨c', U', P', ?_, ?_, ?_, fun v k => by rw [a4, hv]⟩
    · rcases hi with hi | hi
      · exact .direct hi a1
      · exact .backwards hi a1
    · rwa [List.length_cons, show n + (xs.length + 1) = n + 1 + xs.length by omega]
    · refine a3.trans ?_
      rw [List.cons_append]
      exact (hp1.append_left xs).trans List.perm_middle

/-! ### Which knots can be reached -/

theorem Refinable₂.of_refinable {p : ℕ} {xs : List K} : ∀ {V : List K}, Refinable p V xs → Refinable₂ p V xs := by
  induction xs with
  | nil => intros; trivial
  | cons x xs ih => rintro V ⟨a, b, c, e, f⟩; exact ⟨a, b, .inl c, e, ih f⟩

theorem Refinable₂.facts {p : ℕ} {xs : List K} : ∀ {V : List K}, Refinable₂ p V xs →
    ∀ x ∈ xs, 0 < x ∧ x < 1 ∧ (SimpleBelow V x ∨ SimpleAbove V x) ∧ V.count x + xs.count x ≤ p + 1 := by
  induction xs with
  | nil => intro V _ x hx; simp at hx
  | cons x xs ih =>
    rintro V ⟨h0, h1, h2, h3, h4⟩ y hy
    have hle : ∀ z, V.count z ≤ (x :: V).count z := fun z => by rw [List.count_cons]; omega
    by_cases hyx : y ∈ xs
    · obtain ⟨a0, a1, a2, a3⟩ := ih h4 y hyx
      refine ⟨a0, a1, ?_, ?_⟩
      · rcases a2 with a2 | a2
        · exact .inl fun z hz0 hz1 => (hle z).trans (a2 z hz0 hz1)
        · exact .inr fun z hz0 hz1 => (hle z).trans (a2 z hz0 hz1)
      · rw [List.count_cons] at a3 ⊢
        omega
    · obtain rfl : y = x := (List.mem_cons.mp hy).resolve_right hyx
      refine ⟨h0, h1, h2, ?_⟩
      rw [List.count_cons_self, List.count_eq_zero.mpr hyx]; omega

/-- inserting from above in ascending order, then from below in descending order -/
theorem refinable₂_append {p : ℕ} {ys : List K} (as : List K) : ∀ {V : List K}, as.Pairwise (· ≤ ·) →
    (∀ x ∈ as, 0 < x ∧ x < 1 ∧ SimpleAbove V x) → (∀ x ∈ as, V.count x + as.count x ≤ p + 1) →
    Refinable₂ p (as ++ V) ys → Refinable₂ p V (as ++ ys) := by
  induction as with
  | nil => intro V _ _ _ h; exact h
  | cons x as ih =>
    intro V hs hi hc hr
    obtain ⟨ha, hs⟩ := List.pairwise_cons.mp hs
    obtain ⟨h0, h1, h2⟩ := hi x List.mem_cons_self
    have hx := hc x List.mem_cons_self
    rw [List.count_cons_self] at hx
    refine ⟨h0, h1, .inr h2, by omega, ih hs (fun y hy => ?_) (fun y hy => ?_) (hr.perm (by
      rw [List.cons_append]; exact List.perm_middle.symm))⟩
    · obtain ⟨b0, b1, b2⟩ := hi y (List.mem_cons_of_mem _ hy)
      refine ⟨b0, b1, fun z hz0 hz1 => ?_⟩
      rw [List.count_cons_of_ne (by rintro rfl; exact absurd (ha y hy) (not_le.mpr hz0))]
      exact b2 z hz0 hz1
    · have := hc y (List.mem_cons_of_mem _ hy)
      rw [List.count_cons] at this ⊢
      omega

/-- **C141** The knots that can be reached in this way: `V` can be reached from `U` if and only if every interior knot of `U`
is in `V` as often or more often, added knots get a multiplicity of at most `p + 1`, and each added knot has no repeated
interior knot of `U` below it or none above it. -/
theorem C141_reachable_iff {p n m : ℕ} {U V : List K} (hU : ClampedKnots 0 1 p n U) (hV : ClampedKnots 0 1 p m V) :
    (∃ xs, Refinable₂ p U xs ∧ V.Perm (xs ++ U)) ↔ ∀ x, 0 < x → x < 1 → U.count x ≤ V.count x ∧
      (U.count x < V.count x → V.count x ≤ p + 1 ∧ (SimpleBelow U x ∨ SimpleAbove U x)) := by
  classical
  constructor
  · rintro ⟨xs, hr, hp⟩ x h0 h1
    rw [hp.count_eq, List.count_append]
    refine ⟨by omega, fun hlt => ?_⟩
    obtain ⟨-, -, h2, h3⟩ := hr.facts x (List.count_pos_iff.mp (by omega))
    exact ⟨by omega, h2⟩
  · intro h
    have hcount : ∀ x, (V.diff U).count x + U.count x = V.count x := by
      intro x
      rw [List.count_diff]
      have : U.count x ≤ V.count x := by
        by_cases hx : x ∈ U
        · obtain ⟨hx0, hx1⟩ := clamped_mem hU hx
          rcases hx0.lt_or_eq with hx0 | rfl
          · rcases hx1.lt_or_eq with hx1 | rfl
            · exact (h x hx0 hx1).1
            · rw [clamped_count_one hU, clamped_count_one hV]
          · rw [clamped_count_zero hU, clamped_count_zero hV]
        · rw [List.count_eq_zero.mpr hx]; omega
      omega
    have hin : ∀ x ∈ V.diff U, 0 < x ∧ x < 1 ∧ U.count x < V.count x := by
      intro x hx
      have hlt : U.count x < V.count x := by
        have := hcount x
        have := List.count_pos_iff.mpr hx
        omega
      obtain ⟨hx0, hx1⟩ := clamped_mem hV (List.count_pos_iff.mp (by omega : 0 < V.count x))
      refine ⟨lt_of_le_of_ne hx0 ?_, lt_of_le_of_ne hx1 ?_, hlt⟩
      · rintro rfl; rw [clamped_count_zero hU, clamped_count_zero hV] at hlt; omega
      · rintro rfl; rw [clamped_count_one hU, clamped_count_one hV] at hlt; omega
    have hsorted : (V.diff U).Pairwise (· ≤ ·) := hV.sorted.sublist (List.diff_sublist _ _)
    set B := (V.diff U).filter fun x => decide (SimpleBelow U x) with hB
    set A := (V.diff U).filter fun x => !decide (SimpleBelow U x) with hA
    have hAB : ∀ x, A.count x + B.count x = (V.diff U).count x := fun x => by
      by_cases hx : SimpleBelow U x
      · have e : A.count x = 0 := List.count_eq_zero.mpr fun h => by
          have := (List.mem_filter.mp h).2; simp [hx] at this
        rw [e, Nat.zero_add, hB, List.count_filter (by simpa using hx)]
      · have e : B.count x = 0 := List.count_eq_zero.mpr fun h => by
          have := (List.mem_filter.mp h).2; simp [hx] at this
        rw [e, Nat.add_zero, hA, List.count_filter (by simpa using hx)]
    have mA : ∀ x ∈ A, x ∈ V.diff U ∧ ¬ SimpleBelow U x := fun x hx => by
      have := List.mem_filter.mp hx; exact ⟨this.1, by simpa using this.2⟩
    have mB : ∀ x ∈ B, x ∈ V.diff U ∧ SimpleBelow U x := fun x hx => by
      have := List.mem_filter.mp hx; exact ⟨this.1, by simpa using this.2⟩
    have hlt : ∀ a ∈ A, ∀ b ∈ B, b < a := by
      intro a ha b hb
      by_contra hle
      exact (mA a ha).2 fun z hz0 hz1 => (mB b hb).2 z hz0 (hz1.trans_le (not_lt.mp hle))
    refine ⟨A ++ B.reverse, refinable₂_append A (hsorted.sublist List.filter_sublist) ?_ ?_ ?_, ?_⟩
    · intro x hx
      obtain ⟨a, b, c⟩ := hin x (mA x hx).1
      exact ⟨a, b, (((h x a b).2 c).2).resolve_left (mA x hx).2⟩
    · intro x hx
      obtain ⟨a, b, c⟩ := hin x (mA x hx).1
      have := hAB x
      have := hcount x
      have := ((h x a b).2 c).1
      omega
    · refine .of_refinable (refinable_of_descending ?_ ?_ ?_ ?_)
      · rw [List.pairwise_reverse]; exact hsorted.sublist List.filter_sublist
      · intro x hx
        obtain ⟨a, b, -⟩ := hin x (mB x (List.mem_reverse.mp hx)).1
        exact ⟨a, b⟩
      · intro x hx z hz0 hz1
        have hxB := List.mem_reverse.mp hx
        rw [List.count_append, (List.count_eq_zero (l := A)).mpr fun hzA => absurd (hlt z hzA x hxB) (not_lt.mpr hz1.le),
          Nat.zero_add]
        exact (mB x hxB).2 z hz0 hz1
      · intro x hx
        have hxB := List.mem_reverse.mp hx
        obtain ⟨a, b, c⟩ := hin x (mB x hxB).1
        rw [List.count_append, List.count_reverse]
        have := hAB x
        have := hcount x
        have := ((h x a b).2 c).1
        omega
    · rw [List.perm_iff_count]
      intro x
      rw [List.count_append, List.count_append, List.count_reverse, hAB, hcount]

/-! ### Splitting -/

/-- **C141** If no interior knot above `u` is repeated, a curve can be split at `u` by reversing it, splitting it at `1 - u`,
and reversing both parts, whatever the multiplicities below `u` are (up to `p`). -/
theorem C141_split {c : Curve K d} {p n : ℕ} {U : List K} {P : List (Pt K d)} (hc : ValidOn 0 1 c p n U P) {u : K}
    (h0 : 0 < u) (h1 : u < 1) (hm : ∀ x, 0 < x → x < 1 → U.count x ≤ p) (hs : SimpleAbove U u) :
    ∃ c' l' r' l r, c.reverse = .ok c' ∧ split c' (1 - u) = .ok (.ok (l', r')) ∧ r'.reverse = .ok l ∧ l'.reverse = .ok r ∧
      (∃ n1 U1 P1, ValidOn 0 1 l p n1 U1 P1) ∧ (∃ n2 U2 P2, ValidOn 0 1 r p n2 U2 P2) ∧
      ∀ t, 0 ≤ t → t ≤ 1 → l.evaluate t = c.evaluate (u * t) ∧ r.evaluate t = c.evaluate (u + (1 - u) * t) := by
  have hR : ∃ c', c.reverse = .ok c' ∧ ValidOn 0 1 c' p n (revU U) P.reverse := by
    obtain rfl := hc.eq_canon
    have hU := hc.2.1
    have hR := revU_clamped hU
    simp only [sub_self, sub_zero] at hR
    exact ⟨_, reverse_canon hU.length hc.2.2 hU.le, validOn_canon hR (by simpa using hc.2.2)⟩
  obtain ⟨c', hr, hc'⟩ := hR
  have hsb := simpleBelow_revU hs
  have hu0 : 0 < 1 - u := by linarith
  have hu1 : 1 - u < 1 := by linarith
  obtain ⟨l', r', hsp⟩ := (C26_split_errors_partial hc' hsb (true, true)).2.2 hu0 hu1
    (by rw [count_revU, sub_sub_cancel]; exact hm u h0 h1)
  change split c' (1 - u) = .ok (.ok (l', r')) at hsp
  obtain ⟨n1, n2, P1, P2, hl, hrr⟩ := C25_split_knots_partial hc' hsb hsp
  have rev : ∀ {e : Curve K d} {m : ℕ} {W : List K} {Q : List (Pt K d)}, ValidOn 0 1 e p m W Q →
      ∃ e', e.reverse = .ok e' ∧ ValidOn 0 1 e' p m (revU W) Q.reverse := by
    intro e m W Q he
    obtain rfl := he.eq_canon
    have hU := he.2.1
    have hR := revU_clamped hU
    simp only [sub_self, sub_zero] at hR
    exact ⟨_, reverse_canon hU.length he.2.2 hU.le, validOn_canon hR (by simpa using he.2.2)⟩
  obtain ⟨l, el, vl⟩ := rev hrr
  obtain ⟨r, er, vr⟩ := rev hl
  refine ⟨c', l', r', l, r, hr, hsp, el, er, ⟨_, _, _, vl⟩, ⟨_, _, _, vr⟩, fun t t0 t1 => ⟨?_, ?_⟩⟩
  · rw [C22_reverse_points hrr el (fun x hx0 hx1 => ?_) t0 t1,
      (C24_split_points_partial hc' hsb hsp (t := 1 - t) (by linarith) (by linarith)).2,
      C22_reverse_points hc hr hm (by nlinarith) (by nlinarith)]
    · congr 1; ring
    · rw [count_rightKnots hu1 _ hx0, count_revU]
      exact hm _ (by nlinarith) (by nlinarith)
  · rw [C22_reverse_points hl er (fun x hx0 hx1 => ?_) t0 t1,
      (C24_split_points_partial hc' hsb hsp (t := 1 - t) (by linarith) (by linarith)).1,
      C22_reverse_points hc hr hm (by nlinarith) (by nlinarith)]
    · congr 1; ring
    · rw [count_leftKnots hu0 _ hx1, count_revU]
      exact hm _ (by nlinarith) (by nlinarith)

/-! ### Examples -/

/-- `exPieces` has the double knot `1/4`, so `insert(3/4)` changes it, but it can be inserted backwards -/
example : SimpleAbove [(0 : ℚ), 0, 0, 1 / 4, 1 / 4, 1 / 2, 1, 1, 1] (3 / 4) ∧
    ¬ SimpleBelow [(0 : ℚ), 0, 0, 1 / 4, 1 / 4, 1 / 2, 1, 1, 1] (3 / 4) ∧
    [(0 : ℚ), 0, 0, 1 / 4, 1 / 4, 1 / 2, 1, 1, 1].count (3 / 4) ≤ 2 := by
  refine ⟨fun z h0 h1 => ?_, fun h => absurd (h (1 / 4) (by norm_num) (by norm_num)) (by decide +kernel), by decide +kernel⟩
  have : ∀ z ∈ [(0 : ℚ), 0, 0, 1 / 4, 1 / 4, 1 / 2, 1, 1, 1], 3 / 4 < z → z < 1 →
    [(0 : ℚ), 0, 0, 1 / 4, 1 / 4, 1 / 2, 1, 1, 1].count z ≤ 1 := by decide +kernel
  by_cases hz : z ∈ [(0 : ℚ), 0, 0, 1 / 4, 1 / 4, 1 / 2, 1, 1, 1]
  · exact this z hz h0 h1
  · rw [List.count_eq_zero_of_not_mem hz]; omega

example : (do let r ← exPieces.reverse; let q ← r.insert (1 / 4); let c ← q.1.reverse; c.evaluate (3 / 8)) =
      exPieces.evaluate (3 / 8) ∧
    (do let q ← exPieces.insert (3 / 4); q.1.evaluate (3 / 8)) ≠ exPieces.evaluate (3 / 8) := by
  refine ⟨?_, ?_⟩ <;> decide +kernel

/-- a knot between two double knots cannot be reached from either side -/
example : ¬ ∃ xs, Refinable₂ 2 [(0 : ℚ), 0, 0, 1 / 4, 1 / 4, 3 / 4, 3 / 4, 1, 1, 1] xs ∧
    [(0 : ℚ), 0, 0, 1 / 4, 1 / 4, 1 / 2, 3 / 4, 3 / 4, 1, 1, 1].Perm (xs ++ [0, 0, 0, 1 / 4, 1 / 4, 3 / 4, 3 / 4, 1, 1, 1]) := by
  rw [C141_reachable_iff (n := 6) (m := 7) (by decide +kernel) (by decide +kernel)]
  intro h
  rcases ((h (1 / 2) (by norm_num) (by norm_num)).2 (by decide +kernel)).2 with h | h
  · exact absurd (h (1 / 4) (by norm_num) (by norm_num)) (by decide +kernel)
  · exact absurd (h (3 / 4) (by norm_num) (by norm_num)) (by decide +kernel)

end BSpline
