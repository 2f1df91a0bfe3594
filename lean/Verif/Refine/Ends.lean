import Verif.Refine.Twin
import Verif.Refine.Merge

/-!
# The first and the last control point, without any law of arithmetic
-/

set_option linter.unusedSectionVars false

namespace BSpline

variable {K : Type} [Add K] [Sub K] [Mul K] [Div K] [Neg K] [Zero K] [One K] [NatCast K] [Cmp K] {d : ℕ}

/-- `x` and `y` are the first and the last control point of `c`. -/
def Ends (c : Curve K d) (x y : Pt K d) : Prop :=
  ∃ P, c.points.matrix = .ok P ∧ P.head? = some x ∧ P.getLast? = some y

theorem ends_canon {p : ℕ} {U : List K} {P : List (Pt K d)} {x y : Pt K d} :
    Ends (canon p U P) x y ↔ P.head? = some x ∧ P.getLast? = some y := by
  rw [Ends, canon_matrix]
  constructor
  · rintro ⟨Q, h, h1, h2⟩
    obtain rfl := Except.ok.inj h
    exact ⟨h1, h2⟩
  · exact fun h => ⟨P, rfl, h⟩

variable {c c' : Curve K d} {p n : ℕ} {x y : Pt K d}

theorem head_fn {P : List (Pt K d)} (h : P ≠ []) : P.head? = some (fn P 0) := by
  cases P with
  | nil => exact absurd rfl h
  | cons a l => rfl

theorem getLast_fn {P : List (Pt K d)} {n : ℕ} (h : P.length = n + 1) : P.getLast? = some (fn P n) := by
  rw [List.getLast?_eq_getElem?, h, Nat.add_sub_cancel, List.getElem?_eq_getElem (by omega), fn_lt (by omega)]

theorem Shaped.ends (h : Shaped c p n) (he : Ends c x y) :
    x = fn (c.points.Pk.getD 0 []) 0 ∧ y = fn (c.points.Pk.getD 0 []) n := by
  obtain ⟨P, h1, h2, h3⟩ := he
  rw [h.matrix] at h1
  obtain rfl := Except.ok.inj h1
  have hl := h.lenP 0 (by omega)
  rw [Nat.sub_zero] at hl
  rw [head_fn (by intro h; rw [h] at hl; simp at hl)] at h2
  rw [getLast_fn hl] at h3
  exact ⟨(Option.some.inj h2).symm, (Option.some.inj h3).symm⟩

theorem insP_ends {U : ℕ → K} {P : ℕ → Pt K d} {u : K} {l : ℕ} (hn : l ≤ n) :
    insP U p P u l 0 = P 0 ∧ insP U p P u l (n + 1) = if n + 1 ≤ l - p then P (n + 1) else P n := by
  refine ⟨by rw [insP, if_pos (Nat.zero_le _)], ?_⟩
  rw [insP]
  split
  · rfl
  · rw [if_neg (by omega), Nat.add_sub_cancel]

theorem Ends.insert {r} (h : Shaped c p n) (he : Ends c x y) {u : K} (e : BSpline.insert c u = .ok (c', r)) :
    Ends c' x y := by
  obtain ⟨h1, h2⟩ := h.ends he
  rw [h.insert_eq] at e
  split at e
  · injection e with e; injection e with e _; exact e ▸ he
  split at e
  · injection e with e; injection e with e _; exact e ▸ he
  injection e with e; injection e with e _
  rw [← e, ends_canon]
  have hb := lleq_bounds (fn (c.knots.Uk.getD 0 [])) u (n - p) p
  have hp := h.le
  obtain ⟨i1, i2⟩ := insP_ends (U := fn (c.knots.Uk.getD 0 [])) (P := fn (c.points.Pk.getD 0 [])) (u := u) (n := n)
    (p := p) (l := lleq (fn (c.knots.Uk.getD 0 [])) u (n - p) p) (by omega)
  rw [head_fn (by simp), getLast_fn (n := n + 1) (by simp), fn_map_range _ (by omega), fn_map_range _ (by omega), i1,
    i2, if_neg (by omega), h1, h2]
  exact ⟨rfl, rfl⟩

theorem Ends.insertTimes (u : K) (t : ℕ) : ∀ {c c' : Curve K d} {n : ℕ} {r}, Shaped c p n → Ends c x y →
    c.insertTimes u t = .ok (c', r) → Ends c' x y := by
  induction t with
  | zero =>
    intro c c' n r _ he e
    injection e with e; injection e with e _
    exact e ▸ he
  | succ t ih =>
    intro c c' n r h he e
    obtain ⟨c1, r1, n1, h1, h2⟩ := h.insert_shaped u
    rw [Curve.insertTimes, h1, ok_bind] at e
    have he1 := he.insert h h1
    cases r1 with
    | error e' => injection e with e; injection e with e _; exact e ▸ he1
    | ok _ => exact ih h2 he1 e

theorem Ends.unwrapTimes (u : K) (t : ℕ) : ∀ {c c' : Curve K d} {n : ℕ}, Shaped c p n → Ends c x y →
    insertUnwrapTimes c u t = .ok c' → Ends c' x y ∧ ∃ n', Shaped c' p n' := by
  induction t with
  | zero =>
    intro c c' n h he e
    obtain rfl := Except.ok.inj e
    exact ⟨he, n, h⟩
  | succ t ih =>
    intro c c' n h he e
    obtain ⟨c1, r1, n1, h1, h2⟩ := h.insert_shaped u
    rw [insertUnwrapTimes, h1, ok_bind] at e
    obtain ⟨w, -, e⟩ := bind_ok_inv e
    exact ih h2 (he.insert h h1) e

theorem Ends.reverse (h : Shaped c p n) (he : Ends c x y) (e : c.reverse = .ok c') : Ends c' y x := by
  obtain ⟨P, h1, h2, h3⟩ := he
  rw [h.matrix] at h1
  obtain rfl := Except.ok.inj h1
  have hn := h.nPk
  rw [Curve.reverse, controlPoints_reverse_ok (by rw [h.nPk, h.kMax])] at e
  obtain rfl := Except.ok.inj e
  refine ⟨(c.points.Pk.getD 0 []).reverse, ?_, by rw [List.head?_reverse, h3], by rw [List.getLast?_reverse, h2]⟩
  change idx (c.points.Pk.mapIdx revPts) 0 = _
  rw [idx_getD [] (by simp [hn]), List.getD_eq_getElem _ _ (by simp [hn]), List.getElem_mapIdx,
    List.getD_eq_getElem _ _ (by omega)]
  simp [revPts]

theorem segment_eq {α : Type} {v w : List α} {s n : ℕ} (h : segment v s n = .ok w) : w = (v.drop s).take n := by
  rw [segment] at h
  split at h
  · exact (Except.ok.inj h).symm
  · simp at h

theorem splitLeft_points {p len : ℕ} {U : List K} {P : List (Pt K d)} {u : K} {mp norm : Bool}
    {l : Curve K d} (h : splitLeft p U P u len mp norm = .ok (.ok l)) :
    l.points.matrix = .ok (P.take (len - p)) ∧ p < len ∧ len - p ≤ P.length := by
  rw [splitLeft] at h
  obtain ⟨src, h1, h⟩ := bind_ok_inv h
  obtain ⟨U1, h2, h⟩ := bind_ok_inv h
  obtain ⟨U2, h3, h⟩ := bind_ok_inv h
  have hlen : (normalizeIf norm U2).length = len + 1 := by
    rw [normalizeIf_length, setIdx_inv h3, setSegment_inv h2]; simp [zeros]
  dsimp only at h
  rw [hlen] at h
  have key : ∀ {cols Pl}, cols = len - p → p ≤ len → segment P 0 cols = .ok Pl →
      mkCurve p (normalizeIf norm U2) Pl = .ok (.ok l) →
      l.points.matrix = .ok (P.take (len - p)) ∧ p < len ∧ len - p ≤ P.length := by
    intro cols Pl hc hle h5 h
    have h6 := segment_inv h5
    obtain ⟨n, hn, hc'⟩ := mkCurve_shaped h (by omega)
    have h7 := segment_eq h5
    rw [List.drop_zero] at h7
    have h8 := hn.lenP 0 (by omega)
    rw [hc', canon_matrix, h7, hc]
    refine ⟨rfl, ?_, by omega⟩
    have h9 := hn.matrix
    rw [hc', canon_matrix] at h9
    rw [hc', ← Except.ok.inj h9] at h8
    omega
  cases mp
  · rw [if_neg (by simp)] at h
    obtain ⟨cols, h4, h⟩ := bind_ok_inv h
    obtain ⟨Pl, h5, h⟩ := bind_ok_inv h
    have := usub_inv h4
    exact key (by omega) (by omega) h5 h
  · rw [if_pos rfl] at h
    obtain ⟨x, h4, h⟩ := bind_ok_inv h
    rw [pure_ok, ok_bind] at h
    obtain ⟨Pl, h5, h⟩ := bind_ok_inv h
    have := usub_inv h4
    exact key (by omega) (by omega) h5 h

theorem splitRight_points {p frm : ℕ} {U : List K} {P : List (Pt K d)} {u : K} {mp norm : Bool}
    {r : Curve K d} (hUP : U.length = P.length + p + 1) (h : splitRight p U P u frm mp norm = .ok (.ok r)) :
    r.points.matrix = .ok (P.drop (frm - 1)) ∧ 1 ≤ frm ∧ frm ≤ P.length := by
  rw [splitRight] at h
  obtain ⟨len, h0, h⟩ := bind_ok_inv h
  obtain ⟨U1, h2, h⟩ := bind_ok_inv h
  obtain ⟨t, -, h⟩ := bind_ok_inv h
  obtain ⟨src, -, h⟩ := bind_ok_inv h
  obtain ⟨U2, h3, h⟩ := bind_ok_inv h
  have hlen : (normalizeIf norm U2).length = len := by
    rw [normalizeIf_length, setTail_inv h3, setIdx_inv h2]; simp [zeros]
  dsimp only at h
  rw [hlen] at h
  have h0' := usub_inv h0
  have key : ∀ {cols s Pl}, cols + p + 1 = len → usub P.length cols = .ok s → segment P s cols = .ok Pl →
      mkCurve p (normalizeIf norm U2) Pl = .ok (.ok r) →
      r.points.matrix = .ok (P.drop (frm - 1)) ∧ 1 ≤ frm ∧ frm ≤ P.length := by
    intro cols s Pl hc h4 h5 h
    have h4' := usub_inv h4
    have h6 := segment_inv h5
    obtain ⟨n, hn, hc'⟩ := mkCurve_shaped h (by omega)
    have h7 := segment_eq h5
    rw [List.take_of_length_le (by rw [List.length_drop]; omega)] at h7
    have h8 := hn.lenP 0 (by omega)
    have h9 := hn.matrix
    rw [hc', canon_matrix] at h9
    rw [hc', ← Except.ok.inj h9] at h8
    rw [hc', canon_matrix, h7, show frm - 1 = s by omega]
    exact ⟨rfl, by omega, by omega⟩
  cases mp
  · rw [if_neg (by simp)] at h
    obtain ⟨cols, h4, h⟩ := bind_ok_inv h
    obtain ⟨s, h6, h⟩ := bind_ok_inv h
    obtain ⟨Pl, h5, h⟩ := bind_ok_inv h
    have := usub_inv h4
    exact key (by omega) h6 h5 h
  · rw [if_pos rfl] at h
    obtain ⟨x, h4, h⟩ := bind_ok_inv h
    rw [pure_ok, ok_bind] at h
    obtain ⟨s, h6, h⟩ := bind_ok_inv h
    obtain ⟨Pl, h5, h⟩ := bind_ok_inv h
    have := usub_inv h4
    exact key (by omega) h6 h5 h

/-- the halves keep the outer control points and have the inner one in common -/
theorem Ends.split {l r : Curve K d} {u : K} {norm : Bool × Bool} (h : Shaped c p n) (he : Ends c x y)
    (e : splitAndNormalize c u norm = .ok (.ok (l, r))) : ∃ z, Ends l x z ∧ Ends r z y := by
  rw [splitAndNormalize] at e
  split at e
  · simp at e
  obtain ⟨i, -, e⟩ := bind_ok_inv e
  obtain ⟨U0, -, e⟩ := bind_ok_inv e
  dsimp only at e
  split at e
  · simp at e
  obtain ⟨times, -, e⟩ := bind_ok_inv e
  obtain ⟨b, hb, e⟩ := bind_ok_inv e
  obtain ⟨U, hU, e⟩ := bind_ok_inv e
  obtain ⟨P, hP, e⟩ := bind_ok_inv e
  obtain ⟨left, h1, e⟩ := bind_ok_inv e
  obtain ⟨hbe, n', hbs⟩ := he.unwrapTimes u times h hb
  have hdeg : c.degree = p := h.deg
  rw [hdeg] at h1
  rw [hbs.vector] at hU
  obtain rfl := Except.ok.inj hU
  obtain ⟨P', hP', e1, e2⟩ := hbe
  rw [hP] at hP'
  obtain rfl := Except.ok.inj hP'
  have hlP := hbs.lenP 0 (by omega)
  have hm := hbs.matrix
  rw [hP] at hm
  rw [← Except.ok.inj hm] at hlP
  have hlU := hbs.lenU 0 (by omega)
  cases left with
  | error e => simp at e
  | ok left =>
    obtain ⟨right, h2, e⟩ := bind_ok_inv e
    cases right with
    | error e => simp at e
    | ok right =>
      simp only [pure_ok, Except.ok.injEq, Prod.mk.injEq] at e
      rw [← e.1, ← e.2]
      rw [hdeg] at h2
      obtain ⟨l1, l2, l3⟩ := splitLeft_points h1
      obtain ⟨r1, r2, r3⟩ := splitRight_points (by omega) h2
      generalize hq : (if decide (0 < ((U0.drop i).takeWhile fun x => Cmp.eq x u).length) = true then i else i + 1) = q
        at r1 r2 r3
      have hlen : (if decide (0 < ((U0.drop i).takeWhile fun x => Cmp.eq x u).length) = true then i + p else i + p + 1) - p
          = q := by rw [← hq]; split <;> omega
      rw [hlen] at l1
      refine ⟨P[q - 1], ⟨_, l1, ?_, ?_⟩, ⟨_, r1, ?_, ?_⟩⟩
      · rw [List.head?_take, if_neg (by omega), e1]
      · rw [List.getLast?_eq_getElem?, List.length_take, min_eq_left r3, List.getElem?_take_of_lt (by omega),
          List.getElem?_eq_getElem]
      · rw [List.head?_drop, List.getElem?_eq_getElem]
      · rw [List.getLast?_drop, if_neg (by omega), e2]

end BSpline
