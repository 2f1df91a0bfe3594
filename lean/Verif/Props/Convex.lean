import Verif.Spec.Turning
import Verif.Props.Reproduce
import Verif.Props.PolygonEdit
import Verif.Props.Slope

/-!
# Convex control polygons give convex curves (C103)

Corner cutting keeps polygons that turn left. The points of a curve arise from the control points by corner
cutting (C62), so does the control polygon after an insertion or a split (C72).
-/

set_option linter.unusedSectionVars false

namespace BSpline

open Finset

section
variable {K : Type} [Field K] [LinearOrder K] [IsStrictOrderedRing K]

theorem turn_first {x y b c : K × K} (s : K) :
    turn ((1 - s) • x + s • y) b c = (1 - s) * turn x b c + s * turn y b c := by
  simp only [turn, Prod.fst_add, Prod.snd_add, Prod.smul_fst, Prod.smul_snd, smul_eq_mul]; ring

theorem turn_cycle (a b c : K × K) : turn a b c = turn b c a := by
  simp only [turn]; ring

theorem turn_self (a b : K × K) : turn a a b = 0 := by
  simp only [turn]; ring

theorem turn_back (a b : K × K) : turn a b a = 0 := by
  simp only [turn]; ring

/-- a sublist of a list with one more element either does not use it or is split by it -/
theorem sublist_insert {V : Type} {l A B : List V} {m : V} (h : l.Sublist (A ++ m :: B)) :
    l.Sublist (A ++ B) ∨ ∃ l₁ l₂, l = l₁ ++ m :: l₂ ∧ l₁.Sublist A ∧ l₂.Sublist B := by
  obtain ⟨l₁, l₂, rfl, h1, h2⟩ := List.sublist_append_iff.mp h
  cases h2 with
  | cons _ h2 => exact .inl (h1.append h2)
  | cons_cons _ h2 => exact .inr ⟨l₁, _, rfl, h1, h2⟩

theorem LeftTurning.edge {A B : List (K × K)} {x y : K × K} (h : LeftTurning (A ++ x :: y :: B)) {s : K}
    (h0 : 0 ≤ s) (h1 : s ≤ 1) : LeftTurning (A ++ x :: ((1 - s) • x + s • y) :: y :: B) := by
  intro a b c habc
  have h1' : 0 ≤ 1 - s := by linarith
  rw [show A ++ x :: ((1 - s) • x + s • y) :: y :: B = (A ++ [x]) ++ ((1 - s) • x + s • y) :: (y :: B) by
    simp] at habc
  have hx : ∀ {l₁ l₂ : List (K × K)}, l₁.Sublist A → l₂.Sublist B → ∀ a b c,
      l₁ ++ x :: y :: l₂ = [a, b, c] ∨ (l₁ ++ x :: l₂ = [a, b, c]) ∨ (l₁ ++ y :: l₂ = [a, b, c]) →
      0 ≤ turn a b c := by
    intro l₁ l₂ g1 g2 a b c g
    apply h
    rcases g with g | g | g <;> rw [← g]
    · exact g1.append ((g2.cons_cons y).cons_cons x)
    · exact g1.append ((g2.cons y).cons_cons x)
    · exact g1.append ((g2.cons_cons y).cons x)
  rcases sublist_insert habc with g | ⟨l₁, l₂, e, g1, g2⟩
  · exact h _ _ _ (by simpa using g)
  -- the points before the new one come from `A` or are `x`
  have e1 : l₁.Sublist A ∨ ∃ l, l₁ = l ++ [x] ∧ l.Sublist A := by
    rcases sublist_insert g1 with g | ⟨k₁, k₂, rfl, q1, q2⟩
    · left; simpa using g
    · right; rw [List.sublist_nil] at q2; subst q2; exact ⟨k₁, rfl, q1⟩
  have e2 : l₂.Sublist B ∨ ∃ l, l₂ = y :: l ∧ l.Sublist B := by
    cases g2 with
    | cons _ q => exact .inl q
    | cons_cons _ q => exact .inr ⟨_, rfl, q⟩
  have comb : ∀ {p q : K}, 0 ≤ p → 0 ≤ q → 0 ≤ (1 - s) * p + s * q := fun hp hq =>
    add_nonneg (mul_nonneg h1' hp) (mul_nonneg h0 hq)
  -- the position of the new point
  match l₁, l₂, e, e1, e2 with
  | [], [b', c'], e, _, e2 =>
    simp only [List.nil_append, List.cons.injEq, and_true] at e
    obtain ⟨rfl, rfl, rfl⟩ := e
    rw [turn_first]
    rcases e2 with q | ⟨l, e, q⟩
    · exact comb (hx (List.nil_sublist _) q _ _ _ (.inr (.inl rfl)))
        (hx (List.nil_sublist _) q _ _ _ (.inr (.inr rfl)))
    · simp only [List.cons.injEq] at e
      obtain ⟨rfl, rfl⟩ := e
      rw [turn_self]
      exact comb (hx (List.nil_sublist _) q _ _ _ (.inl rfl)) le_rfl
  | [a'], [c'], e, e1, e2 =>
    simp only [List.cons_append, List.nil_append, List.cons.injEq, and_true] at e
    obtain ⟨rfl, rfl, rfl⟩ := e
    rw [turn_cycle, turn_first]
    rcases e1 with p | ⟨l, e, p⟩ <;> rcases e2 with q | ⟨k, e', q⟩
    · refine comb ?_ ?_ <;> rw [← turn_cycle]
      · exact hx p q _ _ _ (.inr (.inl rfl))
      · exact hx p q _ _ _ (.inr (.inr rfl))
    · simp only [List.cons.injEq] at e'
      obtain ⟨rfl, rfl⟩ := e'
      rw [turn_self]
      refine comb ?_ le_rfl
      rw [← turn_cycle]
      exact hx p q _ _ _ (.inl rfl)
    · have e3 : l = [] ∧ a = x := by
        cases l with
        | nil => simpa using e
        | cons z l => simp at e
      obtain ⟨rfl, rfl⟩ := e3
      rw [turn_cycle a c a, turn_cycle c a a, turn_self]
      refine comb le_rfl ?_
      rw [← turn_cycle]
      exact hx p q _ _ _ (.inl rfl)
    · have e3 : l = [] ∧ a = x := by
        cases l with
        | nil => simpa using e
        | cons z l => simp at e
      obtain ⟨rfl, rfl⟩ := e3
      simp only [List.cons.injEq] at e'
      obtain ⟨rfl, rfl⟩ := e'
      rw [turn_cycle a c a, turn_cycle c a a, turn_self, turn_self]
      simp
  | [a', b'], [], e, e1, _ =>
    simp only [List.cons_append, List.nil_append, List.cons.injEq, and_true] at e
    obtain ⟨rfl, rfl, rfl⟩ := e
    rw [turn_cycle, turn_cycle, turn_first]
    rcases e1 with p | ⟨l, e, p⟩
    · refine comb ?_ ?_ <;> rw [turn_cycle]
      · exact hx p (List.nil_sublist _) _ _ _ (.inr (.inl rfl))
      · exact hx p (List.nil_sublist _) _ _ _ (.inr (.inr rfl))
    · have e3 : l = [a] ∧ b = x := by
        match l with
        | [] => simp at e
        | [z] => simpa [eq_comm] using e
        | z :: z' :: l => simp at e
      obtain ⟨rfl, rfl⟩ := e3
      rw [turn_back]
      refine comb le_rfl ?_
      rw [turn_cycle]
      exact hx p (List.nil_sublist _) _ _ _ (.inl rfl)
  | [], [], e, _, _ => simp at e
  | [], [_], e, _, _ => simp at e
  | [], _ :: _ :: _ :: _, e, _, _ => simp at e
  | [_], [], e, _, _ => simp at e
  | [_], _ :: _ :: _, e, _, _ => simp at e
  | [_, _], _ :: _, e, _, _ => simp at e
  | _ :: _ :: _ :: _, _, e, _, _ => simp at e

theorem CornerCut.leftTurning {P Q : List (K × K)} (h : CornerCut (K := K) P Q) (hP : LeftTurning P) :
    LeftTurning Q := by
  induction h with
  | refl => exact hP
  | edge _ h0 h1 ih => exact ih.edge h0 h1
  | drop _ hs ih => exact fun a b c h => ih a b c (h.trans hs)

variable {d : ℕ}

/-- the position in a plane given by two directions -/
def shadow (w w' : Pt K d) (v : Pt K d) : K × K := (∑ r, w r * v r, ∑ r, w' r * v r)

theorem shadow_segment (w w' : Pt K d) (s : K) (x y : Pt K d) :
    shadow w w' ((1 - s) • x + s • y) = (1 - s) • shadow w w' x + s • shadow w w' y := by
  have h := affine_segment w 0 s x y
  have h' := affine_segment w' 0 s x y
  simp only [add_zero] at h h'
  exact Prod.ext h h'

/-- **C103** A plane curve, or the projection of a curve to a plane: if every three of its control points, in
their order, turn left, so do every three points of the curve. So curves with a convex control polygon, open
or closed, are convex. -/
theorem C103_left_turning {c : Curve K d} {p n : ℕ} {U : List K} {P : List (Pt K d)}
    (hc : ValidOn 0 1 c p n U P) (hp : 1 ≤ p) (w w' : Pt K d) (hP : LeftTurning (P.map (shadow w w')))
    {u₁ u₂ u₃ : K} {v₁ v₂ v₃ : Pt K d} (h0 : 0 ≤ u₁) (h12 : u₁ ≤ u₂) (h23 : u₂ ≤ u₃) (h1 : u₃ ≤ 1)
    (e₁ : c.evaluate u₁ = .ok (.ok v₁)) (e₂ : c.evaluate u₂ = .ok (.ok v₂))
    (e₃ : c.evaluate u₃ = .ok (.ok v₃)) :
    0 ≤ turn (shadow w w' v₁) (shadow w w' v₂) (shadow w w' v₃) := by
  rcases h12.eq_or_lt with rfl | h12
  · rw [e₁] at e₂; cases e₂; rw [turn_self]
  rcases h23.eq_or_lt with rfl | h23
  · rw [e₂] at e₃; cases e₃; rw [turn_cycle, turn_self]
  obtain ⟨vs, hv, hcut⟩ := C62_corner_cutting hc hp (us := [u₁, u₂, u₃])
    (by simp [h12, h23, h12.trans h23]) (by
      simp only [List.mem_cons, List.not_mem_nil, or_false, forall_eq_or_imp, forall_eq]
      refine ⟨⟨h0, ?_⟩, ⟨?_, ?_⟩, ?_, h1⟩ <;> linarith)
  match vs, hv with
  | [x₁, x₂, x₃], .cons g₁ (.cons g₂ (.cons g₃ .nil)) =>
    rw [e₁] at g₁; cases g₁
    rw [e₂] at g₂; cases g₂
    rw [e₃] at g₃; cases g₃
    exact (hcut.map _ (shadow_segment w w')).leftTurning hP _ _ _ (List.Sublist.refl _)

/-- **C103** An insertion keeps control polygons that turn left. -/
theorem C103_insert {c c' : Curve K d} {p n : ℕ} {U : List K} {P : List (Pt K d)}
    (hc : ValidOn 0 1 c p n U P) (hn : 1 ≤ n) {u : K} (hr : SimpleBelow U u)
    (hi : c.insert u = .ok (c', .ok ())) (w w' : Pt K d) (hP : LeftTurning (P.map (shadow w w'))) :
    ∃ P', c'.points.matrix = .ok P' ∧ LeftTurning (P'.map (shadow w w')) := by
  obtain ⟨P', h1, -, h2⟩ := C72_insert hc hn hr hi
  exact ⟨P', h1, (h2.map _ (shadow_segment w w')).leftTurning hP⟩

/-- **C103** So does a split, for both parts. -/
theorem C103_split {c l r : Curve K d} {p n : ℕ} {U : List K} {P : List (Pt K d)}
    (hc : ValidOn 0 1 c p n U P) (hn : 1 ≤ n) {u : K} (hr : SimpleBelow U u)
    (hs : split c u = .ok (.ok (l, r))) (w w' : Pt K d) (hP : LeftTurning (P.map (shadow w w'))) :
    ∃ P1 P2, l.points.matrix = .ok P1 ∧ r.points.matrix = .ok P2 ∧
      LeftTurning (P1.map (shadow w w')) ∧ LeftTurning (P2.map (shadow w w')) := by
  obtain ⟨P1, P2, x, h1, h2, h3⟩ := C72_split hc hn hr hs
  have h := (h3.map _ (shadow_segment w w')).leftTurning hP
  refine ⟨_, _, h1, h2, fun a b c g => h a b c (g.trans ?_), fun a b c g => h a b c (g.trans ?_)⟩
  · exact List.Sublist.map _ (List.Sublist.append (List.Sublist.refl _) (by simp))
  · exact List.Sublist.map _ (List.sublist_append_right _ _)

/-! ### Coordinates as functions of the parameter -/

/-- the Greville abscissa: the mean of `p` consecutive knots -/
def greville (p : ℕ) (U : List K) (i : ℕ) : K := ((U.drop (i + 1)).take p).sum / (p : K)

/-- the control points of the graph of a coordinate -/
def graphPoints (p n : ℕ) (U : List K) (P : List (Pt K d)) (r : Fin d) : List (Pt K 2) :=
  (List.range (n + 1)).map (fun i => ![greville p U i, P.getD i 0 r])

/-- the graph of a coordinate is itself a curve -/
theorem graph_curve {c : Curve K d} {p n : ℕ} {U : List K} {P : List (Pt K d)}
    (hc : ValidOn 0 1 c p n U P) (hp : 1 ≤ p) (r : Fin d) :
    ValidOn 0 1 (canon p U (graphPoints p n U P r)) p n U (graphPoints p n U P r) ∧
    ∀ u, 0 ≤ u → u ≤ 1 → ∃ v, c.evaluate u = .ok (.ok v) ∧
      (canon p U (graphPoints p n U P r)).evaluate u = .ok (.ok ![u, v r]) := by
  have hU := hc.2.1
  have hP := hc.2.2
  have hq := validOn_canon (P := graphPoints p n U P r) hU (by simp [graphPoints])
  refine ⟨hq, fun u h0 h1 => ?_⟩
  -- the first coordinate
  let π : Fin 2 → Pt K 2 →ₗ[K] Pt K 1 := fun i => LinearMap.pi (fun _ => LinearMap.proj i)
  have hb : ∀ i, Built (canon p U ((graphPoints p n U P r).map (fun x => π i x + 0))) p U
      ((graphPoints p n U P r).map (fun x => π i x + 0)) := fun i =>
    (validOn_canon (n := n) hU (by simp [graphPoints])).1
  obtain ⟨q, e, e0⟩ := C09_affine_invariance (π 0) 0 hq (hb 0) h0 h1 0
  obtain ⟨q', e', e1⟩ := C09_affine_invariance (π 1) 0 hq (hb 1) h0 h1 0
  rw [e] at e'; cases e'
  -- the second coordinate
  let ρ : Pt K d →ₗ[K] Pt K 1 := LinearMap.pi (fun _ => LinearMap.proj r)
  have hpts : (graphPoints p n U P r).map (fun x => π 1 x + 0) = P.map (fun x => ρ x + 0) := by
    apply List.ext_getElem
    · simp [graphPoints, hP]
    · intro i h1 h2
      simp only [graphPoints, List.getElem_map, List.getElem_range, add_zero]
      rw [List.length_map] at h2
      rw [List.getD_eq_getElem _ _ h2]
      ext j
      simp [π, ρ]
  obtain ⟨v, ev, e2⟩ := C09_affine_invariance ρ 0 hc (hpts ▸ hb 1) h0 h1 0
  have hlin := (C61_linear_precision (c := canon p U ((graphPoints p n U P r).map (fun x => π 0 x + 0)))
    (validOn_canon (n := n) hU (by simp [graphPoints])) hp 0 1).1 (by
      rw [graphPoints, List.map_map]
      apply List.map_congr_left
      intro i _
      ext j
      simp [π, greville]) u h0 h1
  refine ⟨v, ev, ?_⟩
  rw [Curve.evaluate, e]
  rw [Curve.evaluate, e0] at hlin
  rw [hpts] at e1
  rw [e1] at e2
  simp only [if_true, add_zero, Except.ok.injEq] at hlin e2
  congr 2
  ext j
  fin_cases j
  · have := congrFun hlin 0
    simpa [π] using this
  · have := congrFun e2 0
    simpa [π, ρ] using this

/-- slopes that do not decrease from edge to edge make a graph turn left -/
theorem leftTurning_of_slopes {n : ℕ} {x y : ℕ → K} (hx : ∀ i, i < n → x i < x (i + 1))
    (hs : ∀ i, i + 2 ≤ n →
      (y (i + 1) - y i) * (x (i + 2) - x (i + 1)) ≤ (y (i + 2) - y (i + 1)) * (x (i + 1) - x i)) :
    ∀ i j k, i < j → j < k → k ≤ n → 0 ≤ turn (x i, y i) (x j, y j) (x k, y k) := by
  set s : ℕ → K := fun i => (y (i + 1) - y i) / (x (i + 1) - x i) with hsdef
  have hpos : ∀ i, i < n → 0 < x (i + 1) - x i := fun i hi => sub_pos.mpr (hx i hi)
  have hmono : ∀ i j, i ≤ j → j < n → s i ≤ s j := by
    intro i j hij
    induction j, hij using Nat.le_induction with
    | base => intro _; exact le_rfl
    | succ j hij ih =>
      intro hj
      refine (ih (by omega)).trans ?_
      rw [hsdef]; dsimp only
      rw [div_le_div_iff₀ (hpos _ (by omega)) (hpos _ (by omega))]
      exact hs j (by omega)
  have hedge : ∀ i, i < n → y (i + 1) - y i = s i * (x (i + 1) - x i) := by
    intro i hi
    rw [hsdef]; dsimp only
    rw [div_mul_cancel₀ _ (hpos i hi).ne']
  have hupper : ∀ i j, i ≤ j → ∀ k, j ≤ k → k < n → y j - y i ≤ s k * (x j - x i) ∧ x i ≤ x j := by
    intro i j hij
    induction j, hij using Nat.le_induction with
    | base => intro _ _ _; simp
    | succ j hij ih =>
      intro k hjk hk
      obtain ⟨a, b⟩ := ih k (by omega) hk
      have e := hedge j (by omega)
      have m := hmono j k (by omega) hk
      have q := hpos j (by omega)
      constructor
      · nlinarith
      · linarith
  have hlower : ∀ j k, j ≤ k → k ≤ n → ∀ i, i ≤ j → i < n → s i * (x k - x j) ≤ y k - y j ∧ x j ≤ x k := by
    intro j k hjk
    induction k, hjk using Nat.le_induction with
    | base => intro _ _ _ _; simp
    | succ k hjk ih =>
      intro hk i hij hi
      obtain ⟨a, b⟩ := ih (by omega) i hij hi
      have e := hedge k (by omega)
      have m := hmono i k (by omega) (by omega)
      have q := hpos k (by omega)
      constructor
      · nlinarith
      · linarith
  intro i j k hij hjk hk
  obtain ⟨a, b⟩ := hupper i j hij.le j le_rfl (by omega)
  obtain ⟨a', b'⟩ := hlower j k hjk.le hk j le_rfl (by omega)
  have : turn (x i, y i) (x j, y j) (x k, y k) = (x j - x i) * (y k - y j) - (y j - y i) * (x k - x j) := by
    simp only [turn]; ring
  rw [this]
  nlinarith [mul_le_mul_of_nonneg_left a' (sub_nonneg.mpr b), mul_le_mul_of_nonneg_right a (sub_nonneg.mpr b')]

/-- the Greville abscissae increase, if no interior knot is repeated more than `p` times -/
theorem greville_lt {p n : ℕ} {U : List K} (hU : ClampedKnots 0 1 p n U) (hp : 1 ≤ p)
    (hm : ∀ x, 0 < x → x < 1 → U.count x ≤ p) {i : ℕ} (hi : i < n) :
    greville p U i < greville p U (i + 1) := by
  have hl := hU.length
  have hc := hU.clamp
  have hp0 : (0 : K) < p := by exact_mod_cast hp
  have hlt : fn U (i + 1) < fn U (i + p + 1) := by
    rcases (hc.mono (show i + 1 ≤ i + p + 1 by omega)).eq_or_lt with h | h
    · exfalso
      have hall : ∀ k, i + 1 ≤ k → k < i + 1 + (p + 1) → fn U k = fn U (i + 1) := fun k h1 h2 =>
        le_antisymm ((hc.mono (show k ≤ i + p + 1 by omega)).trans h.ge) (hc.mono h1)
      have hcount := run_le_count (U := U) (lo := i + 1) (s := p + 1) (by omega) hall
      have := hm _ (h ▸ hc.a_lt (show p < i + p + 1 by omega)) (hc.lt_b (show i + 1 ≤ n by omega))
      omega
    · exact h
  have := sum_window (p := p) (i := i) (V := U) (by omega)
  rw [greville, greville]
  apply div_lt_div_of_pos_right _ hp0
  rw [show i + 1 + 1 = i + 2 by omega]
  linarith

/-- three elements of a list in their order -/
theorem sublist_three {V : Type} {f : ℕ → V} {n : ℕ} {a b c : V} (h : [a, b, c].Sublist ((List.range n).map f)) :
    ∃ i j k, i < j ∧ j < k ∧ k < n ∧ a = f i ∧ b = f j ∧ c = f k := by
  obtain ⟨l, hl, e⟩ := List.sublist_map_iff.mp h
  match l, e with
  | [i, j, k], e =>
    simp only [List.map_cons, List.map_nil, List.cons.injEq, and_true] at e
    have hs := List.pairwise_lt_range.sublist hl
    simp only [List.pairwise_cons, List.mem_cons, List.not_mem_nil, or_false, forall_eq_or_imp, forall_eq] at hs
    have hk := List.mem_range.mp (hl.subset (show k ∈ [i, j, k] by simp))
    exact ⟨i, j, k, hs.1.1, hs.2.1, hk, e.1, e.2.1, e.2.2⟩

/-- the slopes of the control polygon of a coordinate, over the Greville abscissae, do not decrease -/
def ConvexPolygon (p n : ℕ) (U : List K) (P : List (Pt K d)) (r : Fin d) : Prop :=
  ∀ i, i + 2 ≤ n →
    (P.getD (i + 1) 0 r - P.getD i 0 r) * (greville p U (i + 2) - greville p U (i + 1)) ≤
      (P.getD (i + 2) 0 r - P.getD (i + 1) 0 r) * (greville p U (i + 1) - greville p U i)

/-- **C103** A coordinate of a curve as a function of the parameter: if the coordinates of the control points
over the Greville abscissae form a convex polygon (the slopes do not decrease) the function is convex. -/
theorem C103_convex {c : Curve K d} {p n : ℕ} {U : List K} {P : List (Pt K d)}
    (hc : ValidOn 0 1 c p n U P) (hp : 1 ≤ p) (hm : ∀ x, 0 < x → x < 1 → U.count x ≤ p) (r : Fin d)
    (hs : ConvexPolygon p n U P r) {u v s : K} (hu0 : 0 ≤ u) (hu1 : u ≤ 1) (hv0 : 0 ≤ v) (hv1 : v ≤ 1)
    (hs0 : 0 ≤ s) (hs1 : s ≤ 1) :
    ∃ a b m, c.evaluate u = .ok (.ok a) ∧ c.evaluate v = .ok (.ok b) ∧
      c.evaluate ((1 - s) * u + s * v) = .ok (.ok m) ∧ m r ≤ (1 - s) * a r + s * b r := by
  obtain ⟨hq, hg⟩ := graph_curve hc hp r
  have htri := leftTurning_of_slopes (n := n) (x := greville p U) (y := fun i => P.getD i 0 r)
    (fun i hi => greville_lt hc.2.1 hp hm hi) hs
  have hturn : LeftTurning ((graphPoints p n U P r).map (shadow ![1, 0] ![0, 1])) := by
    intro a b c h
    rw [graphPoints, List.map_map] at h
    obtain ⟨i, j, k, hij, hjk, hk, rfl, rfl, rfl⟩ := sublist_three h
    simpa [shadow] using htri i j k hij hjk (by omega)
  -- for ordered parameters
  have key : ∀ {u v s : K}, 0 ≤ u → u < v → v ≤ 1 → 0 ≤ s → s ≤ 1 →
      ∃ a b m, c.evaluate u = .ok (.ok a) ∧ c.evaluate v = .ok (.ok b) ∧
        c.evaluate ((1 - s) * u + s * v) = .ok (.ok m) ∧ m r ≤ (1 - s) * a r + s * b r := by
    intro u v s h0 huv h1 hs0 hs1
    have g1 : u ≤ (1 - s) * u + s * v := by nlinarith
    have g2 : (1 - s) * u + s * v ≤ v := by nlinarith
    obtain ⟨a, ea, ea'⟩ := hg u h0 (by linarith)
    obtain ⟨b, eb, eb'⟩ := hg v (by linarith) h1
    obtain ⟨m, em, em'⟩ := hg ((1 - s) * u + s * v) (by linarith) (by linarith)
    refine ⟨a, b, m, ea, eb, em, ?_⟩
    have := C103_left_turning hq hp ![1, 0] ![0, 1] hturn h0 g1 g2 h1 ea' em' eb'
    simp only [shadow, turn, Fin.sum_univ_two, Matrix.cons_val_zero, Matrix.cons_val_one, one_mul, zero_mul,
      add_zero, zero_add] at this
    have h2 : 0 ≤ (v - u) * ((1 - s) * a r + s * b r - m r) := by
      refine this.trans_eq ?_; ring
    have := nonneg_of_mul_nonneg_right h2 (sub_pos.mpr huv)
    linarith
  rcases lt_trichotomy u v with h | rfl | h
  · exact key hu0 h hv1 hs0 hs1
  · obtain ⟨a, ea, -⟩ := hg u hu0 hu1
    refine ⟨a, a, a, ea, ea, ?_, le_of_eq (by ring)⟩
    rw [show (1 - s) * u + s * u = u by ring, ea]
  · obtain ⟨a, b, m, ea, eb, em, hle⟩ := key (s := 1 - s) hv0 h hu1 (by linarith) (by linarith)
    refine ⟨b, a, m, eb, ea, ?_, ?_⟩
    · rw [← em]; congr 1; ring
    · linarith

/-- **C103** Such a coordinate lies above all lines through two consecutive control points, and so above the
control polygon. -/
theorem C103_above {c : Curve K d} {p n : ℕ} {U : List K} {P : List (Pt K d)}
    (hc : ValidOn 0 1 c p n U P) (hp : 1 ≤ p) (hm : ∀ x, 0 < x → x < 1 → U.count x ≤ p) (r : Fin d)
    (hs : ConvexPolygon p n U P r) {i : ℕ} (hi : i < n) {u : K} (h0 : 0 ≤ u) (h1 : u ≤ 1) :
    ∃ v, c.evaluate u = .ok (.ok v) ∧
      (greville p U (i + 1) - u) * P.getD i 0 r + (u - greville p U i) * P.getD (i + 1) 0 r ≤
        (greville p U (i + 1) - greville p U i) * v r := by
  obtain ⟨hq, hg⟩ := graph_curve hc hp r
  have htri := leftTurning_of_slopes (n := n) (x := greville p U) (y := fun i => P.getD i 0 r)
    (fun i hi => greville_lt hc.2.1 hp hm hi) hs
  obtain ⟨v, ev, ev'⟩ := hg u h0 h1
  refine ⟨v, ev, ?_⟩
  obtain ⟨j, x, y, z, -, -, -, -, -, -, ez, hz⟩ := C08_convex_hull hq h0 h1
  rw [ev'] at ez; cases ez
  have := convexHull_min (t := {q : Pt K 2 | 0 ≤ turn (greville p U i, P.getD i 0 r)
    (greville p U (i + 1), P.getD (i + 1) 0 r) (q 0, q 1)}) ?_ ?_ hz
  · simp only [Set.mem_ofPred_eq, turn, Matrix.cons_val_zero, Matrix.cons_val_one] at this
    linarith
  · rintro q ⟨k, -, -, hk⟩
    obtain ⟨hk', rfl⟩ := List.getElem?_eq_some_iff.mp hk
    simp only [graphPoints, List.length_map, List.length_range] at hk'
    simp only [graphPoints, List.getElem_map, List.getElem_range, Set.mem_ofPred_eq, Matrix.cons_val_zero,
      Matrix.cons_val_one]
    rcases lt_trichotomy k i with h | rfl | h
    · rw [← turn_cycle]; exact htri k i (i + 1) h (by omega) (by omega)
    · rw [turn_back]
    · rcases (show i + 1 ≤ k by omega).eq_or_lt with rfl | h
      · rw [turn_cycle, turn_self]
      · exact htri i (i + 1) k (by omega) h (by omega)
  · intro q hq q' hq' a b ha hb hab
    simp only [Set.mem_ofPred_eq, turn, Pi.add_apply, Pi.smul_apply, smul_eq_mul] at hq hq' ⊢
    obtain rfl : b = 1 - a := by linarith
    refine (add_nonneg (mul_nonneg ha hq) (mul_nonneg hb hq')).trans_eq ?_
    ring

end

/-- **C103** Over the real numbers, in the terms of Mathlib. -/
theorem C103_convexOn {d : ℕ} {c : Curve ℝ d} {p n : ℕ} {U : List ℝ} {P : List (Pt ℝ d)}
    (hc : ValidOn 0 1 c p n U P) (hp : 1 ≤ p) (hm : ∀ x, 0 < x → x < 1 → U.count x ≤ p) (r : Fin d)
    (hs : ConvexPolygon p n U P r) {f : ℝ → Pt ℝ d}
    (hf : ∀ u, 0 ≤ u → u ≤ 1 → c.evaluate u = .ok (.ok (f u))) :
    ConvexOn ℝ (Set.Icc 0 1) (fun u => f u r) := by
  refine ⟨convex_Icc 0 1, ?_⟩
  intro u hu v hv s t hs0 ht0 hst
  obtain rfl : s = 1 - t := by linarith
  obtain ⟨a, b, m, ea, eb, em, hle⟩ := C103_convex hc hp hm r hs hu.1 hu.2 hv.1 hv.2 ht0 (by linarith)
  rw [hf u hu.1 hu.2] at ea; cases ea
  rw [hf v hv.1 hv.2] at eb; cases eb
  have hin := convex_Icc (0 : ℝ) 1 hu hv hs0 ht0 hst
  simp only [smul_eq_mul] at hin ⊢
  rw [hf _ hin.1 hin.2] at em; cases em
  exact hle

/-- non-vacuity: a closed convex polygon that turns left, as control polygon of a cubic -/
example : ∃ c, ValidOn 0 1 c 3 4 [(0 : ℚ), 0, 0, 0, 1 / 2, 1, 1, 1, 1]
      [![0, 0], ![2, 0], ![3, 2], ![1, 3], ![0, 0]] ∧
    LeftTurning ([![0, 0], ![2, 0], ![3, 2], ![1, 3], ![(0 : ℚ), 0]].map (shadow ![1, 0] ![0, 1])) := by
  refine ⟨_, validOn_canon (by decide +kernel) rfl, ?_⟩
  intro a b c h
  rw [show [![0, 0], ![2, 0], ![3, 2], ![1, 3], ![(0 : ℚ), 0]].map (shadow ![1, 0] ![0, 1]) =
    (List.range 5).map (fun i => [((0 : ℚ), (0 : ℚ)), (2, 0), (3, 2), (1, 3), (0, 0)].getD i 0) by
      decide +kernel] at h
  obtain ⟨i, j, k, hij, hjk, hk, rfl, rfl, rfl⟩ := sublist_three h
  have : ∀ i < 5, ∀ j < 5, ∀ k < 5, i < j → j < k →
      0 ≤ turn ([((0 : ℚ), (0 : ℚ)), (2, 0), (3, 2), (1, 3), (0, 0)].getD i 0)
        ([((0 : ℚ), (0 : ℚ)), (2, 0), (3, 2), (1, 3), (0, 0)].getD j 0)
        ([((0 : ℚ), (0 : ℚ)), (2, 0), (3, 2), (1, 3), (0, 0)].getD k 0) := by decide +kernel
  exact this i (by omega) j (by omega) k hk hij hjk

/-- non-vacuity: a convex coordinate over a knot of multiplicity two -/
example : ∃ c, ValidOn 0 1 c 2 4 [(0 : ℚ), 0, 0, 1 / 2, 1 / 2, 1, 1, 1] [![4], ![1], ![0], ![1], ![4]] ∧
    (∀ x, 0 < x → x < 1 → [(0 : ℚ), 0, 0, 1 / 2, 1 / 2, 1, 1, 1].count x ≤ 2) ∧
    ConvexPolygon 2 4 [(0 : ℚ), 0, 0, 1 / 2, 1 / 2, 1, 1, 1] [![4], ![1], ![0], ![1], ![(4 : ℚ)]] 0 := by
  refine ⟨_, validOn_canon (by decide +kernel) rfl, ?_, ?_⟩
  · intro x h0 h1
    by_cases h : x = 1 / 2
    · subst h; decide +kernel
    · rw [List.count_eq_zero_of_not_mem]
      · omega
      · simp only [List.mem_cons, List.not_mem_nil, or_false, not_or]
        refine ⟨?_, ?_, ?_, h, h, ?_, ?_, ?_⟩ <;> linarith [h0.ne']
  · intro i hi
    have : ∀ i < 3, ([![4], ![1], ![0], ![1], ![(4 : ℚ)]].getD (i + 1) 0 0 - [![4], ![1], ![0], ![1], ![(4 : ℚ)]].getD i 0 0) *
      (greville 2 [(0 : ℚ), 0, 0, 1 / 2, 1 / 2, 1, 1, 1] (i + 2) - greville 2 [(0 : ℚ), 0, 0, 1 / 2, 1 / 2, 1, 1, 1] (i + 1)) ≤
      ([![4], ![1], ![0], ![1], ![(4 : ℚ)]].getD (i + 2) 0 0 - [![4], ![1], ![0], ![1], ![(4 : ℚ)]].getD (i + 1) 0 0) *
      (greville 2 [(0 : ℚ), 0, 0, 1 / 2, 1 / 2, 1, 1, 1] (i + 1) - greville 2 [(0 : ℚ), 0, 0, 1 / 2, 1 / 2, 1, 1, 1] i) := by
      decide +kernel
    exact this i (by omega)

end BSpline
