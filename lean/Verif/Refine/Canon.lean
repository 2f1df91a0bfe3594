import Verif.Model.Curve
import Verif.Model.Debug
import Verif.Refine.Exec
import Mathlib.Algebra.Group.Pi.Basic

/-!
# Canonical curves

Law-free descriptions of what the constructors build: `canon p U P` is the curve with knots `U`,
degree `p`, control points `P` and all derivative knots and points filled in.
-/

namespace BSpline


section
variable {K : Type} [Add K] [Sub K] [Mul K] [Div K] [Zero K] [One K] [Cmp K]

/-- The value of `basis` when no access is out of range. -/
def Nf (U : ℕ → K) (k n : ℕ) (u : K) : ℕ → ℕ → K
  | 0, i => if (Cmp.le (U i) u && Cmp.lt u (U (i + 1))) ||
      (decide (i = n - k) && Cmp.eq u (U (n + 1 - k))) then 1 else 0
  | h + 1, i =>
    (if Cmp.eq (U (i + (h + 1))) (U i) then 0
      else (u - U i) / (U (i + h + 1) - U i) * Nf U k n u h i) +
    (if Cmp.eq (U (i + 1 + (h + 1))) (U (i + 1)) then 0
      else (U (i + 1 + (h + 1)) - u) / (U (i + 1 + h + 1) - U (i + 1)) * Nf U k n u h (i + 1))

theorem basis_ok {U : List K} {k n : ℕ} {u : K} (hk : k ≤ n) (hn : n + 1 - k < U.length) (p : ℕ) :
    ∀ i, i + p + 1 < U.length → basis U k n u p i = .ok (Nf (fn U) k n u p i) := by
  induction p with
  | zero =>
    intro i hi
    simp only [basis, Nf]
    rw [idx_ok (by omega), idx_ok (i := i + 1) (by omega), usub_ok hk, usub_ok (by omega)]
    simp only [ok_bind, pure_ok, idx_ok hn]
    by_cases h1 : Cmp.le (fn U i) u <;> by_cases h2 : Cmp.lt u (fn U (i + 1)) <;>
      by_cases h3 : i = n - k <;> by_cases h4 : Cmp.eq u (fn U (n + 1 - k)) <;>
      simp [h1, h2, h3, h4] <;> simp_all
  | succ h ih =>
    intro i hi
    simp only [basis, Nf]
    rw [idx_ok (i := i + (h + 1)) (by omega), idx_ok (i := i) (by omega),
      idx_ok (i := i + h + 1) (by omega), idx_ok (i := i + 1 + (h + 1)) (by omega),
      idx_ok (i := i + 1) (by omega), idx_ok (i := i + 1 + h + 1) (by omega), ih i (by omega),
      ih (i + 1) (by omega)]
    simp only [ok_bind, pure_ok]
    by_cases h1 : Cmp.eq (fn U (i + (h + 1))) (fn U i) <;>
      by_cases h2 : Cmp.eq (fn U (i + 1 + (h + 1))) (fn U (i + 1)) <;> simp [h1, h2]

/-- `Nf` only looks at the knots `U i, …, U (i+p+1)` and `U (n+1-k)`. -/
theorem Nf_congr {U U' : ℕ → K} {k n : ℕ} {u : K} (hn : U (n + 1 - k) = U' (n + 1 - k)) (p : ℕ) :
    ∀ i, (∀ m, m ≤ p + 1 → U (i + m) = U' (i + m)) → Nf U k n u p i = Nf U' k n u p i := by
  induction p with
  | zero =>
    intro i h
    have h0 := h 0 (by omega)
    have h1 := h 1 (by omega)
    simp only [Nat.add_zero] at h0
    simp only [Nf, h0, h1, hn]
  | succ p ih =>
    intro i h
    have h0 := h 0 (by omega)
    have h1 := h 1 (by omega)
    have h2 := h (p + 1) (by omega)
    have h3 := h (p + 2) (by omega)
    simp only [Nat.add_zero] at h0
    have ih1 := ih i (fun m hm => h m (by omega))
    have ih2 := ih (i + 1) (fun m hm => by
      have := h (m + 1) (by omega)
      rwa [show i + 1 + m = i + (m + 1) by omega])
    simp only [Nf]
    rw [show i + p + 1 = i + (p + 1) by omega, show i + 1 + (p + 1) = i + (p + 2) by omega,
      show i + 1 + p + 1 = i + (p + 2) by omega, h0, h1, h2, h3, ih1, ih2]

end

section
variable {K : Type}

/-- The derivative knot vectors. -/
def canonKnots (p : ℕ) (U : List K) : Knots K :=
  { Uk := (List.range (p + 1)).map (fun k => (U.drop k).take (U.length - 2 * k)), p := p, kMax := p }

@[simp] theorem canonKnots_p (p : ℕ) (U : List K) : (canonKnots p U).p = p := rfl
@[simp] theorem canonKnots_kMax (p : ℕ) (U : List K) : (canonKnots p U).kMax = p := rfl
@[simp] theorem canonKnots_degree (p : ℕ) (U : List K) : (canonKnots p U).degree = p := rfl

theorem Knots.derive_ok {kn : Knots K} {U : List K} (hU : kn.Uk.take 1 = [U])
    (hl : 2 * kn.p ≤ U.length) : kn.derive = .ok (canonKnots kn.p U) := by
  have key := forRangeIncl_inv (lo := 1) (hi := kn.p) (σ := List (List K))
    (S := fun j => (List.range j).map (fun k => (U.drop k).take (U.length - 2 * k)))
    (f := fun Uk k => do
      let prev ← idx Uk (k - 1)
      let len ← usub prev.length 2
      let seg ← segment prev 1 len
      pure (Uk ++ [seg])) (by omega) (by
      intro i h1 h2
      obtain ⟨i, rfl⟩ : ∃ j, i = j + 1 := ⟨i - 1, by omega⟩
      have hidx : idx (List.map (fun k => List.take (U.length - 2 * k) (List.drop k U))
          (List.range (i + 1))) (i + 1 - 1) = .ok (List.take (U.length - 2 * i) (List.drop i U)) := by
        rw [idx_ok' (by simp)]; simp
      rw [hidx]
      simp only [ok_bind]
      rw [usub_ok (by simp; omega), ok_bind, segment_ok (by simp; omega)]
      simp only [ok_bind, pure_ok]
      rw [List.range_succ (n := i + 1), List.map_append]
      congr 2
      simp only [List.map_cons, List.map_nil]
      congr 1
      rw [List.drop_take, List.drop_drop, List.take_take]
      congr 1
      simp
      omega)
  rw [Knots.derive]
  simp only [List.range_one, List.map_cons, List.map_nil, List.drop_zero, Nat.mul_zero,
    Nat.sub_zero, List.take_length] at key
  rw [hU, key]
  rfl

theorem Knots.new_ok {p : ℕ} {U : List K} (hl : 2 * p ≤ U.length) :
    Knots.new p U = .ok (canonKnots p U) := by
  rw [Knots.new, Knots.derive_ok (U := U) (by simp) (by simpa using hl)]

theorem canonKnots_take (p : ℕ) (U : List K) : (canonKnots p U).Uk.take 1 = [U] := by
  simp only [canonKnots]
  rw [← List.map_take, List.take_range, show min 1 (p + 1) = 1 by omega]
  simp

end

section
variable {K : Type} [Sub K] [Mul K] [Div K] [Zero K] [NatCast K] [Cmp K] {d : ℕ}

/-- The `k`-th derivative control points (curve/points/mod.rs:146-160 without panics). -/
def dpt (U : ℕ → K) (p : ℕ) (P : ℕ → Pt K d) : ℕ → ℕ → Pt K d
  | 0, i => P i
  | k + 1, i =>
    if Cmp.eq (U (i + p + 1)) (U (i + (k + 1))) then fun _ => 0
    else scale (((p - (k + 1) + 1 : ℕ) : K) / (U (i + p + 1) - U (i + (k + 1))))
      (dpt U p P k (i + 1) - dpt U p P k i)

/-- All derivative control points. -/
def canonPts (p : ℕ) (U : List K) (P : List (Pt K d)) : ControlPoints K d :=
  { Pk := (List.range (p + 1)).map
      (fun k => (List.range (P.length - k)).map (fun i => dpt (fn U) p (fn P) k i)), kMax := p }

/-- The curve with knots `U` and control points `P`. -/
def canon (p : ℕ) (U : List K) (P : List (Pt K d)) : Curve K d :=
  { knots := canonKnots p U, points := canonPts p U P }

@[simp] theorem canon_knots (p : ℕ) (U : List K) (P : List (Pt K d)) :
    (canon p U P).knots = canonKnots p U := rfl
@[simp] theorem canon_points (p : ℕ) (U : List K) (P : List (Pt K d)) :
    (canon p U P).points = canonPts p U P := rfl
@[simp] theorem canon_degree (p : ℕ) (U : List K) (P : List (Pt K d)) :
    (canon p U P).degree = p := rfl
@[simp] theorem canonPts_kMax (p : ℕ) (U : List K) (P : List (Pt K d)) :
    (canonPts p U P).kMax = p := rfl

theorem deriveSinglePoint_ok {cp : ControlPoints K d} {kn : Knots K} {U : List K}
    {P : List (Pt K d)} {n : ℕ} (hP : cp.Pk.take 1 = [P]) (hU : kn.Uk.take 1 = [U])
    (hlen : P.length = n + 1) (hUl : n + kn.p + 1 ≤ U.length) (k : ℕ) :
    ∀ i, k ≤ kn.p → i + k ≤ n →
      cp.deriveSinglePoint kn k i = .ok (dpt (fn U) kn.p (fn P) k i) := by
  have hP0 : idx cp.Pk 0 = .ok P := by
    match hcp : cp.Pk with
    | [] => rw [hcp] at hP; simp at hP
    | a :: l => rw [hcp] at hP; simp at hP; subst hP; rfl
  have hU0 : idx kn.Uk 0 = .ok U := by
    match hkn : kn.Uk with
    | [] => rw [hkn] at hU; simp at hU
    | a :: l => rw [hkn] at hU; simp at hU; subst hU; rfl
  induction k with
  | zero =>
    intro i _ hi
    simp only [ControlPoints.deriveSinglePoint, dpt]
    rw [hP0, ok_bind, column_ok (by omega)]
  | succ k ih =>
    intro i hk hi
    simp only [ControlPoints.deriveSinglePoint, dpt, Knots.vector, Knots.degree]
    rw [hU0, ok_bind, idx_ok (by omega), idx_ok (by omega), usub_ok hk, ih (i + 1) (by omega)
      (by omega), ih i (by omega) (by omega)]
    simp only [ok_bind, pure_ok]
    split <;> rfl

theorem ControlPoints.derive_ok {cp : ControlPoints K d} {kn : Knots K} {U : List K}
    {P : List (Pt K d)} {n : ℕ} (hP : cp.Pk.take 1 = [P]) (hU : kn.Uk.take 1 = [U])
    (hlen : P.length = n + 1) (hp : kn.p ≤ n) (hUl : n + kn.p + 1 ≤ U.length) :
    cp.derive kn = .ok (canonPts kn.p U P) := by
  have hP0 : idx cp.Pk 0 = .ok P := by
    match hcp : cp.Pk with
    | [] => rw [hcp] at hP; simp at hP
    | a :: l => rw [hcp] at hP; simp at hP; subst hP; rfl
  have hseg : cp.segments = .ok n := by
    simp only [ControlPoints.segments, ControlPoints.count, ControlPoints.countDerivative, hP0,
      ok_bind, pure_ok]
    rw [usub_ok (by omega)]; congr 1; omega
  have key := forRangeIncl_inv (lo := 1) (hi := kn.p) (σ := List (List (Pt K d)))
    (S := fun j => (List.range j).map
      (fun k => (List.range (P.length - k)).map (fun i => dpt (fn U) kn.p (fn P) k i)))
    (f := fun Pk k => do
      let nk ← usub n k
      let Pnew ← (List.range (nk + 1)).mapM (fun i =>
        ControlPoints.deriveSinglePoint { Pk := Pk, kMax := cp.kMax } kn k i)
      pure (Pk ++ [Pnew])) (by omega) (by
      intro i h1 h2
      rw [usub_ok (by omega), ok_bind]
      rw [mapM_ok (g := fun j => dpt (fn U) kn.p (fn P) i j)]
      · simp only [ok_bind, pure_ok]
        rw [List.range_succ (n := i), List.map_append]
        congr 3
        beta_reduce
        rw [show P.length - i = n - i + 1 by omega]
      · intro j hj
        rw [List.mem_range] at hj
        apply deriveSinglePoint_ok (n := n) _ hU hlen hUl _ _ h2 (by omega)
        simp only
        obtain ⟨i, rfl⟩ : ∃ j, i = j + 1 := ⟨i - 1, by omega⟩
        rw [← List.map_take, List.take_range, show min 1 (i + 1) = 1 by omega]
        simp only [List.range_one, List.map_cons, List.map_nil, Nat.sub_zero]
        congr 1
        exact map_range_fn P)
  rw [ControlPoints.derive, hseg]
  have h0 : (List.range 1).map
      (fun k => (List.range (P.length - k)).map (fun i => dpt (fn U) kn.p (fn P) k i)) = [P] := by
    simp only [List.range_one, List.map_cons, List.map_nil, Nat.sub_zero]
    congr 1
    exact map_range_fn P
  rw [h0] at key
  simp only [ok_bind, hP, Knots.degree]
  rw [key]
  rfl

theorem canonPts_take (p : ℕ) (U : List K) (P : List (Pt K d)) :
    (canonPts p U P).Pk.take 1 = [P] := by
  simp only [canonPts]
  rw [← List.map_take, List.take_range, show min 1 (p + 1) = 1 by omega]
  simp only [List.range_one, List.map_cons, List.map_nil, Nat.sub_zero]
  congr 1
  exact map_range_fn P

/-- Whatever the caches contain, `calculate_derivatives` produces the canonical curve. -/
theorem calculateDerivatives_ok {c : Curve K d} {U : List K} {P : List (Pt K d)} {n : ℕ}
    (hU : c.knots.Uk.take 1 = [U]) (hP : c.points.Pk.take 1 = [P]) (hlen : P.length = n + 1)
    (hp : c.knots.p ≤ n) (hUl : n + c.knots.p + 1 ≤ U.length) :
    c.calculateDerivatives = .ok (canon c.knots.p U P) := by
  rw [Curve.calculateDerivatives, Knots.derive_ok hU (by omega), ok_bind,
    ControlPoints.derive_ok (n := n) (U := U) hP (canonKnots_take _ _) hlen]
  · rfl
  · exact hp
  · exact hUl

theorem mkCurve_ok {p n : ℕ} {U : List K} {P : List (Pt K d)} (hlen : P.length = n + 1)
    (hp : p ≤ n) (hUl : n + p + 1 ≤ U.length) : mkCurve p U P = .ok (.ok (canon p U P)) := by
  rw [mkCurve, Knots.new_ok (by omega), ok_bind, Curve.new]
  have hseg : (ControlPoints.new P).segments = .ok n := by
    simp only [ControlPoints.segments, ControlPoints.count, ControlPoints.countDerivative,
      ControlPoints.new, idx, List.getElem?_cons_zero, ok_bind, pure_ok]
    rw [usub_ok (by omega)]; congr 1; omega
  rw [hseg]
  simp only [ok_bind]
  rw [if_neg (by simp [canonKnots, Knots.degree]; omega)]
  rw [calculateDerivatives_ok (U := U) (P := P) (n := n) (canonKnots_take _ _) (by simp [ControlPoints.new]) hlen hp hUl]
  rfl

end

end BSpline
