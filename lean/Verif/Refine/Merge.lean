import Verif.Refine.Fit
import Verif.Refine.Shape

/-!
# Law-free description of what merging computes
-/

set_option linter.unusedSectionVars false

namespace BSpline

/-- loop rule with an invariant -/
theorem foldlM_range'_exists {σ : Type} (Inv : ℕ → σ → Prop) (f : σ → ℕ → Exec σ) :
    ∀ (n lo : ℕ) (st : σ), Inv lo st →
      (∀ i st, lo ≤ i → i < lo + n → Inv i st → ∃ st', f st i = .ok st' ∧ Inv (i + 1) st') →
      ∃ st', (List.range' lo n).foldlM f st = .ok st' ∧ Inv (lo + n) st' := by
  intro n
  induction n with
  | zero => intro lo st h _; exact ⟨st, rfl, h⟩
  | succ n ih =>
    intro lo st h hs
    obtain ⟨st1, h1, h2⟩ := hs lo st le_rfl (by omega) h
    obtain ⟨st2, h3, h4⟩ := ih (lo + 1) st1 h2 (fun i st a b c => hs i st (by omega) (by omega) c)
    refine ⟨st2, ?_, by rwa [show lo + (n + 1) = lo + 1 + n by omega]⟩
    rw [List.range'_succ, List.foldlM_cons, h1, ok_bind, h3]

theorem forRangeIncl_exists {σ : Type} (Inv : ℕ → σ → Prop) {f : σ → ℕ → Exec σ} {lo hi : ℕ}
    {st : σ} (hle : lo ≤ hi + 1) (h0 : Inv lo st)
    (h : ∀ i st, lo ≤ i → i ≤ hi → Inv i st → ∃ st', f st i = .ok st' ∧ Inv (i + 1) st') :
    ∃ st', forRangeIncl lo hi st f = .ok st' ∧ Inv (hi + 1) st' := by
  obtain ⟨st', h1, h2⟩ := foldlM_range'_exists Inv f (hi + 1 - lo) lo st h0
    (fun i st a b c => h i st a (by omega) c)
  exact ⟨st', h1, by rwa [show hi + 1 = lo + (hi + 1 - lo) by omega]⟩

theorem forRangeIncl_ok {σ : Type} {f : σ → ℕ → Exec σ} {g : σ → ℕ → σ} {lo hi : ℕ} {st : σ}
    (h : ∀ s i, lo ≤ i → i ≤ hi → f s i = .ok (g s i)) :
    forRangeIncl lo hi st f = .ok ((List.range' lo (hi + 1 - lo)).foldl g st) := by
  rw [forRangeIncl, foldlM_ok]
  intro s x hx
  rw [List.mem_range'_1] at hx
  exact h s x hx.1 (by omega)

/-! ### Block matrices -/

section
variable {α : Type}

theorem mat_hcat (r c c' : ℕ) (A B : ℕ → ℕ → α) :
    List.zipWith (· ++ ·) (mat r c A) (mat r c' B) =
      mat r (c + c') (fun i j => if j < c then A i j else B i (j - c)) := by
  apply List.ext_getElem (by simp [mat])
  intro i h1 h2
  simp only [mat, List.getElem_zipWith, List.getElem_map, List.getElem_range]
  apply List.ext_getElem (by simp)
  intro j h3 h4
  simp only [List.length_map, List.length_range] at h4
  rw [List.getElem_append]
  by_cases h : j < c
  · simp [h]
  · simp [h]

theorem mat_append (r r' c : ℕ) (A B : ℕ → ℕ → α) :
    mat r c A ++ mat r' c B = mat (r + r') c (fun i j => if i < r then A i j else B (i - r) j) := by
  apply List.ext_getElem (by simp [mat])
  intro i h1 h2
  rw [List.getElem_append]
  simp only [mat, List.length_map, List.length_range, List.getElem_map, List.getElem_range]
  by_cases h : i < r
  · simp [h]
  · simp [h]

theorem tabulate_mat {f : ℕ → ℕ → Exec α} {g : ℕ → ℕ → α} {lo hi lo' hi' : ℕ}
    (h : ∀ i j, lo ≤ i → i ≤ hi → lo' ≤ j → j ≤ hi' → f i j = .ok (g i j)) :
    tabulateIncl lo hi (fun i => tabulateIncl lo' hi' (f i)) =
      .ok (mat (hi + 1 - lo) (hi' + 1 - lo') (fun i j => g (lo + i) (lo' + j))) := by
  rw [tabulateIncl_ok (g := fun i => (List.range' lo' (hi' + 1 - lo')).map (g i))]
  · simp only [mat, List.range'_eq_map_range, List.map_map]
    rfl
  · intro i h1 h2
    exact tabulateIncl_ok (fun j h3 h4 => h i j h1 h2 h3 h4)

theorem map_mat {β : Type} (f : α → β) (r c : ℕ) (A : ℕ → ℕ → α) :
    (mat r c A).map (List.map f) = mat r c (fun i j => f (A i j)) := by
  simp [mat, List.map_map, Function.comp_def]

end

section
variable {K : Type} [Add K] [Sub K] [Mul K] [Div K] [Neg K] [Zero K] [One K] [NatCast K] [Cmp K]

theorem zeroRows_eq (r c : ℕ) : zeroRows (K := K) r c = mat r c (fun _ _ => 0) := by
  apply List.ext_getElem (by simp [zeroRows, mat])
  intro i h1 h2
  simp only [zeroRows, mat, List.getElem_replicate, List.getElem_map, zeros]
  apply List.ext_getElem (by simp)
  intro j h3 h4
  simp

theorem identity_take (p : ℕ) : (identityRows (K := K) (2 * p)).take p =
    mat p (p + p) (fun i j => if i = j then 1 else 0) := by
  rw [identityRows, ← List.map_take, List.take_range, show min p (2 * p) = p by omega,
    show 2 * p = p + p by omega]
  rfl

theorem identity_drop (p : ℕ) : (identityRows (K := K) (2 * p)).drop p =
    mat p (p + p) (fun i j => if p + i = j then 1 else 0) := by
  apply List.ext_getElem (by simp [identityRows, mat]; omega)
  intro i h1 h2
  simp [identityRows, mat, show 2 * p = p + p by omega]

/-! ### Prefactors -/

/-- the value of `prefactor` when no access is out of range -/
def pf (U : ℕ → K) (p n i0 : ℕ) : ℕ → ℕ → K
  | 0, i => if i ≤ n then (if i = i0 then 1 else 0) else 0
  | k + 1, i =>
    if i ≤ n - (k + 1) then
      (if Cmp.eq (U (i + p + 1)) (U (i + (k + 1))) then 0
        else ((p + 1 - (k + 1) : ℕ) : K) / (U (i + p + 1) - U (i + (k + 1))) *
          (pf U p n i0 k (i + 1) - pf U p n i0 k i))
    else 0

theorem prefactor_ok {p n i0 : ℕ} {U : List K} (hU : n + p + 2 ≤ U.length) (hp : p ≤ n) (k : ℕ) :
    ∀ i, k ≤ p → prefactor p i0 (n + 1) U k i = .ok (pf (fn U) p n i0 k i) := by
  induction k with
  | zero =>
    intro i _
    simp only [prefactor, pf]
    rw [usub_ok (by omega), ok_bind, usub_ok (by omega), ok_bind]
    simp only [Nat.add_sub_cancel, Nat.sub_zero, pure_ok]
    split
    · split <;> rfl
    · rfl
  | succ k ih =>
    intro i hk
    simp only [prefactor, pf]
    rw [usub_ok (by omega), ok_bind, Nat.add_sub_cancel, usub_ok (by omega), ok_bind]
    split
    · rw [idx_ok (by omega), ok_bind, idx_ok (by omega), ok_bind]
      split
      · rfl
      · rw [usub_ok (by omega), ok_bind, ok_bind, ok_bind, ih _ (by omega), ok_bind, ih _ (by omega), ok_bind]
        rfl
    · rfl

variable {d : ℕ}

/-- weight of basis function `a` of the `k`-th derivative at the parameter `e` -/
def bw (V : ℕ → K) (m p k : ℕ) (e : K) (a : ℕ) : K := Nf (fun j => V (j + k)) 0 (m - k) e (p - k) a

theorem bw_ok {p m k a : ℕ} {V : List K} (hV : V.length = m + p + 2) (hp : p ≤ m) (hk : k ≤ p)
    (ha : a ≤ m - k) (e : K) : basis ((V.drop k).take (V.length - 2 * k)) 0 (m - k) e (p - k) a =
      .ok (bw (fn V) m p k e a) := by
  rw [basis_ok (by omega) (by simp; omega) _ _ (by simp; omega), bw]
  congr 1
  apply Nf_congr
  · rw [fn_drop_take (by omega) (by omega)]; congr 1; omega
  · intro j hj
    rw [fn_drop_take (by omega) (by omega)]; congr 1; omega

/-- derivative `k` of the left curve at its end, coefficient of control point `i` -/
def sumL (V : ℕ → K) (m p k i : ℕ) : K :=
  (List.range' (m - p) (m - k + 1 - (m - p))).foldl
    (fun s a => s + pf V p m i k a * bw V m p k (V (m + 1)) a) 0

/-- derivative `k` of the right curve at its start, coefficient of control point `j` -/
def sumR (W : ℕ → K) (o p k j : ℕ) : K :=
  (List.range' 0 (p - k + 1 - 0)).foldl
    (fun s b => s + pf W p o j k b * bw W o p k (W p) b) 0

theorem canon_segments {p m : ℕ} {V : List K} {S : List (Pt K d)} (hS : S.length = m + 1) :
    (canon p V S).segments = .ok m := canonPts_segments V S hS

theorem canon_matrix {p : ℕ} {V : List K} {S : List (Pt K d)} :
    (canon p V S).points.matrix = .ok S := canonPts_matrix V S

theorem canon_idx {p k : ℕ} (hk : k ≤ p) {V : List K} {S : List (Pt K d)} :
    idx (canon p V S).knots.Uk k = .ok ((V.drop k).take (V.length - 2 * k)) := canonKnots_idx hk V

theorem canon_idx0 {p : ℕ} {V : List K} {S : List (Pt K d)} :
    idx (canon p V S).knots.Uk 0 = .ok V := canonKnots_vector V

theorem sumLeft_ok {p m k : ℕ} {V : List K} {S : List (Pt K d)} (hV : V.length = m + p + 2)
    (hS : S.length = m + 1) (hp : p ≤ m) (hk : k ≤ p) (i : ℕ) :
    sumLeft (canon p V S) k i = .ok (sumL (fn V) m p k i) := by
  rw [sumLeft, canon_segments hS, ok_bind, canon_matrix, ok_bind, canon_idx0, ok_bind, canon_degree,
    usub_ok hp, ok_bind, usub_ok (by omega), ok_bind, hS]
  apply forRangeIncl_ok
  intro s a h1 h2
  rw [prefactor_ok (by omega) hp k a hk, ok_bind, canon_idx hk, ok_bind, usub_ok hk, ok_bind, ok_bind,
    idx_ok (by omega), ok_bind, bw_ok hV hp hk h2]
  rfl

theorem sumRight_ok {p o k : ℕ} {W : List K} {T : List (Pt K d)} (hW : W.length = o + p + 2)
    (hT : T.length = o + 1) (hp : p ≤ o) (hk : k ≤ p) (j : ℕ) :
    sumRight (canon p W T) k j = .ok (sumR (fn W) o p k j) := by
  rw [sumRight, canon_segments hT, ok_bind, canon_matrix, ok_bind, canon_idx0, ok_bind, canon_degree,
    usub_ok hk, ok_bind, hT]
  apply forRangeIncl_ok
  intro s a h1 h2
  rw [prefactor_ok (by omega) hp k a hk, ok_bind, canon_idx hk, ok_bind, ok_bind, usub_ok (by omega),
    ok_bind, idx_ok (by omega), ok_bind, bw_ok hW hp hk (by omega)]
  rfl

/-! ### The blocks -/

theorem calculateKV_ok {p m : ℕ} {V : List K} {S : List (Pt K d)} (hV : V.length = m + p + 2)
    (hS : S.length = m + 1) (hp : p ≤ m) (h1 : 1 ≤ p) : calculateKV (canon p V S) =
      .ok (mat p p (fun k i => sumL (fn V) m p k (m - p + 1 + i))) := by
  rw [calculateKV, canon_segments hS, ok_bind, canon_degree, usub_ok h1, ok_bind, usub_ok hp]
  simp only [ok_bind]
  rw [tabulate_mat (fun k i _ h2 _ _ => sumLeft_ok hV hS hp (by omega) i)]
  congr 1
  rw [show p - 1 + 1 - 0 = p by omega, show m + 1 - (m - p + 1) = p by omega]
  simp only [Nat.zero_add]

theorem calculateKW_ok {p o : ℕ} {W : List K} {T : List (Pt K d)} (hW : W.length = o + p + 2)
    (hT : T.length = o + 1) (hp : p ≤ o) (h1 : 1 ≤ p) : calculateKW (canon p W T) =
      .ok (mat p p (fun k j => sumR (fn W) o p k j * -1)) := by
  rw [calculateKW, canon_degree, usub_ok h1, ok_bind,
    tabulate_mat (fun k i _ h2 _ _ => sumRight_ok hW hT hp (by omega) i), ok_bind, map_mat,
    show p - 1 + 1 - 0 = p by omega]
  simp only [Nat.zero_add, pure_ok]

theorem calculateIV_ok {p m : ℕ} {V : List K} {S : List (Pt K d)} (hV : V.length = m + p + 2)
    (hS : S.length = m + 1) (hp : p ≤ m) (h1 : 1 ≤ p) : calculateIV (canon p V S) =
      .ok (mat p p (fun i k => sumL (fn V) m p k (m - p + 1 + i) * half)) := by
  rw [calculateIV, canon_segments hS, ok_bind, canon_degree, usub_ok hp, ok_bind, usub_ok h1, ok_bind,
    tabulate_mat (fun i k _ _ _ h2 => sumLeft_ok hV hS hp (by omega) i), ok_bind, map_mat,
    show p - 1 + 1 - 0 = p by omega, show m + 1 - (m - p + 1) = p by omega]
  simp only [Nat.zero_add, pure_ok]

theorem calculateJW_ok {p o : ℕ} {W : List K} {T : List (Pt K d)} (hW : W.length = o + p + 2)
    (hT : T.length = o + 1) (hp : p ≤ o) (h1 : 1 ≤ p) : calculateJW (canon p W T) =
      .ok (mat p p (fun j k => sumR (fn W) o p k j * -half)) := by
  rw [calculateJW, canon_degree, usub_ok h1, ok_bind,
    tabulate_mat (fun i k _ _ _ h2 => sumRight_ok hW hT hp (by omega) i), ok_bind, map_mat,
    show p - 1 + 1 - 0 = p by omega]
  simp only [Nat.zero_add, pure_ok]

theorem basis_full_ok {p m i : ℕ} {V : List K} (hV : V.length = m + p + 2) (hi : i ≤ m)
    (u : K) : basis V 0 m u p i = .ok (nb p m V i u) := by
  rw [basis_ok (by omega) (by omega) _ _ (by omega)]; rfl

/-- rows of the constraints of the left curve -/
def conE (p m : ℕ) (V : List K) (us : List K) (g i : ℕ) : K := nb p m V i (fn us g)

theorem calculateGV_ok {p m : ℕ} {V us : List K} {S : List (Pt K d)} (hV : V.length = m + p + 2)
    (hS : S.length = m + 1) (hp : p ≤ m) (hu : 0 < us.length) :
    calculateGV ⟨canon p V S, ⟨us⟩⟩ =
      .ok (mat us.length p (fun g i => conE p m V us g (m - p + 1 + i))) := by
  rw [calculateGV, canon_segments hS, ok_bind, canon_knots, canonKnots_vector, ok_bind, canon_degree,
    Constraints.segments, Constraints.count, usub_ok (show 1 ≤ us.length from hu), ok_bind, usub_ok hp]
  simp only [ok_bind]
  rw [tabulate_mat (g := conE p m V us)]
  · congr 1
    rw [show us.length - 1 + 1 - 0 = us.length by omega, show m + 1 - (m - p + 1) = p by omega]
    simp only [Nat.zero_add]
  · intro g i h1 h2 h3 h4
    rw [idx_ok (show g < us.length by omega), ok_bind, basis_full_ok hV h4]; rfl

theorem calculateIpV_ok {p m : ℕ} {V us : List K} {S : List (Pt K d)} (hV : V.length = m + p + 2)
    (hS : S.length = m + 1) (hp : p ≤ m) (hu : 0 < us.length) :
    calculateIpV ⟨canon p V S, ⟨us⟩⟩ =
      .ok (mat p us.length (fun i g => conE p m V us g (m - p + 1 + i) * -half)) := by
  rw [calculateIpV, canon_segments hS, ok_bind, canon_knots, canonKnots_vector, ok_bind, canon_degree,
    Constraints.segments, Constraints.count, usub_ok (show 1 ≤ us.length from hu), ok_bind, usub_ok hp, ok_bind]
  rw [tabulate_mat (g := fun i g => conE p m V us g i)]
  · rw [ok_bind, map_mat, show us.length - 1 + 1 - 0 = us.length by omega,
      show m + 1 - (m - p + 1) = p by omega]
    simp only [Nat.zero_add, pure_ok]
  · intro i g h1 h2 h3 h4
    rw [idx_ok (show g < us.length by omega), ok_bind, basis_full_ok hV h2]; rfl

theorem calculateHW_ok {p o : ℕ} {W us : List K} {T : List (Pt K d)} (hW : W.length = o + p + 2)
    (hT : T.length = o + 1) (hp : p ≤ o) (h1 : 1 ≤ p) (hu : 0 < us.length) :
    calculateHW ⟨canon p W T, ⟨us⟩⟩ = .ok (mat us.length p (fun g i => conE p o W us g i)) := by
  rw [calculateHW, canon_segments hT, ok_bind, canon_knots, canonKnots_vector, ok_bind, canon_degree,
    Constraints.segments, Constraints.count, usub_ok (show 1 ≤ us.length from hu), ok_bind, usub_ok h1]
  simp only [ok_bind]
  rw [tabulate_mat (g := conE p o W us)]
  · congr 1
    rw [show us.length - 1 + 1 - 0 = us.length by omega, show p - 1 + 1 - 0 = p by omega]
    simp only [Nat.zero_add]
  · intro g i h1 h2 h3 h4
    rw [idx_ok (show g < us.length by omega), ok_bind, basis_full_ok hW (by omega)]; rfl

theorem calculateJppW_ok {p o : ℕ} {W us : List K} {T : List (Pt K d)} (hW : W.length = o + p + 2)
    (hT : T.length = o + 1) (hp : p ≤ o) (h1 : 1 ≤ p) (hu : 0 < us.length) :
    calculateJppW ⟨canon p W T, ⟨us⟩⟩ =
      .ok (mat p us.length (fun i g => conE p o W us g i * -half)) := by
  rw [calculateJppW, canon_segments hT, ok_bind, canon_knots, canonKnots_vector, ok_bind, canon_degree,
    Constraints.segments, Constraints.count, usub_ok (show 1 ≤ us.length from hu), ok_bind, usub_ok h1, ok_bind]
  rw [tabulate_mat (g := fun i g => conE p o W us g i)]
  · rw [ok_bind, map_mat, show us.length - 1 + 1 - 0 = us.length by omega,
      show p - 1 + 1 - 0 = p by omega]
    simp only [Nat.zero_add, pure_ok]
  · intro i g h1 h2 h3 h4
    rw [idx_ok (show g < us.length by omega), ok_bind, basis_full_ok hW (by omega)]; rfl

theorem blockIf_ok {count r c : ℕ} {b : Exec (List (List K))} {E : ℕ → ℕ → K}
    (h : 0 < count → b = .ok (mat r c E)) (hz : count = 0 → r = 0 ∨ c = 0) {r' : ℕ}
    (hr : count = 0 → c = 0 ∧ r' = r ∨ r = 0 ∧ r' = 0) : blockIf count r' b = .ok (mat r c E) := by
  rw [blockIf]
  split
  · exact h ‹_›
  · rename_i h0
    rw [zeroRows_eq, pure_ok]
    congr 1
    rcases hr (by omega) with ⟨rfl, rfl⟩ | ⟨rfl, rfl⟩
    · simp [mat]
    · simp [mat]

/-! ### The system -/

/-- entry of the block `[A B]` -/
def hE (c : ℕ) (A B : ℕ → ℕ → K) (i j : ℕ) : K := if j < c then A i j else B i (j - c)

/-- entry of the block of `A` over `B` -/
def vE (r : ℕ) (A B : ℕ → ℕ → K) (i j : ℕ) : K := if i < r then A i j else B (i - r) j

def zE (_ _ : ℕ) : K := 0

/-- the matrix of the system -/
def nmatE (p m o : ℕ) (V W ua ub : List K) : ℕ → ℕ → K :=
  vE (p + p + p + ua.length)
    (vE (p + p + p)
      (vE (p + p)
        (vE p
          (hE (p + p) (fun i j => if i = j then 1 else 0)
            (hE p (fun i k => sumL (fn V) m p k (m - p + 1 + i) * half)
              (hE ua.length (fun i g => conE p m V ua g (m - p + 1 + i) * -half) zE)))
          (hE (p + p) (fun i j => if p + i = j then 1 else 0)
            (hE p (fun j k => sumR (fn W) o p k j * -half)
              (hE ua.length zE (fun i g => conE p o W ub g i * -half)))))
        (hE p (fun k i => sumL (fn V) m p k (m - p + 1 + i))
          (hE p (fun k j => sumR (fn W) o p k j * -1) zE)))
      (hE p (fun g i => conE p m V ua g (m - p + 1 + i)) zE))
    (hE p zE (hE p (fun g i => conE p o W ub g i) zE))

theorem constructNmat_ok {p m o : ℕ} {V W ua ub : List K} {S T : List (Pt K d)}
    (hV : V.length = m + p + 2) (hS : S.length = m + 1) (hpm : p ≤ m)
    (hW : W.length = o + p + 2) (hT : T.length = o + 1) (hpo : p ≤ o) (h1 : 1 ≤ p) :
    constructNmat ⟨canon p V S, ⟨ua⟩⟩ ⟨canon p W T, ⟨ub⟩⟩ =
      .ok (mat (p + p + p + ua.length + ub.length) (p + p + p + ua.length + ub.length)
        (nmatE p m o V W ua ub)) := by
  have hGV : blockIf ua.length 0 (calculateGV ⟨canon p V S, ⟨ua⟩⟩) =
      .ok (mat ua.length p (fun g i => conE p m V ua g (m - p + 1 + i))) :=
    blockIf_ok (fun h => calculateGV_ok hV hS hpm h) (fun h => Or.inl h) (fun h => Or.inr ⟨h, rfl⟩)
  have hIp : blockIf ua.length p (calculateIpV ⟨canon p V S, ⟨ua⟩⟩) =
      .ok (mat p ua.length (fun i g => conE p m V ua g (m - p + 1 + i) * -half)) :=
    blockIf_ok (fun h => calculateIpV_ok hV hS hpm h) (fun h => Or.inr h) (fun h => Or.inl ⟨h, rfl⟩)
  have hHW : blockIf ub.length 0 (calculateHW ⟨canon p W T, ⟨ub⟩⟩) =
      .ok (mat ub.length p (fun g i => conE p o W ub g i)) :=
    blockIf_ok (fun h => calculateHW_ok hW hT hpo h1 h) (fun h => Or.inl h) (fun h => Or.inr ⟨h, rfl⟩)
  have hJp : blockIf ub.length p (calculateJppW ⟨canon p W T, ⟨ub⟩⟩) =
      .ok (mat p ub.length (fun i g => conE p o W ub g i * -half)) :=
    blockIf_ok (fun h => calculateJppW_ok hW hT hpo h1 h) (fun h => Or.inr h) (fun h => Or.inl ⟨h, rfl⟩)
  simp only [constructNmat, Constraints.count, canon_degree]
  rw [calculateKV_ok hV hS hpm h1, ok_bind, calculateKW_ok hW hT hpo h1, ok_bind,
    calculateIV_ok hV hS hpm h1, ok_bind, calculateJW_ok hW hT hpo h1, ok_bind, hGV, ok_bind, hIp,
    ok_bind, hHW, ok_bind, hJp, ok_bind, pure_ok]
  congr 1
  simp only [hcat, zeroRows_eq, identity_take, identity_drop, mat_hcat]
  rw [show p + p + (p + (ua.length + ub.length)) = p + p + p + ua.length + ub.length by omega,
    show p + (p + (p + ua.length + ub.length)) = p + p + p + ua.length + ub.length by omega,
    show p + (p + p + ua.length + ub.length) = p + p + p + ua.length + ub.length by omega,
    mat_append, mat_append, mat_append, mat_append]
  rfl

/-- minus the difference of the `k`-th derivatives at the junction -/
def kc (p m o : ℕ) (V W : ℕ → K) (S T : ℕ → Pt K d) (k : ℕ) : Pt K d :=
  let s1 := (List.range' (m - p) (m + 1 - (m - p))).foldl (fun s i =>
    (List.range' (m - p) (m - k + 1 - (m - p))).foldl (fun s a =>
      s + scale (pf V p m i k a * bw V m p k (V (m + 1)) a) (S i)) s) (fun _ => 0)
  let s2 := (List.range' 0 (p + 1 - 0)).foldl (fun s j =>
    (List.range' 0 (p - k + 1 - 0)).foldl (fun s b =>
      s - scale (pf W p o j k b * bw W o p k (W p) b) (T j)) s) s1
  fun r => 0 - s2 r

theorem calculateKconst_ok {p m o : ℕ} {V W : List K} {S T : List (Pt K d)}
    (hV : V.length = m + p + 2) (hS : S.length = m + 1) (hpm : p ≤ m)
    (hW : W.length = o + p + 2) (hT : T.length = o + 1) (hpo : p ≤ o) (h1 : 1 ≤ p) :
    calculateKconst (canon p V S) (canon p W T) =
      .ok ((List.range p).map (kc p m o (fn V) (fn W) (fn S) (fn T))) := by
  rw [calculateKconst, canon_segments hS, ok_bind, canon_segments hT, ok_bind, canon_matrix, ok_bind,
    canon_matrix, ok_bind, canon_degree, usub_ok h1, ok_bind]
  rw [tab0_ok (g := kc p m o (fn V) (fn W) (fn S) (fn T)), show p - 1 + 1 = p by omega]
  intro k hk
  rw [canon_idx0, ok_bind, canon_idx0, ok_bind, usub_ok hpm, ok_bind]
  rw [forRangeIncl_ok (g := fun s i => (List.range' (m - p) (m - k + 1 - (m - p))).foldl (fun s a =>
      s + scale (pf (fn V) p m i k a * bw (fn V) m p k (fn V (m + 1)) a) (fn S i)) s)]
  · rw [ok_bind]
    rw [forRangeIncl_ok (g := fun s j => (List.range' 0 (p - k + 1 - 0)).foldl (fun s b =>
      s - scale (pf (fn W) p o j k b * bw (fn W) o p k (fn W p) b) (fn T j)) s)]
    · rw [ok_bind, pure_ok]; rfl
    · intro s j h2 h3
      rw [usub_ok (by omega), ok_bind]
      apply forRangeIncl_ok
      intro s b h4 h5
      rw [hT, prefactor_ok (by omega) hpo k b (by omega), ok_bind, canon_idx (by omega), ok_bind,
        usub_ok (by omega), ok_bind, idx_ok (by omega), ok_bind, bw_ok hW hpo (by omega) (by omega),
        ok_bind, column_ok (by omega), ok_bind]
      rfl
  · intro s i h2 h3
    rw [usub_ok (by omega), ok_bind]
    apply forRangeIncl_ok
    intro s a h4 h5
    rw [hS, prefactor_ok (by omega) hpm k a (by omega), ok_bind, canon_idx (by omega), ok_bind,
      usub_ok (by omega), ok_bind, idx_ok (by omega), ok_bind, bw_ok hV hpm (by omega) (by omega),
      ok_bind, column_ok (by omega), ok_bind]
    rfl

/-- the right-hand side of the system -/
def rhsM (p m o c : ℕ) (V W : List K) (S T : List (Pt K d)) : List (Pt K d) :=
  zeroCols d (p + p) ++ (List.range p).map (kc p m o (fn V) (fn W) (fn S) (fn T)) ++ zeroCols d c

theorem constructConstMat_ok {p m o c : ℕ} {V W : List K} {S T : List (Pt K d)}
    (hV : V.length = m + p + 2) (hS : S.length = m + 1) (hpm : p ≤ m)
    (hW : W.length = o + p + 2) (hT : T.length = o + 1) (hpo : p ≤ o) (h1 : 1 ≤ p) :
    constructConstMat (canon p V S) (canon p W T) c = .ok (rhsM p m o c V W S T) := by
  rw [constructConstMat, calculateKconst_ok hV hS hpm hW hT hpo h1, ok_bind, canon_degree]
  dsimp only
  rw [setSegment_ok (by simp [zeroCols]; omega), rhsM]
  congr 3
  · rw [zeroCols, List.take_replicate]; congr 1; omega
  · simp only [zeroCols, List.drop_replicate, List.length_map, List.length_range]; congr 1; omega

/-- the solution of the system, as returned by the solver -/
def shiftsOf (solver : Solver K d) (p m o : ℕ) (V W ua ub : List K) (S T : List (Pt K d)) :
    List (Pt K d) :=
  solver.run (mat (p + p + p + ua.length + ub.length) (p + p + p + ua.length + ub.length)
        (nmatE p m o V W ua ub)) (rhsM p m o (ua.length + ub.length) V W S T)

theorem shiftsOf_length (solver : Solver K d) {p m o : ℕ} (h1 : 1 ≤ p) (V W ua ub : List K)
    (S T : List (Pt K d)) :
    (shiftsOf solver p m o V W ua ub S T).length = p + p + p + ua.length + ub.length := by
  rw [shiftsOf, solver.shape, ncols_mat _ (by omega)]

theorem solveLinear_ok {p m o : ℕ} {V W ua ub : List K} {S T : List (Pt K d)}
    (hV : V.length = m + p + 2) (hS : S.length = m + 1) (hpm : p ≤ m)
    (hW : W.length = o + p + 2) (hT : T.length = o + 1) (hpo : p ≤ o) (h1 : 1 ≤ p)
    (solver : Solver K d) :
    solveLinearEquationSystem solver ⟨canon p V S, ⟨ua⟩⟩ ⟨canon p W T, ⟨ub⟩⟩ =
      .ok (shiftsOf solver p m o V W ua ub S T) := by
  rw [solveLinearEquationSystem, constructNmat_ok hV hS hpm hW hT hpo h1, ok_bind]
  dsimp only [Constraints.count]
  rw [constructConstMat_ok hV hS hpm hW hT hpo h1, ok_bind, svdSolve_ok _ (by omega) (by omega)]
  · rfl
  · simp [rhsM, zeroCols]; omega

/-! ### Shifted control points -/

/-- the left control points after the shift -/
def shiftL (p m : ℕ) (S x : List (Pt K d)) : List (Pt K d) :=
  (List.range (m + 1)).map (fun i => if i + p ≤ m then fn S i else fn S i + fn x (i - (m + 1 - p)))

/-- the right control points after the shift -/
def shiftR (p o : ℕ) (T x : List (Pt K d)) : List (Pt K d) :=
  (List.range (o + 1)).map (fun j => if j < p then fn T j + fn x (p + j) else fn T j)

@[simp] theorem shiftL_length (p m : ℕ) (S x : List (Pt K d)) : (shiftL p m S x).length = m + 1 := by
  simp [shiftL]
@[simp] theorem shiftR_length (p o : ℕ) (T x : List (Pt K d)) : (shiftR p o T x).length = o + 1 := by
  simp [shiftR]

theorem addSegment_ok {M src : List (Pt K d)} {s : ℕ} (h : s + src.length ≤ M.length) :
    addSegment M s src = .ok ((List.range M.length).map (fun i =>
      if s ≤ i ∧ i < s + src.length then fn M i + fn src (i - s) else fn M i)) := by
  have hl : (List.zipWith (· + ·) (List.take src.length (List.drop s M)) src).length = src.length := by
    simp; omega
  rw [addSegment, segment_ok h, ok_bind, setSegment_ok (by rw [hl]; exact h), hl]
  congr 1
  apply ext_fn (by simp; omega)
  intro i hi
  have hi : i < M.length := by simp at hi; omega
  rw [fn_map_range _ hi]
  by_cases h1 : i < s
  · rw [if_neg (by omega), List.append_assoc, fn_append_left (by simp; omega), fn_take h1 hi]
  · by_cases h2 : i < s + src.length
    · rw [if_pos (by omega), fn_append_left (by simp; omega), fn_append_right (by simp; omega)
        (by simp; omega), fn_lt (by simp; omega), List.getElem_zipWith, fn_lt hi, fn_lt (by omega)]
      simp only [List.length_take, List.getElem_take, List.getElem_drop]
      congr 1
      · congr 1; omega
      · congr 1; omega
    · rw [if_neg (by omega), fn_append_right (by simp; omega) (by simp; omega), fn_drop (by simp; omega)]
      congr 1
      simp; omega

theorem generateShifted_ok {p m o : ℕ} {V W : List K} {S T x : List (Pt K d)}
    (hS : S.length = m + 1) (hpm : p ≤ m) (hT : T.length = o + 1) (hpo : p ≤ o)
    (hx : p + p ≤ x.length) :
    generateShifted (canon p V S) (canon p W T) x = .ok (shiftL p m S x, shiftR p o T x) := by
  rw [generateShifted, canon_matrix, ok_bind, canon_matrix, ok_bind, canon_degree, hS,
    usub_ok (by omega), ok_bind, segment_ok (by omega), ok_bind, addSegment_ok (by simp; omega), ok_bind,
    segment_ok hx, ok_bind, addSegment_ok (by simp; omega), ok_bind, pure_ok]
  congr 2
  · rw [shiftL, hS]
    apply List.map_congr_left
    intro i hi
    rw [List.mem_range] at hi
    have hl : (List.take p (List.drop 0 x)).length = p := by simp; omega
    by_cases h : i + p ≤ m
    · rw [if_neg (by omega), if_pos h]
    · rw [if_pos (by omega), if_neg h, fn_drop_take (by omega) (by omega), Nat.zero_add]
  · rw [shiftR, hT]
    apply List.map_congr_left
    intro i hi
    rw [List.mem_range] at hi
    have hl : (List.take p (List.drop p x)).length = p := by simp; omega
    by_cases h : i < p
    · rw [if_pos (by omega), if_pos h, fn_drop_take (by omega) (by omega), Nat.sub_zero]
    · rw [if_neg (by omega), if_neg h]

/-! ### Knots -/

theorem setTail_ok {α : Type} {v src : List α} (h : src.length ≤ v.length) :
    setTail v src = .ok (v.take (v.length - src.length) ++ src) := by
  rw [setTail, usub_ok h, ok_bind, setSegment_ok (by omega)]
  congr 1
  rw [List.drop_of_length_le (by omega), List.append_nil]

theorem adjustKnots_ok {p n : ℕ} {U U' : List K} (hU : n + 2 ≤ U.length) (hU' : p + 1 + p ≤ U'.length) :
    adjustKnots p U n U' = .ok (U.take (n + 2) ++ ((U'.drop (p + 1)).take p).map (· + 1)) := by
  rw [adjustKnots, head_ok hU, ok_bind, setSegment_ok (by simp [zeros]), ok_bind,
    segment_ok hU', ok_bind, setTail_ok]
  · congr 2
    simp only [zeros, List.take_zero, List.nil_append, List.length_append, List.length_take,
      List.length_drop, List.length_replicate, List.length_map, List.drop_replicate]
    rw [show min (n + 2) U.length = n + 2 by omega, show min p (U'.length - (p + 1)) = p by omega,
      List.take_append_of_le_length (by simp; omega), List.take_of_length_le (by simp)]
  · simp [zeros]; omega

/-- the left knots up to the junction, followed by the next `p` right knots -/
def vadj (p m : ℕ) (V W : List K) : List K :=
  V.take (m + 2) ++ ((W.drop (p + 1)).take p).map (· + 1)

theorem vadj_length {p m o : ℕ} {V W : List K} (hV : V.length = m + p + 2) (hW : W.length = o + p + 2)
    (hpo : p ≤ o) : (vadj p m V W).length = m + p + 2 := by
  simp [vadj]; omega

theorem reverseKnots_length (U : List K) : (reverseKnots U).length = U.length := by
  simp [reverseKnots, swapLoop_eq]

theorem adjustKnotsOfBoth_ok {p m o : ℕ} {V W : List K} {S T : List (Pt K d)}
    (hV : V.length = m + p + 2) (hS : S.length = m + 1) (hpm : p ≤ m)
    (hW : W.length = o + p + 2) (hT : T.length = o + 1) (hpo : p ≤ o) :
    adjustKnotsOfBoth (canon p V S) (canon p W T) = .ok (vadj p m V W, reverseKnots W,
      (reverseKnots (vadj p o (reverseKnots W) (reverseKnots V))).map (· + 1)) := by
  rw [adjustKnotsOfBoth, canon_segments hS, ok_bind, canon_segments hT, ok_bind, canon_knots, canon_knots,
    canonKnots_vector, ok_bind, canonKnots_vector, ok_bind, canon_degree, adjustKnots_ok (by omega) (by omega),
    ok_bind]
  dsimp only
  rw [adjustKnots_ok (by rw [reverseKnots_length]; omega) (by rw [reverseKnots_length]; omega)]
  rfl

/-- the merged knots before rescaling -/
def mergedRaw (p m o : ℕ) (V W : List K) : List K :=
  V.take (m + 2) ++ ((reverseKnots (vadj p o (reverseKnots W) (reverseKnots V))).map (· + 1)).drop (p + 1)

theorem mergedRaw_length {p m o : ℕ} {V W : List K} (hV : V.length = m + p + 2)
    (hW : W.length = o + p + 2) (hpm : p ≤ m) : (mergedRaw p m o V W).length = m + o + 3 := by
  simp only [mergedRaw, List.length_append, List.length_take, List.length_drop, List.length_map,
    reverseKnots_length]
  rw [vadj_length (o := m) (by rw [reverseKnots_length]; exact hW) (by rw [reverseKnots_length]; exact hV) hpm]
  omega

/-- the merged knots -/
def mergedU (p m o : ℕ) (V W : List K) : List K :=
  (mergedRaw p m o V W).map (fun x => x / fn (mergedRaw p m o V W) (m + o + 2))

theorem mergedU_length {p m o : ℕ} {V W : List K} (hV : V.length = m + p + 2)
    (hW : W.length = o + p + 2) (hpm : p ≤ m) : (mergedU p m o V W).length = m + o + 3 := by
  rw [mergedU, List.length_map, mergedRaw_length hV hW hpm]

theorem createMerged_ok {p m o : ℕ} {V W : List K} {S T : List (Pt K d)}
    (hV : V.length = m + p + 2) (hS : S.length = m + 1) (hpm : p ≤ m)
    (hW : W.length = o + p + 2) (hT : T.length = o + 1) (hpo : p ≤ o) :
    createMergedKnotVector (canon p V S) (canon p W T) (vadj p m V W)
      ((reverseKnots (vadj p o (reverseKnots W) (reverseKnots V))).map (· + 1)) =
      .ok (mergedU p m o V W) := by
  have hl1 := vadj_length hV hW hpo
  have hl2 := vadj_length (p := p) (m := o) (o := m) (V := reverseKnots W) (W := reverseKnots V)
    (by rw [reverseKnots_length]; exact hW) (by rw [reverseKnots_length]; exact hV) hpm
  have hl := mergedRaw_length hV hW hpm
  rw [createMergedKnotVector, canon_segments hS, ok_bind, canon_segments hT, ok_bind,
    head_ok (by omega), ok_bind, setSegment_ok (by simp [zeros]; omega), ok_bind,
    tail_ok (by rw [List.length_map, reverseKnots_length, hl2]; omega), ok_bind, setTail_ok, ok_bind]
  · have e : List.take (List.length (List.take 0 (zeros (K := K) (m + 2 + o + 1)) ++
            List.take (m + 2) (vadj p m V W) ++ List.drop (0 + (List.take (m + 2) (vadj p m V W)).length)
            (zeros (m + 2 + o + 1))) - (List.drop (((reverseKnots (vadj p o (reverseKnots W)
            (reverseKnots V))).map (· + 1)).length - (o + 1)) ((reverseKnots (vadj p o (reverseKnots W)
            (reverseKnots V))).map (· + 1))).length)
          (List.take 0 (zeros (m + 2 + o + 1)) ++ List.take (m + 2) (vadj p m V W) ++
            List.drop (0 + (List.take (m + 2) (vadj p m V W)).length) (zeros (m + 2 + o + 1))) ++
        List.drop (((reverseKnots (vadj p o (reverseKnots W)
            (reverseKnots V))).map (· + 1)).length - (o + 1)) ((reverseKnots (vadj p o (reverseKnots W)
            (reverseKnots V))).map (· + 1)) = mergedRaw p m o V W := by
      rw [mergedRaw]
      simp only [List.length_map, reverseKnots_length, hl2, List.length_append, List.length_take,
        List.length_drop, hl1, zeros, List.length_replicate, List.take_zero, List.nil_append]
      rw [show o + p + 2 - (o + 1) = p + 1 by omega,
        List.take_append_of_le_length (by simp [hl1]; omega), List.take_of_length_le (by simp [hl1]; omega)]
      congr 1
      rw [vadj, List.take_append_of_le_length (by simp; omega), List.take_of_length_le (by simp)]
    rw [e, idx_ok (by omega), ok_bind, pure_ok]
    rfl
  · simp [zeros, reverseKnots_length, hl1, hl2]; omega

/-! ### Adjusted control points -/

theorem foldl_set_length {α : Type} (v : ℕ → α) : ∀ (l : List ℕ) (row : List α),
    (l.foldl (fun r k => r.set k (v k)) row).length = row.length := by
  intro l
  induction l with
  | nil => intro row; rfl
  | cons a l ih => intro row; rw [List.foldl_cons, ih, List.length_set]

theorem foldl_set_get {α : Type} (v : ℕ → α) : ∀ (l : List ℕ) (row : List α) (i : ℕ)
    (h : i < (l.foldl (fun r k => r.set k (v k)) row).length), i ∈ l →
    (l.foldl (fun r k => r.set k (v k)) row)[i] = v i := by
  intro l
  induction l with
  | nil => intro row i _ h; simp at h
  | cons a l ih =>
    intro row i h hi
    by_cases hl : i ∈ l
    · exact ih _ i (by simpa using h) hl
    · have ha : i = a := by simpa [hl] using hi
      subst ha
      have key : ∀ (l : List ℕ) (row : List α), i ∉ l → ∀ (h : i < row.length)
          (h' : i < (l.foldl (fun r k => r.set k (v k)) row).length),
          (l.foldl (fun r k => r.set k (v k)) row)[i] = row[i] := by
        intro l
        induction l with
        | nil => intro row _ _ _; rfl
        | cons b l ihb =>
          intro row hb h h'
          rw [List.mem_cons, not_or] at hb
          have := ihb (row.set b (v b)) hb.2 (by simpa using h) (by simpa using h')
          exact this.trans (List.getElem_set_ne (Ne.symm hb.1) _)
      have hr : i < row.length := by rw [foldl_set_length] at h; exact h
      exact (key l (row.set i (v i)) hl (by simpa using hr) h).trans (by simp)

theorem foldlM_set_ok {α : Type} {f : List α → ℕ → Exec (List α)} {v : ℕ → α} {N : ℕ} :
    ∀ (l : List ℕ) (row : List α), row.length = N →
    (∀ row k, row.length = N → k ∈ l → f row k = .ok (row.set k (v k))) →
    l.foldlM f row = .ok (l.foldl (fun r k => r.set k (v k)) row) := by
  intro l
  induction l with
  | nil => intro row _ _; rfl
  | cons a l ih =>
    intro row hr h
    rw [List.foldlM_cons, h row a hr (by simp), ok_bind, List.foldl_cons]
    exact ih _ (by simpa using hr) (fun row k hr hk => h row k hr (by simp [hk]))

/-- the rows `j + 1 + s` of the recursion, with first row `B` -/
def adjq (Uadj : ℕ → K) (p j : ℕ) (B : ℕ → Pt K d) : ℕ → ℕ → Pt K d
  | 0, k => B k
  | s + 1, k => scale ((Uadj (j + 2 + s + p) - Uadj (j + 2 + s + k)) / ((p - k : ℕ) : K))
      (adjq Uadj p j B s (k + 1)) + adjq Uadj p j B s k

/-- derivative control point computed from the prefactors -/
def dcp (U : ℕ → K) (p N n i k : ℕ) (P : ℕ → Pt K d) : Pt K d :=
  (List.range' 0 (n + 1 - 0)).foldl (fun s z => s + scale (pf U p N z k i) (P z)) (fun _ => 0)

/-- first row of the recursion as the code fills it: the control point, then the derivatives of
order `0, 1, …` -/
def baseRow (U : ℕ → K) (p N n : ℕ) (P : ℕ → Pt K d) (k : ℕ) : Pt K d :=
  if k = 0 then P (n - p + 1) else dcp U p N n (n - p + 1) (k - 1) P

/-- the adjusted control points -/
def adjP (U Uadj : ℕ → K) (p N n : ℕ) (P : ℕ → Pt K d) (i : ℕ) : Pt K d :=
  if i ≤ n - p + 1 then P i else adjq Uadj p (n - p) (baseRow U p N n P) (i - (n - p + 1)) 0

/-- row `r` before iteration `i` -/
def rowAt (U Uadj : ℕ → K) (p N n : ℕ) (P : ℕ → Pt K d) (i r : ℕ) : List (Pt K d) :=
  if r = n - p + 1 then (List.range (p + 1)).map (baseRow U p N n P)
  else if n - p + 1 < r ∧ r < i then
    (List.range (n - r + 1)).map (adjq Uadj p (n - p) (baseRow U p N n P) (r - (n - p + 1)))
  else [P r]

theorem generateDerivative_ok {p N n i k : ℕ} {U : List K} {P : List (Pt K d)}
    (hU : N + p + 2 ≤ U.length) (hP : P.length = N + 1) (hp : p ≤ n) (hn : n ≤ N) (hk : k ≤ p)
    (hi : i ≤ n - k) :
    generateDerivativeControlPoint i k P U p n = .ok (dcp (fn U) p N n i k (fn P)) := by
  rw [generateDerivativeControlPoint, usub_ok (by omega), ok_bind, if_pos hi]
  apply forRangeIncl_ok
  intro s z h1 h2
  rw [hP, prefactor_ok hU (by omega) k i hk, ok_bind, column_ok (by omega), ok_bind]
  rfl

theorem adjustRow_ok {p n i : ℕ} {Uadj : List K} {v : ℕ → Pt K d} {c : ℕ} {row : List (Pt K d)}
    (hU : n + p + 1 ≤ Uadj.length) (hi : i ≤ n) (hin : n < i + p) (hc : n - i + 1 < c)
    (hr : row.length = n - i + 1) :
    adjustRow Uadj p n i ((List.range c).map v) row = .ok ((List.range (n - i + 1)).map (fun k =>
      scale ((fn Uadj (i + p) - fn Uadj (i + k)) / ((p - k : ℕ) : K)) (v (k + 1)) + v k)) := by
  rw [adjustRow, usub_ok hi, ok_bind]
  rw [foldlM_set_ok (N := n - i + 1) (v := fun k =>
      scale ((fn Uadj (i + p) - fn Uadj (i + k)) / ((p - k : ℕ) : K)) (v (k + 1)) + v k)]
  · congr 1
    apply List.ext_getElem
    · rw [foldl_set_length]; simp [hr]
    · intro k h1 h2
      simp only [List.length_map, List.length_range] at h2
      rw [foldl_set_get _ _ _ _ _ (by simpa using h2)]
      simp
  · exact hr
  · intro row k hr hk
    rw [List.mem_reverse, List.mem_range] at hk
    rw [idx_ok (by omega), ok_bind, idx_ok (by omega), ok_bind, usub_ok (by omega), ok_bind,
      idx_ok (by simp; omega), ok_bind, idx_ok (by simp; omega), ok_bind, setIdx_ok (by omega),
      fn_map_range _ (by omega), fn_map_range _ (by omega)]

theorem adjustShifted_ok {p N n : ℕ} {U Uadj : List K} {P : List (Pt K d)}
    (hU : N + p + 2 ≤ U.length) (hUa : n + p + 1 ≤ Uadj.length) (hP : P.length = N + 1)
    (h1 : 1 ≤ p) (hp : p ≤ n) (hn : n ≤ N) :
    adjustShifted P U Uadj p n =
      .ok ((List.range (n + 1)).map (adjP (fn U) (fn Uadj) p N n (fn P))) := by
  rw [adjustShifted, mapM_ok (g := fun i => [fn P i])]
  swap
  · intro i hi
    rw [List.mem_range] at hi
    rw [column_ok (by omega), ok_bind]; rfl
  rw [ok_bind, usub_ok h1, ok_bind]
  rw [usub_ok hp]
  simp only [ok_bind]
  have e0 : (List.range (n + 1)).map (fun i => [fn P i]) = (List.range (n + 1)).map (fun r =>
      if r = n - p + 1 then (List.range (0 + 1)).map (baseRow (fn U) p N n (fn P)) else [fn P r]) := by
    apply List.map_congr_left
    intro r _
    split
    · rename_i h; simp [baseRow, h]
    · rfl
  rw [e0, forRangeIncl_inv (lo := 0) (S := fun k => (List.range (n + 1)).map (fun r =>
      if r = n - p + 1 then (List.range (k + 1)).map (baseRow (fn U) p N n (fn P)) else [fn P r]))
    (by omega)]
  · rw [ok_bind, show p - 1 + 1 + 1 = p + 1 by omega]
    have e1 : (List.range (n + 1)).map (fun r =>
        if r = n - p + 1 then (List.range (p + 1)).map (baseRow (fn U) p N n (fn P)) else [fn P r]) =
        (List.range (n + 1)).map (rowAt (fn U) (fn Uadj) p N n (fn P) (n - p + 2)) := by
      apply List.map_congr_left
      intro r _
      rw [rowAt]
      split
      · rfl
      · rw [if_neg (by omega)]
    rw [e1, forRangeIncl_inv (lo := n - p + 2)
      (S := fun i => (List.range (n + 1)).map (rowAt (fn U) (fn Uadj) p N n (fn P) i)) (by omega)]
    · rw [ok_bind]
      apply mapM_ok
      intro i hi
      rw [List.mem_range] at hi
      rw [idx_ok' (by simpa using hi), ok_bind]
      simp only [List.getElem_map, List.getElem_range]
      rw [rowAt, adjP]
      split
      · rename_i h
        rw [idx_ok (by simp), if_pos (by omega), fn_map_range _ (by omega), baseRow, if_pos rfl, h]
      · split
        · rw [idx_ok (by simp), if_neg (by omega), fn_map_range _ (by omega)]
        · rw [if_pos (by omega)]; rfl
    · intro i h2 h3
      rw [idx_ok' (by simp; omega), ok_bind, usub_ok h3, ok_bind, idx_ok' (by simp; omega), ok_bind]
      simp only [List.getElem_map, List.getElem_range]
      obtain ⟨c, v, hrow, hc, hv⟩ : ∃ c v, rowAt (fn U) (fn Uadj) p N n (fn P) i (i - 1) =
          (List.range c).map v ∧ n - i + 1 < c ∧
          v = adjq (fn Uadj) p (n - p) (baseRow (fn U) p N n (fn P)) (i - 1 - (n - p + 1)) := by
        rw [rowAt]
        split
        · rename_i h
          exact ⟨p + 1, _, rfl, by omega, by rw [h, Nat.sub_self]; rfl⟩
        · rw [if_pos (by omega)]
          exact ⟨n - (i - 1) + 1, _, rfl, by omega, rfl⟩
      rw [hrow, adjustRow_ok hUa h3 (by omega) hc (by rw [rowAt, if_neg (by omega), if_neg (by omega)]; simp [vecResize]),
        ok_bind, setIdx_ok (by simp; omega), set_map_range]
      congr 1
      apply List.map_congr_left
      intro r hr
      split
      · rename_i h
        subst h
        rw [rowAt, if_neg (by omega), if_pos (by omega)]
        apply List.map_congr_left
        intro k _
        rw [hv, show i - (n - p + 1) = i - 1 - (n - p + 1) + 1 by omega, adjq,
          show n - p + 2 + (i - 1 - (n - p + 1)) = i by omega]
      · rw [rowAt, rowAt]
        split
        · rfl
        · congr 1
          simp only [eq_iff_iff]
          omega
  · intro k h2 h3
    rw [generateDerivative_ok hU hP hp hn (by omega) (by omega), ok_bind, idx_ok' (by simp; omega), ok_bind,
      setIdx_ok (by simp; omega), set_map_range]
    congr 1
    apply List.map_congr_left
    intro r hr
    simp only [List.getElem_map, List.getElem_range, if_pos]
    split
    · rename_i h
      rw [if_pos h.symm, List.range_succ (n := k + 1), List.map_append]
      simp [baseRow]
    · rename_i h
      rw [if_neg (Ne.symm h), if_neg (Ne.symm h)]

theorem adjustShifted_error {n p : ℕ} {U Uadj : List K} {P : List (Pt K d)} (h : P.length ≤ n) :
    ∃ e, adjustShifted P U Uadj p n = .error e := by
  have key : ∀ (l : List ℕ), (∃ i ∈ l, P.length ≤ i) → ∃ e, l.mapM (fun i => do
      let c ← column P i
      pure [c]) = (.error e : Exec (List (List (Pt K d)))) := by
    intro l
    induction l with
    | nil => rintro ⟨i, h, -⟩; simp at h
    | cons a l ih =>
      rintro ⟨i, hi, hl⟩
      rw [List.mapM_cons]
      by_cases ha : P.length ≤ a
      · rw [column_error ha]; exact ⟨_, rfl⟩
      · rw [column_ok (by omega)]
        have : i ∈ l := by
          rcases List.mem_cons.mp hi with rfl | h
          · exact absurd hl ha
          · exact h
        obtain ⟨e, he⟩ := ih ⟨i, this, hl⟩
        rw [ok_bind, pure_ok, ok_bind, he]
        exact ⟨_, rfl⟩
  obtain ⟨e, he⟩ := key (List.range (n + 1)) ⟨n, by simp, h⟩
  rw [adjustShifted, he]
  exact ⟨_, rfl⟩

/-! ### Assembly -/

/-- control points of the merged curve: all points of the left curve but the last, then the points
of the right curve from index `p - 1` on -/
def mergedP (p m o : ℕ) (Sa Ta : ℕ → Pt K d) (i : ℕ) : Pt K d :=
  if i < m then Sa i else Ta (i - m + (m - (o + 1 - p)))

theorem generateMergedPoints_ok {p m o : ℕ} {V W : List K} {S T Sa Ta : List (Pt K d)}
    (hS : S.length = m + 1) (hT : T.length = o + 1) (hpo : p ≤ o) (hSa : Sa.length = m + 1)
    (hTa : Ta.length = m + 1) (ho : o < m + p) (h1 : 1 ≤ p) (hpm : p ≤ m) :
    generateMergedPoints (canon p V S) (canon p W T) Sa Ta =
      .ok ((List.range (m + o + 2 - p)).map (mergedP p m o (fn Sa) (fn Ta))) := by
  have c1 : (canon p V S).points.count = .ok (m + 1) := by
    simp [ControlPoints.count, ControlPoints.countDerivative, canonPts_idx_zero, hS]
  have c2 : (canon p W T).points.count = .ok (o + 1) := by
    simp [ControlPoints.count, ControlPoints.countDerivative, canonPts_idx_zero, hT]
  rw [generateMergedPoints, c1, ok_bind, c2, ok_bind, canon_degree, usub_ok (by omega), ok_bind]
  dsimp only
  rw [if_pos hSa, setSegment_ok (by simp [zeroCols]; omega), ok_bind, usub_ok (by omega), ok_bind,
    usub_ok (by simp [zeroCols]; omega), ok_bind, usub_ok (by omega), ok_bind, segment_ok (by omega),
    ok_bind, setSegment_ok]
  · congr 1
    have hl : (List.take 0 (zeroCols (K := K) d (m + 1 + (o + 1) - p)) ++ Sa ++
        List.drop (0 + Sa.length) (zeroCols d (m + 1 + (o + 1) - p))).length = m + o + 2 - p := by
      simp [zeroCols]; omega
    rw [hl]
    apply ext_fn
    · simp only [List.length_append, List.length_take, List.length_drop, hl, hTa, List.length_map,
        List.length_range]
      omega
    · intro i hi
      have hi : i < m + o + 2 - p := by
        simp only [List.length_append, List.length_take, List.length_drop, hl, hTa] at hi
        omega
      rw [fn_map_range _ hi, mergedP]
      split
      · rename_i h
        rw [List.append_assoc, fn_append_left (by rw [List.length_take, hl]; omega),
          fn_take (by omega) (by rw [hl]; exact hi), List.take_zero, List.nil_append,
          fn_append_left (by omega)]
      · rw [fn_append_left (by
            rw [List.length_append, List.length_take, hl, List.length_take, List.length_drop, hTa]; omega),
          fn_append_right (by rw [List.length_take, hl]; omega) (by
            rw [List.length_take, hl, List.length_take, List.length_drop, hTa]; omega),
          List.length_take, hl, fn_drop_take (by omega) (by omega), hTa]
        congr 1
        omega
  · simp [zeroCols]; omega

theorem generateMergedPoints_error {p m o : ℕ} {V W : List K} {S T Sa Ta : List (Pt K d)}
    (hS : S.length = m + 1) (hT : T.length = o + 1) (hpo : p ≤ o) (hSa : Sa.length = m + 1)
    (hTa : Ta.length = m + 1) (ho : m + p ≤ o) (h1 : 1 ≤ p) (hpm : p ≤ m) :
    generateMergedPoints (canon p V S) (canon p W T) Sa Ta = .error .underflow := by
  have c1 : (canon p V S).points.count = .ok (m + 1) := by
    simp [ControlPoints.count, ControlPoints.countDerivative, canonPts_idx_zero, hS]
  have c2 : (canon p W T).points.count = .ok (o + 1) := by
    simp [ControlPoints.count, ControlPoints.countDerivative, canonPts_idx_zero, hT]
  rw [generateMergedPoints, c1, ok_bind, c2, ok_bind, canon_degree, usub_ok (by omega), ok_bind]
  dsimp only
  rw [if_pos hSa, setSegment_ok (by simp [zeroCols]; omega), ok_bind, usub_ok (by omega), ok_bind,
    usub_ok (by simp [zeroCols]; omega), ok_bind, usub_error (by omega)]
  rfl

/-- control points of the left and right half after shifting and adjusting -/
def sadj (p m : ℕ) (V W : List K) (S' : List (Pt K d)) : List (Pt K d) :=
  (List.range (m + 1)).map (adjP (fn V) (fn (vadj p m V W)) p m m (fn S'))

def tadj (p m o : ℕ) (V W : List K) (T' : List (Pt K d)) : List (Pt K d) :=
  ((List.range (m + 1)).map (adjP (fn (reverseKnots W))
    (fn ((reverseKnots (vadj p o (reverseKnots W) (reverseKnots V))).map (· + 1))) p o m
    (fn T'.reverse))).reverse

/-- the control points of the merged curve -/
def mergedPts (p m o : ℕ) (V W : List K) (S' T' : List (Pt K d)) : List (Pt K d) :=
  (List.range (m + o + 2 - p)).map (mergedP p m o (fn (sadj p m V W S')) (fn (tadj p m o V W T')))

/-- everything merging does after the checks, if the sizes fit -/
theorem mergeBody_ok {p m o : ℕ} {V W ua ub : List K} {S T : List (Pt K d)}
    (hV : V.length = m + p + 2) (hS : S.length = m + 1) (hpm : p ≤ m)
    (hW : W.length = o + p + 2) (hT : T.length = o + 1) (hpo : p ≤ o) (h1 : 1 ≤ p)
    (hmo : m ≤ o) (hom : o < m + p) (solver : Solver K d) :
    mergeBody solver ⟨canon p V S, ⟨ua⟩⟩ ⟨canon p W T, ⟨ub⟩⟩ =
      .ok (.ok (canon p (mergedU p m o V W) (mergedPts p m o V W
        (shiftL p m S (shiftsOf solver p m o V W ua ub S T))
        (shiftR p o T (shiftsOf solver p m o V W ua ub S T))))) := by
  have hx := shiftsOf_length (o := o) (m := m) solver h1 V W ua ub S T
  have hv1 := vadj_length hV hW hpo
  have hv2 : (vadj p o (reverseKnots W) (reverseKnots V)).length = o + p + 2 :=
    vadj_length (o := m) (by rw [reverseKnots_length]; exact hW) (by rw [reverseKnots_length]; exact hV) hpm
  rw [mergeBody, solveLinear_ok hV hS hpm hW hT hpo h1, ok_bind]
  dsimp only
  rw [generateShifted_ok hS hpm hT hpo (by omega), ok_bind]
  dsimp only
  rw [adjustKnotsOfBoth_ok hV hS hpm hW hT hpo, ok_bind]
  dsimp only
  rw [createMerged_ok hV hS hpm hW hT hpo, ok_bind, adjustShiftedOfBoth, canon_segments hS, ok_bind,
    canon_knots, canonKnots_vector, ok_bind, canon_degree,
    adjustShifted_ok (N := m) (by omega) (by omega) (by simp) h1 hpm le_rfl, ok_bind, reverseCols,
    swapLoop_eq]
  dsimp only
  rw [adjustShifted_ok (N := o) (by rw [reverseKnots_length]; omega)
      (by rw [List.length_map, reverseKnots_length]; omega) (by simp) h1 hpm hmo, ok_bind, pure_ok, ok_bind]
  dsimp only
  rw [reverseCols, swapLoop_eq, generateMergedPoints_ok hS hT hpo (by simp) (by simp) hom h1 hpm, ok_bind,
    mkCurve_ok (n := m + o + 1 - p) (by simp; omega) (by omega) (by rw [mergedU_length hV hW hpm]; omega), ok_bind]
  rfl

/-- merging panics if the left curve has more control points -/
theorem mergeBody_panics_gt {p m o : ℕ} {V W ua ub : List K} {S T : List (Pt K d)}
    (hV : V.length = m + p + 2) (hS : S.length = m + 1) (hpm : p ≤ m)
    (hW : W.length = o + p + 2) (hT : T.length = o + 1) (hpo : p ≤ o) (h1 : 1 ≤ p)
    (hom : o < m) (solver : Solver K d) :
    ∃ e, mergeBody solver ⟨canon p V S, ⟨ua⟩⟩ ⟨canon p W T, ⟨ub⟩⟩ = .error e := by
  have hx := shiftsOf_length (o := o) (m := m) solver h1 V W ua ub S T
  have hv1 := vadj_length hV hW hpo
  rw [mergeBody, solveLinear_ok hV hS hpm hW hT hpo h1, ok_bind]
  dsimp only
  rw [generateShifted_ok hS hpm hT hpo (by omega), ok_bind]
  dsimp only
  rw [adjustKnotsOfBoth_ok hV hS hpm hW hT hpo, ok_bind]
  dsimp only
  rw [createMerged_ok hV hS hpm hW hT hpo, ok_bind, adjustShiftedOfBoth, canon_segments hS, ok_bind,
    canon_knots, canonKnots_vector, ok_bind, canon_degree,
    adjustShifted_ok (N := m) (by omega) (by omega) (by simp) h1 hpm le_rfl, ok_bind, reverseCols,
    swapLoop_eq]
  dsimp only
  obtain ⟨e, he⟩ := adjustShifted_error (n := m) (p := p) (U := reverseKnots W)
    (Uadj := (reverseKnots (vadj p o (reverseKnots W) (reverseKnots V))).map (· + 1))
    (P := (shiftR p o T (shiftsOf solver p m o V W ua ub S T)).reverse) (by simp; omega)
  rw [he]
  exact ⟨e, rfl⟩

/-- merging panics if the right curve has at least `p` more control points -/
theorem mergeBody_panics_lt {p m o : ℕ} {V W ua ub : List K} {S T : List (Pt K d)}
    (hV : V.length = m + p + 2) (hS : S.length = m + 1) (hpm : p ≤ m)
    (hW : W.length = o + p + 2) (hT : T.length = o + 1) (hpo : p ≤ o) (h1 : 1 ≤ p)
    (hom : m + p ≤ o) (solver : Solver K d) :
    mergeBody solver ⟨canon p V S, ⟨ua⟩⟩ ⟨canon p W T, ⟨ub⟩⟩ = .error .underflow := by
  have hx := shiftsOf_length (o := o) (m := m) solver h1 V W ua ub S T
  have hv1 := vadj_length hV hW hpo
  have hv2 : (vadj p o (reverseKnots W) (reverseKnots V)).length = o + p + 2 :=
    vadj_length (o := m) (by rw [reverseKnots_length]; exact hW) (by rw [reverseKnots_length]; exact hV) hpm
  rw [mergeBody, solveLinear_ok hV hS hpm hW hT hpo h1, ok_bind]
  dsimp only
  rw [generateShifted_ok hS hpm hT hpo (by omega), ok_bind]
  dsimp only
  rw [adjustKnotsOfBoth_ok hV hS hpm hW hT hpo, ok_bind]
  dsimp only
  rw [createMerged_ok hV hS hpm hW hT hpo, ok_bind, adjustShiftedOfBoth, canon_segments hS, ok_bind,
    canon_knots, canonKnots_vector, ok_bind, canon_degree,
    adjustShifted_ok (N := m) (by omega) (by omega) (by simp) h1 hpm le_rfl, ok_bind, reverseCols,
    swapLoop_eq]
  dsimp only
  rw [adjustShifted_ok (N := o) (by rw [reverseKnots_length]; omega)
      (by rw [List.length_map, reverseKnots_length]; omega) (by simp) h1 hpm (by omega), ok_bind, pure_ok, ok_bind]
  dsimp only
  rw [reverseCols, swapLoop_eq, generateMergedPoints_error hS hT hpo (by simp) (by simp) hom h1 hpm]
  rfl

end

end BSpline
