import Verif.Model.Cost
import Verif.Model.Debug
import Verif.Props.Split
import Verif.Props.InsertSharp

/-!
# The number of calls of `basis`: C115
-/

set_option linter.unusedSectionVars false

namespace BSpline

open Finset

section
variable {K : Type} [Add K] [Sub K] [Mul K] [Div K] [Neg K] [Zero K] [One K] [NatCast K] [Cmp K] {d : ℕ}

/-- `x` is `y` with a count -/
def Counts {α : Type} (x : Exec (α × ℕ)) (y : Exec α) : Prop := x.map Prod.fst = y

theorem Counts.bind {α β : Type} {x : Exec (α × ℕ)} {y : Exec α} {f : α × ℕ → Exec (β × ℕ)} {g : α → Exec β}
    (h : Counts x y) (hf : ∀ a t, Counts (f (a, t)) (g a)) : Counts (x >>= f) (y >>= g) := by
  subst h
  cases x with
  | error e => rfl
  | ok a => exact hf a.1 a.2

theorem Counts.bind_same {α β : Type} (x : Exec α) {f : α → Exec (β × ℕ)} {g : α → Exec β}
    (hf : ∀ a, Counts (f a) (g a)) : Counts (x >>= f) (x >>= g) := by
  cases x with
  | error e => rfl
  | ok a => exact hf a

theorem Counts.ite {α : Type} {c : Prop} [Decidable c] {x x' : Exec (α × ℕ)} {y y' : Exec α} (h : Counts x y)
    (h' : Counts x' y') : Counts (if c then x else x') (if c then y else y') := by
  split; exacts [h, h']

theorem Counts.foldlM {α : Type} {f : α × ℕ → ℕ → Exec (α × ℕ)} {g : α → ℕ → Exec α}
    (h : ∀ a t i, Counts (f (a, t) i) (g a i)) (l : List ℕ) : ∀ a t, Counts (l.foldlM f (a, t)) (l.foldlM g a) := by
  induction l with
  | nil => intros; rfl
  | cons i l ih => intro a t; simp only [List.foldlM_cons]; exact (h a t i).bind ih

theorem basisT_counts (U : List K) (k n : ℕ) (u : K) (p : ℕ) : ∀ i, Counts (basisT U k n u p i) (basis U k n u p i) := by
  induction p with
  | zero => intro i; rw [basisT, Counts]; cases basis U k n u 0 i <;> rfl
  | succ h ih =>
    intro i
    simp only [basisT, basis]
    have h2 : ∀ (x : K) (t : ℕ), Counts
        (do
          let a ← idx U (i + 1 + (h + 1))
          let b ← idx U (i + 1)
          let (y, t') ← if Cmp.eq a b then pure (0, 0) else do
            let ugp ← idx U (i + 1 + (h + 1))
            let ugh ← idx U (i + 1 + h + 1)
            let ug ← idx U (i + 1)
            let (N, t) ← basisT U k n u h (i + 1)
            pure ((ugp - u) / (ugh - ug) * N, t)
          pure (x + y, 1 + t + t'))
        (do
          let a ← idx U (i + 1 + (h + 1))
          let b ← idx U (i + 1)
          let y ← if Cmp.eq a b then pure 0 else do
            let ugp ← idx U (i + 1 + (h + 1))
            let ugh ← idx U (i + 1 + h + 1)
            let ug ← idx U (i + 1)
            let N ← basis U k n u h (i + 1)
            pure ((ugp - u) / (ugh - ug) * N)
          pure (x + y)) := fun x t =>
      .bind_same _ fun _ => .bind_same _ fun _ => .ite rfl <|
        .bind_same _ fun _ => .bind_same _ fun _ => .bind_same _ fun _ => (ih _).bind fun _ _ => rfl
    exact .bind_same _ fun a => .bind_same _ fun b => .ite (h2 _ _) <|
      .bind_same _ fun _ => .bind_same _ fun _ => .bind_same _ fun _ => (ih _).bind fun _ _ => h2 _ _

/-- **C115** The counting functions return the results of the model, in any arithmetic and for any
curve, panics included. -/
theorem C115_faithful (c : Curve K d) (u : K) (k : ℕ) :
    (c.evaluateDerivativeT u k).map Prod.fst = c.evaluateDerivative u k := by
  change Counts _ _
  rw [Curve.evaluateDerivativeT, Curve.evaluateDerivative]
  refine .ite rfl (.ite ?_ rfl)
  refine .bind_same _ fun n => .bind_same _ fun l => .bind_same _ fun pk => .bind_same _ fun lo => .bind_same _ fun hi =>
    .bind ?_ fun v t => rfl
  refine Counts.foldlM (fun a t i => ?_) _ _ _
  refine Counts.bind (y := c.knots.evaluate k i c.degree u) ?_ fun N t' => .bind_same _ fun m => .bind_same _ fun col => rfl
  exact .bind_same _ fun _ => .bind_same _ fun _ => .bind_same _ fun _ => basisT_counts ..

/-! ### A single basis function -/

theorem bind_ok_inv' {α β : Type} {x : Exec α} {f : α → Exec β} {b : β} (h : (x >>= f) = .ok b) :
    ∃ a, x = .ok a ∧ f a = .ok b := by
  cases x with
  | error e => exact absurd h (by simp)
  | ok a => exact ⟨a, rfl, h⟩

theorem idx_inv {U : List K} {j : ℕ} {x : K} (hx : idx U j = .ok x) : U[j]? = some x := by
  rw [idx] at hx
  split at hx
  · rename_i y hy; rw [hy]; exact congrArg some (Except.ok.inj hx)
  · cases hx

theorem basisT_succ_inv {U : List K} {k n q i t : ℕ} {u v : K} (h : basisT U k n u (q + 1) i = .ok (v, t)) :
    ∃ t1 t2 a b a' b', t = 1 + t1 + t2 ∧ U[i + (q + 1)]? = some a ∧ U[i]? = some b ∧ U[i + 1 + (q + 1)]? = some a' ∧
      U[i + 1]? = some b' ∧ (Cmp.eq a b = true ∧ t1 = 0 ∨ Cmp.eq a b = false ∧ ∃ N, basisT U k n u q i = .ok (N, t1)) ∧
      (Cmp.eq a' b' = true ∧ t2 = 0 ∨ Cmp.eq a' b' = false ∧ ∃ N, basisT U k n u q (i + 1) = .ok (N, t2)) := by
  simp only [basisT] at h
  obtain ⟨a, ha, h⟩ := bind_ok_inv' h
  obtain ⟨b, hb, h⟩ := bind_ok_inv' h
  have hr : ∀ (x : K) (s : ℕ), (do
        let a ← idx U (i + 1 + (q + 1))
        let b ← idx U (i + 1)
        let (y, t') ← if Cmp.eq a b then pure (0, 0) else do
          let ugp ← idx U (i + 1 + (q + 1))
          let ugh ← idx U (i + 1 + q + 1)
          let ug ← idx U (i + 1)
          let (N, t) ← basisT U k n u q (i + 1)
          pure ((ugp - u) / (ugh - ug) * N, t)
        pure (x + y, 1 + s + t')) = Except.ok (v, t) →
      ∃ t2 a' b', t = 1 + s + t2 ∧ U[i + 1 + (q + 1)]? = some a' ∧ U[i + 1]? = some b' ∧
        (Cmp.eq a' b' = true ∧ t2 = 0 ∨ Cmp.eq a' b' = false ∧ ∃ N, basisT U k n u q (i + 1) = .ok (N, t2)) := by
    intro x s h
    obtain ⟨a', ha', h⟩ := bind_ok_inv' h
    obtain ⟨b', hb', h⟩ := bind_ok_inv' h
    by_cases e : Cmp.eq a' b' = true
    · rw [if_pos e] at h
      cases h
      exact ⟨0, a', b', rfl, idx_inv ha', idx_inv hb', Or.inl ⟨e, rfl⟩⟩
    · rw [if_neg e] at h
      obtain ⟨_, -, h⟩ := bind_ok_inv' h
      obtain ⟨_, -, h⟩ := bind_ok_inv' h
      obtain ⟨_, -, h⟩ := bind_ok_inv' h
      obtain ⟨⟨N, t2⟩, h3, h⟩ := bind_ok_inv' h
      cases h
      exact ⟨t2, a', b', rfl, idx_inv ha', idx_inv hb', Or.inr ⟨by simpa using e, N, h3⟩⟩
  by_cases e : Cmp.eq a b = true
  · rw [if_pos e] at h
    obtain ⟨t2, a', b', r1, r2, r3, r4⟩ := hr _ _ h
    exact ⟨0, t2, a, b, a', b', r1, idx_inv ha, idx_inv hb, r2, r3, Or.inl ⟨e, rfl⟩, r4⟩
  · rw [if_neg e] at h
    obtain ⟨_, -, h⟩ := bind_ok_inv' h
    obtain ⟨_, -, h⟩ := bind_ok_inv' h
    obtain ⟨_, -, h⟩ := bind_ok_inv' h
    obtain ⟨⟨N, t1⟩, h3, h⟩ := bind_ok_inv' h
    obtain ⟨t2, a', b', r1, r2, r3, r4⟩ := hr _ _ h
    exact ⟨t1, t2, a, b, a', b', r1, idx_inv ha, idx_inv hb, r2, r3, Or.inr ⟨by simpa using e, N, h3⟩, r4⟩

theorem basisT_le (U : List K) (k n : ℕ) (u : K) (p : ℕ) : ∀ i v t, basisT U k n u p i = .ok (v, t) →
    1 ≤ t ∧ t + 1 ≤ 2 ^ (p + 1) := by
  induction p with
  | zero =>
    intro i v t h
    obtain ⟨a, -, h⟩ := bind_ok_inv' h
    cases h
    exact ⟨le_rfl, le_rfl⟩
  | succ q ih =>
    intro i v t h
    obtain ⟨t1, t2, a, b, a', b', rfl, -, -, -, -, h1, h2⟩ := basisT_succ_inv h
    have e1 : t1 + 1 ≤ 2 ^ (q + 1) := by
      rcases h1 with ⟨-, rfl⟩ | ⟨-, N, h1⟩
      · exact Nat.one_le_two_pow
      · exact (ih _ _ _ h1).2
    have e2 : t2 + 1 ≤ 2 ^ (q + 1) := by
      rcases h2 with ⟨-, rfl⟩ | ⟨-, N, h2⟩
      · exact Nat.one_le_two_pow
      · exact (ih _ _ _ h2).2
    rw [pow_succ 2 (q + 1)]
    omega

/-- **C115** A basis function of degree `p` costs at most `2^(p + 1) - 1` calls. In any arithmetic. -/
theorem C115_basis_bound {U : List K} {k n p i t : ℕ} {u v : K} (h : basisT U k n u p i = .ok (v, t)) :
    1 ≤ t ∧ t ≤ 2 ^ (p + 1) - 1 := by
  have := basisT_le U k n u p i v t h
  omega

theorem basisT_exact (U : List K) (k n : ℕ) (u : K) (p : ℕ) : ∀ i v t, basisT U k n u p i = .ok (v, t) →
    (∀ a b x y, i ≤ a → a < b → b ≤ i + p + 1 → U[a]? = some x → U[b]? = some y → Cmp.eq y x = false) →
    t + 1 = 2 ^ (p + 1) := by
  induction p with
  | zero =>
    intro i v t h _
    obtain ⟨a, -, h⟩ := bind_ok_inv' h
    cases h
    rfl
  | succ q ih =>
    intro i v t h hne
    obtain ⟨t1, t2, a, b, a', b', rfl, ha, hb, ha', hb', h1, h2⟩ := basisT_succ_inv h
    rcases h1 with ⟨h1, -⟩ | ⟨-, N, h1⟩
    · rw [hne i (i + (q + 1)) b a le_rfl (by omega) (by omega) hb ha] at h1; cases h1
    rcases h2 with ⟨h2, -⟩ | ⟨-, N, h2⟩
    · rw [hne (i + 1) (i + 1 + (q + 1)) b' a' (by omega) (by omega) (by omega) hb' ha'] at h2; cases h2
    have e1 := ih _ _ _ h1 (fun a b x y p1 p2 p3 => hne a b x y (by omega) p2 (by omega))
    have e2 := ih _ _ _ h2 (fun a b x y p1 p2 p3 => hne a b x y (by omega) p2 (by omega))
    rw [pow_succ 2 (q + 1)]
    omega

/-- **C115** It costs exactly `2^(p + 1) - 1` calls if its knots are pairwise different. In any
arithmetic. -/
theorem C115_basis_exact {U : List K} {k n p i t : ℕ} {u v : K} (h : basisT U k n u p i = .ok (v, t))
    (hne : ∀ a b x y, i ≤ a → a < b → b ≤ i + p + 1 → U[a]? = some x → U[b]? = some y → Cmp.eq y x = false) :
    t = 2 ^ (p + 1) - 1 := by
  have := basisT_exact U k n u p i v t h hne
  omega

/-- **C115** Each entry of the matrix of the penalty of order `kappa` costs `2^kappa - 1` calls of
`difference_operator`. -/
theorem C115_difference_operator {κ : ℕ} (h : 1 ≤ κ) (i j : ℕ) :
    differenceOperatorT κ i j = (differenceOperator κ i j, 2 ^ κ - 1) := by
  induction κ, h using Nat.le_induction generalizing i with
  | base => rfl
  | succ k hk ih =>
    obtain ⟨k, rfl⟩ : ∃ m, k = m + 1 := ⟨k - 1, by omega⟩
    rw [differenceOperatorT, differenceOperator]
    simp only [ih]
    congr 1
    have := Nat.one_le_two_pow (n := k + 1)
    rw [pow_succ 2 (k + 1)]
    omega

/-! ### Evaluation -/

/-- the count of a successful call -/
def callsOf {α : Type} : Exec (α × ℕ) → ℕ
  | .ok (_, t) => t
  | .error _ => 0

theorem foldlM_calls {e : ℕ → Exec (K × ℕ)} {M : Exec (List (Pt K d))} (l : List ℕ) : ∀ (a b : Pt K d) (s t : ℕ),
    l.foldlM (fun (value, t) i => do
      let (N, t') ← e i
      let m ← M
      let col ← column m i
      pure (value + scale N col, t + t')) (a, s) = .ok (b, t) →
    (∀ i ∈ l, ∃ N, e i = .ok (N, callsOf (e i))) ∧ t = s + (l.map fun i => callsOf (e i)).sum := by
  induction l with
  | nil =>
    intro a b s t h
    cases h
    exact ⟨by simp, by simp⟩
  | cons i l ih =>
    intro a b s t h
    rw [List.foldlM_cons] at h
    obtain ⟨⟨a', s'⟩, h1, h2⟩ := bind_ok_inv' h
    obtain ⟨⟨N, t'⟩, h3, h1⟩ := bind_ok_inv' h1
    obtain ⟨_, -, h1⟩ := bind_ok_inv' h1
    obtain ⟨_, -, h1⟩ := bind_ok_inv' h1
    cases h1
    obtain ⟨h4, h5⟩ := ih _ _ _ _ h2
    refine ⟨fun j hj => ?_, ?_⟩
    · rcases List.mem_cons.mp hj with rfl | hj
      · exact ⟨N, by rw [h3]; rfl⟩
      · exact h4 j hj
    · rw [List.map_cons, List.sum_cons, h5, h3]
      simp only [callsOf]
      omega

theorem evaluateDerivativeT_inv {c : Curve K d} {u : K} {k t : ℕ} {r : Except (CurveError K) (Pt K d)}
    (h : c.evaluateDerivativeT u k = .ok (r, t)) :
    (t = 0 ∧ ((Cmp.le 0 u && Cmp.le u 1) = false ∨ c.degree < k)) ∨
    ∃ n l lo, c.segments = .ok n ∧ c.knots.findIdx u k .leftOrEqual = .ok l ∧ usub l (c.degree - k) = .ok lo ∧
      k ≤ c.degree ∧ k ≤ n ∧
      (∀ i, lo ≤ i → i < lo + (n - k + 1 - lo) → ∃ N, c.knots.evaluateT k i c.degree u =
        .ok (N, callsOf (c.knots.evaluateT k i c.degree u))) ∧
      t = ((List.range' lo (n - k + 1 - lo)).map fun i => callsOf (c.knots.evaluateT k i c.degree u)).sum := by
  rw [Curve.evaluateDerivativeT] at h
  split at h
  · rename_i h0; cases h; exact Or.inl ⟨rfl, Or.inl (by simpa only [Bool.not_eq_true'] using h0)⟩
  simp only at h
  split at h
  swap
  · rename_i h0; cases h; exact Or.inl ⟨rfl, Or.inr (by omega)⟩
  rename_i hk
  refine Or.inr ?_
  obtain ⟨n, hn, h⟩ := bind_ok_inv' h
  obtain ⟨l, hl, h⟩ := bind_ok_inv' h
  rw [usub_ok hk, ok_bind] at h
  obtain ⟨lo, hlo, h⟩ := bind_ok_inv' h
  obtain ⟨hi, hhi, h⟩ := bind_ok_inv' h
  obtain ⟨⟨v, t'⟩, hf, h⟩ := bind_ok_inv' h
  cases h
  have hkn : k ≤ n ∧ hi = n - k := by
    rw [usub] at hhi
    split at hhi
    · rename_i h1; exact ⟨h1, (Except.ok.inj hhi).symm⟩
    · cases hhi
  obtain ⟨h1, rfl⟩ := hkn
  rw [forRangeIncl] at hf
  obtain ⟨h2, h3⟩ := foldlM_calls _ _ _ _ _ hf
  refine ⟨n, l, lo, hn, hl, hlo, hk, h1, fun i hi hi' => h2 i (List.mem_range'_1.mpr ⟨hi, hi'⟩), ?_⟩
  rw [h3, Nat.zero_add]

theorem evaluateT_inv {kn : Knots K} {k i p : ℕ} {u : K} {x : K × ℕ} (h : kn.evaluateT k i p u = .ok x) :
    ∃ U n, idx kn.Uk k = .ok U ∧ kn.segments = .ok n ∧ k ≤ p ∧ basisT U k n u (p - k) i = .ok x := by
  obtain ⟨U, hU, h⟩ := bind_ok_inv' h
  obtain ⟨n, hn, h⟩ := bind_ok_inv' h
  obtain ⟨q, hq, h⟩ := bind_ok_inv' h
  rw [usub] at hq
  split at hq
  · cases hq; rename_i hk; exact ⟨U, n, hU, hn, hk, h⟩
  · cases hq

theorem sum_map_range'_le {f : ℕ → ℕ} {m b lo : ℕ} (h : ∀ i, lo ≤ i → i < lo + m → f i ≤ b) :
    ((List.range' lo m).map f).sum ≤ m * b := by
  have := List.sum_le_card_nsmul ((List.range' lo m).map f) b (by
    intro x hx
    obtain ⟨i, hi, rfl⟩ := List.mem_map.mp hx
    have := List.mem_range'_1.mp hi
    exact h i this.1 this.2)
  simpa using this

/-- the calls of an evaluation whose sum starts at `lo` -/
theorem evaluateDerivativeT_le {c : Curve K d} {u : K} {k t : ℕ} {r : Except (CurveError K) (Pt K d)}
    (h : c.evaluateDerivativeT u k = .ok (r, t)) :
    t = 0 ∨ ∃ n l lo, c.segments = .ok n ∧ c.knots.findIdx u k .leftOrEqual = .ok l ∧ usub l (c.degree - k) = .ok lo ∧
      t ≤ (n - k + 1 - lo) * (2 ^ (c.degree - k + 1) - 1) := by
  rcases evaluateDerivativeT_inv h with ⟨h, -⟩ | ⟨n, l, lo, h1, h2, h3, -, -, h4, h5⟩
  · exact Or.inl h
  · refine Or.inr ⟨n, l, lo, h1, h2, h3, ?_⟩
    rw [h5]
    apply sum_map_range'_le
    intro i hi hi'
    obtain ⟨N, e⟩ := h4 i hi hi'
    obtain ⟨U, n', -, -, -, hb⟩ := evaluateT_inv e
    exact (C115_basis_bound hb).2

/-- **C115** An evaluation makes at most `(n - k + 1) (2^(p - k + 1) - 1)` calls of `basis`, where `p`
is the degree and `n` the number of segments. In any arithmetic, for any curve. -/
theorem C115_evaluate_bound {c : Curve K d} {u : K} {k n t : ℕ} {r : Except (CurveError K) (Pt K d)}
    (h : c.evaluateDerivativeT u k = .ok (r, t)) (hn : c.segments = .ok n) :
    t ≤ (n - k + 1) * (2 ^ (c.degree - k + 1) - 1) := by
  rcases evaluateDerivativeT_le h with h | ⟨n', l, lo, h1, -, -, h2⟩
  · omega
  · rw [hn] at h1
    cases h1
    exact h2.trans (Nat.mul_le_mul_right _ (by omega))

end

variable {K : Type} [Field K] [LinearOrder K] [IsStrictOrderedRing K] {d : ℕ}

theorem strict_knots {p n : ℕ} {U : List K} (hU : ClampedKnots 0 1 p n U) (hr : SimpleBelow U 1) {i j : ℕ} (hi : p ≤ i)
    (hij : i < j) (hj : j ≤ n + 1) : fn U i < fn U j := by
  have hcl := hU.clamp
  have step : ∀ m, p ≤ m → m ≤ n → fn U m < fn U (m + 1) := by
    intro m h1 h2
    rcases Nat.eq_or_lt_of_le h1 with rfl | h1
    · rcases Nat.lt_or_ge p n with h3 | h3
      · rw [hcl.left p le_rfl]; exact (hcl.inner _ (by omega) (by omega)).1
      · rw [hcl.left p le_rfl, hcl.right (p + 1) (by omega)]; exact hcl.lt
    · rcases Nat.eq_or_lt_of_le h2 with rfl | h2
      · rw [hcl.right _ le_rfl]; exact (hcl.inner m h1 le_rfl).2
      · refine lt_of_le_of_ne (hcl.mono (Nat.le_succ m)) (fun e => ?_)
        exact hr.not_eq hU h1 (by omega) (hcl.inner m h1 (by omega)).2 e.symm
  calc fn U i < fn U (i + 1) := step i hi (by omega)
    _ ≤ fn U j := hcl.mono hij

/-- **C115** (dependence on the parameter) For a curve with simple knots an evaluation at `0` makes at
least `(n + 1 - 2 p) (2^(p + 1) - 1)` calls, as the sum runs over all basis functions, although only
one of them is not zero there; one inside the last segment makes at most `(p + 1) (2^(p + 1) - 1)`. -/
theorem C115_position {c : Curve K d} {p n t : ℕ} {U : List K} {P : List (Pt K d)} {r : Except (CurveError K) (Pt K d)} {u : K}
    (hc : ValidOn 0 1 c p n U P) (hr : SimpleBelow U 1) (h : c.evaluateDerivativeT u 0 = .ok (r, t)) :
    (u = 0 → (n + 1 - 2 * p) * (2 ^ (p + 1) - 1) ≤ t) ∧
    (∀ x, U[n]? = some x → x < u → u < 1 → t ≤ (p + 1) * (2 ^ (p + 1) - 1)) := by
  obtain rfl := hc.eq_canon
  obtain ⟨-, hU, hP⟩ := hc
  have hlen := hU.length
  have hp := hU.le
  have hcl := hU.clamp
  have hseg : (canon p U P).segments = .ok n := by
    rw [Curve.segments, canon_points, canonPts_segments U P hP]
  have hfind := findIdx_leftOrEqual_ok hU.length hU.le (Nat.zero_le p) u
  simp only [Nat.add_zero, Nat.sub_zero] at hfind
  have hb := lleq_bounds (fn U) u (n - p) p
  have hz : (canon p U P).knots.findIdx u 0 .leftOrEqual = .ok (lleq (fn U) u (n - p) p) := hfind
  constructor
  · rintro rfl
    rcases evaluateDerivativeT_inv h with ⟨-, h0 | h0⟩ | ⟨n', l, lo, h1, h2, h3, -, -, h4, h5⟩
    · simp [Cmp.le] at h0
    · omega
    rw [hseg] at h1
    cases h1
    rw [hz] at h2
    cases h2
    rcases Nat.lt_or_ge n (2 * p) with h6 | h6
    · rw [show n + 1 - 2 * p = 0 by omega, Nat.zero_mul]; exact Nat.zero_le _
    have hl : lleq (fn U) (0 : K) (n - p) p = p := by
      refine le_antisymm (lleq_le_of_lt ?_ _ _ le_rfl) hb.1
      have := strict_knots hU hr le_rfl (Nat.lt_succ_self p) (by omega)
      rwa [hcl.left p le_rfl] at this
    rw [hl, canon_degree, Nat.sub_zero, usub_ok le_rfl, Nat.sub_self] at h3
    cases h3
    have hex : ∀ i, p ≤ i → i ≤ n - p → callsOf ((canon p U P).knots.evaluateT 0 i p 0) = 2 ^ (p + 1) - 1 := by
      intro i hi hi'
      obtain ⟨N, e⟩ := h4 i (Nat.zero_le _) (by omega)
      obtain ⟨U', n'', hU', -, -, hb'⟩ := evaluateT_inv e
      rw [canon_knots, canonKnots_idx (Nat.zero_le p), List.drop_zero, Nat.mul_zero, Nat.sub_zero, List.take_length] at hU'
      cases hU'
      refine C115_basis_exact hb' (fun a b x y q1 q2 q3 hx hy => ?_)
      have hs := strict_knots hU hr (i := a) (j := b) (by omega) q2 (by omega)
      rw [show fn U a = x by simp [fn, hx], show fn U b = y by simp [fn, hy]] at hs
      simpa [Cmp.eq] using hs.ne'
    have hm : ((List.range' p (n + 1 - 2 * p)).map fun i => callsOf ((canon p U P).knots.evaluateT 0 i p 0)).sum =
        (n + 1 - 2 * p) * (2 ^ (p + 1) - 1) := by
      rw [List.map_congr_left (g := fun _ => 2 ^ (p + 1) - 1) (fun i hi => by
        have := List.mem_range'_1.mp hi
        exact hex i this.1 (by omega))]
      simp
    have hsplit : List.range' 0 (n + 1) = List.range' 0 p ++ (List.range' p (n + 1 - 2 * p) ++
        List.range' (p + (n + 1 - 2 * p)) p) := by
      rw [List.range'_append_1]
      conv_rhs => rw [show List.range' p (n + 1 - 2 * p + p) = List.range' (0 + p) (n + 1 - 2 * p + p) by rw [Nat.zero_add]]
      rw [List.range'_append_1]
      congr 1
      omega
    rw [canon_degree, Nat.sub_zero, Nat.sub_zero, hsplit, List.map_append, List.sum_append, List.map_append,
      List.sum_append, hm] at h5
    omega
  · intro x hx h0 h1
    have hx' : fn U n = x := by simp [fn, hx]
    rcases evaluateDerivativeT_le h with h | ⟨n', l, lo, h2, h3, h4, h5⟩
    · omega
    rw [hseg] at h2
    cases h2
    rw [hz] at h3
    cases h3
    have hpos : 0 < u := by
      refine lt_of_le_of_lt ?_ h0
      rw [← hx', ← hcl.left 0 (Nat.zero_le p)]
      exact hcl.mono (Nat.zero_le n)
    have hi := (lleq_insert hU hpos h1 (fun y a b => hr y a (b.trans h1))).2
    have hl : lleq (fn U) u (n - p) p = n := by
      refine le_antisymm (by omega) (le_of_not_gt fun h6 => ?_)
      have := hcl.mono (show lleq (fn U) u (n - p) p + 1 ≤ n by omega)
      rw [hx'] at this
      exact absurd (hi.trans this) (not_le.mpr h0)
    rw [hl, canon_degree, Nat.sub_zero, usub_ok hp] at h4
    cases h4
    rw [canon_degree, Nat.sub_zero, Nat.sub_zero, show n + 1 - (n - p) = p + 1 by omega] at h5
    exact h5

/-! ### Witness -/

/-- knots of degree 2 with three simple interior knots -/
def costU : List ℚ := [0, 0, 0, 1 / 4, 1 / 2, 3 / 4, 1, 1, 1]

/-- six control points in the plane -/
def costP : List (Pt ℚ 2) := [![0, 0], ![1, 2], ![2, 0], ![3, 1], ![4, 1], ![5, 0]]

example : ValidOn 0 1 (canon 2 costU costP) 2 5 costU costP := validOn_canon (by decide +kernel) (by decide +kernel)

example : SimpleBelow costU 1 := by
  intro x _ h1
  have e : costU = [0, 0, 0, 1 / 4, 1 / 2, 3 / 4, 1, 1, 1] := rfl
  rw [e]
  simp only [List.count_cons, List.count_nil, beq_iff_eq]
  split_ifs <;> first | omega | (exfalso; linarith)

example : callsOf ((canon 2 costU costP).evaluateDerivativeT 0 0) = 32 ∧
    callsOf ((canon 2 costU costP).evaluateDerivativeT (7 / 8) 0) = 16 := by decide +kernel

end BSpline
