import Verif.Props.IeeeEnds
import Verif.Props.MergeValue

/-!
# C142: Joining many curves

`append` accepts two curves with `m + 1` and `o + 1` control points exactly if `m ≤ o < m + p` (C29). Here a list of
curves is joined in any order of merging, that is along a binary tree. Whether this succeeds depends only on the
numbers of control points and on the tree, and for curves of one size the lists which can be joined at all are found.
-/

namespace BSpline

/-- an order of merging: the leaves from left to right are the curves -/
inductive JoinTree (α : Type) : Type where
  | leaf (a : α)
  | node (l r : JoinTree α)

namespace JoinTree

variable {α : Type}

/-- the curves to be joined, in their order along the joined curve -/
def toList : JoinTree α → List α
  | leaf a => [a]
  | node l r => l.toList ++ r.toList

/-- the curve the joined curve begins with -/
def first : JoinTree α → α
  | leaf a => a
  | node l _ => l.first

/-- the curve the joined curve ends with -/
def last : JoinTree α → α
  | leaf a => a
  | node _ r => r.last

/-- the same tree with other leaves -/
def map {β : Type} (f : α → β) : JoinTree α → JoinTree β
  | leaf a => leaf (f a)
  | node l r => node (l.map f) (r.map f)

/-- The joined curve has one control point more than this, if the leaves are the same numbers for the curves. -/
def segments (p : ℕ) : JoinTree ℕ → ℕ
  | leaf m => m
  | node l r => l.segments p + r.segments p + 1 - p

/-- At every node, the right part has at least as many control points as the left one and fewer than `p` more. -/
def Fits (p : ℕ) : JoinTree ℕ → Prop
  | leaf _ => True
  | node l r => l.Fits p ∧ r.Fits p ∧ l.segments p ≤ r.segments p ∧ r.segments p < l.segments p + p

end JoinTree

section

variable {K : Type} [Field K] [LinearOrder K] [IsStrictOrderedRing K] {d : ℕ}

/-- `append` at every node of the tree -/
def joinTree (solver : Solver K d) : JoinTree (Curve K d) → Exec (Curve K d)
  | .leaf c => pure c
  | .node l r => do
    let a ← joinTree solver l
    let b ← joinTree solver r
    a.append solver b

/-- The leaves are clamped curves of degree `p` on `[0, 1]` with one control point more than the numbers of `s`. -/
def ValidLeaves (p : ℕ) : JoinTree (Curve K d) → JoinTree ℕ → Prop
  | .leaf c, .leaf m => ∃ U P, ValidOn 0 1 c p m U P
  | .node l r, .node s t => ValidLeaves p l s ∧ ValidLeaves p r t
  | _, _ => False

variable {p m o : ℕ} {a b : Curve K d} {V W : List K} {S T : List (Pt K d)}

theorem append_fits (hp : 0 < p) (ha : ValidOn 0 1 a p m V S) (hb : ValidOn 0 1 b p o W T) (solver : Solver K d)
    (h : m ≤ o ∧ o < m + p) : ∃ c U P, a.append solver b = .ok c ∧ ValidOn 0 1 c p (m + o + 1 - p) U P ∧
      ∀ x y z w, Ends a x y → Ends b z w → Ends c x w := by
  have e := merge_valid (ua := []) (ub := []) ha.1 hb.1 ha.2.1 hb.2.1 ha.2.2 hb.2.2 hp h.1 h.2 solver
  generalize shiftsOf solver p m o V W [] [] S T = x at e
  have hl : (mergedPts p m o V W (shiftL p m S x) (shiftR p o T x)).length = m + o + 1 - p + 1 := by
    have := ha.2.1.le; have := hb.2.1.le
    simp [mergedPts]; omega
  refine ⟨_, _, _, ?_, validOn_canon (mergedU_clamped ha.2.1 hb.2.1) hl, ?_⟩
  · rw [Curve.append, merge, e]; rfl
  · intro x y z w h1 h2
    have ea := ha.eq_canon
    have eb := hb.eq_canon
    subst ea eb
    exact C129_merge (shaped_canon ha.2.1.length ha.2.2 ha.2.1.le) rfl
      (shaped_canon hb.2.1.length hb.2.2 hb.2.1.le) rfl h1 h2 e

theorem ValidOn.exists_ends (ha : ValidOn 0 1 a p m V S) : ∃ x y, Ends a x y := by
  have hS : S ≠ [] := by have := ha.2.2; intro h; simp [h] at this
  refine ⟨S.head hS, S.getLast hS, ?_⟩
  rw [ha.eq_canon, ends_canon]
  exact ⟨List.head?_eq_some_head hS, List.getLast?_eq_some_getLast hS⟩

theorem append_panics (hp : 0 < p) (ha : ValidOn 0 1 a p m V S) (hb : ValidOn 0 1 b p o W T) (solver : Solver K d)
    (h : ¬ (m ≤ o ∧ o < m + p)) : ∃ e, a.append solver b = .error e := by
  obtain ⟨e, he⟩ := C29_panics (ua := []) (ub := []) ha.1 hb.1 ha.2.1 hb.2.1 ha.2.2 hb.2.2 hp solver (by omega)
  exact ⟨e, by rw [Curve.append, merge, he]; rfl⟩

/-- **C142** Joining clamped curves on `[0, 1]` along a tree returns a clamped curve on `[0, 1]` with the expected
number of control points if the sizes fit at every node, and panics otherwise, whatever the linear solver returns. The
joined curve starts where the first curve starts and ends where the last curve ends. -/
theorem C142_join (hp : 0 < p) (solver : Solver K d) : ∀ {t : JoinTree (Curve K d)} {s : JoinTree ℕ},
    ValidLeaves p t s →
    (s.Fits p → ∃ c U P, joinTree solver t = .ok c ∧ ValidOn 0 1 c p (s.segments p) U P ∧
      ∃ x y z w, Ends t.first x y ∧ Ends t.last z w ∧ Ends c x w) ∧
    (¬ s.Fits p → ∃ e, joinTree solver t = .error e)
  | .leaf c, .leaf m, h => by
    obtain ⟨U, P, h⟩ := h
    refine ⟨fun _ => ⟨c, U, P, rfl, h, ?_⟩, fun h => (h trivial).elim⟩
    obtain ⟨x, y, hx⟩ := h.exists_ends
    exact ⟨x, y, x, y, hx, hx, hx⟩
  | .node l r, .node s t, h => by
    obtain ⟨l1, l2⟩ := C142_join hp solver h.1
    obtain ⟨r1, r2⟩ := C142_join hp solver h.2
    by_cases hl : s.Fits p
    swap
    · obtain ⟨e, he⟩ := l2 hl
      refine ⟨fun hf => (hl hf.1).elim, fun _ => ⟨e, ?_⟩⟩
      rw [joinTree, he]; rfl
    obtain ⟨a, U, P, ea, ha, za⟩ := l1 hl
    by_cases hr : t.Fits p
    swap
    · obtain ⟨e, he⟩ := r2 hr
      refine ⟨fun hf => (hr hf.2.1).elim, fun _ => ⟨e, ?_⟩⟩
      rw [joinTree, ea, he]; rfl
    obtain ⟨b, V, Q, eb, hb, zb⟩ := r1 hr
    have e : joinTree solver (.node l r) = a.append solver b := by rw [joinTree, ea, eb]; rfl
    rw [e]
    constructor
    · intro hf
      obtain ⟨c, W, R, ec, hc, zc⟩ := append_fits hp ha hb solver hf.2.2
      obtain ⟨x, y, z, w, g1, -, g2⟩ := za
      obtain ⟨x', y', z', w', -, g3, g4⟩ := zb
      exact ⟨c, W, R, ec, hc, x, y, z', w', g1, g3, zc _ _ _ _ g2 g4⟩
    · intro hf
      exact append_panics hp ha hb solver fun h => hf ⟨hl, hr, h⟩
  | .leaf _, .node _ _, h => h.elim
  | .node _ _, .leaf _, h => h.elim

end

/-! ### Curves of one size -/

namespace JoinTree

/-- all leaves are `m` -/
def Const (m : ℕ) (s : JoinTree ℕ) : Prop := ∀ x ∈ s.toList, x = m

variable {p m : ℕ}

theorem toList_pos {α : Type} : ∀ t : JoinTree α, 0 < t.toList.length
  | leaf _ => by simp [toList]
  | node l r => by have := toList_pos l; simp [toList]; omega

theorem segments_const (hpm : p ≤ m) : ∀ {s : JoinTree ℕ}, s.Const m →
    s.segments p + 1 = s.toList.length * (m + 1 - p) + p
  | leaf a, h => by
    have : a = m := h a (by simp [toList])
    simp [segments, toList]; omega
  | node l r, h => by
    have h1 := segments_const hpm (s := l) fun x hx => h x (by simp [toList, hx])
    have h2 := segments_const hpm (s := r) fun x hx => h x (by simp [toList, hx])
    have h3 := toList_pos r
    have h4 : 1 * 1 ≤ r.toList.length * (m + 1 - p) := Nat.mul_le_mul h3 (by omega)
    rw [segments, toList, List.length_append, add_mul]
    omega

/-- For curves of one size, the numbers of curves on both sides of a node decide. -/
theorem fits_node (hpm : p ≤ m) {l r : JoinTree ℕ} (h : (node l r).Const m) : (node l r).Fits p ↔
    l.Fits p ∧ r.Fits p ∧ l.toList.length ≤ r.toList.length ∧
      (r.toList.length - l.toList.length) * (m + 1 - p) < p := by
  have h1 := segments_const hpm (s := l) fun x hx => h x (by simp [toList, hx])
  have h2 := segments_const hpm (s := r) fun x hx => h x (by simp [toList, hx])
  rw [Fits]
  refine and_congr_right fun _ => and_congr_right fun _ => ?_
  have hq : 0 < m + 1 - p := by omega
  generalize m + 1 - p = q at *
  constructor
  · rintro ⟨g1, g2⟩
    have : l.toList.length ≤ r.toList.length := Nat.le_of_mul_le_mul_right (by omega) hq
    refine ⟨this, ?_⟩
    rw [Nat.sub_mul]; omega
  · rintro ⟨g1, g2⟩
    have := Nat.mul_le_mul_right q g1
    rw [Nat.sub_mul] at g2
    omega

/-- If the curves are large, then every node of a fitting tree has two halves. -/
theorem fits_pow (hpm : p ≤ m) (hm : 2 * p ≤ m + 1) : ∀ {s : JoinTree ℕ}, s.Const m → s.Fits p →
    ∃ k, s.toList.length = 2 ^ k
  | leaf a, _, _ => ⟨0, rfl⟩
  | node l r, h, hf => by
    obtain ⟨h1, h2, h3, h4⟩ := (fits_node hpm h).1 hf
    obtain ⟨k, hk⟩ := fits_pow hpm hm (fun x hx => h x (by simp [toList, hx])) h1
    have : r.toList.length - l.toList.length = 0 := by
      by_contra hn
      have := Nat.mul_le_mul (Nat.one_le_iff_ne_zero.2 hn) (show p ≤ m + 1 - p by omega)
      omega
    refine ⟨k + 1, ?_⟩
    rw [toList, List.length_append, pow_succ]; omega

@[simp] theorem toList_map {α β : Type} (f : α → β) : ∀ t : JoinTree α, (t.map f).toList = t.toList.map f
  | leaf a => rfl
  | node l r => by simp [map, toList, toList_map f l, toList_map f r]

theorem const_map {α : Type} (t : JoinTree α) : (t.map fun _ => m).Const m := by
  intro x hx; simp at hx; exact hx.2

/-- Small curves can be joined by halving their list. -/
theorem exists_halves {α : Type} (hpm : p ≤ m) (hm : m + 2 ≤ 2 * p) (n : ℕ) : ∀ cs : List α, cs.length = n → cs ≠ [] →
    ∃ t : JoinTree α, t.toList = cs ∧ (t.map fun _ => m).Fits p := by
  induction n using Nat.strong_induction_on with
  | _ n ih =>
    intro cs hn hne
    match cs, hne with
    | [c], _ => exact ⟨leaf c, rfl, trivial⟩
    | c :: c' :: cs, _ =>
      generalize hd : c :: c' :: cs = ds at *
      have h2 : 2 ≤ n := by rw [← hn, ← hd]; simp
      have lt : (ds.take (n / 2)).length = n / 2 := by rw [List.length_take]; omega
      have ld : (ds.drop (n / 2)).length = n - n / 2 := by rw [List.length_drop, hn]
      obtain ⟨l, l1, l2⟩ := ih _ (by omega) _ lt (List.ne_nil_of_length_pos (by omega))
      obtain ⟨r, r1, r2⟩ := ih _ (by omega) _ ld (List.ne_nil_of_length_pos (by omega))
      refine ⟨node l r, by rw [toList, l1, r1, List.take_append_drop], ?_⟩
      refine (fits_node hpm (const_map (node l r))).2 ⟨l2, r2, ?_⟩
      rw [toList_map, toList_map, List.length_map, List.length_map, l1, r1, lt, ld]
      refine ⟨by omega, ?_⟩
      have := Nat.mul_le_mul_right (m + 1 - p) (show n - n / 2 - n / 2 ≤ 1 by omega)
      omega

/-- Any `2 ^ k` curves of one size can be joined by halving their list. -/
theorem exists_halves_pow {α : Type} (hp : 0 < p) (hpm : p ≤ m) (k : ℕ) : ∀ cs : List α, cs.length = 2 ^ k →
    ∃ t : JoinTree α, t.toList = cs ∧ (t.map fun _ => m).Fits p := by
  induction k with
  | zero =>
    intro cs hn
    obtain ⟨c, rfl⟩ := List.length_eq_one_iff.1 hn
    exact ⟨leaf c, rfl, trivial⟩
  | succ k ih =>
    intro cs hn
    rw [pow_succ] at hn
    have lt : (cs.take (2 ^ k)).length = 2 ^ k := by rw [List.length_take]; omega
    have ld : (cs.drop (2 ^ k)).length = 2 ^ k := by rw [List.length_drop, hn]; omega
    obtain ⟨l, l1, l2⟩ := ih _ lt
    obtain ⟨r, r1, r2⟩ := ih _ ld
    refine ⟨node l r, by rw [toList, l1, r1, List.take_append_drop], ?_⟩
    refine (fits_node hpm (const_map (node l r))).2 ⟨l2, r2, ?_⟩
    rw [toList_map, toList_map, List.length_map, List.length_map, l1, r1, lt, ld]
    exact ⟨le_rfl, by simpa using hp⟩

theorem toList_left {α : Type} (cs : List α) (t : JoinTree α) :
    (cs.foldl (fun t x => node t (leaf x)) t).toList = t.toList ++ cs := by
  induction cs generalizing t with
  | nil => simp
  | cons x cs ih => rw [List.foldl_cons, ih]; simp [toList]

theorem toList_right {α : Type} (cs : List α) (t : JoinTree α) :
    (cs.foldl (fun t x => node (leaf x) t) t).toList = cs.reverse ++ t.toList := by
  induction cs generalizing t with
  | nil => simp
  | cons x cs ih => rw [List.foldl_cons, ih]; simp [toList]

theorem fits_left {α : Type} (cs : List α) : ∀ t : JoinTree α,
    ((cs.foldl (fun t x => node t (leaf x)) t).map fun _ => m).Fits p → (t.map fun _ => m).Fits p := by
  induction cs with
  | nil => exact fun t h => h
  | cons x cs ih => exact fun t h => (ih _ h).1

theorem fits_right {α : Type} (hpm : p ≤ m) (cs : List α) : ∀ t : JoinTree α,
    ((cs.foldl (fun t x => node (leaf x) t) t).map fun _ => m).Fits p ↔
      (t.map fun _ => m).Fits p ∧ (cs ≠ [] → (t.toList.length + cs.length - 2) * (m + 1 - p) < p) := by
  induction cs with
  | nil => simp
  | cons x cs ih =>
    intro t
    have := toList_pos t
    have hl : (node (leaf x) t).toList.length = t.toList.length + 1 := by simp [toList]
    have hn := fits_node hpm (l := (leaf x).map fun _ => m) (r := t.map fun _ => m) (const_map (node (leaf x) t))
    rw [List.foldl_cons, ih, hl, List.length_cons,
      show (node (leaf x) t).map (fun _ => m) = node ((leaf x).map fun _ => m) (t.map fun _ => m) from rfl, hn]
    rw [toList_map, toList_map, List.length_map, List.length_map]
    simp only [toList, List.length_singleton, ne_eq, reduceCtorEq, not_false_eq_true, forall_true_left]
    constructor
    · rintro ⟨⟨-, h1, -, h2⟩, h3⟩
      refine ⟨h1, ?_⟩
      cases cs with
      | nil => simpa using h2
      | cons y cs =>
        have := h3 (by simp)
        rwa [show t.toList.length + ((y :: cs).length + 1) - 2 = t.toList.length + 1 + (y :: cs).length - 2 by omega]
    · rintro ⟨h1, h2⟩
      refine ⟨⟨trivial, h1, by omega, lt_of_le_of_lt (Nat.mul_le_mul_right _ (by omega)) h2⟩, fun _ => ?_⟩
      rwa [show t.toList.length + 1 + cs.length - 2 = t.toList.length + (cs.length + 1) - 2 by omega]

end JoinTree

section

variable {K : Type} [Field K] [LinearOrder K] [IsStrictOrderedRing K] {d p m : ℕ}

omit [IsStrictOrderedRing K] in
theorem validLeaves_const : ∀ {t : JoinTree (Curve K d)},
    (∀ c ∈ t.toList, ∃ U P, ValidOn 0 1 c p m U P) → ValidLeaves p t (t.map fun _ => m)
  | .leaf c, h => h c (by simp [JoinTree.toList])
  | .node l r, h => ⟨validLeaves_const fun c hc => h c (by simp [JoinTree.toList, hc]),
      validLeaves_const fun c hc => h c (by simp [JoinTree.toList, hc])⟩

theorem join_const (hp : 0 < p) (solver : Solver K d) {t : JoinTree (Curve K d)}
    (h : ∀ c ∈ t.toList, ∃ U P, ValidOn 0 1 c p m U P) :
    (∃ c, joinTree solver t = .ok c) ↔ (t.map fun _ => m).Fits p := by
  obtain ⟨h1, h2⟩ := C142_join hp solver (validLeaves_const h)
  constructor
  · rintro ⟨c, hc⟩
    by_contra hn
    obtain ⟨e, he⟩ := h2 hn
    rw [hc] at he; cases he
  · intro hf
    obtain ⟨c, -, -, hc, -⟩ := h1 hf
    exact ⟨c, hc⟩

/-- **C142** Curves of degree `p` with `m + 1` control points each can be joined in some order if and only if
`m ≤ 2 p - 2` or their number is a power of two. -/
theorem C142_equal (hp : 0 < p) (solver : Solver K d) {cs : List (Curve K d)} (hne : cs ≠ [])
    (h : ∀ c ∈ cs, ∃ U P, ValidOn 0 1 c p m U P) :
    (∃ t, t.toList = cs ∧ ∃ c, joinTree solver t = .ok c) ↔ m + 2 ≤ 2 * p ∨ ∃ k, cs.length = 2 ^ k := by
  have hpm : p ≤ m := by
    obtain ⟨c, hc⟩ := List.exists_mem_of_ne_nil cs hne
    obtain ⟨U, P, hc⟩ := h c hc
    exact hc.2.1.le
  constructor
  · rintro ⟨t, rfl, ht⟩
    by_cases hm : m + 2 ≤ 2 * p
    · exact .inl hm
    · obtain ⟨k, hk⟩ := JoinTree.fits_pow hpm (by omega) (JoinTree.const_map t) ((join_const hp solver h).1 ht)
      exact .inr ⟨k, by simpa using hk⟩
  · intro hc
    have : ∃ t : JoinTree (Curve K d), t.toList = cs ∧ (t.map fun _ => m).Fits p := by
      rcases hc with hm | ⟨k, hk⟩
      · exact JoinTree.exists_halves hpm hm _ cs rfl hne
      · exact JoinTree.exists_halves_pow hp hpm k cs hk
    obtain ⟨t, rfl, ht⟩ := this
    exact ⟨t, rfl, (join_const hp solver h).2 ht⟩

/-- `append` with one curve after the other, as in a loop -/
def appendAll (solver : Solver K d) (c : Curve K d) (cs : List (Curve K d)) : Exec (Curve K d) :=
  cs.foldlM (fun c x => c.append solver x) c

/-- `prepend` with one curve after the other, as in a loop -/
def prependAll (solver : Solver K d) (c : Curve K d) (cs : List (Curve K d)) : Exec (Curve K d) :=
  cs.foldlM (fun c x => c.prepend solver x) c

omit [IsStrictOrderedRing K] in
theorem appendAll_tree (solver : Solver K d) (cs : List (Curve K d)) (t : JoinTree (Curve K d)) :
    (do let c ← joinTree solver t; appendAll solver c cs) =
      joinTree solver (cs.foldl (fun t x => .node t (.leaf x)) t) := by
  induction cs generalizing t with
  | nil =>
    rw [List.foldl_nil]
    cases joinTree solver t <;> rfl
  | cons x cs ih =>
    rw [List.foldl_cons, ← ih, joinTree]
    cases joinTree solver t <;> rfl

omit [IsStrictOrderedRing K] in
theorem prependAll_tree (solver : Solver K d) (cs : List (Curve K d)) (t : JoinTree (Curve K d)) :
    (do let c ← joinTree solver t; prependAll solver c cs) =
      joinTree solver (cs.foldl (fun t x => .node (.leaf x) t) t) := by
  induction cs generalizing t with
  | nil =>
    rw [List.foldl_nil]
    cases joinTree solver t <;> rfl
  | cons x cs ih =>
    rw [List.foldl_cons, ← ih, joinTree]
    cases joinTree solver t <;> rfl

/-- **C142** Curves of one size are appended one after the other in a loop without a panic only if there are at most
two of them. -/
theorem C142_append_all (hp : 0 < p) (solver : Solver K d) {c : Curve K d} {cs : List (Curve K d)}
    (h : ∀ x ∈ c :: cs, ∃ U P, ValidOn 0 1 x p m U P) :
    (∃ r, appendAll solver c cs = .ok r) ↔ cs.length ≤ 1 := by
  have hpm : p ≤ m := by
    obtain ⟨U, P, hc⟩ := h c (by simp)
    exact hc.2.1.le
  rw [show appendAll solver c cs = _ from appendAll_tree solver cs (.leaf c),
    join_const hp solver (m := m) (by rwa [JoinTree.toList_left])]
  constructor
  · intro hf
    by_contra hn
    match cs, hn with
    | x :: y :: cs, _ =>
      have := (JoinTree.fits_node hpm (JoinTree.const_map
        (JoinTree.node (.node (.leaf c) (.leaf x)) (.leaf y)))).1 (JoinTree.fits_left cs _ hf)
      simp [JoinTree.toList] at this
    | [], hn => simp at hn
    | [x], hn => simp at hn
  · intro hl
    match cs, hl with
    | [], _ => exact trivial
    | [x], _ => exact ⟨trivial, trivial, le_rfl, Nat.lt_add_of_pos_right hp⟩


/-- **C142** Curves of one size are prepended in a loop without a panic exactly if `(r - 1) * (m + 1 - p) < p` for `r`
prepended curves. -/
theorem C142_prepend_all (hp : 0 < p) (solver : Solver K d) {c : Curve K d} {cs : List (Curve K d)}
    (h : ∀ x ∈ c :: cs, ∃ U P, ValidOn 0 1 x p m U P) :
    (∃ r, prependAll solver c cs = .ok r) ↔ (cs.length - 1) * (m + 1 - p) < p := by
  have hpm : p ≤ m := by
    obtain ⟨U, P, hc⟩ := h c (by simp)
    exact hc.2.1.le
  rw [show prependAll solver c cs = _ from prependAll_tree solver cs (.leaf c),
    join_const hp solver (m := m) (by
      rw [JoinTree.toList_right]; intro x hx; exact h x (by simpa [JoinTree.toList, or_comm] using hx)),
    JoinTree.fits_right hpm]
  constructor
  · rintro ⟨-, h1⟩
    cases cs with
    | nil => simpa using hp
    | cons x cs =>
      have := h1 (by simp)
      rwa [show (JoinTree.leaf c).toList.length + (x :: cs).length - 2 = (x :: cs).length - 1 by
        simp [JoinTree.toList]; omega] at this
  · intro h1
    refine ⟨trivial, fun _ => lt_of_le_of_lt (Nat.mul_le_mul_right _ ?_) h1⟩
    simp only [JoinTree.toList, List.length_singleton]; omega

end

/-! ### Examples -/

/-- a line from `x` to `x + 1` -/
def exStep (x : ℚ) : Curve ℚ 1 := canon 1 [0, 0, 1, 1] [![x], ![x + 1]]

/-- a parabola with three control points -/
def exArc (x : ℚ) : Curve ℚ 2 := canon 2 [0, 0, 0, 1, 1, 1] [![x, 0], ![x + 1, 1], ![x + 2, 0]]

theorem exStep_valid (x : ℚ) : ValidOn 0 1 (exStep x) 1 1 [0, 0, 1, 1] [![x], ![x + 1]] :=
  validOn_canon (by decide +kernel) rfl

theorem exArc_valid (x : ℚ) :
    ValidOn 0 1 (exArc x) 2 2 [0, 0, 0, 1, 1, 1] [![x, 0], ![x + 1, 1], ![x + 2, 0]] :=
  validOn_canon (by decide +kernel) rfl

/-- Three lines cannot be joined in any order, four lines can. -/
example (solver : Solver ℚ 1) :
    (¬ ∃ t, t.toList = [exStep 0, exStep 1, exStep 2] ∧ ∃ c, joinTree solver t = .ok c) ∧
    ∃ t, t.toList = [exStep 0, exStep 1, exStep 2, exStep 3] ∧ ∃ c, joinTree solver t = .ok c := by
  have h : ∀ cs : List ℚ, ∀ c ∈ cs.map exStep, ∃ U P, ValidOn 0 1 c 1 1 U P := by
    intro cs c hc
    obtain ⟨x, -, rfl⟩ := List.mem_map.1 hc
    exact ⟨_, _, exStep_valid x⟩
  constructor
  · intro hc
    rcases (C142_equal (m := 1) one_pos solver (by simp) (h [0, 1, 2])).1 hc with h | ⟨k, h⟩
    · omega
    · match k, h with
      | 0, h => simp at h
      | 1, h => simp at h
      | k + 2, h => simp [pow_succ] at h; omega
  · exact (C142_equal (m := 1) one_pos solver (by simp) (h [0, 1, 2, 3])).2 (.inr ⟨2, rfl⟩)

/-- Three parabolas can be joined by prepending but not by appending. -/
example (solver : Solver ℚ 2) :
    (∃ c, prependAll solver (exArc 2) [exArc 1, exArc 0] = .ok c) ∧
    ¬ ∃ c, appendAll solver (exArc 0) [exArc 1, exArc 2] = .ok c := by
  have h : ∀ cs : List ℚ, ∀ c ∈ cs.map exArc, ∃ U P, ValidOn 0 1 c 2 2 U P := by
    intro cs c hc
    obtain ⟨x, -, rfl⟩ := List.mem_map.1 hc
    exact ⟨_, _, exArc_valid x⟩
  constructor
  · exact (C142_prepend_all (m := 2) two_pos solver (h [2, 1, 0])).2 (by decide)
  · exact fun hc => absurd ((C142_append_all (m := 2) two_pos solver (h [0, 1, 2])).1 hc) (by decide)

/-- A tree for curves with 3, 3 and 4 control points: the left part has 4 control points. -/
example : JoinTree.Fits 2 (.node (.node (.leaf 2) (.leaf 2)) (.leaf 3)) ∧
    ¬ JoinTree.Fits 2 (.node (.leaf 2) (.node (.leaf 3) (.leaf 2))) := by
  simp [JoinTree.Fits, JoinTree.segments]

end BSpline
