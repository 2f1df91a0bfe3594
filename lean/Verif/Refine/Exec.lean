import Verif.Model.Basic
import Verif.Model.Debug
import Mathlib.Data.List.GetD
import Mathlib.Algebra.Notation.Defs

/-!
# Rules for the execution model

Success conditions of the panicking primitives, and invariants of the loops.
-/

namespace BSpline

@[simp] theorem ok_bind {ε α β : Type} (a : α) (f : α → Except ε β) :
    ((Except.ok a : Except ε α) >>= f) = f a := rfl

@[simp] theorem error_bind {ε α β : Type} (e : ε) (f : α → Except ε β) :
    ((Except.error e : Except ε α) >>= f) = .error e := rfl

@[simp] theorem pure_ok {ε α : Type} (a : α) : (pure a : Except ε α) = .ok a := rfl

/-- A list as a total function: beyond its end it repeats its last element. -/
def fn {α : Type} [Zero α] (l : List α) (i : ℕ) : α := l.getD i (l.getLastD 0)

variable {α : Type}

theorem fn_lt [Zero α] {l : List α} {i : ℕ} (h : i < l.length) : fn l i = l[i] := by
  simp [fn, h]

theorem fn_ge [Zero α] {l : List α} {i : ℕ} (h : l.length ≤ i) : fn l i = l.getLastD 0 := by
  simp only [fn, List.getD_eq_getElem?_getD, List.getElem?_eq_none h, Option.getD_none]

theorem fn_last [Zero α] {l : List α} (h : 0 < l.length) : l.getLastD 0 = fn l (l.length - 1) := by
  rw [fn_lt (by omega)]
  cases l with
  | nil => simp at h
  | cons a l =>
    rw [List.getLastD_eq_getLast?, List.getLast?_eq_getElem?]
    simp

theorem idx_ok [Zero α] {l : List α} {i : ℕ} (h : i < l.length) : idx l i = .ok (fn l i) := by
  simp [idx, fn_lt h, h]

theorem idx_ok' {l : List α} {i : ℕ} (h : i < l.length) : idx l i = .ok l[i] := by
  simp [idx, h]

theorem idx_error {l : List α} {i : ℕ} (h : l.length ≤ i) : idx l i = .error .index := by
  simp [idx, h]

theorem column_ok [Zero α] {l : List α} {i : ℕ} (h : i < l.length) :
    column l i = .ok (fn l i) := by
  simp [column, fn_lt h, h]

theorem column_error {l : List α} {i : ℕ} (h : l.length ≤ i) : column l i = .error .view := by
  simp [column, h]

theorem usub_ok [Build] {a b : ℕ} (h : b ≤ a) : usub a b = .ok (a - b) := by simp [usub, h]

theorem usub_error {a b : ℕ} (h : a < b) : usub a b = .error .underflow := by
  simp [usub, Nat.not_le.mpr h]

theorem segment_ok {v : List α} {s n : ℕ} (h : s + n ≤ v.length) :
    segment v s n = .ok ((v.drop s).take n) := by simp [segment, h]

theorem segment_error {v : List α} {s n : ℕ} (h : v.length < s + n) :
    segment v s n = .error .view := by simp [segment, Nat.not_le.mpr h]

theorem setIdx_ok {v : List α} {i : ℕ} {x : α} (h : i < v.length) :
    setIdx v i x = .ok (v.set i x) := by simp [setIdx, h]

theorem setSegment_ok {v : List α} {s : ℕ} {src : List α} (h : s + src.length ≤ v.length) :
    setSegment v s src = .ok (v.take s ++ src ++ v.drop (s + src.length)) := by
  simp [setSegment, h]

theorem head_ok {v : List α} {n : ℕ} (h : n ≤ v.length) : head v n = .ok (v.take n) := by
  simp [head, segment_ok (v := v) (s := 0) (n := n) (by omega)]

theorem tail_ok {v : List α} {n : ℕ} (h : n ≤ v.length) :
    tail v n = .ok (v.drop (v.length - n)) := by
  simp only [tail, usub_ok h, ok_bind]
  rw [segment_ok (by omega), List.take_of_length_le (by simp; omega)]

theorem foldlM_range'_inv {σ : Type} (S : ℕ → σ) (f : σ → ℕ → Exec σ) :
    ∀ (n lo : ℕ), (∀ i, lo ≤ i → i < lo + n → f (S i) i = .ok (S (i + 1))) →
      (List.range' lo n).foldlM f (S lo) = .ok (S (lo + n)) := by
  intro n
  induction n with
  | zero => intro lo _; rfl
  | succ n ih =>
    intro lo h
    rw [List.range'_succ, List.foldlM_cons, h lo le_rfl (by omega), ok_bind, ih (lo + 1)]
    · congr 2; omega
    · intro i h1 h2; exact h i (by omega) (by omega)

/-- loop rule: the state before iteration `i` is `S i` -/
theorem forRangeIncl_inv {σ : Type} (S : ℕ → σ) {f : σ → ℕ → Exec σ} {lo hi : ℕ}
    (hle : lo ≤ hi + 1) (h : ∀ i, lo ≤ i → i ≤ hi → f (S i) i = .ok (S (i + 1))) :
    forRangeIncl lo hi (S lo) f = .ok (S (hi + 1)) := by
  rw [forRangeIncl, foldlM_range'_inv S f]
  · congr 2; omega
  · intro i h1 h2; exact h i h1 (by omega)

theorem forRange_inv {σ : Type} (S : ℕ → σ) {f : σ → ℕ → Exec σ} {lo hi : ℕ}
    (hle : lo ≤ hi) (h : ∀ i, lo ≤ i → i < hi → f (S i) i = .ok (S (i + 1))) :
    forRange lo hi (S lo) f = .ok (S hi) := by
  rw [forRange, foldlM_range'_inv S f]
  · congr 2; omega
  · intro i h1 h2; exact h i h1 (by omega)

theorem forRangeIncl_empty {σ : Type} {f : σ → ℕ → Exec σ} {lo hi : ℕ} (st : σ)
    (h : hi < lo) : forRangeIncl lo hi st f = .ok st := by
  rw [forRangeIncl, show hi + 1 - lo = 0 by omega]; rfl

theorem forRange_empty {σ : Type} {f : σ → ℕ → Exec σ} {lo hi : ℕ} (st : σ)
    (h : hi ≤ lo) : forRange lo hi st f = .ok st := by
  rw [forRange, show hi - lo = 0 by omega]; rfl

theorem mapM_ok {β : Type} {f : α → Exec β} {g : α → β} : ∀ (l : List α),
    (∀ x ∈ l, f x = .ok (g x)) → l.mapM f = .ok (l.map g) := by
  intro l
  induction l with
  | nil => intro _; rfl
  | cons a l ih =>
    intro h
    rw [List.mapM_cons, h a (by simp), ok_bind, ih (fun x hx => h x (by simp [hx]))]
    rfl

theorem tabulateIncl_ok {f : ℕ → Exec α} {g : ℕ → α} {lo hi : ℕ}
    (h : ∀ i, lo ≤ i → i ≤ hi → f i = .ok (g i)) :
    tabulateIncl lo hi f = .ok ((List.range' lo (hi + 1 - lo)).map g) := by
  rw [tabulateIncl, mapM_ok]
  intro x hx
  rw [List.mem_range'_1] at hx
  exact h x hx.1 (by omega)

theorem map_range_fn [Zero α] (l : List α) : (List.range l.length).map (fn l) = l := by
  apply List.ext_getElem (by simp)
  intro i h1 h2
  simp [fn_lt h2]

theorem ext_fn [Zero α] {l l' : List α} (h : l.length = l'.length)
    (he : ∀ i, i < l.length → fn l i = fn l' i) : l = l' := by
  apply List.ext_getElem h
  intro i h1 h2
  have := he i h1
  rwa [fn_lt h1, fn_lt h2] at this

theorem fn_map_range [Zero α] (f : ℕ → α) {n i : ℕ} (h : i < n) :
    fn ((List.range n).map f) i = f i := by
  rw [fn_lt (by simpa using h)]; simp

theorem fn_map_range' [Zero α] (f : ℕ → α) {lo n i : ℕ} (h : i < n) :
    fn ((List.range' lo n).map f) i = f (lo + i) := by
  rw [fn_lt (by simpa using h)]; simp

theorem fn_drop_take [Zero α] {l : List α} {s n i : ℕ} (hi : i < n) (h : s + n ≤ l.length) :
    fn ((l.drop s).take n) i = fn l (s + i) := by
  rw [fn_lt (by simp; omega), fn_lt (by omega)]; simp

theorem fn_drop [Zero α] {l : List α} {s i : ℕ} (h : s + i < l.length) :
    fn (l.drop s) i = fn l (s + i) := by
  rw [fn_lt (by simp; omega), fn_lt (by omega)]; simp

theorem fn_take [Zero α] {l : List α} {n i : ℕ} (hi : i < n) (h : i < l.length) :
    fn (l.take n) i = fn l i := by
  rw [fn_lt (by simp; omega), fn_lt (by omega)]; simp

theorem fn_append_left [Zero α] {l l' : List α} {i : ℕ} (h : i < l.length) :
    fn (l ++ l') i = fn l i := by
  rw [fn_lt (by simp; omega), fn_lt h, List.getElem_append_left h]

theorem fn_append_right [Zero α] {l l' : List α} {i : ℕ} (h1 : l.length ≤ i)
    (h2 : i < l.length + l'.length) : fn (l ++ l') i = fn l' (i - l.length) := by
  rw [fn_lt (by simp; omega), fn_lt (by omega), List.getElem_append_right h1]

theorem fn_map [Zero α] {β : Type} [Zero β] (f : α → β) {l : List α} {i : ℕ} (h : i < l.length) :
    fn (l.map f) i = f (fn l i) := by
  rw [fn_lt (by simpa using h), fn_lt h]; simp

theorem fn_reverse [Zero α] {l : List α} {i : ℕ} (h : i < l.length) :
    fn l.reverse i = fn l (l.length - 1 - i) := by
  rw [fn_lt (by simpa using h), fn_lt (by omega)]; simp

theorem fn_replicate [Zero α] {n i : ℕ} (x : α) (h : i < n) : fn (List.replicate n x) i = x := by
  rw [fn_lt (by simpa using h)]; simp

theorem fn_set [Zero α] {l : List α} {i j : ℕ} {x : α} (h : j < l.length) :
    fn (l.set i x) j = if i = j then x else fn l j := by
  rw [fn_lt (by simpa using h), fn_lt h, List.getElem_set]

theorem fn_cons_succ [Zero α] {l : List α} {i : ℕ} {x : α} (h : i < l.length) :
    fn (x :: l) (i + 1) = fn l i := by
  rw [fn_lt (by simpa using h), fn_lt h]; simp

theorem fn_cons_zero [Zero α] {l : List α} {x : α} : fn (x :: l) 0 = x := by
  rw [fn_lt (by simp)]; simp

end BSpline
