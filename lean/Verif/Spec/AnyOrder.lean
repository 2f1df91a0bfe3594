import Verif.Spec.Ieee
import Verif.Model.Products

/-!
# Sums of products in any order

nalgebra does not say in which order it adds the products of a row and a column, and large matrices are
multiplied by the crate matrixmultiply, in blocks and with fused operations where the processor has them.
`AnySum` allows all of this.
-/

namespace BSpline

open Ieee

variable {K : Type} [Field K] [LinearOrder K] {F : Format K}

/-- the fused operation `a * b + c` with a single rounding -/
def Ieee.fma : Ieee F → Ieee F → Ieee F → Ieee F
  | fin s x, fin t y, fin u z => mk F ((s ^^ t) && u) (x.val * y.val + z.val)
  | a, b, c => a * b + c

/-- `v` is computed as the sum of the products `a g * b g` for the indices `g` of a list, each of them used once:
by additions of partial sums in any order, with products that are rounded or fused with an addition -/
inductive AnySum (a b : ℕ → Ieee F) : List ℕ → Ieee F → Prop
  | zero : AnySum a b [] 0
  | prod (g : ℕ) : AnySum a b [g] (a g * b g)
  | fma (g : ℕ) {s : List ℕ} {v : Ieee F} : AnySum a b s v → AnySum a b (g :: s) (Ieee.fma (a g) (b g) v)
  | add {s t : List ℕ} {v w : Ieee F} : AnySum a b s v → AnySum a b t w → AnySum a b (s ++ t) (v + w)
  | perm {s t : List ℕ} {v : Ieee F} : s.Perm t → AnySum a b s v → AnySum a b t v

/-- the order of the model: one product after the other -/
theorem anySum_foldl (a b : ℕ → Ieee F) (l : List ℕ) : AnySum a b l (l.foldl (fun s g => s + a g * b g) 0) := by
  have : ∀ (l s : List ℕ) (v : Ieee F), AnySum a b s v → AnySum a b (s ++ l) (l.foldl (fun s g => s + a g * b g) v) := by
    intro l
    induction l with
    | nil => intro s v h; simpa using h
    | cons g l ih =>
      intro s v h
      have := ih (s ++ [g]) _ (h.add (.prod g))
      rwa [List.append_assoc] at this
  exact this l [] 0 .zero

/-- pairwise summation, and a fused loop from the end -/
example (a b : ℕ → Ieee F) : AnySum a b [0, 1, 2, 3] ((a 0 * b 0 + a 1 * b 1) + (a 2 * b 2 + a 3 * b 3)) ∧
    AnySum a b [0, 1, 2] (Ieee.fma (a 0) (b 0) (Ieee.fma (a 1) (b 1) (Ieee.fma (a 2) (b 2) 0))) :=
  ⟨.add (.add (.prod 0) (.prod 1)) (.add (.prod 2) (.prod 3)), .fma 0 (.fma 1 (.fma 2 .zero))⟩

/-- Matrix products whose entries are computed as sums of products in any order, possibly in another order for each
entry. -/
structure Products.AnyOrder {d : ℕ} (mm : Products (Ieee F) d) : Prop where
  gram_shape : ∀ A c, (∀ row ∈ A, row.length = c) →
    (mm.gram A c).length = c ∧ ∀ row ∈ mm.gram A c, row.length = c
  gram_sum : ∀ A c, (∀ row ∈ A, row.length = c) → ∀ i, i < c → ∀ j, j < c →
    AnySum (fun g => (A.getD g []).getD i 0) (fun g => (A.getD g []).getD j 0) (List.range A.length)
      (((mm.gram A c).getD i []).getD j 0)
  mulT_shape : ∀ A c B, (∀ row ∈ A, row.length = c) → B.length = A.length → (mm.mulT A c B).length = c
  mulT_sum : ∀ A c B, (∀ row ∈ A, row.length = c) → B.length = A.length → ∀ i, i < c → ∀ r,
    AnySum (fun g => (A.getD g []).getD i 0) (fun g => (B.getD g (fun _ => 0)) r) (List.range A.length)
      ((mm.mulT A c B).getD i (fun _ => 0) r)

end BSpline
