import Verif.Model.Basic

/-!
# Basis functions and knot vectors

Models `src/curve/basis/mod.rs` and `src/curve/knots/mod.rs`.
-/

namespace BSpline

variable {K : Type} [Add K] [Sub K] [Mul K] [Div K] [Neg K] [Zero K] [One K] [NatCast K] [Cmp K]

/-- curve/basis/mod.rs:29-57 `basis(Uk, i, p, k, n, u)`.
The short-circuit evaluation of `&&` / `||` (line 31) is kept, since an operand that is not
evaluated cannot panic. -/
def basis [Build] (U : List K) (k n : ℕ) (u : K) : (p : ℕ) → (i : ℕ) → Exec K
  | 0, i => do
    -- `Uk[i] <= u && u < Uk[i + 1]`
    let a ← idx U i
    let inside ← if Cmp.le a u then do
        let b ← idx U (i + 1)
        pure (Cmp.lt u b)
      else pure false
    if inside then pure 1 else do
      -- `i == n - k && u == Uk[n + 1 - k]`
      let nk ← usub n k
      if i = nk then do
        let m ← usub (n + 1) k
        let e ← idx U m
        if Cmp.eq u e then pure 1 else pure 0
      else pure 0
  | h + 1, i => do
    let p := h + 1
    let a ← idx U (i + p)
    let b ← idx U i
    let summand1 ← if Cmp.eq a b then pure 0 else do
      let g := i
      let ug ← idx U g
      let ugh ← idx U (g + h + 1)
      let ug' ← idx U g
      let N ← basis U k n u h i
      pure ((u - ug) / (ugh - ug') * N)
    let a ← idx U (i + 1 + p)
    let b ← idx U (i + 1)
    let summand2 ← if Cmp.eq a b then pure 0 else do
      let g := i + 1
      let ugp ← idx U (g + p)
      let ugh ← idx U (g + h + 1)
      let ug ← idx U g
      let N ← basis U k n u h g
      pure ((ugp - u) / (ugh - ug) * N)
    pure (summand1 + summand2)

/-- curve/knots/mod.rs:28-33 `Knots`. -/
structure Knots (K : Type) where
  Uk : List (List K)
  p : ℕ
  kMax : ℕ
  deriving DecidableEq, Repr

/-- curve/knots/mod.rs:35-40. -/
inductive Comparator
  | left | leftOrEqual | rightOrEqual | right
  deriving DecidableEq, Repr

namespace Knots

/-- curve/knots/mod.rs:174-186 `derive`: the `k`-th derivative knot vector drops the first and
last knot of the previous one. -/
def derive [Build] (kn : Knots K) : Exec (Knots K) := do
  let p := kn.p
  let Uk ← forRangeIncl 1 p (kn.Uk.take 1) (fun Uk k => do
    let prev ← idx Uk (k - 1)          -- `self.Uk[k - 1]`, `k ≥ 1`
    let len ← usub prev.length 2       -- `self.len(k - 1) - 2`
    let seg ← segment prev 1 len
    pure (Uk ++ [seg]))
  pure { kn with Uk := Uk, kMax := p }

/-- curve/knots/mod.rs:73-82 `Knots::new`. -/
def new [Build] (degree : ℕ) (knots : List K) : Exec (Knots K) :=
  derive { Uk := [knots], p := degree, kMax := 0 }

/-- curve/knots/mod.rs:94-96 `vector_derivative`. -/
def vectorDerivative (kn : Knots K) (k : ℕ) : Exec (List K) := idx kn.Uk k

/-- curve/knots/mod.rs:84-86 `vector`. -/
def vector (kn : Knots K) : Exec (List K) := idx kn.Uk 0

/-- curve/knots/mod.rs:102-104 `degree`. -/
def degree (kn : Knots K) : ℕ := kn.p

/-- curve/knots/mod.rs:114-116 `len`. -/
def len (kn : Knots K) (k : ℕ) : Exec ℕ := do
  let U ← idx kn.Uk k
  pure U.length

/-- curve/knots/mod.rs:110-112 `segments_derivative`:
`self.Uk[k].len() - (self.p + 2 - 2 * k)`. -/
def segmentsDerivative [Build] (kn : Knots K) (k : ℕ) : Exec ℕ := do
  let U ← idx kn.Uk k
  let c ← usub (kn.p + 2) (2 * k)
  usub U.length c

/-- curve/knots/mod.rs:106-108 `segments`. -/
def segments [Build] (kn : Knots K) : Exec ℕ := kn.segmentsDerivative 0

/-- curve/knots/mod.rs:118-120 `internal_count`. -/
def internalCount [Build] (kn : Knots K) : Exec ℕ := do
  let n ← kn.segments
  usub n kn.p

/-- curve/knots/mod.rs:122-124 `internal`. -/
def internal [Build] (kn : Knots K) : Exec (List K) := do
  let U ← idx kn.Uk 0
  let c ← kn.internalCount
  segment U (kn.p + 1) c

/-- curve/knots/mod.rs:126-128 `internal_knot`. -/
def internalKnot [Build] (kn : Knots K) (i : ℕ) : Exec K := do
  let v ← kn.internal
  idx v i

/-- curve/knots/mod.rs:130-132 `domain_count`: `self.segments() - self.p + 2`. -/
def domainCount [Build] (kn : Knots K) : Exec ℕ := do
  let n ← kn.segments
  let d ← usub n kn.p
  pure (d + 2)

/-- curve/knots/mod.rs:138-140 `domain_derivative`. -/
def domainDerivative [Build] (kn : Knots K) (k : ℕ) : Exec (List K) := do
  let U ← idx kn.Uk k
  let s ← usub kn.p k
  let c ← kn.domainCount
  segment U s c

/-- curve/knots/mod.rs:134-136 `domain`. -/
def domain [Build] (kn : Knots K) : Exec (List K) := kn.domainDerivative 0

/-- curve/knots/mod.rs:142-144 `domain_knot`. -/
def domainKnot [Build] (kn : Knots K) (i : ℕ) : Exec K := do
  let v ← kn.domain
  idx v i

/-- curve/knots/mod.rs:146-148 `multiplicity`. -/
def multiplicity [Build] (kn : Knots K) (u : K) : Exec ℕ := do
  let dom ← kn.domain
  pure (dom.filter (fun x => Cmp.eq x u)).length

/-- curve/knots/mod.rs:170-172 `max_derivative`. -/
def maxDerivative (kn : Knots K) : ℕ := kn.kMax

end Knots

/-- Row swaps `for i in 0..len/2 { swap(i, len - 1 - i) }` (knots/mod.rs:324-329,
points/mod.rs:177-182). `i < len / 2`, so neither index can be out of range. -/
def swapLoop {α : Type} (v : List α) : List α :=
  (List.range (v.length / 2)).foldl (fun w i =>
    let j := v.length - 1 - i
    match w[i]?, w[j]? with
    | some a, some b => (w.set i b).set j a
    | _, _ => w) v

/-- curve/knots/mod.rs:323-333 `reverse(knots: &mut VecD)`: swap, then `+ (-1.0)`, then
`* (-1.0)`. Also models `reversed` (335-339). -/
def reverseKnots (v : List K) : List K :=
  (swapLoop v).map (fun x => (x + -1) * -1)

/-- nalgebra `Matrix::min` (used in knots/mod.rs:342): fold with `if a <= b {a} else {b}`,
zero for an empty vector. -/
def vmin (v : List K) : K :=
  match v with
  | [] => 0
  | x :: xs => xs.foldl (fun a b => if Cmp.le a b then a else b) x

/-- nalgebra `Matrix::max` (used in knots/mod.rs:342). -/
def vmax (v : List K) : K :=
  match v with
  | [] => 0
  | x :: xs => xs.foldl (fun a b => if Cmp.le b a then a else b) x

/-- curve/knots/mod.rs:368-374 `rescale` (and `rescaled`, 362-366; element-wise it is
`rescaled_knot`, 353-360). -/
def rescaleKnots (v : List K) (oldLim newLim : K × K) : List K :=
  v.map (fun x => (x - oldLim.1) / (oldLim.2 - oldLim.1) * (newLim.2 - newLim.1) + newLim.1)

/-- curve/knots/mod.rs:341-345 `normalize` (and `normalized`, 347-351). -/
def normalizeKnots (v : List K) : List K :=
  rescaleKnots v (vmin v, vmax v) (0, 1)

namespace Knots

/-- curve/knots/mod.rs:150-155 `reverse`. -/
def reverse (kn : Knots K) : Knots K := { kn with Uk := kn.Uk.map reverseKnots }

/-- curve/knots/mod.rs:157-162 `normalize`. -/
def normalize (kn : Knots K) : Knots K := { kn with Uk := kn.Uk.map normalizeKnots }

/-- curve/knots/mod.rs:164-168 `rescale`. -/
def rescale (kn : Knots K) (oldLim newLim : K × K) : Knots K :=
  { kn with Uk := kn.Uk.map (fun v => rescaleKnots v oldLim newLim) }

/-- Loop of curve/knots/mod.rs:205-213 (bisection). `fuel` bounds the number of iterations;
the interval shrinks by at least one per iteration, so `high - low` suffices. -/
def bisect [Build] (U : List K) (u : K) : (fuel low high : ℕ) → Exec ℕ
  | 0, _, high => pure high
  | fuel + 1, low, high =>
    if low < high then do
      let mid := high - (high - low) / 2
      let x ← idx U mid
      if Cmp.lt u x then do          -- `Uk[mid] > u`
        let h ← usub mid 1
        bisect U u fuel low h
      else bisect U u fuel mid high
    else pure high

/-- curve/knots/mod.rs:191-215 `find_index` (bisection). -/
def findIndex [Build] (kn : Knots K) (u : K) (k : ℕ) : Exec (Option ℕ) := do
  let U ← kn.vectorDerivative k
  let pk ← usub kn.degree k
  let first := pk
  let x ← idx U first
  if Cmp.lt u x then pure none else do
    let l1 ← usub U.length pk
    let last ← usub l1 1
    let r ← bisect U u (last - first) first last
    pure (some r)

/-- Loop of curve/knots/mod.rs:228-230 (`Left`): `while u > Uk[i+1] && i+1 < lim { i += 1 }`.
`r = lim - (i+1)` is the number of iterations left, so `i + 1 < lim` is `0 < r`. -/
def loopLeft (U : List K) (u : K) : (r i : ℕ) → Exec ℕ
  | r, i => do
    let x ← idx U (i + 1)
    if Cmp.lt x u then
      match r with
      | 0 => pure i
      | r' + 1 => loopLeft U u r' (i + 1)
    else pure i

/-- Loop of curve/knots/mod.rs:237-242 (`LeftOrEqual`): `while u >= Uk[i+1] && i+1 < lim
{ i += 1; if Uk[i+1] == Uk[i] { break; } }`. `r = lim - (i+1)`. -/
def loopLeftOrEqual (U : List K) (u : K) : (r i : ℕ) → Exec ℕ
  | r, i => do
    let x ← idx U (i + 1)
    if Cmp.le x u then
      match r with
      | 0 => pure i
      | r' + 1 => do
        let a ← idx U (i + 1 + 1)
        let b ← idx U (i + 1)
        if Cmp.eq a b then pure (i + 1) else loopLeftOrEqual U u r' (i + 1)
    else pure i

/-- Loop of curve/knots/mod.rs:248-253 (`RightOrEqual`): `while u <= Uk[i-1] && i > pk
{ i -= 1; if Uk[i-1] == Uk[i] { break; } }`. `r = i - pk`, so `i > pk` is `0 < r`. -/
def loopRightOrEqual [Build] (U : List K) (u : K) : (r i : ℕ) → Exec ℕ
  | r, i => do
    let j ← usub i 1
    let x ← idx U j
    if Cmp.le u x then
      match r with
      | 0 => pure i
      | r' + 1 => do
        let i' ← usub i 1
        let j' ← usub i' 1
        let a ← idx U j'
        let b ← idx U i'
        if Cmp.eq a b then pure i' else loopRightOrEqual U u r' i'
    else pure i

/-- Loop of curve/knots/mod.rs:259-261 (`Right`): `while u < Uk[i-1] && i-1 > pk { i -= 1 }`.
`r = (i-1) - pk`, so `i - 1 > pk` is `0 < r`. -/
def loopRight [Build] (U : List K) (u : K) : (r i : ℕ) → Exec ℕ
  | r, i => do
    let j ← usub i 1
    let x ← idx U j
    if Cmp.lt u x then
      match r with
      | 0 => pure i
      | r' + 1 => do
        let i' ← usub i 1
        loopRight U u r' i'
    else pure i

/-- curve/knots/mod.rs:220-265 `find_idx`. -/
def findIdx [Build] (kn : Knots K) (u : K) (k : ℕ) (c : Comparator) : Exec ℕ := do
  let U ← kn.vectorDerivative k
  let pk ← usub kn.degree k
  match c with
  | .left => do
    let n ← kn.segments
    let lim ← usub (n + 1) k
    loopLeft U u (lim - (pk + 1)) pk
  | .leftOrEqual => do
    let n ← kn.segments
    let lim ← usub (n + 1) k
    loopLeftOrEqual U u (lim - (pk + 1)) pk
  | .rightOrEqual => do
    let l1 ← usub U.length 1
    let i ← usub l1 pk
    loopRightOrEqual U u (i - pk) i
  | .right => do
    let l1 ← usub U.length 1
    let i ← usub l1 pk
    loopRight U u (i - 1 - pk) i

/-- curve/knots/mod.rs:268-274 `evaluate(k, i, p, u)`. -/
def evaluate [Build] (kn : Knots K) (k i p : ℕ) (u : K) : Exec K := do
  let U ← idx kn.Uk k
  let n ← kn.segments
  let pk ← usub p k
  basis U k n u pk i

/-- curve/knots/mod.rs:277-279 `is_valid`. -/
def isValid [Build] (kn : Knots K) : Exec Bool := do
  let n ← kn.segments
  let l ← kn.len 0
  let m ← usub l (kn.degree + 2)
  pure (n == m)

/-- curve/knots/mod.rs:281-289 `is_clamped`. -/
def isClamped (kn : Knots K) : Exec Bool := do
  let U0 ← kn.vector
  let clampSize := kn.p + 1
  let isHead := (U0.take clampSize).all (fun u => Cmp.eq u 0)
  let isTail := (U0.reverse.take clampSize).all (fun u => Cmp.eq u 1)
  pure (isHead && isTail)

/-- `a.partial_cmp(b).unwrap()`: panics when the two values are incomparable (NaN). curve/knots/mod.rs:294-295. -/
def partialCmpUnwrap (a b : K) : Exec Ordering :=
  if Cmp.lt a b then pure .lt
  else if Cmp.eq a b then pure .eq
  else if Cmp.lt b a then pure .gt
  else .error .unwrap

/-- `iter().min_by(|a, b| a.partial_cmp(b).unwrap())` (keeps the first minimum). curve/knots/mod.rs:294. -/
def minBy (v : List K) : Exec (Option K) :=
  match v with
  | [] => pure none
  | x :: xs => do
    let m ← xs.foldlM (fun a b => do
      let o ← partialCmpUnwrap a b
      pure (if o = .gt then b else a)) x
    pure (some m)

/-- `iter().max_by(|a, b| a.partial_cmp(b).unwrap())` (keeps the last maximum). curve/knots/mod.rs:295. -/
def maxBy (v : List K) : Exec (Option K) :=
  match v with
  | [] => pure none
  | x :: xs => do
    let m ← xs.foldlM (fun a b => do
      let o ← partialCmpUnwrap a b
      pure (if o = .gt then a else b)) x
    pure (some m)

/-- `opt == Some(&x)`. curve/knots/mod.rs:294-295. -/
def optEq (o : Option K) (x : K) : Bool :=
  match o with
  | some y => Cmp.eq y x
  | none => false

/-- curve/knots/mod.rs:291-298 `is_normed`. -/
def isNormed (kn : Knots K) : Exec Bool := do
  let U0 ← kn.vector
  let mn ← minBy U0
  let mx ← maxBy U0
  pure (optEq mn 0 && optEq mx 1)

/-- The `scan(..).all(..)` of curve/knots/mod.rs:300-312. -/
def sortedScan (state : K) : List K → Bool
  | [] => true
  | x :: xs => Cmp.le state x && sortedScan x xs

/-- curve/knots/mod.rs:300-312 `is_sorted`. -/
def isSorted (kn : Knots K) : Exec Bool := do
  let U ← idx kn.Uk 0
  match U with
  | [] => pure true
  | x :: xs => pure (sortedScan x xs)

end Knots

end BSpline
