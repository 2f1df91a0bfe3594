import Verif.Spec.Polygon

/-!
# How often a sequence of numbers turns around
-/

namespace BSpline

/-- the steps from one number of a list to the next -/
def stepList {K : Type} [Sub K] : List K → List K
  | x :: y :: l => (y - x) :: stepList (y :: l)
  | _ => []

/-- how often a list of numbers turns from rising to falling or back; steps of zero are ignored -/
def turnCount {K : Type} [Ring K] [LinearOrder K] (l : List K) : ℕ := signChanges (stepList l)

end BSpline
