import Verif.Model.FloatStats

/-! # Specification for property C88 -/

namespace Phik.Spec

/-- Every sum adds each of the numbers it is given exactly once, in whatever order. -/
def AddsAll (order : SumSite → List ℚ → SumTree) : Prop := ∀ s l, l ≠ [] → (order s l).leaves.Perm l

end Phik.Spec
