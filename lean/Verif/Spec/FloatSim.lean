import Verif.Model.FloatSim

/-! # Specification for property C91 -/

namespace Phik.Spec

/-- A sum adds each of the numbers it is given exactly once, in whatever order, and for at most `n` numbers no number goes through more than 4096
additions (numpy adds blocks of 128 numbers and then in pairs: 4096 is far above what it needs for any array in memory; plain addition from
left to right is within the bound up to 4097 numbers). -/
structure GoodOrder (ord : List ℚ → SumTree) (n : ℕ) : Prop where
  perm : ∀ l, l ≠ [] → (ord l).leaves.Perm l
  depth : ∀ l, l ≠ [] → l.length ≤ n → (ord l).depth ≤ 4096

/-- All orders of one simulation. -/
structure GoodOrders (ords : SimOrders) (n : ℕ) : Prop where
  all : GoodOrder ords.all n
  row : ∀ i, GoodOrder (ords.row i) n
  col : ∀ j, GoodOrder (ords.col j) n

end Phik.Spec
