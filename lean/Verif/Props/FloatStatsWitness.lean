import Verif.Props.FloatStats
import Verif.Props.GaussianMono

/-! # Property C88: orders of addition, concrete cases, and a rounding error that matters -/

namespace Phik.Props

open Spec

/-- Addition from left to right. -/
def leftTree (x : ℚ) (l : List ℚ) : SumTree := l.foldl (fun t y => .node t (.leaf y)) (.leaf x)

def leftOrder : SumSite → List ℚ → SumTree
  | _, [] => .leaf 0
  | _, x :: l => leftTree x l

theorem foldl_leaves (t : SumTree) (l : List ℚ) : (l.foldl (fun t y => SumTree.node t (.leaf y)) t).leaves = t.leaves ++ l := by
  induction l generalizing t with
  | nil => simp
  | cons y l ih => rw [List.foldl_cons, ih]; simp [SumTree.leaves]

theorem leftOrder_addsAll : AddsAll leftOrder := by
  intro s l hl
  cases l with
  | nil => exact absurd rfl hl
  | cons x l =>
    change (leftTree x l).leaves.Perm _
    unfold leftTree
    rw [foldl_leaves]
    exact List.Perm.refl _

/-- The order numpy uses for fewer than 16 numbers: from left to right below 8 numbers, in pairs of the first 8 from there on. -/
def numpyOrder : SumSite → List ℚ → SumTree
  | _, a :: b :: c :: d :: e :: f :: g :: h :: l => l.foldl (fun t y => .node t (.leaf y))
      (.node (.node (.node (.leaf a) (.leaf b)) (.node (.leaf c) (.leaf d))) (.node (.node (.leaf e) (.leaf f)) (.node (.leaf g) (.leaf h))))
  | _, [] => .leaf 0
  | _, x :: l => leftTree x l

theorem numpyOrder_addsAll : AddsAll numpyOrder := by
  intro s l hl
  rcases l with _ | ⟨a, _ | ⟨b, _ | ⟨c, _ | ⟨d, _ | ⟨e, _ | ⟨f, _ | ⟨g, _ | ⟨h, l⟩⟩⟩⟩⟩⟩⟩⟩
  · exact absurd rfl hl
  all_goals
    simp only [numpyOrder, leftTree]
    try rw [foldl_leaves]
    exact List.Perm.refl _

/-- Halving: the two halves are added separately. -/
def halfTree : ℕ → List ℚ → SumTree
  | 0, l => leftTree (l.headD 0) l.tail
  | n + 1, l => if l.length ≤ 1 then leftTree (l.headD 0) l.tail
      else .node (halfTree n (l.take (l.length / 2))) (halfTree n (l.drop (l.length / 2)))

def halfOrder : SumSite → List ℚ → SumTree := fun _ l => halfTree (Nat.clog 2 l.length) l

theorem halfTree_leaves (n : ℕ) (l : List ℚ) (hl : l ≠ []) : (halfTree n l).leaves = l := by
  have h0 : ∀ l : List ℚ, l ≠ [] → (leftTree (l.headD 0) l.tail).leaves = l := by
    intro l hl
    cases l with
    | nil => exact absurd rfl hl
    | cons x l => unfold leftTree; rw [foldl_leaves]; rfl
  induction n generalizing l with
  | zero => exact h0 l hl
  | succ n ih =>
    unfold halfTree
    split
    · exact h0 l hl
    · next h =>
      have h1 : l.take (l.length / 2) ≠ [] := by
        intro h'
        have := congrArg List.length h'
        rw [List.length_take, List.length_nil] at this
        omega
      have h2 : l.drop (l.length / 2) ≠ [] := by
        intro h'
        have := congrArg List.length h'
        rw [List.length_drop, List.length_nil] at this
        omega
      change (halfTree n _).leaves ++ (halfTree n _).leaves = l
      rw [ih _ h1, ih _ h2, List.take_append_drop]

theorem halfOrder_addsAll : AddsAll halfOrder := fun _ l hl => by
  unfold halfOrder
  rw [halfTree_leaves _ l hl]

theorem halfTree_depth (n : ℕ) (l : List ℚ) (h : l.length ≤ 2 ^ n) : (halfTree n l).depth ≤ n := by
  have h0 : ∀ l : List ℚ, l.length ≤ 1 → (leftTree (l.headD 0) l.tail).depth = 0 := by
    intro l hl
    rcases l with _ | ⟨x, _ | ⟨y, l⟩⟩
    · rfl
    · rfl
    · simp at hl
  induction n generalizing l with
  | zero => rw [halfTree, h0 l (by simpa using h)]
  | succ n ih =>
    unfold halfTree
    split
    · next h' => rw [h0 l h']; omega
    · have h1 := ih (l.take (l.length / 2)) (by rw [List.length_take]; rw [pow_succ] at h; omega)
      have h2 := ih (l.drop (l.length / 2)) (by rw [List.length_drop]; rw [pow_succ] at h; omega)
      change max _ _ + 1 ≤ n + 1
      omega

/-- C88 (pairwise summation): with pairwise addition the relative error grows with the logarithm of the number of cells only; with at most 2^26
cells it is below 34 units. -/
theorem get_chi2_rounding_pairwise {fl : ℚ → ℚ} (hfl : RelRounding fl) {r c : ℕ} (T : Fin r → Fin c → ℕ) (hpos : 0 < ∑ i, ∑ j, T i j)
    (hN : ∑ i, ∑ j, T i j ≤ 2 ^ 52) (hs : r * c ≤ 2 ^ 26) :
    ∃ x, flGetChi2 fl halfOrder ⟨r, c, fun i j => (T i j : ℚ)⟩ = .ok x ∧ 0 ≤ x ∧
      |√(x : ℝ) - √(statistic pearsonCell ⟨r, c, fun i j => (T i j : ℝ)⟩)| ≤
        34 / 2 ^ 53 * √(statistic pearsonCell ⟨r, c, fun i j => (T i j : ℝ)⟩) + √((∑ i, ∑ j, T i j : ℕ) : ℝ) / 2 ^ 48 := by
  obtain ⟨x, h1, h2, h3⟩ := get_chi2_rounding hfl halfOrder_addsAll T hpos hN hs (D := 26) (fun l hl hlen => by
    refine (halfTree_depth _ l (Nat.le_pow_clog one_lt_two _)).trans ?_
    exact (Nat.clog_le_iff_le_pow one_lt_two).2 (hlen.trans hs))
  refine ⟨x, h1, h2, ?_⟩
  norm_num at h3 ⊢
  exact h3

/-- A concrete table with an empty row. -/
example : ∃ x, flGetChi2 rne53 numpyOrder ⟨3, 3, fun i j => ((![![5, 0, 0], ![0, 0, 0], ![1, 4, 4]] i j : ℕ) : ℚ)⟩ = .ok x ∧ 0 ≤ x ∧
    |√(x : ℝ) - √(statistic pearsonCell ⟨3, 3, fun i j => ((![![5, 0, 0], ![0, 0, 0], ![1, 4, 4]] i j : ℕ) : ℝ)⟩)| ≤
      ((9 : ℕ) + 8) / 2 ^ 53 * √(statistic pearsonCell ⟨3, 3, fun i j => ((![![5, 0, 0], ![0, 0, 0], ![1, 4, 4]] i j : ℕ) : ℝ)⟩) +
        √((∑ i, ∑ j, (![![5, 0, 0], ![0, 0, 0], ![1, 4, 4]] : Fin 3 → Fin 3 → ℕ) i j : ℕ) : ℝ) / 2 ^ 48 :=
  get_chi2_rounding RelRounding_rne53 numpyOrder_addsAll (![![5, 0, 0], ![0, 0, 0], ![1, 4, 4]] : Fin 3 → Fin 3 → ℕ) (by decide) (by decide) (by norm_num)
    (fun l hl hlen => by
      have := (numpyOrder .terms l).depth_lt
      rw [(numpyOrder_addsAll .terms l hl).length_eq] at this
      omega)

/-- A concrete independent table: phik is exactly 0 in binary64 arithmetic, without noise correction as well. -/
example (noise : Bool) : flPhikFromHist2d gaussMvn idealBrentq rne53 numpyOrder ⟨2, 3, fun i j => ((![![1, 2, 3], ![7, 14, 21]] i j : ℕ) : ℚ)⟩ noise = .ok 0 := by
  refine (independent_exact_zero RelRounding_rne53 numpyOrder_addsAll (![![1, 2, 3], ![7, 14, 21]] : Fin 2 → Fin 3 → ℕ) (by decide) (by decide) ?_).2
    Gauss.gaussian_mvn_spec idealBrentq noise le_rfl (by norm_num) ⟨fun i j => ⟨_, rfl⟩, ?_, ?_⟩
  · intro i j
    change Fin 2 at i; change Fin 3 at j
    unfold expect
    fin_cases i <;> fin_cases j <;> simp [Fin.sum_univ_succ] <;> norm_num
  · intro i
    change Fin 2 at i
    refine ⟨(0 : Fin 3), ?_⟩
    fin_cases i <;> simp
  · intro j
    change Fin 3 at j
    refine ⟨(0 : Fin 2), ?_⟩
    fin_cases j <;> simp

/-- Two equal columns with three categories and five records of each. -/
def fives : Fin 3 → Fin 3 → ℕ := fun i j => if i = j then 5 else 0

/-- C88 (a rounding error that matters): the chi2 of two equal columns is computed below its largest possible value, with either order of the
additions, although it equals that value; phik is then an answer of the root finder and not the exact 1 of the exact computation. -/
theorem perfect_association_rounded_violated {mvn : ℝ → Rect → ℝ} (hm : MvnSpec mvn) {brentq : (ℝ → ℝ) → ℝ → ℝ → ℝ → Except Err ℝ} (hb : BrentqSpec brentq) :
    phikFromHist2d mvn brentq ⟨3, 3, fun i j => (fives i j : ℝ)⟩ true = .ok 1 ∧
    ∀ order, order = leftOrder ∨ order = numpyOrder → ∃ x : ℝ, x < 30 ∧
      flPhikFromHist2d mvn brentq rne53 order ⟨3, 3, fun i j => (fives i j : ℚ)⟩ true = brentq (fun rho => theoryChi2 mvn 3 3 15 4 rho - x) 0 1 (1 / 10 ^ 5) := by
  have hdata : DataTable ⟨3, 3, fun i j => (fives i j : ℝ)⟩ := by
    refine ⟨fun i j => ⟨_, rfl⟩, fun i => ⟨i, ?_⟩, fun j => ⟨j, ?_⟩⟩
    · simp [fives]
    · simp [fives]
  have hsum : ∑ i, ∑ j, fives i j = 15 := by decide
  have hT : (⟨3, 3, fun i j => (fives i j : ℝ)⟩ : Arr2 ℝ).total = 15 := by
    unfold Arr2.total
    have : ((∑ i, ∑ j, fives i j : ℕ) : ℝ) = 15 := by rw [hsum]; norm_num
    push_cast at this
    exact this
  constructor
  · obtain ⟨chi2, ped, mx, x, h1, h2, h3, h4, h5, h6, h7, h8, h9, h10, h11⟩ := phik_of_data hm hb hdata (by norm_num) (by norm_num) true
    rw [h6, h10]
    rw [h3, hT]
    have hf : getChi2 (⟨3, 3, fun i j => (fives i j : ℝ)⟩ : Arr2 ℝ) "pearson" = .ok 30 := by
      obtain ⟨y, hy, -, -⟩ := get_chi2_rounding RelRounding_id leftOrder_addsAll fives (by decide) (by decide) (by norm_num) (D := 9)
        (fun l hl hlen => by
          have := (leftOrder .terms l).depth_lt
          rw [(leftOrder_addsAll .terms l hl).length_eq] at this
          omega)
      have ha := data_isCount hdata (by norm_num)
      rw [(get_chi2_value ha).1]
      unfold statistic
      have hR : nRows (⟨3, 3, fun i j => (fives i j : ℝ)⟩ : Arr2 ℝ) = 3 := by
        unfold nRows
        rw [Nat.card_congr (Equiv.subtypeUnivEquiv hdata.rows)]
        simp
      have hC : nCols (⟨3, 3, fun i j => (fives i j : ℝ)⟩ : Arr2 ℝ) = 3 := by
        unfold nCols
        rw [Nat.card_congr (Equiv.subtypeUnivEquiv hdata.cols)]
        simp
      rw [hR, hC, if_neg (by norm_num)]
      have he : ∀ i j, expect (⟨3, 3, fun i j => (fives i j : ℝ)⟩ : Arr2 ℝ) i j = 5 / 3 := by
        intro i j
        change Fin 3 at i; change Fin 3 at j
        unfold expect
        fin_cases i <;> fin_cases j <;> simp [fives, Fin.sum_univ_succ] <;> norm_num
      simp only [he]
      simp [fives, pearsonCell, Fin.sum_univ_succ]
      norm_num
    rw [hf] at h1
    rw [← Except.ok.inj h1]
    norm_num
  · intro order hord
    have hget : ∃ y : ℚ, y < 30 ∧ 4 < y ∧ flGetChi2 rne53 order ⟨3, 3, fun i j => (fives i j : ℚ)⟩ = .ok y := by
      have key : ∀ order, (match flGetChi2 rne53 order ⟨3, 3, fun i j => (fives i j : ℚ)⟩ with
          | .ok y => decide (y < 30 ∧ 4 < y) | .error _ => false) = true →
          ∃ y : ℚ, y < 30 ∧ 4 < y ∧ flGetChi2 rne53 order ⟨3, 3, fun i j => (fives i j : ℚ)⟩ = .ok y := by
        intro order h
        cases hq : flGetChi2 rne53 order ⟨3, 3, fun i j => (fives i j : ℚ)⟩ with
        | error e => rw [hq] at h; cases h
        | ok y =>
          rw [hq] at h
          have := of_decide_eq_true h
          exact ⟨y, this.1, this.2, rfl⟩
      rcases hord with rfl | rfl
      · exact key leftOrder (by decide +kernel)
      · exact key numpyOrder (by decide +kernel)
    obtain ⟨y, hy, hy4, hget⟩ := hget
    have ho : AddsAll order := by
      rcases hord with rfl | rfl
      · exact leftOrder_addsAll
      · exact numpyOrder_addsAll
    refine ⟨y, by exact_mod_cast hy, ?_⟩
    unfold flPhikFromHist2d
    rw [hget]
    simp only [bind, Except.bind]
    erw [flTotal_eq RelRounding_rne53 ho .total fives (by decide)]
    rw [Rat.cast_natCast, ndof_rounding RelRounding_rne53 ho fives (by decide),
      (estimate_simple_ndof_full (data_isCount hdata (by norm_num))).2 hdata.rows hdata.cols, hsum]
    have h := (phik_from_chi2_cases hm brentq (r := 3) (c := 3) (by norm_num) (by norm_num) (chi2 := (y : ℝ)) (n := 15) (ped := 4) (by norm_num)
      (by norm_num) (by norm_num)).2.2 (by exact_mod_cast hy4) (by norm_num; exact_mod_cast hy)
    norm_num at h ⊢
    exact h

end Phik.Props
