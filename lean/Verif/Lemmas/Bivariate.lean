import Verif.Spec.Bivariate
import Mathlib.Data.List.Perm.Basic
import Mathlib.Tactic.Linarith

/-! # Half-grid evaluation -/

namespace Phik

open Spec

theorem range_reflect_perm (n : ℕ) : (List.range n).Perm ((List.range n).map fun i => n - 1 - i) := by
  have : (List.range n).map (fun i => n - 1 - i) = (List.range n).reverse := by
    apply List.ext_getElem
    · simp
    · intro i h1 h2; simp
  rw [this]
  exact (List.reverse_perm _).symm

/-- The range split in a lower half, an optional middle and the reflected lower half. -/
theorem range_split_perm (n : ℕ) : (List.range n).Perm
    ((List.range (n / 2)) ++ (if n % 2 = 1 then [n / 2] else []) ++
      (List.range (n / 2)).map fun i => n - 1 - i) := by
  have h : n = n / 2 + (n % 2 + n / 2) := by omega
  have e : List.range n = List.range (n / 2) ++ ((List.range (n % 2)).map (fun i => n / 2 + i) ++
      (List.range (n / 2)).map fun i => n / 2 + (n % 2 + i)) := by
    conv_lhs => rw [h, List.range_add, List.range_add, List.map_append, List.map_map]
    rfl
  rw [e, ← List.append_assoc]
  refine List.Perm.append ?_ ?_
  · apply List.Perm.append_left
    rcases Nat.mod_two_eq_zero_or_one n with h0 | h1
    · rw [h0]; simp
    · rw [h1]; simp
  · refine ((range_reflect_perm (n / 2)).map _).trans (List.Perm.of_eq ?_)
    rw [List.map_map]
    apply List.map_congr_left
    intro i hi
    rw [List.mem_range] at hi
    simp only [Function.comp]
    omega

section Grid
variable {β : Type*} (g : ℕ → ℕ → β) (nx ny : ℕ)

/-- Values in all cells. -/
def fullGrid : List β := (List.range nx).flatMap fun i => (List.range ny).map (g i)

/-- Values in the cells that are evaluated. -/
def halfGrid : List β :=
  let l := (List.range (nx / 2)).flatMap fun i => (List.range ny).map (g i)
  if nx % 2 = 1 then
    let l := l ++ (List.range (ny / 2)).map (g (nx / 2))
    if ny % 2 = 1 then l ++ [g (nx / 2) (ny / 2)] else l
  else l

variable {g nx ny}

theorem halfGrid_perm (hg : ∀ i < nx, ∀ j < ny, g (nx - 1 - i) (ny - 1 - j) = g i j) :
    (halfGrid g nx ny ++ (if nx % 2 = 1 ∧ ny % 2 = 1 then (halfGrid g nx ny).dropLast
      else halfGrid g nx ny)).Perm (fullGrid g nx ny) := by
  have hrow : ∀ i < nx, ((List.range ny).map (g (nx - 1 - i))).Perm ((List.range ny).map (g i)) := by
    intro i hi
    refine ((range_reflect_perm ny).map _).trans (List.Perm.of_eq ?_)
    rw [List.map_map]
    apply List.map_congr_left
    intro j hj
    rw [List.mem_range] at hj
    exact hg i hi j hj
  set l := (List.range (nx / 2)).flatMap fun i => (List.range ny).map (g i) with hl
  have h2 : ((List.range (nx / 2)).map fun i => nx - 1 - i).flatMap (fun i => (List.range ny).map (g i))
      |>.Perm l := by
    rw [List.flatMap_map]
    apply List.Perm.flatMap_left
    intro i hi
    rw [List.mem_range] at hi
    exact hrow i (by omega)
  have hfull : (fullGrid g nx ny).Perm
      (l ++ (if nx % 2 = 1 then (List.range ny).map (g (nx / 2)) else []) ++ l) := by
    unfold fullGrid
    refine ((range_split_perm nx).flatMap_right _).trans ?_
    rw [List.flatMap_append, List.flatMap_append]
    refine List.Perm.append (List.Perm.append_left _ (List.Perm.of_eq ?_)) h2
    split <;> simp
  refine List.Perm.trans ?_ hfull.symm
  unfold halfGrid
  simp only [← hl]
  by_cases hx : nx % 2 = 1
  · simp only [hx, if_true, true_and]
    -- the middle row
    have hmid : nx - 1 - nx / 2 = nx / 2 := by omega
    set m := (List.range (ny / 2)).map (g (nx / 2)) with hm
    have h3 : ((List.range ny).map (g (nx / 2))).Perm
        (m ++ (if ny % 2 = 1 then [g (nx / 2) (ny / 2)] else []) ++ m) := by
      refine ((range_split_perm ny).map _).trans ?_
      rw [List.map_append, List.map_append]
      refine List.Perm.append (List.Perm.append_left _ (List.Perm.of_eq ?_)) (List.Perm.of_eq ?_)
      · split <;> simp
      · rw [List.map_map]
        apply List.map_congr_left
        intro j hj
        rw [List.mem_range] at hj
        have := hg (nx / 2) (by omega) j (by omega)
        rw [hmid] at this
        exact this
    refine List.Perm.trans ?_ ((List.Perm.append_left l h3.symm).append_right l)
    by_cases hy : ny % 2 = 1
    · simp only [hy, if_true, List.dropLast_concat]
      simp only [List.append_assoc]
      refine List.Perm.append_left l (List.Perm.append_left m (List.Perm.append_left _ ?_))
      exact List.perm_append_comm
    · simp only [hy, if_false, List.append_nil]
      rw [List.append_assoc, List.append_assoc, List.append_assoc]
      refine List.Perm.append_left l (List.Perm.append_left m ?_)
      exact List.perm_append_comm
  · simp only [hx, if_false, false_and, List.append_nil]
    exact List.Perm.refl _

end Grid

theorem mvnRanges_eq (sx sy : List ℝ) :
    mvnRanges sx sy = (halfGrid (cellRect sx sy) (sx.length - 1) (sy.length - 1),
      decide ((sx.length - 1) % 2 = 1 ∧ (sy.length - 1) % 2 = 1)) := by
  unfold mvnRanges halfGrid
  by_cases h1 : (sx.length - 1) % 2 = 1
  · by_cases h2 : (sy.length - 1) % 2 = 1
    · simp [h1, h2]
    · simp [h1, h2]
  · simp [h1]

theorem halfGrid_map {β γ : Type*} (f : β → γ) (g : ℕ → ℕ → β) (nx ny : ℕ) :
    (halfGrid g nx ny).map f = halfGrid (fun i j => f (g i j)) nx ny := by
  unfold halfGrid
  by_cases h1 : nx % 2 = 1
  · by_cases h2 : ny % 2 = 1
    · simp [h1, h2, List.map_flatMap]; rfl
    · simp [h1, h2, List.map_flatMap]; rfl
  · simp [h1, List.map_flatMap]; rfl

theorem mvnArray_eq (cell : Rect → ℝ) (sx sy : List ℝ) :
    mvnArray cell sx sy = halfGrid (fun i j => cell (cellRect sx sy i j)) (sx.length - 1) (sy.length - 1) ++
      (if (sx.length - 1) % 2 = 1 ∧ (sy.length - 1) % 2 = 1 then
        (halfGrid (fun i j => cell (cellRect sx sy i j)) (sx.length - 1) (sy.length - 1)).dropLast
        else halfGrid (fun i j => cell (cellRect sx sy i j)) (sx.length - 1) (sy.length - 1)) := by
  unfold mvnArray
  rw [mvnRanges_eq]
  simp only [halfGrid_map, decide_eq_true_eq]

end Phik

namespace Phik

open Spec

/-- The cells `_mvn_array` uses, with repetition. -/
def mvnCells (sx sy : List ℝ) : List Rect :=
  (mvnRanges sx sy).1 ++ (if (mvnRanges sx sy).2 then (mvnRanges sx sy).1.dropLast else (mvnRanges sx sy).1)

theorem mvnArray_map (cell : Rect → ℝ) (sx sy : List ℝ) :
    mvnArray cell sx sy = (mvnCells sx sy).map cell := by
  unfold mvnArray mvnCells
  rw [List.map_append]
  cases h : (mvnRanges sx sy).2 <;> simp [List.map_dropLast, h]

theorem symmetric_getD {s : List ℝ} (h : SymmetricEdges s) {i : ℕ} (hi : i < s.length) :
    s.getD (s.length - 1 - i) 0 = - s.getD i 0 := by
  have e := congrArg (fun l => l.getD i 0) h
  simp only [List.getD_eq_getElem?_getD, List.getElem?_reverse hi, List.getElem?_map] at e
  rw [List.getElem?_eq_getElem hi] at e
  simp only [List.getD_eq_getElem?_getD, List.getElem?_eq_getElem hi]
  exact e

theorem mvnArray_perm {sx sy : List ℝ} (hx : SymmetricEdges sx) (hy : SymmetricEdges sy) {cell : Rect → ℝ}
    (hc : ∀ a b c d : ℝ, cell ((-c, -d), (-a, -b)) = cell ((a, b), (c, d))) :
    (mvnArray cell sx sy).Perm ((gridCells sx sy).map cell) := by
  rw [mvnArray_eq]
  refine (halfGrid_perm ?_).trans (List.Perm.of_eq ?_)
  · intro i hi j hj
    have e1 := symmetric_getD hx (i := i) (by omega)
    have e2 := symmetric_getD hx (i := i + 1) (by omega)
    have e3 := symmetric_getD hy (i := j) (by omega)
    have e4 := symmetric_getD hy (i := j + 1) (by omega)
    have k1 : sx.length - 1 - 1 - i = sx.length - 1 - (i + 1) := by omega
    have k2 : sy.length - 1 - 1 - j = sy.length - 1 - (j + 1) := by omega
    have k3 : sx.length - 1 - (i + 1) + 1 = sx.length - 1 - i := by omega
    have k4 : sy.length - 1 - (j + 1) + 1 = sy.length - 1 - j := by omega
    unfold cellRect
    rw [k1, k2, k3, k4, e1, e2, e3, e4]
    exact hc _ _ _ _
  · unfold fullGrid gridCells cellRect
    simp [List.map_flatMap, Function.comp_def]

theorem ratioSum_map (f g : Rect → ℝ) (l : List Rect) :
    ratioSum (l.map f) (l.map g) = (l.map fun R => (f R - g R) ^ 2 / g R).sum := by
  unfold ratioSum
  congr 1
  induction l with
  | nil => rfl
  | cons R l ih =>
    simp only [List.map_cons, List.zipWith_cons_cons, ih]
    congr 1
    split
    · rfl
    · next h => rw [not_not.1 h]; simp

theorem ratioSum_grid {sx sy : List ℝ} (hx : SymmetricEdges sx) (hy : SymmetricEdges sy) {f g : Rect → ℝ}
    (hf : ∀ a b c d : ℝ, f ((-c, -d), (-a, -b)) = f ((a, b), (c, d)))
    (hg : ∀ a b c d : ℝ, g ((-c, -d), (-a, -b)) = g ((a, b), (c, d))) :
    ratioSum (mvnArray f sx sy) (mvnArray g sx sy) =
      ((gridCells sx sy).map fun R => (f R - g R) ^ 2 / g R).sum := by
  rw [mvnArray_map, mvnArray_map, ratioSum_map, ← mvnArray_map (fun R => (f R - g R) ^ 2 / g R)]
  refine (mvnArray_perm hx hy ?_).sum_eq
  intro a b c d
  rw [hf, hg]

theorem uniform_symmetric {n : ℕ} (hn : 1 ≤ n) : SymmetricEdges (uniformEdges n) := by
  unfold SymmetricEdges uniformEdges
  apply List.ext_getElem
  · simp
  · intro i h1 h2
    simp only [List.length_reverse, List.length_map, List.length_range] at h1
    simp only [List.getElem_reverse, List.getElem_map, List.getElem_range, List.length_map,
      List.length_range]
    have e : ((n + 1 - 1 - i : ℕ) : ℝ) = n - i := by
      rw [show n + 1 - 1 - i = n - i by omega, Nat.cast_sub (by omega)]
    have hn' : (n : ℝ) ≠ 0 := by positivity
    rw [e]
    field_simp
    ring

theorem edgesOr_uniform {n : ℕ} (hn : 1 ≤ n) : edgesOr none n = .ok (uniformEdges n) := by
  have hn' : (n : ℚ) ≠ 0 := by positivity
  unfold edgesOr linspace uniformEdges
  simp only
  rw [if_neg (by omega)]
  simp only [Except.map, List.map_map]
  congr 1
  have e1 : ((n : ℤ) + 1).toNat = n + 1 := by omega
  rw [e1]
  apply List.map_congr_left
  intro i hi
  rw [List.mem_range] at hi
  have h1 : (((n : ℤ) + 1 : ℤ) : ℚ) - 1 = n := by push_cast; ring
  have h2 : (0 : ℚ) < n := by positivity
  have h3 : ((5 : ℚ) - -5) / n ≠ 0 := by
    apply div_ne_zero
    · norm_num
    · exact hn'
  simp only [Function.comp, h1, h2, h3, if_true, if_false]
  have hn'' : (n : ℝ) ≠ 0 := by positivity
  split
  · next h =>
    have : i = n := by omega
    subst this
    push_cast
    field_simp
    norm_num
  · push_cast
    field_simp
    ring

end Phik
