import Verif.Props.Hybrid
import Mathlib.Algebra.Order.Floor.Semiring
import Mathlib.Analysis.SpecialFunctions.Exponential

/-!
# Property C57: the histogram fit of the hybrid method, and witnesses for C30
-/

namespace Phik.Props

open Phik.Spec

variable {F : Type}

/-- **C57 (residuals).** The square of a residual is minus the logarithm of the Poisson probability of the
bin's count, which is never negative. -/
theorem fit_term {f : ℝ} (hf : 0 < f) (y : ℕ) :
    fitTerm y (some f) = some (-Real.log (Real.exp (-f) * f ^ y / y.factorial)) ∧
      0 ≤ -Real.log (Real.exp (-f) * f ^ y / y.factorial) := by
  have hy : (0 : ℝ) < y.factorial := by exact_mod_cast y.factorial_pos
  have hfy : 0 < f ^ y := by positivity
  constructor
  · have h1 : ¬ (f ≤ 0 ∧ 0 < y) := fun h => absurd h.1 (not_le.2 hf)
    unfold fitTerm
    simp only [h1, if_false]
    rw [Real.log_div (mul_pos (Real.exp_pos _) hfy).ne' hy.ne',
      Real.log_mul (Real.exp_pos _).ne' hfy.ne', Real.log_exp, Real.log_pow]
    unfold xlogy
    split
    · next h => rw [h]; congr 1; ring
    · congr 1; ring
  · rw [neg_nonneg]
    apply Real.log_nonpos (by positivity)
    rw [Real.exp_neg, div_le_one hy, ← div_eq_inv_mul, div_le_iff₀ (Real.exp_pos _)]
    have := Real.pow_div_factorial_le_exp f hf.le y
    rw [div_le_iff₀ hy] at this
    linarith

/-- **C57 (residuals).** A residual is NaN only where the expectation is NaN or not positive. -/
theorem fit_residual {S : SigNum} {l : List ℝ} {n i : ℕ} (hi : i < n) {f e : ℝ}
    (he : fitExpect S (l.length * (fitEdges l n 1 - fitEdges l n 0)) (mean l) (Real.sqrt (mean l))
      ((fitEdges l n i + fitEdges l n (i + 1)) / 2) f = some e) (he0 : 0 < e) :
    (fitResiduals S l n f)[i]? = some (some (Real.sqrt
      (-Real.log (Real.exp (-e) * e ^ fitCounts l n i / (fitCounts l n i).factorial)))) := by
  obtain ⟨h1, h2⟩ := fit_term he0 (fitCounts l n i)
  have hm : fitEdges l n i + (fitEdges l n (i + 1) - fitEdges l n i) / 2 =
      (fitEdges l n i + fitEdges l n (i + 1)) / 2 := by ring
  unfold fitResiduals
  simp only [List.getElem?_map, List.getElem?_range hi, Option.map_some, hm]
  change some (match fitTerm (fitCounts l n i) (fitExpect S (l.length * (fitEdges l n 1 - fitEdges l n 0))
    (mean l) (Real.sqrt (mean l)) ((fitEdges l n i + fitEdges l n (i + 1)) / 2) f) with
    | none => none
    | some t => if t < 0 then none else some (Real.sqrt t)) = _
  rw [he, h1]
  simp only [not_lt.2 h2, if_false]

/-! ### Histogram -/

theorem foldr_min_le (l : List ℝ) (d : ℝ) : ∀ x ∈ l, l.foldr min d ≤ x := by
  induction l with
  | nil => simp
  | cons a l ih =>
    intro x hx
    rcases List.mem_cons.1 hx with rfl | hx
    · exact min_le_left _ _
    · exact (min_le_right _ _).trans (ih x hx)

theorem le_foldr_max (l : List ℝ) (d : ℝ) : ∀ x ∈ l, x ≤ l.foldr max d := by
  induction l with
  | nil => simp
  | cons a l ih =>
    intro x hx
    rcases List.mem_cons.1 hx with rfl | hx
    · exact le_max_left _ _
    · exact (ih x hx).trans (le_max_right _ _)

/-- The edges are equidistant, increasing, and enclose all values. -/
theorem fitEdges_spec {l : List ℝ} (hl : l ≠ []) {n : ℕ} (hn : 0 < n) :
    ∃ a w : ℝ, 0 < w ∧ (∀ i, fitEdges l n i = a + i * w) ∧ ∀ x ∈ l, a ≤ x ∧ x ≤ a + n * w := by
  have hn' : (0 : ℝ) < n := by exact_mod_cast hn
  set lo := l.foldr min (l.headD 0) with hlo
  set hi := l.foldr max (l.headD 0) with hhi
  have h1 := foldr_min_le l (l.headD 0)
  have h2 := le_foldr_max l (l.headD 0)
  have hle : lo ≤ hi := by
    obtain ⟨x, hx⟩ := List.exists_mem_of_ne_nil l hl
    exact (h1 x hx).trans (h2 x hx)
  refine ⟨if lo = hi then lo - 1 / 2 else lo,
    ((if lo = hi then hi + 1 / 2 else hi) - (if lo = hi then lo - 1 / 2 else lo)) / n, ?_, fun i => rfl, ?_⟩
  · apply div_pos _ hn'
    split
    · linarith
    · next h => exact sub_pos.2 (lt_of_le_of_ne hle h)
  · intro x hx
    have e1 := h1 x hx
    have e2 := h2 x hx
    rw [mul_div_cancel₀ _ hn'.ne']
    split
    · constructor <;> linarith
    · constructor <;> linarith

/-- Every value falls into exactly one bin. -/
theorem one_bin {a w : ℝ} (hw : 0 < w) {n : ℕ} (hn : 0 < n) {x : ℝ} (h1 : a ≤ x) (h2 : x ≤ a + n * w) :
    ∃ i < n, ∀ j < n, (a + j * w ≤ x ∧ (x < a + (j + 1 : ℕ) * w ∨ j + 1 = n ∧ x = a + (j + 1 : ℕ) * w)) ↔
      j = i := by
  have hu : ∀ i j : ℕ, i < j → ∀ (_ : j < n),
      (a + i * w ≤ x ∧ (x < a + (i + 1 : ℕ) * w ∨ i + 1 = n ∧ x = a + (i + 1 : ℕ) * w)) →
      ¬ (a + j * w ≤ x) := by
    rintro i j hij hj ⟨-, h | ⟨h, -⟩⟩ h'
    · have : ((i + 1 : ℕ) : ℝ) ≤ j := by exact_mod_cast hij
      nlinarith
    · omega
  have hex : ∃ i < n, a + i * w ≤ x ∧ (x < a + (i + 1 : ℕ) * w ∨ i + 1 = n ∧ x = a + (i + 1 : ℕ) * w) := by
    rcases h2.eq_or_lt with h | h
    · refine ⟨n - 1, by omega, ?_, .inr ⟨by omega, ?_⟩⟩
      · have : ((n - 1 : ℕ) : ℝ) ≤ n := by exact_mod_cast Nat.sub_le _ _
        nlinarith
      · rw [Nat.sub_add_cancel hn]; exact h
    · have h0 : 0 ≤ (x - a) / w := div_nonneg (by linarith) hw.le
      refine ⟨⌊(x - a) / w⌋₊, ?_, ?_, .inl ?_⟩
      · rw [Nat.floor_lt h0, div_lt_iff₀ hw]; linarith
      · have := Nat.floor_le h0
        rw [le_div_iff₀ hw] at this; linarith
      · have := Nat.lt_floor_add_one ((x - a) / w)
        rw [div_lt_iff₀ hw] at this
        push_cast; linarith
  obtain ⟨i, hi, hp⟩ := hex
  refine ⟨i, hi, fun j hj => ⟨fun h => ?_, fun h => h ▸ hp⟩⟩
  rcases lt_trichotomy i j with h' | h' | h'
  · exact absurd h.1 (hu i j h' hj hp)
  · exact h'.symm
  · exact absurd hp.1 (hu j i h' hi h)

theorem sum_countP {α : Type} (l : List α) (n : ℕ) (p : ℕ → α → Bool)
    (h : ∀ x ∈ l, ∃ i < n, ∀ j < n, p j x = true ↔ j = i) :
    ∑ i ∈ Finset.range n, l.countP (p i) = l.length := by
  induction l with
  | nil => simp
  | cons x l ih =>
    simp only [List.countP_cons, Finset.sum_add_distrib, List.length_cons]
    rw [ih fun y hy => h y (List.mem_cons_of_mem _ hy)]
    congr 1
    obtain ⟨i, hi, hp⟩ := h x List.mem_cons_self
    rw [Finset.sum_eq_single i]
    · simp [(hp i hi).2 rfl]
    · intro j hj hji
      have : ¬ (p j x = true) := fun h' => hji ((hp j (Finset.mem_range.1 hj)).1 h')
      simp [this]
    · intro h'; exact absurd (Finset.mem_range.2 hi) h'

/-- **C57 (histogram).** Every simulated value is counted in exactly one bin. -/
theorem fit_counts {l : List ℝ} (hl : l ≠ []) {n : ℕ} (hn : 0 < n) :
    ∑ i ∈ Finset.range n, fitCounts l n i = l.length := by
  obtain ⟨a, w, hw, he, hx⟩ := fitEdges_spec hl hn
  unfold fitCounts
  simp only [← List.countP_eq_length_filter]
  apply sum_countP
  intro x hxl
  obtain ⟨i, hi, h⟩ := one_bin hw hn (hx x hxl).1 (hx x hxl).2
  refine ⟨i, hi, fun j hj => ?_⟩
  rw [← h j hj, he, he]
  simp

end Phik.Props
