import Verif.Props.ConsistencyWitness
import Verif.Props.BinaryTables

/-! # Property C84 with the true bivariate normal integrals, without a hypothesis on the curve -/

namespace Phik.Props

open Spec MeasureTheory ProbabilityTheory Topology Gauss
open Filter (Tendsto atTop Eventually)

variable {r c : ℕ}

/-- **C84 (the true integrals).** A joint distribution of two variables with the same number of values, or of which one has two values, has
one phik.  It is 0 exactly for independent variables and 1 exactly if one variable determines the other, and phik of ever more independent
draws (complete or not, with any labels, with and without noise correction) converges to it with probability one, up to the tolerance of the
root finder. -/
theorem gaussian_phik_estimates {brentq : (ℝ → ℝ) → ℝ → ℝ → ℝ → Except Err ℝ} (hb : BrentqSpec brentq) (hr : 2 ≤ r) (hc : 2 ≤ c)
    (hsq : SquareOrBinary r c) {p : Fin r → Fin c → ℝ} (hp : IsJoint p) :
    ∃ rho, IsPhikOfLaw gaussMvn p rho ∧ (∀ rho', IsPhikOfLaw gaussMvn p rho' → rho' = rho) ∧ (rho = 0 ↔ IndepJoint p) ∧
      (rho = 1 ↔ Determines (lawArr p) ∨ Determines (lawArr p).transpose) ∧
      ∀ (law : Option Cell × Option Cell → ℝ) (q : ℝ) (u : Fin r → Cell) (v : Fin c → Cell), CompleteLaw law q p u v →
        ∀ (Ω : Type) (_ : MeasurableSpace Ω) (μ : Measure Ω) (R : ℕ → Ω → Option Cell × Option Cell), IIDRecords μ R law →
          ∀ᵐ ω ∂μ, ∀ ε : ℝ, 0 < ε → ∀ᶠ n in atTop, ∀ noise, ∃ x,
            IsPhik ⟨gaussMvn, brentq⟩ noise ((List.range n).map (R · ω)) (some x) ∧ |x - rho| ≤ rootTol + ε := by
  have hs := grid_distance_strict hr hc hsq
  obtain ⟨⟨rho, h⟩, h2⟩ := phik_of_law gaussian_mvn_spec hr hc hp
  obtain ⟨h3, h4, h5⟩ := h2 hs rho h
  exact ⟨rho, h, h3, h4, h5, fun law q u v hl Ω _ μ R hR => phik_estimates (nm := ⟨gaussMvn, brentq⟩) ⟨gaussian_mvn_spec, hb⟩ hr hc hs hp h hl hR⟩

/-- A variable with two values and one with three: the first value of the second only goes with the first value of the first. -/
noncomputable def halfLaw : Fin 2 → Fin 3 → ℝ := ![![1 / 4, 1 / 8, 1 / 8], ![0, 1 / 4, 1 / 4]]

theorem halfLaw_joint : IsJoint halfLaw := by
  refine ⟨fun i j => by fin_cases i <;> fin_cases j <;> simp [halfLaw], ?_, fun i => ?_, fun i => ?_⟩
  · simp [halfLaw, Fin.sum_univ_three, Fin.sum_univ_two]; norm_num
  · fin_cases i <;> simp [halfLaw, Fin.sum_univ_three] <;> norm_num
  · fin_cases i <;> simp [halfLaw, Fin.sum_univ_two] <;> norm_num

/-- Its phik is strictly between 0 and 1, and phik of independent draws, of which a quarter is incomplete, converges to it. -/
example (u : Fin 2 → Cell) (v : Fin 3 → Cell) (hu : Function.Injective u) (hv : Function.Injective v) :
    ∃ rho, 0 < rho ∧ rho < 1 ∧ ∃ (Ω : Type) (_ : MeasurableSpace Ω) (μ : Measure Ω) (_ : IsProbabilityMeasure μ)
      (R : ℕ → Ω → Option Cell × Option Cell),
      ∀ᵐ ω ∂μ, ∀ ε : ℝ, 0 < ε → ∀ᶠ n in atTop, ∀ noise, ∃ x,
        IsPhik ⟨gaussMvn, idealBrentq⟩ noise ((List.range n).map (R · ω)) (some x) ∧ |x - rho| ≤ rootTol + ε := by
  obtain ⟨rho, h1, -, h0, h2, h3⟩ := gaussian_phik_estimates idealBrentq_spec (r := 2) (c := 3) le_rfl (by norm_num) (.inr (.inl rfl)) halfLaw_joint
  obtain ⟨Ω, _, μ, D, hD⟩ := draws_exist halfLaw_joint (q := 3 / 4) (by norm_num) (by norm_num)
  obtain ⟨law, hl, hR⟩ := hD u v hu hv
  refine ⟨rho, lt_of_le_of_ne h1.1 fun e => ?_, lt_of_le_of_ne h1.2.1 fun e => ?_, Ω, _, μ, hR.prob, _, h3 law _ u v hl Ω _ μ _ hR.iid⟩
  · have := h0.1 e.symm 1 0
    simp [halfLaw, Fin.sum_univ_three, Fin.sum_univ_two] at this
  · rcases h2.1 e with h | h
    · have := h (0 : Fin 2) (0 : Fin 3) (1 : Fin 3) (by simp [lawArr, halfLaw]) (by simp [lawArr, halfLaw])
      exact absurd this (by decide : (0 : Fin 3) ≠ 1)
    · have := h (1 : Fin 3) (0 : Fin 2) (1 : Fin 2) (by simp [lawArr, halfLaw, Arr2.transpose]) (by simp [lawArr, halfLaw, Arr2.transpose])
      exact absurd this (by decide : (0 : Fin 2) ≠ 1)

end Phik.Props
