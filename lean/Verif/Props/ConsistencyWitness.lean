import Verif.Props.ConsistencyData
import Mathlib.Probability.ProbabilityMassFunction.Constructions

/-! # Property C84: the hypotheses can be met -/

namespace Phik.Props

open Spec MeasureTheory ProbabilityTheory Topology Gauss
open Filter (Tendsto atTop Eventually)

/-- Independent draws from a probability mass function exist, and functions of them are independent draws. -/
theorem indep_exists {α : Type} [Countable α] (P : PMF α) :
    ∃ (Ω : Type) (_ : MeasurableSpace Ω) (μ : Measure Ω) (D : ℕ → Ω → α),
      ∀ (β : Type) (g : α → β), IndepRecords μ (fun k ω => g (D k ω)) fun z => ((P.map g) z).toReal := by
  letI : MeasurableSpace α := ⊤
  haveI : MeasurableSingletonClass α := ⟨fun _ => trivial⟩
  refine ⟨ℕ → α, inferInstance, Measure.infinitePi fun _ => P.toMeasure, fun k ω => ω k, fun β g => ?_⟩
  have hm : ∀ k : ℕ, Measurable fun ω : ℕ → α => ω k := fun k => measurable_pi_apply k
  have hP : ∀ z, ENNReal.ofReal ((P.map g) z).toReal = (P.map g) z := fun z => ENNReal.ofReal_toReal ((P.map g).apply_ne_top z)
  have hs : ∀ z, P.toMeasure {x | g x = z} = (P.map g) z := fun z => by
    rw [PMF.toMeasure_apply _ (MeasurableSet.of_discrete), PMF.map_apply]
    refine tsum_congr fun x => ?_
    simp only [Set.indicator, Set.mem_ofPred_eq]
    by_cases h : g x = z
    · simp [h]
    · simp [h, Ne.symm h]
  refine ⟨inferInstance, fun z => ENNReal.toReal_nonneg, fun k z => hm k (MeasurableSet.of_discrete (s := {x | g x = z})), fun s z => ?_⟩
  have : {ω : ℕ → α | ∀ k ∈ s, g (ω k) = z k} = Set.pi s fun k => {x | g x = z k} := by ext ω; simp [Set.mem_pi]
  rw [this, Measure.infinitePi_pi _ fun _ _ => MeasurableSet.of_discrete]
  exact Finset.prod_congr rfl fun k _ => by rw [hs, hP]

variable {r c : ℕ}

/-- For every joint distribution of the complete records and every proportion of complete records there are independent draws `D` (`none` for an
incomplete record), whatever the values are called. -/
theorem draws_exist {p : Fin r → Fin c → ℝ} (hp : IsJoint p) {q : ℝ} (hq : 0 < q) (hq1 : q ≤ 1) :
    ∃ (Ω : Type) (_ : MeasurableSpace Ω) (μ : Measure Ω) (D : ℕ → Ω → Option (Fin r × Fin c)),
      ∀ {α β : Type} (u : Fin r → α) (v : Fin c → β), Function.Injective u → Function.Injective v →
      ∃ law, CompleteLaw law q p u v ∧ IndepRecords μ (fun k ω => ((D k ω).map fun z => u z.1, (D k ω).map fun z => v z.2)) law := by
  let w : Option (Fin r × Fin c) → ℝ := fun o => match o with
    | none => 1 - q
    | some (i, j) => q * p i j
  have hw : ∀ o, 0 ≤ w o := by
    rintro (_ | ⟨i, j⟩)
    · exact sub_nonneg.2 hq1
    · exact mul_nonneg hq.le (hp.nonneg i j)
  let P : PMF (Option (Fin r × Fin c)) := PMF.ofFintype (fun o => ENNReal.ofReal (w o)) (by
    rw [← ENNReal.ofReal_sum_of_nonneg fun o _ => hw o, Fintype.sum_option, Fintype.sum_prod_type]
    change ENNReal.ofReal (1 - q + ∑ i, ∑ j, q * p i j) = 1
    simp only [← Finset.mul_sum, hp.total, mul_one]
    rw [sub_add_cancel, ENNReal.ofReal_one])
  obtain ⟨Ω, mΩ, μ, D, hD⟩ := indep_exists P
  refine ⟨Ω, mΩ, μ, D, fun {α β} u v hu hv => ?_⟩
  let g : Option (Fin r × Fin c) → Option α × Option β := fun o => (o.map fun z => u z.1, o.map fun z => v z.2)
  have hg : Function.Injective g := by
    rintro (_ | ⟨i, j⟩) (_ | ⟨i', j'⟩) h <;> simp [g] at h
    · rfl
    · rw [hu h.1, hv h.2]
  have hval : ∀ o, ((P.map g) (g o)).toReal = w o := by
    intro o
    rw [PMF.map_apply, tsum_eq_single o]
    · simp [P, ENNReal.toReal_ofReal (hw o)]
    · intro o' ho'
      rw [if_neg fun h => ho' (hg h).symm]
  refine ⟨_, ⟨hq, hu, hv, fun i j => hval (some (i, j)), fun a b hab => ?_⟩, hD _ g⟩
  have : (P.map g) (some a, some b) ≠ 0 := fun h0 => hab (by simp [h0])
  rw [← PMF.mem_support_iff, PMF.mem_support_map_iff] at this
  obtain ⟨(_ | ⟨i, j⟩), -, h⟩ := this
  · simp [g] at h
  · simp only [g, Option.map_some, Prod.mk.injEq, Option.some.injEq] at h
    exact ⟨⟨i, h.1⟩, ⟨j, h.2⟩⟩

/-- Two variables with three values that agree two times out of three. -/
noncomputable def agreeLaw (i j : Fin 3) : ℝ := if i = j then 2 / 9 else 1 / 18

theorem agreeLaw_joint : IsJoint agreeLaw := by
  refine ⟨fun i j => by unfold agreeLaw; split <;> norm_num, ?_, fun i => ?_, fun i => ?_⟩
  · simp [agreeLaw, Fin.sum_univ_three]; norm_num
  · fin_cases i <;> simp [agreeLaw, Fin.sum_univ_three] <;> norm_num
  · fin_cases i <;> simp [agreeLaw, Fin.sum_univ_three] <;> norm_num

/-- Its phik is strictly between 0 and 1. -/
theorem agreeLaw_phik : ∃ rho, IsPhikOfLaw gaussMvn agreeLaw rho ∧ 0 < rho ∧ rho < 1 := by
  obtain ⟨⟨rho, h⟩, h2⟩ := phik_of_law gaussian_mvn_spec (r := 3) (c := 3) (by norm_num) (by norm_num) agreeLaw_joint
  obtain ⟨-, h0, h1⟩ := h2 (square_distance_strict (by norm_num)) rho h
  refine ⟨rho, h, lt_of_le_of_ne h.1 fun e => ?_, lt_of_le_of_ne h.2.1 fun e => ?_⟩
  · have := h0.1 e.symm 0 0
    simp [agreeLaw, Fin.sum_univ_three] at this
    norm_num at this
  · rcases h1.1 e with h | h
    · have := h (0 : Fin 3) (0 : Fin 3) (1 : Fin 3) (by simp [lawArr, agreeLaw]) (by simp [lawArr, agreeLaw])
      exact absurd this (by decide : (0 : Fin 3) ≠ 1)
    · have := h (0 : Fin 3) (0 : Fin 3) (1 : Fin 3) (by simp [lawArr, agreeLaw, Arr2.transpose]) (by simp [lawArr, agreeLaw, Arr2.transpose])
      exact absurd this (by decide : (0 : Fin 3) ≠ 1)

/-- With the true bivariate normal integrals, draws of which a quarter is incomplete and any labels: phik of the sample converges to the phik of the
distribution, which is strictly between 0 and 1. -/
example (u v : Fin 3 → Cell) (hu : Function.Injective u) (hv : Function.Injective v) :
    ∃ rho, 0 < rho ∧ rho < 1 ∧ ∃ (Ω : Type) (_ : MeasurableSpace Ω) (μ : Measure Ω) (_ : IsProbabilityMeasure μ)
      (R : ℕ → Ω → Option Cell × Option Cell),
      ∀ᵐ ω ∂μ, ∀ ε : ℝ, 0 < ε → ∀ᶠ n in atTop, ∀ noise, ∃ x,
        IsPhik ⟨gaussMvn, idealBrentq⟩ noise ((List.range n).map (R · ω)) (some x) ∧ |x - rho| ≤ rootTol + ε := by
  obtain ⟨rho, h1, h2, h3⟩ := agreeLaw_phik
  obtain ⟨Ω, _, μ, D, hD⟩ := draws_exist agreeLaw_joint (q := 3 / 4) (by norm_num) (by norm_num)
  obtain ⟨law, hl, hR⟩ := hD u v hu hv
  exact ⟨rho, h2, h3, Ω, _, μ, hR.prob, _, phik_estimates (r := 3) (c := 3) gaussian_numerics (by norm_num) (by norm_num)
    (square_distance_strict (by norm_num)) agreeLaw_joint h1 hl hR.iid⟩

/-- Two columns of numbers, binned with the edges 0, 1, 2, 3, of which a quarter is missing: the entries of the phik matrix of ever more records
converge. -/
example : ∃ rho, 0 < rho ∧ rho < 1 ∧ ∃ (Ω : Type) (_ : MeasurableSpace Ω) (μ : Measure Ω) (_ : IsProbabilityMeasure μ) (A B : ℕ → Ω → Cell),
    ∀ᵐ ω ∂μ, ∀ ε : ℝ, 0 < ε → ∀ᶠ n in atTop, ∃ t w' x,
      (phikMatrix ⟨gaussMvn, idealBrentq⟩ none id (fun _ => none) 0 (some ["x", "y"]) (.one (.edges [0, 1, 2, 3])) false true true true true).exec
        ⟨[⟨n, [⟨"x", true, (List.range n).map (A · ω)⟩, ⟨"y", true, (List.range n).map (B · ω)⟩]⟩], []⟩ = (.ok t, w') ∧
      t.v "x" "y" = some x ∧ |x - rho| ≤ rootTol + ε := by
  obtain ⟨rho, h1, h2, h3⟩ := agreeLaw_phik
  obtain ⟨Ω, _, μ, D, hD⟩ := draws_exist agreeLaw_joint (q := 3 / 4) (by norm_num) (by norm_num)
  have hu : Function.Injective fun i : Fin 3 => Cell.num ((i : ℕ) + 1 : ℕ) := by
    intro i j h
    simp only [Cell.num.injEq] at h
    have : (i : ℕ) + 1 = j + 1 := by exact_mod_cast h
    exact Fin.ext (by omega)
  obtain ⟨law, hl, hR⟩ := hD _ _ hu hu
  let val : Option (Fin 3) → Cell := fun o => match o with
    | none => .nan
    | some i => .num ((i : ℕ) + 1 / 2)
  have hval : ∀ o : Option (Fin 3), view true true true (binLabel [0, 1, 2, 3] (val o)) = o.map fun i : Fin 3 => Cell.num ((i : ℕ) + 1 : ℕ) := by
    rintro (_ | i)
    · rfl
    · change view true true true (binLabel [0, 1, 2, 3] (.num ((i : ℕ) + 1 / 2))) = some (Cell.num ((i : ℕ) + 1 : ℕ))
      have hb : binLabel [0, 1, 2, 3] (.num ((i : ℕ) + 1 / 2)) = Cell.num ((i : ℕ) + 1 : ℕ) := by
        unfold binLabel
        fin_cases i <;> norm_num [List.countP_cons]
      rw [hb]; rfl
  have hrec : ∀ k ω, (view true true true (binLabel [0, 1, 2, 3] (val ((D k ω).map Prod.fst))),
      view true true true (binLabel [0, 1, 2, 3] (val ((D k ω).map Prod.snd)))) =
      ((D k ω).map fun z => Cell.num ((z.1 : ℕ) + 1 : ℕ), (D k ω).map fun z => Cell.num ((z.2 : ℕ) + 1 : ℕ)) := by
    intro k ω
    rw [hval, hval, Option.map_map, Option.map_map]
    rfl
  simp only [← hrec] at hR
  refine ⟨rho, h2, h3, Ω, _, μ, hR.prob, fun k ω => val ((D k ω).map Prod.fst), fun k ω => val ((D k ω).map Prod.snd), ?_⟩
  filter_upwards [phik_matrix_binned_estimates (r := 3) (c := 3) gaussian_numerics (by norm_num) (by norm_num)
    (square_distance_strict (by norm_num)) agreeLaw_joint h1 hl (binLabel [0, 1, 2, 3]) (binLabel [0, 1, 2, 3]) true true true hR.iid] with ω h ε hε
  filter_upwards [h ε hε] with n hn
  have hstr : ∀ (o : Option (Fin 3)) s, val o ≠ .str s := by rintro (_ | i) s h <;> cases h
  have hprep : ∀ cl : Column, cl.name ∈ ["x", "y"] →
      PreparedBy id false ["x", "y"] (.one (.edges [0, 1, 2, 3])) cl (binLabel [0, 1, 2, 3]) := by
    intro cl hname
    exact ⟨fun _ => ⟨_, _, .one _ _, .edges _, by norm_num [List.pairwise_cons], rfl⟩, fun h => absurd hname h⟩
  refine hn true false id (fun _ => none) _ 0 _ (some ["x", "y"]) (.one (.edges [0, 1, 2, 3])) none ⟨"x", true, _⟩ ⟨"y", true, _⟩ rfl
    (by simp [Frame.names]) (fun _ h => by cases h) ?_ (fun name _ => ⟨_, .one _ _, .inl ⟨_, rfl⟩⟩) (by simp) (by simp) (by simp) rfl rfl
    (hprep _ (by simp)) (hprep _ (by simp)) (.inl rfl) (.inl rfl)
  intro c hc _ s hs
  simp only [List.mem_cons, List.not_mem_nil, or_false] at hc
  rcases hc with rfl | rfl <;>
  · obtain ⟨k, -, e⟩ := List.mem_map.1 hs
    exact hstr _ _ e

end Phik.Props
