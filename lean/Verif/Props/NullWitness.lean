import Verif.Props.NullMatrix
import Verif.Props.PowerWitness
import Verif.Props.SigReturns

/-! # Property C86: the hypotheses can be met -/

namespace Phik.Props

open Spec MeasureTheory ProbabilityTheory Topology Gauss
open Filter (Tendsto atTop Eventually)

/-- Two independent variables with three and two values. -/
noncomputable def apartLaw (i : Fin 3) (j : Fin 2) : ℝ := (![1 / 2, 1 / 3, 1 / 6] : Fin 3 → ℝ) i * (![1 / 4, 3 / 4] : Fin 2 → ℝ) j

theorem apartLaw_joint : IsJoint apartLaw := by
  refine ⟨fun i j => ?_, ?_, fun i => ?_, fun j => ?_⟩
  · fin_cases i <;> fin_cases j <;> norm_num [apartLaw]
  · simp [apartLaw, Fin.sum_univ_three]; norm_num
  · fin_cases i <;> simp [apartLaw] <;> norm_num
  · fin_cases j <;> simp [apartLaw, Fin.sum_univ_three] <;> norm_num

theorem apartLaw_indep : IndepJoint apartLaw := by
  intro i j
  fin_cases i <;> fin_cases j <;> simp [apartLaw, Fin.sum_univ_three] <;> norm_num

/-- Draws of which a quarter is incomplete, with any labels and any of the six statistics: the p-value is at most 5% with a probability that tends to 5%. -/
example {F : Type} (rn : SimRun F) (hlam : rn.lambda ∈ ["pearson", "log-likelihood", "cressie-read", "freeman-tukey", "neyman", "mod-log-likelihood"])
    (u : Fin 3 → Cell) (v : Fin 2 → Cell) (hu : Function.Injective u) (hv : Function.Injective v) :
    ∃ (Ω : Type) (_ : MeasurableSpace Ω) (μ : Measure Ω) (_ : IsProbabilityMeasure μ) (R : ℕ → Ω → Option Cell × Option Cell),
      Tendsto (fun n => μ {ω | ∃ P z, sigFromHist2d trueSig rn (countArr (firstCounts (R · ω) u v n)) "asymptotic" = .ok (some P, z) ∧ P ≤ 1 / 20})
        atTop (𝓝 (ENNReal.ofReal (1 / 20))) ∧
      ∀ z0 : ℝ, Tendsto (fun n => μ {ω | ∃ z, IsSig trueSig rn "asymptotic" ((List.range n).map (R · ω)) (some z) ∧ (z0 : EReal) < z})
        atTop (𝓝 (gaussianReal 0 1 (Set.Ioi z0))) := by
  obtain ⟨Ω, _, μ, D, hD⟩ := draws_exist apartLaw_joint (q := 3 / 4) (by norm_num) (by norm_num)
  obtain ⟨law, hl, hR⟩ := hD u v hu hv
  exact ⟨Ω, _, μ, hR.prob, _, null_p_value (r := 3) (c := 2) (by norm_num) le_rfl apartLaw_joint apartLaw_indep hl hR rn hlam (by norm_num) (by norm_num),
    fun z0 => null_significance (r := 3) (c := 2) (by norm_num) le_rfl apartLaw_joint apartLaw_indep hl hR rn hlam z0⟩

/-- Two columns of numbers, of which a quarter is missing, the second binned with the edges 0, 1, 2: `significance_matrix` returns for all draws, and the
probability that the significance of the two columns exceeds `z0` tends to the normal tail probability. -/
example {F : Type} (R : ℕ → SimRun F) (hRl : ∀ k, (R k).lambda = "pearson") :
    ∃ (Ω : Type) (_ : MeasurableSpace Ω) (μ : Measure Ω) (_ : IsProbabilityMeasure μ) (A B : ℕ → Ω → Cell) (t : ℕ → Ω → LTab EReal) (w' : ℕ → Ω → World),
    (∀ n ω, (significanceMatrix trueSig R id (fun _ => none) 0 (some ["y"]) (.one (.edges [0, 1, 2])) "asymptotic" true true true).exec
        ⟨[⟨n, [⟨"x", true, (List.range n).map (A · ω)⟩, ⟨"y", true, (List.range n).map (B · ω)⟩]⟩], []⟩ = (.ok (t n ω), w' n ω)) ∧
    ∀ z0 : ℝ, Tendsto (fun n => μ {ω | ∃ z, (t n ω).v "x" "y" = some z ∧ (z0 : EReal) < z}) atTop (𝓝 (gaussianReal 0 1 (Set.Ioi z0))) := by
  obtain ⟨Ω, _, μ, D, hD⟩ := draws_exist apartLaw_joint (q := 3 / 4) (by norm_num) (by norm_num)
  have hu : Function.Injective fun i : Fin 3 => Cell.num ((i : ℕ) : ℕ) := by
    intro i j h
    simp only [Cell.num.injEq] at h
    exact Fin.ext (by exact_mod_cast h)
  have hv : Function.Injective fun i : Fin 2 => Cell.num ((i : ℕ) + 1 : ℕ) := by
    intro i j h
    simp only [Cell.num.injEq] at h
    have : (i : ℕ) + 1 = j + 1 := by exact_mod_cast h
    exact Fin.ext (by omega)
  obtain ⟨law, hl, hR⟩ := hD _ _ hu hv
  let valA : Option (Fin 3) → Cell := fun o => match o with
    | none => .nan
    | some i => .num ((i : ℕ) : ℕ)
  let valB : Option (Fin 2) → Cell := fun o => match o with
    | none => .nan
    | some i => .num ((i : ℕ) + 1 / 2)
  have hA : ∀ o : Option (Fin 3), view true true true (id (valA o)) = o.map fun i : Fin 3 => Cell.num ((i : ℕ) : ℕ) := by
    rintro (_ | i) <;> rfl
  have hB : ∀ o : Option (Fin 2), view true true true (binLabel [0, 1, 2] (valB o)) = o.map fun i : Fin 2 => Cell.num ((i : ℕ) + 1 : ℕ) := by
    rintro (_ | i)
    · rfl
    · change view true true true (binLabel [0, 1, 2] (.num ((i : ℕ) + 1 / 2))) = some (Cell.num ((i : ℕ) + 1 : ℕ))
      have hb : binLabel [0, 1, 2] (.num ((i : ℕ) + 1 / 2)) = Cell.num ((i : ℕ) + 1 : ℕ) := by
        unfold binLabel
        fin_cases i <;> norm_num [List.countP_cons]
      rw [hb]; rfl
  have hrec : ∀ k ω, (view true true true (id (valA ((D k ω).map Prod.fst))), view true true true (binLabel [0, 1, 2] (valB ((D k ω).map Prod.snd)))) =
      ((D k ω).map fun z => Cell.num ((z.1 : ℕ) : ℕ), (D k ω).map fun z => Cell.num ((z.2 : ℕ) + 1 : ℕ)) := by
    intro k ω
    rw [hA, hB, Option.map_map, Option.map_map]
    rfl
  simp only [← hrec] at hR
  have hstr : ∀ (o : Option (Fin 2)) s, valB o ≠ .str s := by rintro (_ | i) s h <;> cases h
  set f : ℕ → Ω → Frame := fun n ω => ⟨n, [⟨"x", true, (List.range n).map fun k => valA ((D k ω).map Prod.fst)⟩,
    ⟨"y", true, (List.range n).map fun k => valB ((D k ω).map Prod.snd)⟩]⟩ with hf
  have hnd : ∀ n ω, (f n ω).names.Nodup := fun n ω => by simp [hf, Frame.names]
  have hnum : ∀ n ω, ∀ c ∈ (f n ω).cols, c.name ∈ (some ["y"]).getD (guessIntervalCols (f n ω)) → ∀ s, Cell.str s ∉ c.cells := by
    intro n ω c hc hic s hs
    simp only [hf, List.mem_cons, List.not_mem_nil, or_false] at hc
    rcases hc with rfl | rfl
    · simp at hic
    · obtain ⟨k, -, e⟩ := List.mem_map.1 hs
      exact hstr _ _ e
  have hret : ∀ n ω, ∃ t w', (significanceMatrix trueSig R id (fun _ => none) 0 (some ["y"]) (.one (.edges [0, 1, 2])) "asymptotic" true true true).exec
      ⟨[f n ω], []⟩ = (.ok t, w') := by
    intro n ω
    obtain ⟨t, w', h, -⟩ := significance_matrix_returns (w := ⟨[f n ω], []⟩) (r := 0) (fun k => .inl ⟨rfl, trueSig_spec, trueSig_far, by rw [hRl k]; simp⟩) id (fun _ => none)
      rfl (hnd n ω) (some ["y"]) (.one (.edges [0, 1, 2])) true true true (hnum n ω) (fun name _ => ⟨_, .one _ _, .inl ⟨_, rfl⟩⟩)
    exact ⟨t, w', h⟩
  choose t w' ht using hret
  refine ⟨Ω, _, μ, hR.prob, _, _, t, w', ht, fun z0 => ?_⟩
  refine null_matrix (F := F) (r := 3) (c := 2) (by norm_num) le_rfl apartLaw_joint apartLaw_indep hl id (binLabel [0, 1, 2]) true true true hR (lam := "pearson") (by simp) z0
    id (fun _ => none) (R := fun _ _ => R) (ref := fun _ _ => 0) (ic := fun _ _ => some ["y"]) (bins := fun _ _ => .one (.edges [0, 1, 2]))
    (ca := fun n ω => ⟨"x", true, _⟩) (cb := fun n ω => ⟨"y", true, _⟩) (fun _ _ k => hRl k) (data := f) (fun n ω => rfl) hnd hnum
    (fun n ω name _ => ⟨_, .one _ _, .inl ⟨_, rfl⟩⟩) (fun n ω => by simp [hf]) (fun n ω => by simp [hf]) (fun _ _ => rfl) (fun _ _ => rfl)
    (fun _ _ => ⟨fun h => absurd h (by simp), fun _ => rfl⟩)
    (fun _ _ => ⟨fun _ => ⟨_, _, .one _ _, .edges _, by norm_num [List.pairwise_cons], rfl⟩, fun h => absurd h (by simp)⟩) (fun _ _ => .inl rfl) (fun _ _ => .inl rfl) ht

end Phik.Props
