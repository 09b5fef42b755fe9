import Verif.Props.Power
import Verif.Props.ConsistencyWitness
import Verif.Props.CategoricalSig

/-! # Property C85: the hypotheses can be met -/

namespace Phik.Props

open Spec MeasureTheory Topology
open Filter (Tendsto atTop Eventually)

theorem agreeLaw_dependent : ¬ IndepJoint agreeLaw := by
  intro h
  have := h 0 0
  simp [agreeLaw, Fin.sum_univ_three] at this
  norm_num at this

theorem agreeLaw_phi2 : 0 < phi2 agreeLaw ∧ 0 < mutualInfo agreeLaw :=
  ⟨lt_of_le_of_ne (phi2_nonneg agreeLaw_joint) fun h => agreeLaw_dependent ((phi2_eq_zero agreeLaw_joint).1 h.symm),
    lt_of_le_of_ne (mutualInfo_pos agreeLaw_joint).1 fun h => agreeLaw_dependent ((mutualInfo_pos agreeLaw_joint).2.1 h.symm)⟩

/-- Draws of which a quarter is incomplete, with any labels, the likelihood ratio as statistic and tail probabilities that underflow: the significance
tends to infinity. -/
example {F : Type} (u v : Fin 3 → Cell) (hu : Function.Injective u) (hv : Function.Injective v) :
    ∃ (Ω : Type) (_ : MeasurableSpace Ω) (μ : Measure Ω) (_ : IsProbabilityMeasure μ) (R : ℕ → Ω → Option Cell × Option Cell),
      ∀ᵐ ω ∂μ, ∀ z0 : ℝ, ∀ᶠ n in atTop, ∀ rn : SimRun F, rn.lambda = "log-likelihood" →
        ∃ z, IsSig (flushed trueSig) rn "asymptotic" ((List.range n).map (R · ω)) (some z) ∧ (z0 : EReal) < z := by
  obtain ⟨Ω, _, μ, D, hD⟩ := draws_exist agreeLaw_joint (q := 3 / 4) (by norm_num) (by norm_num)
  obtain ⟨law, hl, hR⟩ := hD u v hu hv
  exact ⟨Ω, _, μ, hR.prob, _, asymptotic_detects (r := 3) (c := 3) (flushed_spec trueSig_spec) (flushed_tails trueSig_spec trueSig_tails)
    (by norm_num) (by norm_num) agreeLaw_joint agreeLaw_dependent hl hR.iid (by simp)⟩

/-- A frame with two columns of labels, a quarter of which is missing: `significance_from_rebinned_df` returns, and the significance of the two columns tends
to infinity. -/
example {F : Type} : ∃ (Ω : Type) (_ : MeasurableSpace Ω) (μ : Measure Ω) (_ : IsProbabilityMeasure μ) (A B : ℕ → Ω → Cell),
    ∀ᵐ ω ∂μ, ∀ z0 : ℝ, ∀ᶠ n in atTop, ∀ R : ℕ → SimRun F, (∀ k, (R k).lambda = "pearson") → ∃ t w' z,
      (sigFromRebinned trueSig R 0 "asymptotic" true true true).exec
        ⟨[⟨n, [⟨"x", true, (List.range n).map (A · ω)⟩, ⟨"y", true, (List.range n).map (B · ω)⟩]⟩], []⟩ = (.ok t, w') ∧
      t.v "x" "y" = some z ∧ (z0 : EReal) < z := by
  obtain ⟨Ω, _, μ, D, hD⟩ := draws_exist agreeLaw_joint (q := 3 / 4) (by norm_num) (by norm_num)
  have hu : Function.Injective fun i : Fin 3 => Cell.num ((i : ℕ) : ℕ) := by
    intro i j h
    simp only [Cell.num.injEq] at h
    exact Fin.ext (by exact_mod_cast h)
  obtain ⟨law, hl, hR⟩ := hD _ _ hu hu
  let val : Option (Fin 3) → Cell := fun o => match o with
    | none => .nan
    | some i => .num ((i : ℕ) : ℕ)
  have hval : ∀ o : Option (Fin 3), view true true true (val o) = o.map fun i : Fin 3 => Cell.num ((i : ℕ) : ℕ) := by
    rintro (_ | i) <;> rfl
  have hrec : ∀ k ω, (view true true true (val ((D k ω).map Prod.fst)), view true true true (val ((D k ω).map Prod.snd))) =
      ((D k ω).map fun z => Cell.num ((z.1 : ℕ) : ℕ), (D k ω).map fun z => Cell.num ((z.2 : ℕ) : ℕ)) := by
    intro k ω
    rw [hval, hval, Option.map_map, Option.map_map]
    rfl
  simp only [← hrec] at hR
  refine ⟨Ω, _, μ, hR.prob, fun k ω => val ((D k ω).map Prod.fst), fun k ω => val ((D k ω).map Prod.snd), ?_⟩
  filter_upwards [significance_detects (F := F) (r := 3) (c := 3) trueSig_spec trueSig_tails (by norm_num) (by norm_num) agreeLaw_joint agreeLaw_dependent hl
    true true true hR.iid (lam := "pearson") (by simp)] with ω h z0
  filter_upwards [h z0] with n hn R hRl
  set f : Frame := ⟨n, [⟨"x", true, (List.range n).map fun k => val ((D k ω).map Prod.fst)⟩,
    ⟨"y", true, (List.range n).map fun k => val ((D k ω).map Prod.snd)⟩]⟩ with hf
  have hnd : f.names.Nodup := by simp [hf, Frame.names]
  rcases significance_of_frame (w := ⟨[f], []⟩) (r := 0) trueSig R "asymptotic" rfl hnd true true true with ⟨t, w', g1, -⟩ | ⟨e, w', -, -, k, ca, -, cb, -, -, t, ht, l1, l2, he⟩
  · obtain ⟨z, hz⟩ := hn R _ w' 0 f ⟨"x", true, _⟩ ⟨"y", true, _⟩ t hRl rfl hnd (by simp [hf]) (by simp [hf]) rfl rfl g1
    exact ⟨t, w', z, g1, hz⟩
  · obtain ⟨pz, e'⟩ := asymptotic_returns (R k) (hRl k) (data_isCount (table_data ht) l1) l1 l2
    rw [he] at e'; cases e'

end Phik.Props
