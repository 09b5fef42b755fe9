import Verif.Props.QuantileBins
import Verif.Props.AutoWitness

/-! # Property C84 for bins at the quantiles of the data: the hypotheses can be met -/

namespace Phik.Props

open Spec MeasureTheory ProbabilityTheory Topology Gauss
open Filter (Tendsto atTop Eventually)

variable {r c : ℕ}

open scoped Classical in
/-- The probability of an event, as a sum over the outcomes of a variable that gives the records. -/
theorem probOf_range {ι α : Type} [Fintype ι] {val : ι → α} (hval : Function.Injective val) {raw : α → ℝ} {S : Finset α}
    (hS : ∀ x, raw x ≠ 0 → x ∈ S ∧ x ∈ Set.range val) (P : α → Prop) :
    probOf S raw P = ∑ o, if P (val o) then raw (val o) else 0 := by
  unfold probOf
  rw [Finset.sum_filter, ← Finset.sum_image (s := Finset.univ) (g := val) (f := fun x => if P x then raw x else 0) (fun _ _ _ _ h => hval h)]
  rw [← finsum_eq_sum_of_support_subset _ (s := S) ?_, ← finsum_eq_sum_of_support_subset _ (s := Finset.univ.image val) ?_]
  · intro x hx
    obtain ⟨o, rfl⟩ := (hS x fun h => hx (by simp [h])).2
    simp
  · intro x hx
    exact (hS x fun h => hx (by simp [h])).1

/-- The edges at the quartiles of the values 1, 2, 3 with equal probabilities. -/
def quartileEdges : List ℚ := [1 - 1 / 10 ^ 14, 1, 2, 3, 3]

theorem quartileEdges_bin (i : Fin 3) : binLabel quartileEdges (.num ((i : ℕ) + 1 : ℕ)) = .num ((i : ℕ) + 1 : ℕ) := by
  unfold binLabel quartileEdges
  fin_cases i <;> norm_num [List.countP_cons]

theorem quarters_eq : linspace (fun x => x) 0 1 5 = .ok [0, 1 / 4, 1 / 2, 3 / 4, 1] := by
  have h5 : List.range (Int.toNat 5) = [0, 1, 2, 3, 4] := rfl
  norm_num [linspace, h5]
  norm_num [Int.toNat]

/-- Two columns with the values 1, 2, 3, of which a quarter is missing, each binned at its quartiles: the entries of the phik matrix of ever more records converge. -/
example : ∃ rho, 0 < rho ∧ rho < 1 ∧ ∃ (Ω : Type) (_ : MeasurableSpace Ω) (μ : Measure Ω) (_ : IsProbabilityMeasure μ) (A B : ℕ → Ω → Cell),
    ∀ᵐ ω ∂μ, ∀ ε : ℝ, 0 < ε → ∀ᶠ n in atTop, ∃ t w' x,
      (phikMatrix ⟨gaussMvn, idealBrentq⟩ none (fun x => x) (fun _ => none) 0 (some ["x", "y"]) (.one (.num 4)) true true true true true).exec
        ⟨[⟨n, [⟨"x", true, (List.range n).map (A · ω)⟩, ⟨"y", true, (List.range n).map (B · ω)⟩]⟩], []⟩ = (.ok t, w') ∧
      t.v "x" "y" = some x ∧ |x - rho| ≤ rootTol + ε := by
  obtain ⟨rho, h1, h2, h3⟩ := agreeLaw_phik
  obtain ⟨Ω, _, μ, D, raw, S, hR, hS, hraw, hl⟩ := raw_draws_exist agreeLaw_joint (q := 3 / 4) (by norm_num) (by norm_num) numbered_inj
    (φ := fun x => (view true true true (binLabel quartileEdges x.1), view true true true (binLabel quartileEdges x.2))) (num_inj 3) (num_inj 3) (by
      rintro (_ | ⟨i, j⟩)
      · rfl
      · change (view true true true (binLabel quartileEdges (.num ((i : ℕ) + 1 : ℕ))), view true true true (binLabel quartileEdges (.num ((j : ℕ) + 1 : ℕ)))) = _
        rw [quartileEdges_bin, quartileEdges_bin]; rfl)
  have hpos : ∀ z : Fin 3 × Fin 3, raw (numbered (some z)) ≠ 0 := by
    intro z
    rw [hraw]
    unfold agreeLaw
    split <;> norm_num
  have hrange : ∀ x, raw x ≠ 0 → x = (.nan, .nan) ∨ ∃ i j : Fin 3, x = (.num ((i : ℕ) + 1 : ℕ), .num ((j : ℕ) + 1 : ℕ)) := by
    intro x hx
    obtain ⟨_, (_ | ⟨i, j⟩), rfl⟩ := hS x hx
    · exact .inl rfl
    · exact .inr ⟨i, j, rfl⟩
  have hin : ∀ (i : Fin 3) (y : ℚ), Cell.num ((i : ℕ) + 1 : ℕ) = .num y → 1 ≤ y ∧ y ≤ 3 := by
    intro i y h
    cases h
    fin_cases i <;> norm_num
  have key : ∀ var : Cell × Cell → Cell, var (.nan, .nan) = .nan → (∀ i : Fin 3, ∃ z : Fin 3 × Fin 3, var (numbered (some z)) = .num ((i : ℕ) + 1 : ℕ)) →
      (∀ i j : Fin 3, ∃ k : Fin 3, var (.num ((i : ℕ) + 1 : ℕ), .num ((j : ℕ) + 1 : ℕ)) = .num ((k : ℕ) + 1 : ℕ)) →
      (∀ P : ℚ → Prop, probOf S raw (fun z => ∃ y, var z = .num y ∧ P y) = ∑ i : Fin 3, open Classical in if P ((i : ℕ) + 1 : ℕ) then 1 / 4 else 0) →
      LimitBins S raw var (fun x => x) 0 true (some (.num 4)) (binLabel quartileEdges) := by
    intro var hn ho hk hprob
    have hall : probOf S raw (fun z => ∃ y, var z = .num y) = 3 / 4 := by
      have := hprob fun _ => True
      simp only [and_true, if_true, Fin.sum_univ_three] at this
      rw [this]; norm_num
    have hle : ∀ z y, raw z ≠ 0 → var z = .num y → 1 ≤ y ∧ y ≤ 3 := by
      intro z y hz h
      rcases hrange z hz with rfl | ⟨i, j, rfl⟩
      · rw [hn] at h; cases h
      · obtain ⟨k, e⟩ := hk i j
        exact hin k y (e ▸ h)
    have hoc : ∀ i : Fin 3, ∃ z, raw z ≠ 0 ∧ var z = .num ((i : ℕ) + 1 : ℕ) := fun i =>
      let ⟨z, hz⟩ := ho i
      ⟨_, hpos z, hz⟩
    have o1 : ∃ z, raw z ≠ 0 ∧ var z = .num 1 := hoc 0
    have o2 : ∃ z, raw z ≠ 0 ∧ var z = .num 2 := hoc 1
    have o3 : ∃ z, raw z ≠ 0 ∧ var z = .num 3 := hoc 2
    refine .some (.quantile (q := 4) (qs := [0, 1 / 4, 1 / 2, 3 / 4, 1]) ?_ ?_) (by norm_num [quartileEdges, List.pairwise_cons])
    · have : truncQ 4 + 1 = 5 := by norm_num [truncQ]
      rw [this]; exact quarters_eq
    · refine .cons ⟨o1, .inl fun z y hz h => (hle z y hz h).1, .inr ?_⟩ (.cons ⟨o1, .inl fun z y hz h => (hle z y hz h).1, .inr ?_⟩
        (.cons ⟨o2, .inr ?_, .inr ?_⟩ (.cons ⟨o3, .inr ?_, .inl fun z y hz h => (hle z y hz h).2⟩
        (.cons ⟨o3, .inr ?_, .inl fun z y hz h => (hle z y hz h).2⟩ .nil))))
      all_goals
        rw [hall, hprob]
        simp only [Fin.sum_univ_three]
        norm_num
  have keyA : LimitBins S raw Prod.fst (fun x => x) 0 true (some (.num 4)) (binLabel quartileEdges) := by
    refine key _ rfl (fun i => ⟨(i, 0), rfl⟩) (fun i j => ⟨i, rfl⟩) fun P => ?_
    rw [probOf_range numbered_inj hS, Fintype.sum_option, Fintype.sum_prod_type]
    have e0 : ¬ ∃ y, (numbered (none : Option (Fin 3 × Fin 3))).1 = .num y ∧ P y := by rintro ⟨y, h, -⟩; cases h
    have e1 : ∀ i j : Fin 3, (∃ y, (numbered (some (i, j))).1 = .num y ∧ P y) ↔ P ((i : ℕ) + 1 : ℕ) := by
      intro i j
      simp [numbered]
    rw [if_neg e0, zero_add]
    refine Finset.sum_congr rfl fun i _ => ?_
    by_cases hP : P ((i : ℕ) + 1 : ℕ)
    · rw [if_pos hP, Finset.sum_congr rfl fun j _ => if_pos ((e1 i j).2 hP)]
      simp only [hraw]
      rw [← Finset.mul_sum]
      fin_cases i <;> simp [agreeLaw, Fin.sum_univ_three] <;> norm_num
    · rw [if_neg hP]
      exact Finset.sum_eq_zero fun j _ => if_neg fun h => hP ((e1 i j).1 h)
  have keyB : LimitBins S raw Prod.snd (fun x => x) 0 true (some (.num 4)) (binLabel quartileEdges) := by
    refine key _ rfl (fun i => ⟨(0, i), rfl⟩) (fun i j => ⟨j, rfl⟩) fun P => ?_
    rw [probOf_range numbered_inj hS, Fintype.sum_option, Fintype.sum_prod_type_right]
    have e0 : ¬ ∃ y, (numbered (none : Option (Fin 3 × Fin 3))).2 = .num y ∧ P y := by rintro ⟨y, h, -⟩; cases h
    have e1 : ∀ i j : Fin 3, (∃ y, (numbered (some (i, j))).2 = .num y ∧ P y) ↔ P ((j : ℕ) + 1 : ℕ) := by
      intro i j
      simp [numbered]
    rw [if_neg e0, zero_add]
    refine Finset.sum_congr rfl fun j _ => ?_
    by_cases hP : P ((j : ℕ) + 1 : ℕ)
    · rw [if_pos hP, Finset.sum_congr rfl fun i _ => if_pos ((e1 i j).2 hP)]
      simp only [hraw]
      rw [← Finset.mul_sum]
      fin_cases j <;> simp [agreeLaw, Fin.sum_univ_three] <;> norm_num
    · rw [if_neg hP]
      exact Finset.sum_eq_zero fun i _ => if_neg fun h => hP ((e1 i j).1 h)
  refine ⟨rho, h2, h3, Ω, _, μ, hR.prob, fun k ω => (numbered (D k ω)).1, fun k ω => (numbered (D k ω)).2, ?_⟩
  filter_upwards [phik_matrix_settled_estimates (r := 3) (c := 3) gaussian_numerics (by norm_num) (by norm_num)
    (square_distance_strict (by norm_num)) agreeLaw_joint h1 (fun x hx => (hS x hx).1) RelRounding_id (by simp) keyA keyB (fun _ _ _ _ => rfl) (fun _ _ _ _ => rfl)
    true true true hl hR.iid] with ω h ε hε
  filter_upwards [h ε hε] with n hn
  have hstr : ∀ (o : Option (Fin 3 × Fin 3)) s, (numbered o).1 ≠ .str s ∧ (numbered o).2 ≠ .str s := by
    rintro (_ | z) s <;> exact ⟨fun h => (by cases h), fun h => (by cases h)⟩
  set f : Frame := ⟨n, [⟨"x", true, (List.range n).map fun k => (numbered (D k ω)).1⟩, ⟨"y", true, (List.range n).map fun k => (numbered (D k ω)).2⟩]⟩ with hf
  refine hn true (fun _ => none) _ 0 f (some ["x", "y"]) _ none ⟨"x", true, _⟩ ⟨"y", true, _⟩ rfl (by simp [hf, Frame.names]) (fun _ h => by cases h) ?_ ?_
    List.mem_cons_self (List.mem_cons_of_mem _ List.mem_cons_self) (by simp) rfl rfl ⟨by simp, .one _ _⟩ ⟨by simp, .one _ _⟩ (.inl rfl) (.inl rfl)
  · intro c hc _ s hs
    simp only [hf, List.mem_cons, List.not_mem_nil, or_false] at hc
    rcases hc with rfl | rfl
    · obtain ⟨k, -, e⟩ := List.mem_map.1 hs
      exact (hstr _ _).1 e
    · obtain ⟨k, -, e⟩ := List.mem_map.1 hs
      exact (hstr _ _).2 e
  · intro name _
    exact ⟨_, .one _ _, .inr ⟨_, rfl, by norm_num⟩⟩

end Phik.Props
