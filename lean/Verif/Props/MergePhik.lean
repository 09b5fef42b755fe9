import Verif.Props.MergeData
import Verif.Props.PhikWitness
import Verif.Props.Categorical

/-! # Property C83: phik of coarser categories, and examples -/

namespace Phik.Props

open Spec

/-- Three by three: the first categories belong together, the other four combinations are equally frequent. -/
noncomputable def fineTable : Arr2 ℝ := ⟨3, 3, ![![4, 0, 0], ![0, 2, 2], ![0, 2, 2]]⟩

/-- The second and third category of the first variable taken together. -/
noncomputable def coarseTable : Arr2 ℝ := ⟨2, 3, ![![4, 0, 0], ![0, 4, 4]]⟩

theorem fineTable_data : DataTable fineTable := by
  refine ⟨?_, ?_, ?_⟩
  · intro i j
    change Fin 3 at i j
    exact ⟨(![![4, 0, 0], ![0, 2, 2], ![0, 2, 2]] : Fin 3 → Fin 3 → ℕ) i j, by fin_cases i <;> fin_cases j <;> simp [fineTable]⟩
  · intro i; change Fin 3 at i; exact ⟨i, by fin_cases i <;> simp [fineTable]⟩
  · intro i; change Fin 3 at i; exact ⟨i, by fin_cases i <;> simp [fineTable]⟩

theorem coarseTable_data : DataTable coarseTable := by
  refine ⟨?_, ?_, ?_⟩
  · intro i j
    change Fin 2 at i; change Fin 3 at j
    exact ⟨(![![4, 0, 0], ![0, 4, 4]] : Fin 2 → Fin 3 → ℕ) i j, by fin_cases i <;> fin_cases j <;> simp [coarseTable]⟩
  · intro i; change Fin 2 at i; exact ⟨(![0, 1] : Fin 2 → Fin 3) i, by fin_cases i <;> simp [coarseTable]⟩
  · intro i; change Fin 3 at i; exact ⟨(![0, 1, 1] : Fin 3 → Fin 2) i, by fin_cases i <;> simp [coarseTable]⟩

theorem fine_coarse : MergedBy fineTable coarseTable (![0, 1, 1] : Fin 3 → Fin 2) (id : Fin 3 → Fin 3) := by
  intro k l
  change Fin 2 at k; change Fin 3 at l
  change (![![4, 0, 0], ![0, 4, 4]] : Fin 2 → Fin 3 → ℝ) k l = ∑ i : Fin 3, ∑ j : Fin 3,
    if (![0, 1, 1] : Fin 3 → Fin 2) i = k ∧ j = l then (![![4, 0, 0], ![0, 2, 2], ![0, 2, 2]] : Fin 3 → Fin 3 → ℝ) i j else 0
  fin_cases k <;> fin_cases l <;> simp [Fin.sum_univ_three] <;> norm_num

theorem fine_proportional : Proportional fineTable coarseTable (![0, 1, 1] : Fin 3 → Fin 2) (id : Fin 3 → Fin 3) := by
  have key : ∀ i j : Fin 3, (![![4, 0, 0], ![0, 2, 2], ![0, 2, 2]] : Fin 3 → Fin 3 → ℝ) i j *
      ((∑ j' : Fin 3, (![![4, 0, 0], ![0, 4, 4]] : Fin 2 → Fin 3 → ℝ) ((![0, 1, 1] : Fin 3 → Fin 2) i) j') *
        (∑ i' : Fin 2, (![![4, 0, 0], ![0, 4, 4]] : Fin 2 → Fin 3 → ℝ) i' j) /
        ∑ i' : Fin 2, ∑ j' : Fin 3, (![![4, 0, 0], ![0, 4, 4]] : Fin 2 → Fin 3 → ℝ) i' j') =
      (![![4, 0, 0], ![0, 4, 4]] : Fin 2 → Fin 3 → ℝ) ((![0, 1, 1] : Fin 3 → Fin 2) i) j *
      ((∑ j' : Fin 3, (![![4, 0, 0], ![0, 2, 2], ![0, 2, 2]] : Fin 3 → Fin 3 → ℝ) i j') *
        (∑ i' : Fin 3, (![![4, 0, 0], ![0, 2, 2], ![0, 2, 2]] : Fin 3 → Fin 3 → ℝ) i' j) /
        ∑ i' : Fin 3, ∑ j' : Fin 3, (![![4, 0, 0], ![0, 2, 2], ![0, 2, 2]] : Fin 3 → Fin 3 → ℝ) i' j') := by
    intro i j
    fin_cases i <;> fin_cases j <;> simp [Fin.sum_univ_three] <;> norm_num
  exact key

theorem fineTable_total : fineTable.total = 12 := by
  change ∑ i : Fin 3, ∑ j : Fin 3, _ = _
  simp [Fin.sum_univ_three, fineTable]; norm_num

/-- The two tables have the same chi2, for every statistic: nothing is lost. -/
theorem fine_coarse_chi2 (name : String) : getChi2 coarseTable name = getChi2 fineTable name := by
  have e1 : nRows coarseTable = 2 := by
    unfold nRows; rw [Nat.card_congr (Equiv.subtypeUnivEquiv coarseTable_data.rows), Nat.card_fin]; rfl
  have e2 : nCols coarseTable = 3 := by
    unfold nCols; rw [Nat.card_congr (Equiv.subtypeUnivEquiv coarseTable_data.cols), Nat.card_fin]; rfl
  have e3 : nRows fineTable = 3 := by
    unfold nRows; rw [Nat.card_congr (Equiv.subtypeUnivEquiv fineTable_data.rows), Nat.card_fin]; rfl
  refine merge_proportional (data_isCount fineTable_data (by simp [fineTable])) fine_coarse fine_proportional (by omega) (by omega) ?_ ?_ name
  · unfold TwoByTwo; omega
  · unfold TwoByTwo; omega

/-- **C83 (phik may rise).** Taking categories together leaves chi2 as it is and lifts phik from below 1 to exactly 1 (true
for every integrator and exact root finder, with and without noise correction): phik also depends on the numbers of
categories. -/
theorem merge_raises_phik {mvn : ℝ → Rect → ℝ} (hm : MvnSpec mvn)
    {brentq : (ℝ → ℝ) → ℝ → ℝ → ℝ → Except Err ℝ} (hb : BrentqSpec brentq)
    (hexact : ∀ f u v tol y, brentq f u v tol = .ok y → f y = 0) (noise : Bool) :
    (∀ name, getChi2 coarseTable name = getChi2 fineTable name) ∧
    phikFromHist2d mvn brentq coarseTable noise = .ok 1 ∧
    ∃ x, phikFromHist2d mvn brentq fineTable noise = .ok x ∧ x < 1 := by
  have hcoarse : phikFromHist2d mvn brentq coarseTable noise = .ok 1 := by
    refine phik_determined hm hb coarseTable_data (by simp [coarseTable]) (by simp [coarseTable]) (by simp [coarseTable])
      (.inr ?_) noise
    intro j i i'
    change Fin 3 at j; change Fin 2 at i i'
    change coarseTable.v i j ≠ 0 → coarseTable.v i' j ≠ 0 → i = i'
    fin_cases j <;> fin_cases i <;> fin_cases i' <;> simp [coarseTable]
  refine ⟨fine_coarse_chi2, hcoarse, ?_⟩
  have hcd := data_isCount coarseTable_data (by simp [coarseTable])
  have hct : coarseTable.total = 12 := by rw [MergedBy.total fine_coarse, fineTable_total]
  have hchi := (get_chi2_value hcd).1
  have hbound := (pearson_bounds hcd hchi).2.2
  rw [hct] at hbound
  have hbound : statistic pearsonCell coarseTable ≤ 12 := by
    refine hbound.trans ?_
    change (12 : ℝ) * ((min (2 - 1) (3 - 1) : ℕ) : ℝ) ≤ 12
    norm_num
  rw [fine_coarse_chi2] at hchi
  obtain ⟨chi2, ped, mx, x, h1, h2, h3, h4, -, h5, -, h7, h8, -⟩ :=
    phik_of_data hm hb fineTable_data (by simp [fineTable]) (by simp [fineTable]) noise
  rw [hchi] at h1
  cases h1
  refine ⟨x, h5, ?_⟩
  rw [fineTable_total] at h3
  have hmx : mx = 24 := by
    rw [h3]
    change (12 : ℝ) * ((min (3 - 1) (3 - 1) : ℕ) : ℝ) = 24
    norm_num
  rcases le_or_gt (statistic pearsonCell coarseTable) ped with hle | hgt
  · rw [h8 hle]; exact zero_lt_one
  refine lt_of_le_of_ne h7 ?_
  rintro rfl
  have hp0 : 0 ≤ ped := by
    rw [h2]
    split
    · change (0 : ℝ) ≤ (((3 : ℤ) - 1) * ((3 : ℤ) - 1) : ℤ); norm_num
    · simp
  have hcases := (phik_from_chi2_cases hm brentq (r := 3) (c := 3) (by norm_num) (by norm_num)
    (chi2 := statistic pearsonCell coarseTable) (n := 12) hp0 (by norm_num) (by rw [h3] at h4; exact h4)).2.2 hgt (by norm_num; linarith)
  unfold phikFromHist2d at h5
  rw [hchi, fineTable_total] at h5
  have hend : ((if noise = true then estimateSimpleNdof fineTable else 0 : ℤ)) =
      (if noise then ((fineTable.r : ℤ) - 1) * ((fineTable.c : ℤ) - 1) else 0 : ℤ) := by
    rw [(estimate_simple_ndof_full (data_isCount fineTable_data (by simp [fineTable]))).2 fineTable_data.rows fineTable_data.cols]
  simp only [bind, Except.bind] at h5
  rw [hend] at h5
  have hnn : ¬ (if noise then ((fineTable.r : ℤ) - 1) * ((fineTable.c : ℤ) - 1) else 0 : ℤ) < 0 := by
    split <;> simp [fineTable]
  rw [if_neg hnn, ← h2] at h5
  have h5 : phikFromChi2 mvn brentq (statistic pearsonCell coarseTable) 12 (3 : ℕ) (3 : ℕ) none none ped = .ok 1 := h5
  rw [hcases] at h5
  have h6 := hexact _ _ _ _ _ h5
  rw [(theory_ends hm (r := 3) (c := 3) (by norm_num) (by norm_num) 12 ped).2] at h6
  norm_num at h6
  linarith

/-- With the true integrals. -/
example (noise : Bool) := merge_raises_phik Gauss.gaussian_mvn_spec idealBrentq_spec ideal_exact noise

/-! ### the hypotheses can be met -/

example : ∃ y, getChi2 coarseTable "pearson" = .ok y ∧ 0 ≤ y ∧ y ≤ statistic pearsonCell fineTable :=
  merge_chi2 (data_isCount fineTable_data (by simp [fineTable])) ⟨_, _, fine_coarse⟩
    (get_chi2_value (data_isCount fineTable_data (by simp [fineTable]))).1

/-- Brands taken together by country, with a missing value. -/
def byCountry (c : Cell) : Cell :=
  if c = .str "fiat" ∨ c = .str "alfa" then .str "it" else if c = .str "audi" then .str "de" else c

theorem byCountry_coarsens : Coarsens byCountry [.str "fiat", .nan, .str "alfa", .str "audi", .str "audi"] := by
  constructor <;> simp [byCountry]

example := coarser_categories (a := ⟨"brand", false, [.str "fiat", .nan, .str "alfa", .str "audi", .str "audi"]⟩)
  (b := ⟨"size", false, [.str "s", .str "m", .str "m", .str "l", .str "s"]⟩) (nr := 5) (f := byCountry) (g := id)
  byCountry_coarsens (by constructor <;> simp) false true true (r := 0) (r' := 0)
  (w := ⟨[_], []⟩) (w' := ⟨[_], []⟩) rfl rfl

theorem exEdges_coarser : CoarserEdges [0, 1, 2, 3] [0, 2, 3] := by
  refine ⟨by norm_num, by decide, rfl, rfl⟩

/-- A frame with a numeric column and a column of categories, counted with edges. -/
def edgeFrame : Frame := ⟨3, [⟨"x", true, [.num (1 / 2), .num (3 / 2), .num (5 / 2)]⟩,
  ⟨"g", false, [.str "a", .str "b", .str "a"]⟩]⟩

example : ∃ h d u, (hist2d (fun x => x) (fun _ => none) 0 none (.one (.edges [0, 1, 2, 3])) false true true true).exec
      ⟨[edgeFrame], []⟩ = (.ok (h, d), u) ∧
    ∃ h' d' u', (hist2d (fun x => x) (fun _ => none) 0 none (.one (.edges [0, 2, 3])) false true true true).exec
      ⟨[edgeFrame], []⟩ = (.ok (h', d'), u') ∧
      ∀ name x, getChi2 h.values name = .ok x → ∃ y, getChi2 h'.values name = .ok y ∧ 0 ≤ y ∧ y ≤ x := by
  refine ⟨_, _, _, rfl, ?_⟩
  exact coarser_edges (fun x => x) (fun _ => none) (r := 0) (w := ⟨[edgeFrame], []⟩) rfl
    (fun name _ => ⟨_, _, .one _ name, .one _ name, exEdges_coarser⟩) (quantile := false) (quantile' := false) (dropna := true)
    (du := true) (dof := true) rfl

end Phik.Props
