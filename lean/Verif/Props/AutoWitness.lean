import Verif.Props.AutoBins
import Verif.Props.NullWitness

/-! # Properties C84, C85, C86 with automatic bins: the hypotheses can be met -/

namespace Phik.Props

open Spec MeasureTheory ProbabilityTheory Topology Gauss
open Filter (Tendsto atTop Eventually)

variable {r c : ℕ}

open scoped Classical in
/-- For every joint distribution of the complete records and every proportion of complete records there are independent draws whose entries are called as
one likes, and the law of what becomes of them. -/
theorem raw_draws_exist {p : Fin r → Fin c → ℝ} (hp : IsJoint p) {q : ℝ} (hq : 0 < q) (hq1 : q ≤ 1) {val : Option (Fin r × Fin c) → Cell × Cell}
    (hval : Function.Injective val) {α β : Type} {φ : Cell × Cell → Option α × Option β} {u : Fin r → α} {v : Fin c → β} (hu : Function.Injective u)
    (hv : Function.Injective v) (hφ : ∀ o, φ (val o) = (o.map fun z => u z.1, o.map fun z => v z.2)) :
    ∃ (Ω : Type) (_ : MeasurableSpace Ω) (μ : Measure Ω) (D : ℕ → Ω → Option (Fin r × Fin c)) (raw : Cell × Cell → ℝ) (S : Finset (Cell × Cell)),
      IndepRecords μ (fun k ω => val (D k ω)) raw ∧ (∀ x, raw x ≠ 0 → x ∈ S ∧ x ∈ Set.range val) ∧ (∀ z, raw (val (some z)) = q * p z.1 z.2) ∧
      CompleteLaw (pushLaw S raw φ) q p u v := by
  let w : Option (Fin r × Fin c) → ℝ := fun o => match o with
    | none => 1 - q
    | some (i, j) => q * p i j
  have hw : ∀ o, 0 ≤ w o := by
    rintro (_ | ⟨i, j⟩)
    · exact sub_nonneg.2 hq1
    · exact mul_nonneg hq.le (hp.nonneg i j)
  let P : PMF (Option (Fin r × Fin c)) := PMF.ofFintype (fun o => ENNReal.ofReal (w o)) (by
    rw [← ENNReal.ofReal_sum_of_nonneg fun o _ => hw o, Fintype.sum_option, Fintype.sum_prod_type]
    change ENNReal.ofReal (1 - q + ∑ i, ∑ j, q * p i j) = 1
    simp only [← Finset.mul_sum, hp.total, mul_one]
    rw [sub_add_cancel, ENNReal.ofReal_one])
  obtain ⟨Ω, mΩ, μ, D, hD⟩ := indep_exists P
  have hraw : ∀ o, ((P.map val) (val o)).toReal = w o := by
    intro o
    rw [PMF.map_apply, tsum_eq_single o]
    · simp [P, ENNReal.toReal_ofReal (hw o)]
    · intro o' ho'
      rw [if_neg fun h => ho' (hval h).symm]
  have hin : ∀ o o', φ (val o) = φ (val o') → o = o' := by
    intro o o' h
    rw [hφ, hφ] at h
    rcases o with _ | ⟨i, j⟩ <;> rcases o' with _ | ⟨i', j'⟩ <;> simp at h
    · rfl
    · rw [hu h.1, hv h.2]
  have hsup : ∀ x, ((P.map val) x).toReal ≠ 0 → x ∈ Set.range val := by
    intro x hx
    have : (P.map val) x ≠ 0 := fun h0 => hx (by simp [h0])
    rw [← PMF.mem_support_iff, PMF.mem_support_map_iff] at this
    obtain ⟨o, -, rfl⟩ := this
    exact ⟨o, rfl⟩
  refine ⟨Ω, mΩ, μ, D, _, Finset.univ.image val, hD _ val, fun x hx => ?_, fun z => hraw (some z), hq, hu, hv, fun i j => ?_, fun a b hab => ?_⟩
  · obtain ⟨o, rfl⟩ := hsup x hx
    exact ⟨Finset.mem_image_of_mem _ (Finset.mem_univ _), o, rfl⟩
  · have hone : (Finset.univ.image val).filter (fun x => φ x = (some (u i), some (v j))) = {val (some (i, j))} := by
      ext x
      simp only [Finset.mem_filter, Finset.mem_image, Finset.mem_univ, true_and, Finset.mem_singleton]
      constructor
      · rintro ⟨⟨o, rfl⟩, h⟩
        rw [hin o (some (i, j)) (by rw [h, hφ]; rfl)]
      · rintro rfl
        exact ⟨⟨_, rfl⟩, by rw [hφ]; rfl⟩
    unfold pushLaw
    rw [Finset.filter_congr_decidable, hone, Finset.sum_singleton]
    exact hraw _
  · unfold pushLaw at hab
    obtain ⟨x, hx, -⟩ := Finset.exists_ne_zero_of_sum_ne_zero hab
    simp only [Finset.mem_filter, Finset.mem_image, Finset.mem_univ, true_and] at hx
    obtain ⟨⟨o, rfl⟩, h⟩ := hx
    rw [hφ] at h
    rcases o with _ | ⟨i, j⟩
    · simp at h
    · simp only [Option.map_some, Prod.mk.injEq, Option.some.injEq] at h
      exact ⟨⟨i, h.1⟩, ⟨j, h.2⟩⟩

/-- The edges of three bins between 1 and 3, without rounding. -/
def threeEdges : List ℚ := [1 - 1 / 10 ^ 14, (2 + 1 / 10 ^ 14) / 3 + (1 - 1 / 10 ^ 14), 2 * ((2 + 1 / 10 ^ 14) / 3) + (1 - 1 / 10 ^ 14), 3]

theorem threeEdges_eq : binEdges id [1, 3] 3 false = .ok threeEdges := by
  have h1 : ([1, 3] : List ℚ).min? = some 1 := List.min?_eq_some_iff.2 ⟨by simp, by simp⟩
  have h2 : ([1, 3] : List ℚ).max? = some 3 := List.max?_eq_some_iff.2 ⟨by simp, by simp⟩
  unfold binEdges
  simp only [Bool.false_eq_true, if_false, h1, h2]
  have h4 : List.range (Int.toNat 4) = [0, 1, 2, 3] := rfl
  norm_num [linspace, threeEdges, h4]
  norm_num [Int.toNat]

theorem threeEdges_sorted : threeEdges.Pairwise (· ≤ ·) := by
  norm_num [threeEdges, List.pairwise_cons]

/-- The values 1, 2, 3 fall in the bins 1, 2, 3. -/
theorem threeEdges_bin (i : Fin 3) : binLabel threeEdges (.num ((i : ℕ) + 1 : ℕ)) = .num ((i : ℕ) + 1 : ℕ) := by
  unfold binLabel threeEdges
  fin_cases i <;> norm_num [List.countP_cons]

/-- A record of two of the values 1, 2, 3, or two missing values. -/
def numbered {r c : ℕ} (o : Option (Fin r × Fin c)) : Cell × Cell := match o with
  | none => (.nan, .nan)
  | some z => (.num ((z.1 : ℕ) + 1 : ℕ), .num ((z.2 : ℕ) + 1 : ℕ))

theorem numbered_inj : Function.Injective (numbered (r := r) (c := c)) := by
  rintro (_ | ⟨i, j⟩) (_ | ⟨i', j'⟩) h <;> simp [numbered] at h
  · rfl
  · rw [Fin.ext h.1, Fin.ext h.2]

theorem num_inj (n : ℕ) : Function.Injective fun i : Fin n => Cell.num ((i : ℕ) + 1 : ℕ) := by
  intro i j h
  simp only [Cell.num.injEq] at h
  have : (i : ℕ) + 1 = j + 1 := by exact_mod_cast h
  exact Fin.ext (by omega)

/-- Two columns with the values 1, 2, 3, of which a quarter is missing, each binned in three bins: the entries of the phik matrix of ever more records converge. -/
example : ∃ rho, 0 < rho ∧ rho < 1 ∧ ∃ (Ω : Type) (_ : MeasurableSpace Ω) (μ : Measure Ω) (_ : IsProbabilityMeasure μ) (A B : ℕ → Ω → Cell),
    ∀ᵐ ω ∂μ, ∀ ε : ℝ, 0 < ε → ∀ᶠ n in atTop, ∃ t w' x,
      (phikMatrix ⟨gaussMvn, idealBrentq⟩ none id (fun _ => none) 0 (some ["x", "y"]) (.one (.num 3)) false true true true true).exec
        ⟨[⟨n, [⟨"x", true, (List.range n).map (A · ω)⟩, ⟨"y", true, (List.range n).map (B · ω)⟩]⟩], []⟩ = (.ok t, w') ∧
      t.v "x" "y" = some x ∧ |x - rho| ≤ rootTol + ε := by
  obtain ⟨rho, h1, h2, h3⟩ := agreeLaw_phik
  obtain ⟨Ω, _, μ, D, raw, S, hR, hS, hraw, hl⟩ := raw_draws_exist agreeLaw_joint (q := 3 / 4) (by norm_num) (by norm_num) numbered_inj
    (φ := fun x => (view true true true (binLabel threeEdges x.1), view true true true (binLabel threeEdges x.2))) (num_inj 3) (num_inj 3) (by
      rintro (_ | ⟨i, j⟩)
      · rfl
      · change (view true true true (binLabel threeEdges (.num ((i : ℕ) + 1 : ℕ))), view true true true (binLabel threeEdges (.num ((j : ℕ) + 1 : ℕ)))) = _
        rw [threeEdges_bin, threeEdges_bin]; rfl)
  have hpos : ∀ z : Fin 3 × Fin 3, raw (numbered (some z)) ≠ 0 := by
    intro z
    rw [hraw]
    unfold agreeLaw
    split <;> norm_num
  have hrange : ∀ x, raw x ≠ 0 → x = (.nan, .nan) ∨ ∃ i j : Fin 3, x = (.num ((i : ℕ) + 1 : ℕ), .num ((j : ℕ) + 1 : ℕ)) := by
    intro x hx
    obtain ⟨_, (_ | ⟨i, j⟩), rfl⟩ := hS x hx
    · exact .inl rfl
    · exact .inr ⟨i, j, rfl⟩
  have hin : ∀ (i : Fin 3) (y : ℚ), Cell.num ((i : ℕ) + 1 : ℕ) = .num y → 1 ≤ y ∧ y ≤ 3 := by
    intro i y h
    cases h
    fin_cases i <;> norm_num
  have ra : HasRange raw Prod.fst 1 3 := by
    refine ⟨⟨_, hpos (0, 0), by norm_num [numbered]⟩, ⟨_, hpos (2, 0), by norm_num [numbered]⟩, fun x y hx h => ?_⟩
    rcases hrange x hx with rfl | ⟨i, j, rfl⟩
    · cases h
    · exact hin i y h
  have rb : HasRange raw Prod.snd 1 3 := by
    refine ⟨⟨_, hpos (0, 0), by norm_num [numbered]⟩, ⟨_, hpos (0, 2), by norm_num [numbered]⟩, fun x y hx h => ?_⟩
    rcases hrange x hx with rfl | ⟨i, j, rfl⟩
    · cases h
    · exact hin j y h
  refine ⟨rho, h2, h3, Ω, _, μ, hR.prob, fun k ω => (numbered (D k ω)).1, fun k ω => (numbered (D k ω)).2, ?_⟩
  filter_upwards [phik_matrix_auto_estimates (r := 3) (c := 3) gaussian_numerics (by norm_num) (by norm_num)
    (square_distance_strict (by norm_num)) agreeLaw_joint h1 (fun x hx => (hS x hx).1) true true true hl hR.iid 1 3 1 3] with ω h ε hε
  filter_upwards [h ε hε] with n hn
  have hstr : ∀ (o : Option (Fin 3 × Fin 3)) s, (numbered o).1 ≠ .str s ∧ (numbered o).2 ≠ .str s := by
    rintro (_ | z) s <;> exact ⟨fun h => (by cases h), fun h => (by cases h)⟩
  have hprep : ∀ name, name ∈ ["x", "y"] → PreparedBy id false ["x", "y"] (.one (.num 3)) ⟨name, true, [.num 1, .num 3]⟩ (binLabel threeEdges) := by
    intro name hname
    exact ⟨fun _ => ⟨_, _, .one _ _, .num _ _ threeEdges_eq, threeEdges_sorted, rfl⟩, fun h => absurd hname h⟩
  set f : Frame := ⟨n, [⟨"x", true, (List.range n).map fun k => (numbered (D k ω)).1⟩, ⟨"y", true, (List.range n).map fun k => (numbered (D k ω)).2⟩]⟩ with hf
  refine hn true id (fun _ => none) _ 0 f (some ["x", "y"]) _ none ⟨"x", true, _⟩ ⟨"y", true, _⟩ rfl (by simp [hf, Frame.names]) (fun _ h => by cases h) ?_ ?_
    List.mem_cons_self (List.mem_cons_of_mem _ List.mem_cons_self) (by simp) rfl rfl (fun _ => ra) (fun _ => rb) (hprep _ (by simp)) (hprep _ (by simp)) (.inl rfl) (.inl rfl)
  · intro c hc _ s hs
    simp only [hf, List.mem_cons, List.not_mem_nil, or_false] at hc
    rcases hc with rfl | rfl
    · obtain ⟨k, -, e⟩ := List.mem_map.1 hs
      exact (hstr _ _).1 e
    · obtain ⟨k, -, e⟩ := List.mem_map.1 hs
      exact (hstr _ _).2 e
  · intro name _
    exact ⟨_, .one _ _, .inr ⟨_, rfl, by norm_num⟩⟩

/-- Two independent columns, the first with the values 1, 2, 3 in three bins: `significance_matrix` returns for all draws, and the probability that the significance
exceeds `z0` tends to the normal tail probability. -/
example {F : Type} (R : ℕ → SimRun F) (hRl : ∀ k, (R k).lambda = "pearson") :
    ∃ (Ω : Type) (_ : MeasurableSpace Ω) (μ : Measure Ω) (_ : IsProbabilityMeasure μ) (A B : ℕ → Ω → Cell) (t : ℕ → Ω → LTab EReal) (w' : ℕ → Ω → World),
    (∀ n ω, (significanceMatrix trueSig R id (fun _ => none) 0 (some ["x"]) (.one (.num 3)) "asymptotic" true true true).exec
        ⟨[⟨n, [⟨"x", true, (List.range n).map (A · ω)⟩, ⟨"y", true, (List.range n).map (B · ω)⟩]⟩], []⟩ = (.ok (t n ω), w' n ω)) ∧
    ∀ z0 : ℝ, Tendsto (fun n => μ {ω | ∃ z, (t n ω).v "x" "y" = some z ∧ (z0 : EReal) < z}) atTop (𝓝 (gaussianReal 0 1 (Set.Ioi z0))) := by
  obtain ⟨Ω, _, μ, D, raw, S, hR, hS, hraw, hl⟩ := raw_draws_exist apartLaw_joint (q := 3 / 4) (by norm_num) (by norm_num) numbered_inj
    (φ := fun x => (view true true true (binLabel threeEdges x.1), view true true true (id x.2))) (num_inj 3) (num_inj 2) (by
      rintro (_ | ⟨i, j⟩)
      · rfl
      · change (view true true true (binLabel threeEdges (.num ((i : ℕ) + 1 : ℕ))), view true true true (.num ((j : ℕ) + 1 : ℕ))) = _
        rw [threeEdges_bin]; rfl)
  have hpos : ∀ z : Fin 3 × Fin 2, raw (numbered (some z)) ≠ 0 := by
    rintro ⟨i, j⟩
    rw [hraw]
    fin_cases i <;> fin_cases j <;> norm_num [apartLaw]
  have ra : HasRange raw Prod.fst 1 3 := by
    refine ⟨⟨_, hpos (0, 0), by norm_num [numbered]⟩, ⟨_, hpos (2, 0), by norm_num [numbered]⟩, fun x y hx h => ?_⟩
    obtain ⟨_, (_ | ⟨i, j⟩), rfl⟩ := hS x hx
    · cases h
    · cases h
      fin_cases i <;> norm_num
  have hstr : ∀ (o : Option (Fin 3 × Fin 2)) s, (numbered o).1 ≠ .str s := by rintro (_ | z) s h <;> cases h
  set f : ℕ → Ω → Frame := fun n ω => ⟨n, [⟨"x", true, (List.range n).map fun k => (numbered (D k ω)).1⟩,
    ⟨"y", true, (List.range n).map fun k => (numbered (D k ω)).2⟩]⟩ with hf
  have hnd : ∀ n ω, (f n ω).names.Nodup := fun n ω => by simp [hf, Frame.names]
  have hnum : ∀ n ω, ∀ c ∈ (f n ω).cols, c.name ∈ (some ["x"]).getD (guessIntervalCols (f n ω)) → ∀ s, Cell.str s ∉ c.cells := by
    intro n ω c hc hic s hs
    simp only [hf, List.mem_cons, List.not_mem_nil, or_false] at hc
    rcases hc with rfl | rfl
    · obtain ⟨k, -, e⟩ := List.mem_map.1 hs
      exact hstr _ _ e
    · simp at hic
  have hgood : ∀ n ω, ∀ name ∈ (some ["x"]).getD (guessIntervalCols (f n ω)), ∃ s, EntryFor (.one (.num 3)) name s ∧ GoodEntry s :=
    fun n ω name _ => ⟨_, .one _ _, .inr ⟨_, rfl, by norm_num⟩⟩
  have hret : ∀ n ω, ∃ t w', (significanceMatrix trueSig R id (fun _ => none) 0 (some ["x"]) (.one (.num 3)) "asymptotic" true true true).exec
      ⟨[f n ω], []⟩ = (.ok t, w') := by
    intro n ω
    obtain ⟨t, w', h, -⟩ := significance_matrix_returns (w := ⟨[f n ω], []⟩) (r := 0) (fun k => .inl ⟨rfl, trueSig_spec, trueSig_far, by rw [hRl k]; simp⟩) id (fun _ => none)
      rfl (hnd n ω) (some ["x"]) (.one (.num 3)) true true true (hnum n ω) (hgood n ω)
    exact ⟨t, w', h⟩
  choose t w' ht using hret
  refine ⟨Ω, _, μ, hR.prob, _, _, t, w', ht, fun z0 => ?_⟩
  exact null_matrix_auto (F := F) (r := 3) (c := 2) (by norm_num) le_rfl apartLaw_joint apartLaw_indep (fun x hx => (hS x hx).1) true true true hl
    (A := fun k ω => (numbered (D k ω)).1) (B := fun k ω => (numbered (D k ω)).2) hR 1 3 0 0 (lam := "pearson") (by simp) z0
    id (fun _ => none) (R := fun _ _ => R) (ref := fun _ _ => 0) (ic := fun _ _ => some ["x"]) (bins := fun _ _ => .one (.num 3))
    (ca := fun n ω => ⟨"x", true, _⟩) (cb := fun n ω => ⟨"y", true, _⟩) (fun _ _ k => hRl k) (data := f) (fun n ω => rfl) hnd hnum
    hgood (fun n ω => by simp [hf]) (fun n ω => by simp [hf]) (fun _ _ => rfl) (fun _ _ => rfl) (fun _ _ _ => ra) (fun _ _ h => absurd h (by simp))
    (fun _ _ => ⟨fun _ => ⟨_, _, .one _ _, .num _ _ threeEdges_eq, threeEdges_sorted, rfl⟩, fun h => absurd h (by simp)⟩)
    (fun _ _ => ⟨fun h => absurd h (by simp), fun _ => rfl⟩) (fun _ _ => .inl rfl) (fun _ _ => .inl rfl) ht

end Phik.Props
