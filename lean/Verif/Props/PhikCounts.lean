import Verif.Props.PhikMore

/-! # Property C78, tables: phik of a table with empty rows or columns -/

namespace Phik.Props
open Spec

theorem core_data {a b : Arr2 ℝ} (s : Sub a b) (hk : ∀ i j, ∃ k : ℕ, a.v i j = k) : DataTable b := by
  refine ⟨fun i j => ?_, fun i => ?_, fun j => ?_⟩
  · rw [s.val]; exact hk _ _
  · obtain ⟨j, hj⟩ := (s.ρ_range (s.ρ i)).1 ⟨i, rfl⟩
    obtain ⟨l, rfl⟩ := (s.σ_range j).2 ⟨_, hj⟩
    exact ⟨l, by rw [s.val]; exact hj⟩
  · obtain ⟨i, hi⟩ := (s.σ_range (s.σ j)).1 ⟨j, rfl⟩
    obtain ⟨l, rfl⟩ := (s.ρ_range i).2 ⟨_, hi⟩
    exact ⟨l, by rw [s.val]; exact hi⟩

/-- **C78 (phik exists).** For every table of counts with at least one record and at least two rows and columns, empty
or not, phik is a number in [0, 1]. chi2 is at most the number of records times the smaller number of *non-empty* rows or
columns minus one; the value recognised as 1 counts the empty ones too; the noise pedestal is
`nRows * nCols - rows - cols + 1`, or 0. -/
theorem phik_of_counts {mvn : ℝ → Rect → ℝ} (hm : MvnSpec mvn)
    {brentq : (ℝ → ℝ) → ℝ → ℝ → ℝ → Except Err ℝ} (hb : BrentqSpec brentq) {a : Arr2 ℝ}
    (hk : ∀ i j, ∃ k : ℕ, a.v i j = k) (hpos : 0 < a.total) (hr : 2 ≤ a.r) (hc : 2 ≤ a.c) (noise : Bool) :
    ∃ chi2 ped mx x : ℝ, getChi2 a "pearson" = .ok chi2 ∧
      ped = (if noise then max 0 ((nRows a : ℤ) * nCols a - a.r - a.c + 1) else 0 : ℤ) ∧
      mx = a.total * (min (a.r - 1) (a.c - 1) : ℕ) ∧ ped < mx ∧
      chi2 ≤ a.total * (min (nRows a - 1) (nCols a - 1) : ℕ) ∧
      phikFromHist2d mvn brentq a noise = .ok x ∧ 0 ≤ x ∧ x ≤ 1 ∧
      (chi2 ≤ ped → x = 0) ∧ (chi2 = mx → x = 1) ∧
      (ped < chi2 → chi2 < mx →
        brentq (fun rho => theoryChi2 mvn a.r a.c a.total ped rho - chi2) 0 1 (1 / 10 ^ 5) = .ok x ∧
        theoryChi2 mvn a.r a.c a.total ped 1 = mx ∧ ∃ x₀, 0 ≤ x₀ ∧ x₀ < 1 ∧
        theoryChi2 mvn a.r a.c a.total ped x₀ = chi2 ∧
        |x - x₀| ≤ 1 / 10 ^ 5 + 4 * 2 ^ (-52 : ℤ) * |x₀|) := by
  have ha : IsCount a := ⟨fun i j => by obtain ⟨k, h⟩ := hk i j; rw [h]; positivity, hpos⟩
  obtain ⟨s⟩ := core_sub a
  generalize core a = b at s
  have hbd := core_data s hk
  have hbc := s.isCount ha
  obtain ⟨br, bc⟩ := size_pos hbc.pos.ne'
  have hnr : nRows a ≤ a.r := by rw [s.nRows]; simpa using Fintype.card_le_of_injective _ s.ρ_inj
  have hnc : nCols a ≤ a.c := by rw [s.nCols]; simpa using Fintype.card_le_of_injective _ s.σ_inj
  have hchi := (get_chi2_value ha).1
  obtain ⟨hx0, hxm', hxm⟩ := pearson_bounds ha hchi
  set chi2 := statistic pearsonCell a
  have hend := (estimate_simple_ndof_full ha).1
  set ped : ℤ := if noise then max 0 ((nRows a : ℤ) * nCols a - a.r - a.c + 1) else 0 with hped
  have hp0 : (0 : ℤ) ≤ ped := by rw [hped]; split <;> simp
  have hp : (0 : ℝ) ≤ (ped : ℝ) := by exact_mod_cast hp0
  have hmx0 : 0 < a.total * (min (a.r - 1) (a.c - 1) : ℕ) := by
    have : (0 : ℝ) < (min (a.r - 1) (a.c - 1) : ℕ) := by exact_mod_cast (by omega : 0 < min (a.r - 1) (a.c - 1))
    positivity
  have hmx' : (ped : ℝ) < a.total * (min (a.r - 1) (a.c - 1) : ℕ) := by
    by_cases h1 : ped = 0
    · rw [h1]; exact_mod_cast hmx0
    have h2 : ped ≤ ((b.r : ℤ) - 1) * ((b.c : ℤ) - 1) := by
      rw [hped] at h1 ⊢
      cases noise
      · exact absurd rfl h1
      · simp only [if_true] at h1 ⊢
        have e : ((nRows a : ℤ) * nCols a - a.r - a.c + 1) ≤ ((b.r : ℤ) - 1) * ((b.c : ℤ) - 1) := by
          rw [← s.nRows, ← s.nCols]
          have : ((nRows a : ℤ)) ≤ a.r := by exact_mod_cast hnr
          have : ((nCols a : ℤ)) ≤ a.c := by exact_mod_cast hnc
          nlinarith
        refine max_le ?_ e
        have : (1 : ℤ) ≤ b.r := by exact_mod_cast br
        have : (1 : ℤ) ≤ b.c := by exact_mod_cast bc
        exact mul_nonneg (by omega) (by omega)
    have hpp : 0 < ped := lt_of_le_of_ne hp0 (Ne.symm h1)
    have hb2 : 2 ≤ b.r ∧ 2 ≤ b.c := by
      by_contra hcon
      have : b.r = 1 ∨ b.c = 1 := by omega
      have : ((b.r : ℤ) - 1) * ((b.c : ℤ) - 1) = 0 := by
        rcases this with e | e <;> rw [e] <;> simp
      omega
    have h3 := data_max_above_pedestal hbd hb2.1 hb2.2
    rw [s.total] at h3
    have h4 : (ped : ℝ) ≤ (((b.r : ℤ) - 1) * ((b.c : ℤ) - 1) : ℤ) := by exact_mod_cast h2
    have h5 : min (b.r - 1) (b.c - 1) ≤ min (a.r - 1) (a.c - 1) := by
      rw [s.nRows] at hnr; rw [s.nCols] at hnc; omega
    have h6 : ((min (b.r - 1) (b.c - 1) : ℕ) : ℝ) ≤ (min (a.r - 1) (a.c - 1) : ℕ) := by exact_mod_cast h5
    have h7 := mul_le_mul_of_nonneg_left h6 ha.pos.le
    linarith
  have hrun : phikFromHist2d mvn brentq a noise =
      phikFromChi2 mvn brentq chi2 a.total a.r a.c none none ped := by
    unfold phikFromHist2d
    rw [hchi]
    simp only [bind, Except.bind, hend]
    rw [← hped, if_neg (not_lt.2 hp0)]
  obtain ⟨c1, c2, c3⟩ := phik_from_chi2_cases hm brentq hr hc (chi2 := chi2) hp ha.pos hmx'
  refine ⟨chi2, ped, a.total * (min (a.r - 1) (a.c - 1) : ℕ), ?_⟩
  suffices hs : ∃ x, phikFromHist2d mvn brentq a noise = .ok x ∧ (chi2 ≤ ped → x = 0) ∧
      (chi2 = a.total * (min (a.r - 1) (a.c - 1) : ℕ) → x = 1) ∧
      ((ped : ℝ) < chi2 → chi2 < a.total * (min (a.r - 1) (a.c - 1) : ℕ) →
        brentq (fun rho => theoryChi2 mvn a.r a.c a.total ped rho - chi2) 0 1 (1 / 10 ^ 5) = .ok x ∧
        theoryChi2 mvn a.r a.c a.total ped 1 = a.total * (min (a.r - 1) (a.c - 1) : ℕ) ∧ ∃ x₀, 0 ≤ x₀ ∧ x₀ < 1 ∧
        theoryChi2 mvn a.r a.c a.total ped x₀ = chi2 ∧
        |x - x₀| ≤ 1 / 10 ^ 5 + 4 * 2 ^ (-52 : ℤ) * |x₀|) by
    obtain ⟨x, e1, e2, e3, e4⟩ := hs
    exact ⟨x, hchi, rfl, rfl, hmx', hxm', e1, (phik_range hb e1).1, (phik_range hb e1).2, e2, e3, e4⟩
  rw [hrun]
  rcases le_or_gt chi2 (ped : ℝ) with hle | hgt
  · exact ⟨0, c1 hle, fun _ => rfl, fun e => by linarith, fun e => by linarith⟩
  · rcases hxm.lt_or_eq with hlt | heq
    · obtain ⟨t0, t1⟩ := theory_ends hm hr hc a.total ped
      obtain ⟨x, e1, -, x₀, h0, h1, h2⟩ := hb.root (fun rho => theoryChi2 mvn a.r a.c a.total ped rho - chi2)
        0 1 (1 / 10 ^ 5) zero_le_one (by norm_num) ((theory_cont hm _ _ _ _).sub continuousOn_const)
        (by simp only [t0]; linarith) (by simp only [t1]; linarith)
      refine ⟨x, (c3 hgt hlt).trans e1, fun e => by linarith, fun e => by linarith,
        fun _ _ => ⟨e1, t1, x₀, h0.1, lt_of_le_of_ne h0.2 fun e => ?_, by linarith, h2⟩⟩
      rw [e, t1] at h1
      linarith
    · exact ⟨1, c2 heq.ge, fun e => by linarith, fun _ => rfl, fun _ e => by linarith⟩

end Phik.Props
