import Verif.Props.Power
import Verif.Props.HybridWitness
import Verif.Props.PowerDiv
import Verif.Props.NullSig

/-! # Property C87: `significance_matrix` returns -/

namespace Phik.Props

open Spec

variable {F : Type}

/-- The tail probability of the chi2 distribution is only rounded to 0 where the Chernoff bound can be evaluated. -/
def UnderflowsFar (S : SigNum) : Prop := ∀ x k, 1 ≤ k → S.chi2sf x k = some 0 → 0 < chernoffU x k

/-- It suffices that tail probabilities are not rounded to 0 below six times the number of degrees of freedom (the mean). -/
theorem underflowsFar_of {S : SigNum} (h : ∀ x k, 1 ≤ k → x < 6 * k → S.chi2sf x k ≠ some 0) : UnderflowsFar S := by
  intro x k hk h0
  by_cases hx : x < 6 * k
  · exact absurd h0 (h x k hk hx)
  · exact one_pos.trans_le (chernoffU_large hk (not_lt.1 hx))

/-- The asymptotic significance of a table with a record, two rows and two columns. -/
theorem asymptotic_total {S : SigNum} (hS : SigSpec S) (hu : UnderflowsFar S) (R : SimRun F)
    (hlam : R.lambda ∈ ["pearson", "log-likelihood", "cressie-read"]) {a : Arr2 ℝ} (ha : IsCount a) (hr : 2 ≤ a.r) (hc : 2 ≤ a.c) :
    ∃ p z, sigFromHist2d S R a "asymptotic" = .ok (some p, some z) ∧ 0 ≤ p ∧ p ≤ 1 := by
  obtain ⟨x, hx⟩ : ∃ x, getChi2 a R.lambda = .ok x := by
    simp only [List.mem_cons, List.not_mem_nil, or_false] at hlam
    rcases hlam with h | h | h <;> rw [h]
    · exact ⟨_, (get_chi2_value ha).1⟩
    · exact ⟨_, (get_chi2_value ha).2⟩
    · exact ⟨_, get_chi2_cressie_read ha⟩
  have hk : (1 : ℝ) ≤ ((theoreticalNdof a : ℤ) : ℝ) := by
    rw [theoretical_ndof_value]
    have h1 : 1 ≤ (a.r : ℤ) - 1 := by omega
    have h2 : 1 ≤ (a.c : ℤ) - 1 := by omega
    exact_mod_cast (by nlinarith : (1 : ℤ) ≤ ((a.r : ℤ) - 1) * ((a.c : ℤ) - 1))
  obtain ⟨p, hp, hp0, hp1⟩ := hS.chi2_range x ((theoreticalNdof a : ℤ) : ℝ) (by linarith)
  have e : sigFromHist2d S R a "asymptotic" = sigFromNdof S x ((theoreticalNdof a : ℤ) : ℝ) := by
    unfold sigFromHist2d
    rw [hx]
    rfl
  rw [e]
  by_cases h0 : p = 0
  · subst h0
    obtain ⟨h1, -⟩ := (chernoff_value hS hp).1 (hu _ _ hk hp)
    exact ⟨_, _, h1, hp0, hp1⟩
  · refine ⟨p, -S.ppf p, ?_, hp0, hp1⟩
    unfold sigFromNdof
    rw [hp, if_neg (by simpa using h0)]
    rfl

/-- The table of two columns has a significance, with the asymptotic method or by simulation. -/
def SigTotal (S : SigNum) (method : String) (R : SimRun F) : Prop :=
  method = "asymptotic" ∧ SigSpec S ∧ UnderflowsFar S ∧ R.lambda ∈ ["pearson", "log-likelihood", "cressie-read"] ∨
  method = "MC" ∧ (∀ i, GoodDraws (R.draws i)) ∧ R.method ∈ ["multinominal", "row_product_multinominal", "col_product_multinominal"] ∧
    (R.lambda ∈ ["pearson", "log-likelihood", "cressie-read"]) ∧ 0 < R.nsim ∧ ValidSched R.nsim R.sched

theorem sig_total {S : SigNum} {method : String} {R : SimRun F} (h : SigTotal S method R) {recs : List (Option Cell × Option Cell)} {t : Hist}
    (ht : IsTable recs t) (hr : 2 ≤ t.rows.length) (hc : 2 ≤ t.cols.length) :
    ∃ p z, sigFromHist2d S R t.values method = .ok (some p, some z) := by
  have hd := table_data ht
  rcases h with ⟨rfl, hS, hu, hlam⟩ | ⟨rfl, hg, hm, hlam, hn, hs⟩
  · obtain ⟨p, z, h, -⟩ := asymptotic_total hS hu R hlam (data_isCount hd hr) hr hc
    exact ⟨p, z, h⟩
  · obtain ⟨x, l, -, -, -, h⟩ := mc_returns S hg hd hr hc (.inl hm) hlam hn hs
    exact ⟨_, _, h⟩

/-- **C87 (`significance_from_rebinned_df`).** For every frame with distinct column names the call returns, and the only entries that are NaN are those of
pairs of columns with fewer than two values in their common records. -/
theorem significance_returns {S : SigNum} {method : String} {R : ℕ → SimRun F} (h : ∀ k, SigTotal S method (R k)) {r : Ref} {w : World} {f : Frame}
    (hr : w.heap[r]? = some f) (hn : f.names.Nodup) (dropna du dof : Bool) :
    ∃ t w', (sigFromRebinned S R r method dropna du dof).exec w = (.ok t, w') ∧
      ∀ (k : ℕ) (a b : String), (cwr f.names)[k]? = some (a, b) → ∃ ca ∈ f.cols, ∃ cb ∈ f.cols, ca.name = a ∧ cb.name = b ∧
        (t.v a b = none ↔ ∃ T : Hist, IsTable (records dropna du dof ca cb) T ∧ (T.rows.length < 2 ∨ T.cols.length < 2)) := by
  rcases significance_of_frame S R method hr hn dropna du dof with ⟨t, w', e1, e2, -⟩ | ⟨e, w', -, -, k, ca, -, cb, -, -, T, hT, l1, l2, he⟩
  · refine ⟨t, w', e1, fun k a b hk => ?_⟩
    obtain ⟨ca, hca, cb, hcb, na, nb, T, hT, hv⟩ := e2.entry k a b hk
    refine ⟨ca, hca, cb, hcb, na, nb, ?_⟩
    rcases hv with ⟨hf, hv⟩ | ⟨hf, p, hv⟩
    · exact ⟨fun _ => ⟨T, hT, by unfold Few at hf; omega⟩, fun _ => hv⟩
    · have l1 : 2 ≤ T.rows.length := by unfold Few at hf; omega
      have l2 : 2 ≤ T.cols.length := by unfold Few at hf; omega
      obtain ⟨p', z, hp⟩ := sig_total (h k) hT l1 l2
      rw [hp] at hv
      simp only [Except.ok.injEq, Prod.mk.injEq] at hv
      rw [← hv.2]
      constructor
      · intro h; cases h
      · rintro ⟨T', hT', hl⟩
        rw [table_unique hT' hT] at hl
        omega
  · obtain ⟨p, z, hp⟩ := sig_total (h k) hT l1 l2
    rw [he] at hp; cases hp

open scoped Classical in
/-- **C87 (`significance_matrix`).** It returns for every frame with distinct column names whose interval columns hold numbers and missing values only, when
`bins` gives edges or a non-negative number of bins for every interval column. -/
theorem significance_matrix_returns {S : SigNum} {method : String} {R : ℕ → SimRun F} (h : ∀ k, SigTotal S method (R k))
    (fl : ℚ → ℚ) (pf : String → Option (Option ℚ)) {r : Ref} {w : World} {data : Frame}
    (hr : w.heap[r]? = some data) (hn : data.names.Nodup) (ic : Option (List String)) (bins : Bins) (dropna du dof : Bool)
    (hnum : ∀ c ∈ data.cols, c.name ∈ ic.getD (guessIntervalCols data) → ∀ s, Cell.str s ∉ c.cells)
    (hbins : ∀ n ∈ ic.getD (guessIntervalCols data), ∃ s, EntryFor bins n s ∧ GoodEntry s) :
    ∃ t w', (significanceMatrix S R fl pf r ic bins method dropna du dof).exec w = (.ok t, w') ∧
      t.rows = (data.cols.filter (fun c => decide (Kept (ic.getD (guessIntervalCols data)) dropna c))).map (·.name) := by
  obtain ⟨icc, w1, clean, g1, g2, g3, hres⟩ := significance_matrix_result S R method fl pf hr hn ic bins dropna du dof
  rcases hres with ⟨t, w', _, _, _, _, _, k1, -, -, -, k2, -⟩ | ⟨e, w', -, k1 | ⟨k, recs, T, hT, l1, l2, he⟩⟩
  · exact ⟨t, w', k1, k2⟩
  · obtain ⟨-, v, hv⟩ := prepared_bins fl pf hr hn _ icc bins false dropna g1 g2 hnum hbins
    rw [binData_exec fl pf g2, hv] at k1
    cases k1
  · obtain ⟨p, z, hp⟩ := sig_total (h k) hT l1 l2
    rw [he] at hp; cases hp

/-- The true tail probabilities are never 0. -/
theorem trueSig_far : UnderflowsFar trueSig := by
  refine underflowsFar_of fun x k hk _ h => ?_
  have h0 : (0 : ℝ) < k := by linarith
  simp only [trueSig, not_le.2 h0, if_false, Option.some.injEq] at h
  exact (chi2Tail_pos h0 x).ne' h

/-- Tail probabilities that are rounded to 0 beyond 1000: the Chernoff bound can be evaluated for up to 166 degrees of freedom. -/
theorem flushed_far {x k : ℝ} (hk : 1 ≤ k) (hk' : k ≤ 166) (h : (flushed trueSig).chi2sf x k = some 0) : 0 < chernoffU x k := by
  by_cases hx : x < 6 * k
  · exfalso
    have h0 : (0 : ℝ) < k := by linarith
    simp only [flushed, trueSig, not_lt.2 (by linarith : x ≤ 1000), not_le.2 h0, if_false, Option.some.injEq] at h
    exact (chi2Tail_pos h0 x).ne' h
  · exact one_pos.trans_le (chernoffU_large hk (not_lt.1 hx))

/-- Non-vacuity: a frame with a text column and a column of numbers with a missing value, the asymptotic method with each of the three statistics, and the
Monte-Carlo method with any good draws. -/
example (R : ℕ → SimRun F) (hR : (∀ k, (R k).lambda ∈ ["pearson", "log-likelihood", "cressie-read"])) (fl : ℚ → ℚ) (pf : String → Option (Option ℚ)) :
    ∃ t w', (significanceMatrix trueSig R fl pf 0 none (.one (.num 10)) "asymptotic" true true true).exec ⟨[exFrame], []⟩ = (.ok t, w') := by
  obtain ⟨t, w', h, -⟩ := significance_matrix_returns (S := trueSig) (method := "asymptotic") (R := R)
    (fun k => .inl ⟨rfl, trueSig_spec, trueSig_far, hR k⟩) fl pf (r := 0) (w := ⟨[exFrame], []⟩) rfl (by simp [exFrame, Frame.names]) none (.one (.num 10))
    true true true (by simp [exFrame, guessIntervalCols]) fun n _ => ⟨_, .one _ _, .inr ⟨10, rfl, by norm_num⟩⟩
  exact ⟨t, w', h⟩

example (R : ℕ → SimRun F) (hd : ∀ k i, GoodDraws ((R k).draws i)) (hm : ∀ k, (R k).method = "row_product_multinominal") (hl : ∀ k, (R k).lambda = "log-likelihood")
    (hn : ∀ k, (R k).nsim = 1000) (hs : ∀ k, (R k).sched = none) (fl : ℚ → ℚ) (pf : String → Option (Option ℚ)) :
    ∃ t w', (significanceMatrix trueSig R fl pf 0 none (.one (.num 10)) "MC" true true true).exec ⟨[exFrame], []⟩ = (.ok t, w') := by
  obtain ⟨t, w', h, -⟩ := significance_matrix_returns (S := trueSig) (method := "MC") (R := R)
    (fun k => .inr ⟨rfl, hd k, by simp [hm k], (by rw [hl k]; simp), by simp [hn k], fun o ho => by rw [hs k] at ho; cases ho⟩)
    fl pf (r := 0) (w := ⟨[exFrame], []⟩) rfl (by simp [exFrame, Frame.names]) none (.one (.num 10))
    true true true (by simp [exFrame, guessIntervalCols]) fun n _ => ⟨_, .one _ _, .inr ⟨10, rfl, by norm_num⟩⟩
  exact ⟨t, w', h⟩

end Phik.Props
