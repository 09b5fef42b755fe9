import Verif.Props.OutlierFrame

/-! # Property C34 for the outlier functions on frames -/

namespace Phik

open Spec Props Out

theorem IsTable.total_ne_zero {recs : List (Option Cell × Option Cell)} {h : Hist} (ht : IsTable recs h)
    (hr : h.rows.length ≠ 0) : h.arr.total ≠ 0 := by
  obtain ⟨b, hb⟩ := (ht.rows_mem h.rows[0]).1 (List.getElem_mem (by omega))
  have hbc : b ∈ h.cols := (ht.cols_mem b).2 ⟨_, hb⟩
  obtain ⟨j, hj, rfl⟩ := List.getElem_of_mem hbc
  have h1 : h.v ⟨0, by omega⟩ ⟨j, hj⟩ ≠ 0 := by
    rw [ht.counts]
    exact (List.count_pos_iff.2 hb).ne'
  intro h0
  apply h1
  have h2 := (Finset.sum_eq_zero_iff.1 h0) ⟨0, by change 0 < h.rows.length; omega⟩ (Finset.mem_univ _)
  exact (Finset.sum_eq_zero_iff.1 h2) ⟨j, hj⟩ (Finset.mem_univ _)

theorem Counts.total_ne_zero {pf : String → Option (Option ℚ)} {dropna du dof : Bool} {ea eb : Option (List ℚ)}
    {a b : Column} {ra rb : List Category} {n : Fin ra.length → Fin rb.length → ℕ}
    (h : Counts pf dropna du dof ea eb a b ra rb n) (hr : ra.length ≠ 0) :
    (⟨ra.length, rb.length, n⟩ : Arr2 ℕ).total ≠ 0 := by
  obtain ⟨p, hp, h1, d, h2⟩ := (h.rows_mem ra[0]).1 (List.getElem_mem (by omega))
  have hbc : d ∈ rb := (h.cols_mem d).2 ⟨p, hp, ⟨_, h1⟩, h2⟩
  obtain ⟨j, hj, rfl⟩ := List.getElem_of_mem hbc
  have h3 : n ⟨0, by omega⟩ ⟨j, hj⟩ ≠ 0 := by
    rw [h.counts]
    refine (List.countP_pos_iff.2 ⟨p, hp, ?_⟩).ne'
    simp only [decide_eq_true_eq]
    exact ⟨h1, h2⟩
  intro h0
  apply h3
  have h4 := (Finset.sum_eq_zero_iff.1 h0) ⟨0, by change 0 < ra.length; omega⟩ (Finset.mem_univ _)
  exact (Finset.sum_eq_zero_iff.1 h4) ⟨j, hj⟩ (Finset.mem_univ _)

theorem M.exec_bind_ok {α β : Type} {x : M α} {f : α → M β} {w w' : World} {b : β}
    (h : (x >>= f).exec w = (.ok b, w')) : ∃ a w1, x.exec w = (.ok a, w1) ∧ (f a).exec w1 = (.ok b, w') := by
  rw [M.exec_bind] at h
  rcases hx : x.exec w with ⟨res, w1⟩
  rw [hx] at h
  cases res with
  | error e => simp at h
  | ok a => exact ⟨a, w1, rfl, h⟩

namespace Props

/-- **C34.** `outlier_significance_matrix_from_rebinned_df` never returns a matrix for an unknown CI_method, whatever the frame,
the binning dictionary and the flags. -/
theorem ci_unknown_rebinned (N : OutNum) (fmt : ℚ → String) (r : Ref) (dict : List (String × List (ℚ × ℚ))) {ci : String}
    (h1 : ci ≠ "poisson") (h2 : ci ≠ "exact_poisson") (dropna du dof : Bool) (w : World) (t : OutTab) :
    ((outlierFromRebinned N fmt r dict ci dropna du dof).exec w).1 ≠ .ok (some t) := by
  intro h
  obtain ⟨w', h⟩ : ∃ w', (outlierFromRebinned N fmt r dict ci dropna du dof).exec w = (.ok (some t), w') :=
    ⟨_, Prod.ext h rfl⟩
  unfold outlierFromRebinned at h
  obtain ⟨hist, w1, k1, hh⟩ := M.exec_bind_ok h
  clear h
  obtain ⟨data, w2, k2, h⟩ := M.exec_bind_ok hh
  clear hh
  cases hr : w.heap[r]? with
  | none =>
    unfold hist2dFromRebinned at k1
    obtain ⟨d, w3, k3, -⟩ := M.exec_bind_ok k1
    simp [M.exec, M.read, hr] at k3
  | some data0 =>
    have hcols : ∃ a b, data0.cols = [a, b] := by
      by_contra hc
      have hlen : data0.cols.length ≠ 2 := by
        intro hl
        apply hc
        match hd : data0.cols, hl with
        | [a, b], _ => exact ⟨a, b, rfl⟩
      unfold hist2dFromRebinned at k1
      rw [M.exec_bind, M.exec_read_of hr] at k1
      simp only [hlen, ne_eq, not_false_eq_true, if_true] at k1
      cases k1
    obtain ⟨a, b, hab⟩ := hcols
    obtain ⟨hist', e1, ht⟩ := hist2dFromRebinned_exec hr hab dropna du dof
    rw [e1] at k1
    cases k1
    split at h
    · split at h
      · obtain ⟨-, -, -, h⟩ := M.exec_bind_ok h
        cases h
      · rename_i hfew
        push Not at hfew
        obtain ⟨rows, w3, -, h⟩ := M.exec_bind_ok h
        obtain ⟨cols, w4, -, h⟩ := M.exec_bind_ok h
        obtain ⟨tt, w5, k5, h⟩ := M.exec_bind_ok h
        rw [ci_unknown_rejected h1 h2 (by change 2 ≤ hist.rows.length; omega) (by change 2 ≤ hist.cols.length; omega)
          (IsTable.total_ne_zero ht (by omega))] at k5
        cases k5
    · cases h

/-- **C34.** `outlier_significance_matrix` never returns a matrix for an unknown CI_method. -/
theorem ci_unknown_matrix (N : OutNum) (fmt : ℚ → String) (fl : ℚ → ℚ) (pf : String → Option (Option ℚ)) (r : Ref)
    (ic : Option (List String)) {ci : String} (h1 : ci ≠ "poisson") (h2 : ci ≠ "exact_poisson") (bins : Bins)
    (quantile dropna du dof : Bool) (w : World) (t : OutTab) (d : List (String × List (ℚ × ℚ))) :
    ((outlierMatrix N fmt fl pf r ic ci bins quantile dropna du dof).exec w).1 ≠ .ok (some t, d) := by
  intro h
  obtain ⟨w', h⟩ : ∃ w', (outlierMatrix N fmt fl pf r ic ci bins quantile dropna du dof).exec w =
    (.ok (some t, d), w') := ⟨_, Prod.ext h rfl⟩
  unfold outlierMatrix at h
  obtain ⟨df, w1, -, h⟩ := M.exec_bind_ok h
  split at h
  · cases h
  · obtain ⟨p1, w2, -, h⟩ := M.exec_bind_ok h
    obtain ⟨p2, w3, -, h⟩ := M.exec_bind_ok h
    obtain ⟨tt, w4, k, h⟩ := M.exec_bind_ok h
    have : tt = some t := by
      have := congrArg Prod.fst h
      simp only [M.exec_pure] at this
      injection this with this
      exact (congrArg Prod.fst this)
    subst this
    exact ci_unknown_rebinned N fmt _ _ h1 h2 dropna du dof w3 t (by rw [k])

open scoped Classical in
/-- **C34.** In the situation of `outlier_matrix_labels` an unknown CI_method makes `outlier_significance_matrix` raise
NotImplementedError, unless there are fewer than two categories (then the result is NaN) or the binning raises an exception. -/
theorem ci_unknown_raises (N : OutNum) (fmt : ℚ → String) {fl : ℚ → ℚ} (hfl : fl = (fun x => x) ∨ fl = rne53)
    (pf : String → Option (Option ℚ)) {r : Ref} {w : World} {data : Frame} (hr : w.heap[r]? = some data)
    {a b : Column} (hab : data.cols = [a, b]) (hn : a.name ≠ b.name) (ic : Option (List String))
    {ci : String} (h1 : ci ≠ "poisson") (h2 : ci ≠ "exact_poisson") (bins : Bins) (quantile dropna du dof : Bool)
    (hent : ∀ name ∈ ic.getD (guessIntervalCols data), ∃ s, EntryFor bins name s)
    (hspec : ∀ name ∈ ic.getD (guessIntervalCols data), ∀ s, EntryFor bins name s → SortedSpec s)
    (hrep : ∀ c ∈ data.cols, c.name ∈ ic.getD (guessIntervalCols data) →
      ∀ x ∈ c.cells, ∀ q, toFloat pf x = .ok (some q) → fl q = q)
    (ka : Kept (ic.getD (guessIntervalCols data)) dropna a) (kb : Kept (ic.getD (guessIntervalCols data)) dropna b) :
    let ics := ic.getD (guessIntervalCols data)
    let res := ((outlierMatrix N fmt fl pf r ic ci bins quantile dropna du dof).exec w).1
    (∃ e, res = .error e ∧
      ((binData fl pf r (ics.filter fun n => decide (n ∈ data.names)) bins quantile).exec w).1 = .error e) ∨
    ∃ ea eb ra rb n, EdgesFor fl pf quantile bins ics a ea ∧ EdgesFor fl pf quantile bins ics b eb ∧
      Counts pf dropna du dof ea eb a b ra rb n ∧
      ((ra.length < 2 ∨ rb.length < 2) ∧ (∃ d, res = .ok (none, d)) ∨
        2 ≤ ra.length ∧ 2 ≤ rb.length ∧ res = .error .notImplemented) := by
  intro ics res
  rcases outlier_matrix_labels N fmt hfl pf hr hab hn ic ci bins quantile dropna du dof hent hspec hrep ka kb with h | h
  · exact .inl h
  · right
    obtain ⟨ea, eb, ra, rb, n, k1, k2, k3, k4⟩ := h
    refine ⟨ea, eb, ra, rb, n, k1, k2, k3, ?_⟩
    change IsOutlierMatrix N fmt ci ra rb n (res.map Prod.fst) at k4
    cases hres : res with
    | error e =>
      rw [hres] at k4
      obtain ⟨l1, l2, l3⟩ := k4
      rw [ci_unknown_rejected h1 h2 l1 l2 (Counts.total_ne_zero k3 (by omega))] at l3
      cases l3
      exact .inr ⟨l1, l2, rfl⟩
    | ok p =>
      obtain ⟨o, d⟩ := p
      cases o with
      | none =>
        rw [hres] at k4
        exact .inl ⟨k4, d, rfl⟩
      | some t => exact absurd hres (ci_unknown_matrix N fmt fl pf r ic h1 h2 bins quantile dropna du dof w t d)

example (N : OutNum) (fmt : ℚ → String) (pf : String → Option (Option ℚ)) (t : OutTab) (d : List (String × List (ℚ × ℚ))) :
    ((outlierMatrix N fmt (fun x => x) pf 0 (some ["x"]) "gauss" (.dict [("x", .edges [0, 2, 4, 6, 8])]) false
      true true true).exec ⟨[gapFrame], []⟩).1 ≠ .ok (some t, d) :=
  ci_unknown_matrix N fmt _ pf 0 _ (by decide) (by decide) _ _ _ _ _ _ t d

end Props

end Phik
