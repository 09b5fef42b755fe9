import Verif.Props.Categorical
import Verif.Props.ChiNdof
import Verif.Props.SigMatrix

/-! # Property C79: degrees of freedom, empty rows and columns, and the asymptotic significance -/

namespace Phik
open Spec Props

variable {F : Type}

theorem sigPairD_eq (S : SigNum) (R : ℕ → SimRun F) (method : String) {du dof : Bool} {f : List DColumn}
    (hn : (f.map (·.name)).Nodup) {a b : DColumn} (ha : a ∈ f) (hb : b ∈ f) (k : ℕ) :
    sigPairD S R method (f.map (DColumn.flags du dof)) k (a.name, b.name) =
      if Few (histOfColumns (a.flags du dof) (b.flags du dof)) then .ok (a.name, b.name, none)
      else (sigFromHist2d S (R k) (histOfColumns (a.flags du dof) (b.flags du dof)).values method).map
        fun pz => (a.name, b.name, pz.2) := by
  have hn' : ((f.map (DColumn.flags du dof)).map (·.name)).Nodup := by rw [names_flags]; exact hn
  have e1 := getDCol_of_mem hn' (List.mem_map_of_mem (f := DColumn.flags du dof) ha)
  have e2 := getDCol_of_mem hn' (List.mem_map_of_mem (f := DColumn.flags du dof) hb)
  rw [flags_name] at e1 e2
  set h := histOfColumns (a.flags du dof) (b.flags du dof) with hh
  unfold sigPairD
  simp only [e1, e2, bind, Except.bind, ← hh]
  have hf : ((h.rows.length = 1 ∨ h.cols.length = 1) ∨ (h.rows.length = 0 ∨ h.cols.length = 0)) ↔ Few h := by
    unfold Few; omega
  simp only [hf]
  by_cases h0 : Few h
  · simp only [h0, if_true]; rfl
  · simp only [h0, if_false]
    cases sigFromHist2d S (R k) h.values method <;> rfl

theorem mem_cwr_dcols {f : List DColumn} {co : String × String} (h : co ∈ cwr (f.map (·.name))) :
    ∃ ca ∈ f, ∃ cb ∈ f, co = (ca.name, cb.name) := by
  obtain ⟨a, b⟩ := co
  rcases mem_cwr.1 h with ⟨rfl, h'⟩ | h
  · obtain ⟨ca, ha, rfl⟩ := List.mem_map.1 h'
    exact ⟨ca, ha, ca, ha, rfl⟩
  · obtain ⟨ca, ha, rfl⟩ := List.mem_map.1 (h.subset (by simp) : a ∈ f.map (·.name))
    obtain ⟨cb, hb, rfl⟩ := List.mem_map.1 (h.subset (by simp) : b ∈ f.map (·.name))
    exact ⟨ca, ha, cb, hb, rfl⟩

namespace Props

/-- **C79 (matrix).** If `significance_from_rebinned_df` of a frame of plain and categorical columns returns, the result is
labelled with the columns, symmetric, and holds for every pair the significance of the table over all categories, used or
not. If it raises, the exception is that of some pair's table with two labels or more on each axis. -/
theorem sig_matrix_categorical (S : SigNum) (R : ℕ → SimRun F) (method : String) {f : List DColumn}
    (hn : (f.map (·.name)).Nodup) (hw : ∀ c ∈ f, DColumn.WF c) (du dof : Bool) :
    (∃ t, sigFromRebinnedD S R f method du dof = .ok t ∧ IsSigMatrixD S R method du dof f t) ∨
    ∃ e, sigFromRebinnedD S R f method du dof = .error e ∧
      ∃ k, ∃ ca ∈ f, ∃ cb ∈ f, (cwr (f.map (·.name)))[k]? = some (ca.name, cb.name) ∧
        ∃ h, (if ca.levels = none ∧ cb.levels = none then IsTable (recordsD du dof ca cb) h else IsTableD du dof ca cb h) ∧
          ¬ Few h ∧ sigFromHist2d S (R k) h.values method = .error e := by
  set names := f.map (·.name) with hnames
  set g := f.map (DColumn.flags du dof) with hg
  set tasks := (cwr names).zipIdx.map fun p => sigPairD S R method g p.2 p.1 with htasks
  have hrun : sigFromRebinnedD S R f method du dof = (tasks.mapM id).map fun l =>
      if l.length = 0 then ⟨names, names, fun _ _ => none⟩ else (((overview l).reindexCols names).reindexRows names) := by
    have hgn : g.map (·.name) = names := names_flags du dof f
    unfold sigFromRebinnedD
    simp only [bind, Except.bind, ← hg, hgn, ← htasks]
    cases tasks.mapM id with
    | error e => rfl
    | ok l =>
      simp only [Except.map]
      split <;> rfl
  rw [hrun]
  cases hm : tasks.mapM id with
  | error e =>
    right
    refine ⟨e, rfl, ?_⟩
    have hmem : .error e ∈ tasks :=
      (parallel_eq_serial tasks (List.Perm.refl _)).2.2 e none (.inl rfl) hm
    obtain ⟨⟨co, k⟩, hp, he⟩ := List.mem_map.1 hmem
    have hk : (cwr names)[k]? = some co := by
      have := List.mem_zipIdx_iff_getElem?.1 hp
      exact this
    obtain ⟨ca, ha, cb, hb, rfl⟩ := mem_cwr_dcols (List.mem_of_getElem? hk)
    refine ⟨k, ca, ha, cb, hb, hk, _, histOfColumns_table (du := du) (dof := dof) (hw ca ha) (hw cb hb), ?_⟩
    simp only at he
    rw [hg, sigPairD_eq S R method hn ha hb] at he
    split at he
    · cases he
    · next hf =>
      refine ⟨hf, ?_⟩
      cases hs : sigFromHist2d S (R k) (histOfColumns (ca.flags du dof) (cb.flags du dof)).values method with
      | error e' => rw [hs] at he; cases he; rfl
      | ok v => rw [hs] at he; cases he
  | ok l =>
    left
    refine ⟨_, rfl, ?_⟩
    beta_reduce
    rw [mapM_ok_iff] at hm
    have hnd := cwr_nodup hn
    set val : String → String → Option EReal := fun a b =>
      match sigPairD S R method g ((cwr names).idxOf (a, b)) (a, b) with
      | .ok p => p.2.2
      | .error _ => none with hval
    have htask : ∀ (k : ℕ) co, (cwr names)[k]? = some co → tasks[k]? = some (sigPairD S R method g k co) := by
      intro k co hk
      rw [htasks, List.getElem?_map, List.getElem?_zipIdx, hk]
      simp
    have hok : ∀ (k : ℕ) co, (cwr names)[k]? = some co →
        sigPairD S R method g k co = .ok (co.1, co.2, val co.1 co.2) ∧ l[k]? = some (co.1, co.2, val co.1 co.2) := by
      intro k co hk
      obtain ⟨hk1, hk2⟩ := List.getElem?_eq_some_iff.1 hk
      have h1 := htask k co hk
      rw [hm, List.getElem?_map] at h1
      cases hl : l[k]? with
      | none => rw [hl] at h1; cases h1
      | some p =>
        rw [hl] at h1
        simp only [Option.map_some, Option.some.injEq] at h1
        have h2 : val co.1 co.2 = p.2.2 := by
          simp only [hval]
          rw [show (co.1, co.2) = co from rfl, ← hk2, hnd.idxOf_getElem, hk2, ← h1]
        obtain ⟨ca, ha, cb, hb, rfl⟩ := mem_cwr_dcols (List.mem_of_getElem? hk)
        have h3 : p.1 = ca.name ∧ p.2.1 = cb.name := by
          rw [hg, sigPairD_eq S R method hn ha hb] at h1
          split at h1
          · cases h1; exact ⟨rfl, rfl⟩
          · cases hs : sigFromHist2d S (R k) (histOfColumns (ca.flags du dof) (cb.flags du dof)).values method with
            | error e => rw [hs] at h1; cases h1
            | ok v => rw [hs] at h1; cases h1; exact ⟨rfl, rfl⟩
        have h4 : p = (ca.name, cb.name, val ca.name cb.name) := by rw [h2, ← h3.1, ← h3.2]
        rw [← h1, h4]
        exact ⟨rfl, rfl⟩
    have hlen : l.length = (cwr names).length := by
      have := congrArg List.length hm
      simpa [htasks] using this.symm
    have hl : l = (cwr names).map fun co => (co.1, co.2, val co.1 co.2) := by
      apply List.ext_getElem?
      intro k
      rcases lt_or_ge k (cwr names).length with hk | hk
      · have := (hok k _ (List.getElem?_eq_getElem hk)).2
        rw [this, List.getElem?_map, List.getElem?_eq_getElem hk]; rfl
      · rw [List.getElem?_eq_none (by omega), List.getElem?_eq_none (by simpa using hk)]
    by_cases hnil : names = []
    · have h0 : cwr names = [] := by rw [hnil]; rfl
      rw [if_pos (by rw [hlen, h0]; rfl)]
      exact ⟨rfl, rfl, by rw [← hnames, hnil]; simp, by rw [← hnames, h0]; simp⟩
    have hne : ¬ l.length = 0 := by
      rw [hlen]
      intro h0
      exact hnil (cwr_eq_nil (List.length_eq_zero_iff.1 h0))
    rw [if_neg hne, hl]
    have hov : ∀ a b, (((overview ((cwr names).map fun co => (co.1, co.2, val co.1 co.2))).reindexCols
        names).reindexRows names).v a b = (overview ((cwr names).map fun co => (co.1, co.2, val co.1 co.2))).v a b := by
      intro a b; rw [overview_reindex]
    have hent : ∀ (k : ℕ) a b, (cwr names)[k]? = some (a, b) →
        (overview ((cwr names).map fun co => (co.1, co.2, val co.1 co.2))).v a b = val a b := by
      intro k a b hk
      rcases mem_cwr.1 (List.mem_of_getElem? hk) with ⟨rfl, h⟩ | h
      · exact (overview_pairs hn val (b := a)).1 h
      · exact ((overview_pairs hn val).2 h).1
    refine ⟨rfl, rfl, fun a ha b hb => ?_, fun k a b hk => ?_⟩
    · by_cases hab : a = b
      · rw [hab]
      · rw [hov, hov]
        rcases sublist_total ha hb hab with h | h
        · obtain ⟨e1, e2⟩ := (overview_pairs hn val).2 h
          rw [e1, e2]
        · obtain ⟨e1, e2⟩ := (overview_pairs hn val).2 h
          rw [e1, e2]
    · obtain ⟨ca, ha, cb, hb, e⟩ := mem_cwr_dcols (List.mem_of_getElem? hk)
      cases e
      refine ⟨ca, ha, cb, hb, rfl, rfl, ?_⟩
      rw [hov, hent k _ _ hk]
      have h1 := (hok k _ hk).1
      simp only at h1
      rw [hg, sigPairD_eq S R method hn ha hb] at h1
      have ht := histOfColumns_table (du := du) (dof := dof) (hw ca ha) (hw cb hb)
      set h := histOfColumns (ca.flags du dof) (cb.flags du dof) with hh
      have hcase : Few h ∧ val ca.name cb.name = none ∨
          ¬ Few h ∧ ∃ p, sigFromHist2d S (R k) h.values method = .ok (p, val ca.name cb.name) := by
        split at h1
        · next hf =>
          simp only [Except.ok.injEq, Prod.mk.injEq, true_and] at h1
          exact .inl ⟨hf, h1.symm⟩
        · next hf =>
          right
          refine ⟨hf, ?_⟩
          cases hs : sigFromHist2d S (R k) h.values method with
          | error e => rw [hs] at h1; cases h1
          | ok v =>
            rw [hs] at h1
            simp only [Except.map, Except.ok.injEq, Prod.mk.injEq, true_and] at h1
            exact ⟨v.1, by rw [← h1]⟩
      unfold IsSigD
      split at ht
      · next hc => rw [if_pos hc]; exact ⟨h, ht, hcase⟩
      · next hc => rw [if_neg hc]; exact ⟨h, ht, hcase⟩

/-- **C79 (empty rows and columns; violated for the asymptotic method).** Two tables that hold the same numbers up to
empty rows and columns have the same chi2, but the asymptotic significance counts the empty ones: with more of them the
p-value is larger and Z is smaller. -/
theorem asymptotic_shape (R : SimRun F) {a b : Arr2 ℝ} (hs : SameTable a b) {chi2 : ℝ}
    (hchi : getChi2 b R.lambda = .ok chi2) (hpos : 0 < chi2) (hr : 2 ≤ b.r) (hc : 2 ≤ b.c)
    (hlt : (b.r - 1) * (b.c - 1) < (a.r - 1) * (a.c - 1)) :
    ∃ p z p' z', sigFromHist2d trueSig R a "asymptotic" = .ok (some p, some z) ∧
      sigFromHist2d trueSig R b "asymptotic" = .ok (some p', some z') ∧ p' < p ∧ z < z' := by
  have hchi' : getChi2 a R.lambda = .ok chi2 := by rw [get_chi2_sameTable hs, hchi]
  have hnd : ∀ c : Arr2 ℝ, 1 ≤ c.r → 1 ≤ c.c → ((theoreticalNdof c : ℤ) : ℝ) = ((c.r - 1) * (c.c - 1) : ℕ) := by
    intro c h1 h2
    unfold theoreticalNdof nominalDof
    push_cast [Nat.cast_sub h1, Nat.cast_sub h2]
    ring
  have hb0 : 0 < (b.r - 1) * (b.c - 1) := Nat.mul_pos (by omega) (by omega)
  have ha1 : 1 ≤ a.r ∧ 1 ≤ a.c := by
    constructor
    · by_contra h0
      have : a.r = 0 := by omega
      rw [this] at hlt
      simp at hlt
    · by_contra h0
      have : a.c = 0 := by omega
      rw [this] at hlt
      simp at hlt
  have hkb : (0 : ℝ) < ((b.r - 1) * (b.c - 1) : ℕ) := by exact_mod_cast hb0
  have hkab : (((b.r - 1) * (b.c - 1) : ℕ) : ℝ) < ((a.r - 1) * (a.c - 1) : ℕ) := by exact_mod_cast hlt
  have hsf : ∀ k : ℝ, 0 < k → ∃ p, trueSig.chi2sf chi2 k = some p ∧ 0 < p ∧ p < 1 ∧
      sigFromNdof trueSig chi2 k = .ok (some p, some (-normPpf p)) := by
    intro k hk
    have hFact : Fact (0 < k) := ⟨hk⟩
    have e : trueSig.chi2sf chi2 k = some ((chi2Law k).real (Set.Ioi chi2)) := by
      simp [trueSig, not_le.2 hk]
    have hp0 : 0 < (chi2Law k).real (Set.Ioi chi2) := by
      rw [MeasureTheory.measureReal_def]
      exact ENNReal.toReal_pos (gamma_pos_interval (half_pos hk) (by norm_num) hpos.le
        (show chi2 < chi2 + 1 by linarith) (fun t ht => ht.1) measurableSet_Ioi).ne' (MeasureTheory.measure_ne_top _ _)
    have hp1 : (chi2Law k).real (Set.Ioi chi2) < 1 := by
      refine lt_of_lt_of_le (chi2_tail_strict hpos hk (show k < k + 1 by linarith) e
        (show trueSig.chi2sf chi2 (k + 1) = some ((chi2Law (k + 1)).real (Set.Ioi chi2)) by
          simp [trueSig, not_le.2 (show (0 : ℝ) < k + 1 by linarith)])) ?_
      have : Fact (0 < k + 1) := ⟨by linarith⟩
      exact MeasureTheory.measureReal_le_one
    refine ⟨_, e, hp0, hp1, ?_⟩
    unfold sigFromNdof
    rw [e, if_neg (by simpa using hp0.ne')]
    rfl
  obtain ⟨p', e1, h1, h1', r1⟩ := hsf _ hkb
  obtain ⟨p, e2, h2, h2', r2⟩ := hsf _ (hkb.trans hkab)
  have hpp := chi2_tail_strict hpos hkb hkab e1 e2
  refine ⟨p, -normPpf p, p', -normPpf p', ?_, ?_, hpp, ?_⟩
  · unfold sigFromHist2d
    rw [hchi']
    simp only [bind, Except.bind, if_true]
    unfold sigAsymptotic
    rw [hnd a ha1.1 ha1.2, r2]
  · unfold sigFromHist2d
    rw [hchi]
    simp only [bind, Except.bind, if_true]
    unfold sigAsymptotic
    rw [hnd b (by omega) (by omega), r1]
  · rw [EReal.neg_lt_neg_iff]
    exact normPpf_strictMono ⟨h1.le, h1'.le⟩ ⟨h2.le, h2'.le⟩ hpp

/-- **C79 (categories that do not occur; violated).** Two columns with chi2 above 0, of which one is categorical and has a
category that does not occur in a record with both values: the asymptotic significance is strictly below that of plain
columns with the same entries. -/
theorem sig_unused (R : SimRun F) {du dof : Bool} {a b : DColumn} (ha : DColumn.WF a) (hb : DColumn.WF b)
    (hcat : a.levels ≠ none ∨ b.levels ≠ none) {h h' : Hist} (ht : IsTableD du dof a b h)
    (ht' : IsTable (recordsD du dof a b) h') (hr : 2 ≤ h'.rows.length) (hc : 2 ≤ h'.cols.length) {chi2 : ℝ}
    (hchi : getChi2 h'.values R.lambda = .ok chi2) (hpos : 0 < chi2)
    (hun : (∃ x ∈ h.rows, ∀ y, (some x, some y) ∉ recordsD du dof a b) ∨
      ∃ y ∈ h.cols, ∀ x, (some x, some y) ∉ recordsD du dof a b) :
    ∃ z z', IsSigD trueSig R "asymptotic" du dof a b (some z) ∧
      IsSigD trueSig R "asymptotic" du dof (plain a) (plain b) (some z') ∧ z < z' := by
  obtain ⟨hsame, n1, n2⟩ := tableD_same ha hb ht ht'
  have hsub1 : h'.rows ⊆ h.rows := fun x hx => by
    obtain ⟨y, hy⟩ := (ht'.rows_mem x).1 hx
    exact (record_mem ha hb ht hy).1
  have hsub2 : h'.cols ⊆ h.cols := fun y hy => by
    obtain ⟨x, hx⟩ := (ht'.cols_mem y).1 hy
    exact (record_mem ha hb ht hx).2
  have hn1 : h'.rows.Nodup := ht'.rows_sorted.imp ne_of_lt
  have hn2 : h'.cols.Nodup := ht'.cols_sorted.imp ne_of_lt
  have l1 := (List.subperm_of_subset hn1 hsub1).length_le
  have l2 := (List.subperm_of_subset hn2 hsub2).length_le
  have hlt : (h'.rows.length - 1) * (h'.cols.length - 1) < (h.rows.length - 1) * (h.cols.length - 1) := by
    rcases hun with ⟨x, hx, hno⟩ | ⟨y, hy, hno⟩
    · have hx' : x ∉ h'.rows := fun h0 => by
        obtain ⟨y, hy⟩ := (ht'.rows_mem x).1 h0
        exact hno y hy
      have l3 := (List.subperm_of_subset (List.nodup_cons.2 ⟨hx', hn1⟩) (by
        intro w hw
        rcases List.mem_cons.1 hw with rfl | hw
        · exact hx
        · exact hsub1 hw)).length_le
      rw [List.length_cons] at l3
      calc _ < (h.rows.length - 1) * (h'.cols.length - 1) := Nat.mul_lt_mul_of_pos_right (by omega) (by omega)
        _ ≤ _ := Nat.mul_le_mul_left _ (by omega)
    · have hy' : y ∉ h'.cols := fun h0 => by
        obtain ⟨x, hx⟩ := (ht'.cols_mem y).1 h0
        exact hno x hx
      have l3 := (List.subperm_of_subset (List.nodup_cons.2 ⟨hy', hn2⟩) (by
        intro w hw
        rcases List.mem_cons.1 hw with rfl | hw
        · exact hy
        · exact hsub2 hw)).length_le
      rw [List.length_cons] at l3
      calc _ ≤ (h.rows.length - 1) * (h'.cols.length - 1) := Nat.mul_le_mul_right _ (by omega)
        _ < _ := Nat.mul_lt_mul_of_pos_left (by omega) (by omega)
  obtain ⟨p, z, p', z', e1, e2, -, hz⟩ := asymptotic_shape R (a := h.values) (b := h'.values) hsame hchi hpos hr hc hlt
  refine ⟨z, z', ?_, ?_, hz⟩
  · unfold IsSigD
    rw [if_neg (by tauto)]
    exact ⟨h, ht, .inr ⟨by unfold Few; omega, _, e1⟩⟩
  · unfold IsSigD
    rw [if_pos ⟨rfl, rfl⟩]
    exact ⟨h', ht', .inr ⟨by unfold Few; omega, _, e2⟩⟩

/-- The asymptotic significance of a table with a record, two rows and two columns: no exception. -/
theorem asymptotic_returns (R : SimRun F) (hl : R.lambda = "pearson") {a : Arr2 ℝ} (ha : IsCount a) (hr : 2 ≤ a.r)
    (hc : 2 ≤ a.c) : ∃ pz, sigFromHist2d trueSig R a "asymptotic" = .ok pz := by
  have hchi := (get_chi2_value ha).1
  have h0 := (pearson_bounds ha hchi).1
  have hk : (0 : ℝ) < ((theoreticalNdof a : ℤ) : ℝ) := by
    rw [theoretical_ndof_value]
    have h1 : 0 < (a.r : ℤ) - 1 := by omega
    have h2 : 0 < (a.c : ℤ) - 1 := by omega
    exact_mod_cast mul_pos h1 h2
  unfold sigFromHist2d
  rw [hl, hchi]
  simp only [bind, Except.bind, if_true]
  unfold sigAsymptotic sigFromNdof
  set k : ℝ := ((theoreticalNdof a : ℤ) : ℝ)
  have hFact : Fact (0 < k) := ⟨hk⟩
  have e : trueSig.chi2sf (statistic pearsonCell a) k = some ((chi2Law k).real (Set.Ioi (statistic pearsonCell a))) := by
    simp [trueSig, not_le.2 hk]
  have hp0 : 0 < (chi2Law k).real (Set.Ioi (statistic pearsonCell a)) := by
    rw [MeasureTheory.measureReal_def]
    exact ENNReal.toReal_pos (gamma_pos_interval (half_pos hk) (by norm_num) h0
      (lt_add_one _) (fun t ht => ht.1) measurableSet_Ioi).ne' (MeasureTheory.measure_ne_top _ _)
  rw [e, if_neg (by simpa using hp0.ne')]
  exact ⟨_, rfl⟩

/-- **C79 (matrix, asymptotic method).** With Pearson's statistic the matrix exists if every two columns of which one is
categorical have a record with both values or too few labels. -/
theorem sig_matrix_asymptotic (R : ℕ → SimRun F) (hl : ∀ k, (R k).lambda = "pearson") {f : List DColumn}
    (hn : (f.map (·.name)).Nodup) (hw : ∀ c ∈ f, DColumn.WF c) (du dof : Bool)
    (hrec : ∀ a ∈ f, ∀ b ∈ f, (a.levels ≠ none ∨ b.levels ≠ none) →
      HasRecord du dof a b ∨ FewLabels du dof a ∨ FewLabels du dof b) :
    ∃ t, sigFromRebinnedD trueSig R f "asymptotic" du dof = .ok t ∧ IsSigMatrixD trueSig R "asymptotic" du dof f t := by
  rcases sig_matrix_categorical trueSig R "asymptotic" hn hw du dof with h | ⟨e, -, k, ca, ha, cb, hb, -, h, ht, hf, he⟩
  · exact h
  · exfalso
    have h2 : 2 ≤ h.rows.length ∧ 2 ≤ h.cols.length := by unfold Few at hf; omega
    have hcount : IsCount h.values := by
      split at ht
      · exact data_isCount (table_data ht) h2.1
      · next hcat =>
        refine ⟨fun i j => Nat.cast_nonneg (α := ℝ) _, tableD_total (hw ca ha) (hw cb hb) ht ?_⟩
        rcases hrec ca ha cb hb (by tauto) with h0 | h0 | h0
        · exact h0
        · have := h0 _ ht.rows; omega
        · have := h0 _ ht.cols; omega
    obtain ⟨pz, e1⟩ := asymptotic_returns (R k) (hl k) hcount h2.1 h2.2
    rw [e1] at he
    cases he

/-- A table of data with an empty cell, not two by two, has a positive Pearson statistic. -/
theorem pearson_pos_of_empty {a : Arr2 ℝ} (h : DataTable a) (hr : 2 ≤ a.r) (h22 : ¬ (a.r = 2 ∧ a.c = 2))
    {i : Fin a.r} {j : Fin a.c} (h0 : a.v i j = 0) : ∃ x, getChi2 a "pearson" = .ok x ∧ 0 < x := by
  have ha := data_isCount h hr
  have hx := (get_chi2_value ha).1
  refine ⟨_, hx, lt_of_le_of_ne (pearson_bounds ha hx).1 fun he => ?_⟩
  have e1 : nRows a = a.r := by
    unfold nRows; rw [Nat.card_congr (Equiv.subtypeUnivEquiv h.rows), Nat.card_fin]
  have e2 : nCols a = a.c := by
    unfold nCols; rw [Nat.card_congr (Equiv.subtypeUnivEquiv h.cols), Nat.card_fin]
  rw [← he] at hx
  have hind := ((pearson_zero_iff ha).1 (by rw [e1, e2]; exact h22)).1 hx i j
  have hnn := data_nonneg h hr
  have h1 : 0 < ∑ j', a.v i j' := by
    obtain ⟨k, hk⟩ := h.rows i
    exact Finset.sum_pos' (fun _ _ => hnn _ _) ⟨k, Finset.mem_univ _, lt_of_le_of_ne (hnn _ _) (Ne.symm hk)⟩
  have h2 : 0 < ∑ i', a.v i' j := by
    obtain ⟨k, hk⟩ := h.cols j
    exact Finset.sum_pos' (fun _ _ => hnn _ _) ⟨k, Finset.mem_univ _, lt_of_le_of_ne (hnn _ _) (Ne.symm hk)⟩
  have h3 : 0 < ∑ i', ∑ j', a.v i' j' :=
    Finset.sum_pos' (fun _ _ => Finset.sum_nonneg fun _ _ => hnn _ _) ⟨i, Finset.mem_univ _, h1⟩
  rw [h0] at hind
  unfold expect at hind
  exact absurd hind (ne_of_lt (div_pos (mul_pos h1 h2) h3))

/-- **C79 (a column and its copy; violated).** A categorical column with three or more values that occur and a category
that does not: the asymptotic significance of the column and a copy of it is strictly below that of the same columns
without the categorical dtype. -/
theorem sig_copy_unused (R : SimRun F) (hl : R.lambda = "pearson") {du dof : Bool} {c : DColumn}
    (hw : DColumn.WF c) {L : List Cell} (hL : c.levels = some L) {x y z u : Cell} (hx : x ∈ c.cells) (hy : y ∈ c.cells)
    (hz : z ∈ c.cells) (hxy : x ≠ y) (hxz : x ≠ z) (hyz : y ≠ z) (vx : view true du dof x = some x)
    (vy : view true du dof y = some y) (vz : view true du dof z = some z) (hu : u ∈ L) (hu' : u ∉ c.cells)
    (vu : view true du dof u = some u) (name : String) :
    ∃ s s', IsSigD trueSig R "asymptotic" du dof c { c with name := name } (some s) ∧
      IsSigD trueSig R "asymptotic" du dof (plain c) (plain { c with name := name }) (some s') ∧ s < s' := by
  set d : DColumn := { c with name := name } with hd
  have hmem : ∀ a b, (some a, some b) ∈ recordsD du dof c d ↔ a = b ∧ a ∈ c.cells ∧ view true du dof a = some a := by
    intro a b
    have hz : c.cells.zip c.cells = c.cells.map fun x => (x, x) := by
      induction c.cells with
      | nil => rfl
      | cons a l ih => simp only [List.zip_cons_cons, List.map_cons, ih]
    have hrecs : recordsD du dof c d = c.cells.map fun x => (view true du dof x, view true du dof x) := by
      unfold recordsD
      rw [hd]
      simp only [hz, List.map_map, Function.comp_def]
    rw [hrecs, List.mem_map]
    constructor
    · rintro ⟨w, hw, he⟩
      simp only [Prod.mk.injEq] at he
      obtain ⟨h1, -⟩ := view_self he.1
      obtain ⟨h2, -⟩ := view_self he.2
      subst h1
      exact ⟨h2, hw, he.1⟩
    · rintro ⟨rfl, h1, h2⟩
      exact ⟨a, h1, by rw [h2]⟩
  have ht := histOfColumns_table (du := du) (dof := dof) hw (show DColumn.WF d from hw)
  rw [if_neg (by rw [hL]; simp)] at ht
  generalize histOfColumns (c.flags du dof) (d.flags du dof) = h at ht
  obtain ⟨h', ht'⟩ := exists_table (recordsD du dof c d)
  have hr1 : ∀ w, w ∈ h'.rows ↔ w ∈ c.cells ∧ view true du dof w = some w := fun w => by
    rw [ht'.rows_mem]
    exact ⟨fun ⟨b, hb⟩ => ((hmem _ _).1 hb).2, fun h => ⟨w, (hmem _ _).2 ⟨rfl, h⟩⟩⟩
  have hc1 : ∀ w, w ∈ h'.cols ↔ w ∈ c.cells ∧ view true du dof w = some w := fun w => by
    rw [ht'.cols_mem]
    constructor
    · rintro ⟨b, hb⟩
      obtain ⟨rfl, h⟩ := (hmem _ _).1 hb
      exact h
    · exact fun h => ⟨w, (hmem _ _).2 ⟨rfl, h⟩⟩
  have three : ∀ l : List Cell, (∀ w, w ∈ l ↔ w ∈ c.cells ∧ view true du dof w = some w) → 3 ≤ l.length := by
    intro l hl
    have : [x, y, z].Subperm l := List.subperm_of_subset (by simp [hxy, hxz, hyz]) (by
      intro w hw'
      simp only [List.mem_cons, List.not_mem_nil, or_false] at hw'
      rcases hw' with rfl | rfl | rfl
      exacts [(hl _).2 ⟨hx, vx⟩, (hl _).2 ⟨hy, vy⟩, (hl _).2 ⟨hz, vz⟩])
    exact this.length_le
  have hr3 := three _ hr1
  have hc3 := three _ hc1
  obtain ⟨i, hi, ei⟩ := List.getElem_of_mem ((hr1 x).2 ⟨hx, vx⟩)
  obtain ⟨j, hj, ej⟩ := List.getElem_of_mem ((hc1 y).2 ⟨hy, vy⟩)
  have h0 : h'.v ⟨i, hi⟩ ⟨j, hj⟩ = 0 := by
    rw [ht'.counts]
    refine List.count_eq_zero.2 fun hm => hxy ?_
    have hm' : (some x, some y) ∈ recordsD du dof c d := by
      rw [← ei, ← ej]; exact hm
    exact ((hmem _ _).1 hm').1
  obtain ⟨chi2, e1, e2⟩ := pearson_pos_of_empty (a := h'.values) (table_data ht') (show 2 ≤ h'.rows.length by omega)
    (fun hh => by have : h'.rows.length = 2 := hh.1; omega) (i := ⟨i, hi⟩) (j := ⟨j, hj⟩)
    (show ((h'.v ⟨i, hi⟩ ⟨j, hj⟩ : ℕ) : ℝ) = 0 by rw [h0]; exact Nat.cast_zero)
  refine sig_unused R hw (show DColumn.WF d from hw) (.inl (by rw [hL]; simp)) ht ht' (by omega) (by omega)
    (by rw [hl]; exact e1) e2 (.inl ⟨u, ?_, fun w hm => hu' ((hmem _ _).1 hm).2.1⟩)
  have := ht.rows
  unfold IsAxis at this
  rw [hL] at this
  simp only at this
  rw [this]
  exact List.mem_filter.2 ⟨hu, by rw [vu]; rfl⟩

/-! ### the hypotheses can be met -/

example (R : SimRun F) (hl : R.lambda = "pearson") :
    ∃ s s', IsSigD trueSig R "asymptotic" true true catColumn { catColumn with name := "y" } (some s) ∧
      IsSigD trueSig R "asymptotic" true true (plain catColumn) (plain { catColumn with name := "y" }) (some s') ∧ s < s' :=
  sig_copy_unused R hl catColumn_wf rfl (x := .str "p") (y := .str "q") (z := .str "r") (u := .str "s")
    (by simp [catColumn]) (by simp [catColumn]) (by simp [catColumn]) (by simp) (by simp) (by simp) (by simp [view])
    (by simp [view]) (by simp [view]) (by simp) (by simp [catColumn]) (by simp [view]) "y"

/-- The significance matrix of a categorical column, its copy and a plain column, with the asymptotic method. -/
example (R : ℕ → SimRun F) (hl : ∀ k, (R k).lambda = "pearson") : ∃ t,
    sigFromRebinnedD trueSig R [catColumn, { catColumn with name := "y" }, plainColumn] "asymptotic" true true = .ok t ∧
      IsSigMatrixD trueSig R "asymptotic" true true [catColumn, { catColumn with name := "y" }, plainColumn] t := by
  refine sig_matrix_asymptotic R hl (by decide) ?_ true true ?_
  · intro c hc
    simp only [List.mem_cons, List.not_mem_nil, or_false] at hc
    rcases hc with rfl | rfl | rfl
    exacts [catColumn_wf, catColumn_wf, plainColumn_wf]
  · intro a ha b hb _
    left
    simp only [List.mem_cons, List.not_mem_nil, or_false] at ha hb
    rcases ha with rfl | rfl | rfl <;> rcases hb with rfl | rfl | rfl
    exacts [⟨.str "q", .str "q", by decide⟩, ⟨.str "q", .str "q", by decide⟩, ⟨.str "q", .num 1, by decide⟩,
      ⟨.str "q", .str "q", by decide⟩, ⟨.str "q", .str "q", by decide⟩, ⟨.str "q", .num 1, by decide⟩,
      ⟨.num 1, .str "q", by decide⟩, ⟨.num 1, .str "q", by decide⟩, ⟨.num 1, .num 1, by decide⟩]

end Props

end Phik
