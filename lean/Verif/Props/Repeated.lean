import Verif.Props.PhikShape
import Verif.Props.Locality
import Verif.Props.GaussianMono
import Verif.Lemmas.RecordOrder

/-! # Property C70 for the records of a frame -/

namespace Phik

open Spec

section
variable {α β : Type}

theorem rep_succ (k : ℕ) (l : List α) : rep (k + 1) l = l ++ rep k l := by simp [rep, List.replicate_succ]

theorem rep_map (k : ℕ) (l : List α) (f : α → β) : (rep k l).map f = rep k (l.map f) := by
  induction k with
  | zero => rfl
  | succ k ih => rw [rep_succ, rep_succ, List.map_append, ih]

theorem rep_filterMap (k : ℕ) (l : List α) (f : α → Option β) : (rep k l).filterMap f = rep k (l.filterMap f) := by
  induction k with
  | zero => rfl
  | succ k ih => rw [rep_succ, rep_succ, List.filterMap_append, ih]

theorem rep_zip (k : ℕ) {a : List α} {b : List β} (h : a.length = b.length) : (rep k a).zip (rep k b) = rep k (a.zip b) := by
  induction k with
  | zero => rfl
  | succ k ih => rw [rep_succ, rep_succ, rep_succ, List.zip_append h, ih]

theorem rep_count [BEq α] (k : ℕ) (l : List α) (x : α) : (rep k l).count x = k * l.count x := by
  induction k with
  | zero => simp [rep]
  | succ k ih => rw [rep_succ, List.count_append, ih]; ring

theorem mem_rep {k : ℕ} (hk : 0 < k) {l : List α} {x : α} : x ∈ rep k l ↔ x ∈ l := by
  obtain ⟨m, rfl⟩ : ∃ m, k = m + 1 := ⟨k - 1, by omega⟩
  clear hk
  induction m with
  | zero => simp [rep]
  | succ m ih => rw [rep_succ, List.mem_append, ih, or_self]

theorem rep_length (k : ℕ) (l : List α) : (rep k l).length = k * l.length := by simp [rep]

end

theorem rep_min {k : ℕ} (hk : 0 < k) (l : List ℚ) : (rep k l).min? = l.min? := by
  cases e : l.min? with
  | none =>
    rw [List.min?_eq_none_iff] at e ⊢
    subst e; simp [rep]
  | some a =>
    rw [List.min?_eq_some_iff] at e ⊢
    simpa only [mem_rep hk] using e

theorem rep_max {k : ℕ} (hk : 0 < k) (l : List ℚ) : (rep k l).max? = l.max? := by
  cases e : l.max? with
  | none =>
    rw [List.max?_eq_none_iff] at e ⊢
    subst e; simp [rep]
  | some a =>
    rw [List.max?_eq_some_iff] at e ⊢
    simpa only [mem_rep hk] using e

theorem rep_distinct {k : ℕ} (hk : 0 < k) (c : Column) : distinct { c with cells := rep k c.cells } = distinct c := by
  unfold distinct
  simp only [mem_rep hk]

theorem rep_kept {k : ℕ} (hk : 0 < k) (ic : List String) (dropna : Bool) (c : Column) :
    Kept ic dropna { c with cells := rep k c.cells } ↔ Kept ic dropna c := by
  unfold Kept
  rw [rep_distinct hk]

theorem rep_floats {pf : String → Option (Option ℚ)} {k : ℕ} (hk : 0 < k) {l : List Cell} {arr : List (Option ℚ)}
    (h : l.mapM (toFloat pf) = .ok arr) : (rep k l).mapM (toFloat pf) = .ok (rep k arr) := by
  rw [mapM_toFloat_eq] at h
  rw [mapM_toFloat_eq]
  split at h
  · next hc =>
    rw [if_pos fun c hc' => hc c ((mem_rep hk).1 hc')]
    simp only [Except.ok.injEq] at h
    rw [rep_map, h]
  · simp at h

theorem BinnedAs.rep {fl : ℚ → ℚ} {pf : String → Option (Option ℚ)} {bins : Bins} {p : Prop} {c c' : Column}
    (h : BinnedAs fl pf bins false p c c') {k : ℕ} (hk : 0 < k) :
    BinnedAs fl pf bins false p { c with cells := Spec.rep k c.cells } { c' with cells := Spec.rep k c'.cells } := by
  refine ⟨h.1, fun hp => congrArg (Spec.rep k) (h.2.1 hp), fun hp => ?_⟩
  obtain ⟨arr, e, s, h1, h2, h3, h4⟩ := h.2.2 hp
  refine ⟨Spec.rep k arr, e, s, rep_floats hk h1, h2, ?_, ?_⟩
  · cases h3 with
    | edges => exact .edges _
    | num q l hb =>
      refine .num _ _ ?_
      unfold binEdges at hb ⊢
      rw [rep_filterMap, rep_min hk, rep_max hk]
      exact hb
  · simp only [h4, binArray_fst, rep_map]

theorem rep_table {recs : List (Option Cell × Option Cell)} {h : Hist} (ht : IsTable recs h) {k : ℕ} (hk : 0 < k) :
    IsTable (rep k recs) ⟨h.rows, h.cols, fun i j => k * h.v i j⟩ :=
  ⟨ht.rows_sorted, ht.cols_sorted, fun a => by simp only [mem_rep hk]; exact ht.rows_mem a,
    fun a => by simp only [mem_rep hk]; exact ht.cols_mem a, fun i j => by rw [rep_count]; exact congrArg (k * ·) (ht.counts i j)⟩

/-- The contingency table of the records has two rows and two columns. -/
def Binary (recs : List (Option Cell × Option Cell)) : Prop := ∃ h, IsTable recs h ∧ h.rows.length = 2 ∧ h.cols.length = 2

theorem data_shape {a : Arr2 ℝ} (h : DataTable a) : nRows a = a.r ∧ nCols a = a.c :=
  ⟨by unfold nRows; rw [Nat.card_congr (Equiv.subtypeUnivEquiv h.rows), Nat.card_fin],
    by unfold nCols; rw [Nat.card_congr (Equiv.subtypeUnivEquiv h.cols), Nat.card_fin]⟩

theorem rep_isPhik {nm : Numerics} (hm : MvnSpec nm.mvn) (hb : ScaleFree nm.brentq) {recs : List (Option Cell × Option Cell)}
    (hnb : ¬ Binary recs) {v : Option ℝ} (h : IsPhik nm false recs v) {k : ℕ} (hk : 0 < k) : IsPhik nm false (rep k recs) v := by
  obtain ⟨t, ht, h⟩ := h
  refine ⟨_, rep_table ht hk, ?_⟩
  rcases h with h | ⟨h1, h2, x, hx, rfl⟩
  · exact .inl h
  · refine .inr ⟨h1, h2, x, ?_, rfl⟩
    rw [← hx]
    have hk' : (0 : ℝ) < k := by exact_mod_cast hk
    have hd := table_data ht
    have hs := data_shape hd
    have key := Props.phik_repeated hm hb (Props.data_isCount hd h1) (fun hh => hnb ⟨t, ht, hs.1.symm.trans hh.1, hs.2.symm.trans hh.2⟩) hk'
    rw [← key]
    congr 1
    unfold repeated Hist.values Hist.arr Arr2.map
    simp

theorem rep_records (dropna du dof : Bool) {a b : Column} (h : a.cells.length = b.cells.length) (k : ℕ) :
    records dropna du dof { a with cells := rep k a.cells } { b with cells := rep k b.cells } = rep k (records dropna du dof a b) := by
  unfold records
  rw [rep_zip k h, rep_map]

namespace Props

theorem repeatedFrame_names (k : ℕ) (f : Frame) : (repeatedFrame k f).names = f.names := by
  unfold Frame.names repeatedFrame
  rw [List.map_map]; rfl

theorem repeatedFrame_guess (k : ℕ) (f : Frame) : guessIntervalCols (repeatedFrame k f) = guessIntervalCols f := by
  unfold guessIntervalCols repeatedFrame
  rw [List.filter_map, List.map_map]; rfl

open scoped Classical in
/-- **C70 for `phik_matrix`.** The phik matrix without noise correction does not change when every record of the frame is repeated `k`
times (bins given as a number of equal bins or as edges): the same columns are listed, and two columns whose table is not two by two have
the same phik. -/
theorem phik_matrix_repeated {nm : Numerics} (hg : GoodNumerics nm) (hb : ScaleFree nm.brentq) (fl : ℚ → ℚ)
    (pf : String → Option (Option ℚ)) (bins : Bins) (dropna du dof : Bool) {k : ℕ} (hk : 0 < k)
    {r s : Ref} {w w' x x' : World} {f : Frame} (hf : w.heap[r]? = some f) (hgr : x.heap[s]? = some (repeatedFrame k f))
    (hrect : ∀ c ∈ f.cols, c.cells.length = f.nrows) (hnf : f.names.Nodup) {ic : Option (List String)} {sf sg : Option (List ℕ)}
    (hsf : ValidSched (cwr ((f.cols.filter
      (fun c => decide (Kept (ic.getD (guessIntervalCols f)) dropna c))).map (·.name))).length sf)
    (hsg : ValidSched (cwr ((f.cols.filter
      (fun c => decide (Kept (ic.getD (guessIntervalCols f)) dropna c))).map (·.name))).length sg)
    (hbf : ∀ c ∈ f.cols, c.name ∈ ic.getD (guessIntervalCols f) → ∃ e, EntryFor bins c.name e ∧ e ≠ .other)
    {t u : LTable} (ht : (phikMatrix nm sf fl pf r ic bins false false dropna du dof).exec w = (.ok t, w'))
    (hu : (phikMatrix nm sg fl pf s ic bins false false dropna du dof).exec x = (.ok u, x')) :
    u.rows = t.rows ∧ u.cols = t.cols ∧
    ∀ a ∈ f.cols, ∀ b ∈ f.cols, a.name ∈ t.rows → b.name ∈ t.rows →
      (∀ a' b', BinnedAs fl pf bins false (a.name ∈ ic.getD (guessIntervalCols f)) a a' →
        BinnedAs fl pf bins false (b.name ∈ ic.getD (guessIntervalCols f)) b b' → ¬ Binary (records dropna du dof a' b')) →
      u.v a.name b.name = t.v a.name b.name := by
  have hgu := repeatedFrame_guess k f
  have hng : (repeatedFrame k f).names.Nodup := by rw [repeatedFrame_names]; exact hnf
  have hkept : ((repeatedFrame k f).cols.filter
      (fun c => decide (Kept (ic.getD (guessIntervalCols (repeatedFrame k f))) dropna c))).map (·.name) =
      (f.cols.filter (fun c => decide (Kept (ic.getD (guessIntervalCols f)) dropna c))).map (·.name) := by
    rw [hgu]
    unfold repeatedFrame
    rw [List.filter_map, List.map_map]
    have : ((fun c => decide (Kept (ic.getD (guessIntervalCols f)) dropna c)) ∘ fun c : Column => { c with cells := rep k c.cells }) =
        fun c => decide (Kept (ic.getD (guessIntervalCols f)) dropna c) := by
      funext c; simp only [Function.comp, rep_kept hk]
    rw [this]; rfl
  have hsg' : ValidSched (cwr (((repeatedFrame k f).cols.filter
      (fun c => decide (Kept (ic.getD (guessIntervalCols (repeatedFrame k f))) dropna c))).map (·.name))).length sg := by rwa [hkept]
  have hbg : ∀ c ∈ (repeatedFrame k f).cols, c.name ∈ ic.getD (guessIntervalCols (repeatedFrame k f)) →
      ∃ e, EntryFor bins c.name e ∧ e ≠ .other := by
    intro c hc hi
    rw [hgu] at hi
    obtain ⟨d, hd, rfl⟩ := List.mem_map.1 hc
    exact hbf d hd hi
  obtain ⟨_, _, _, -, -, -, h4⟩ := phik_matrix_result hg fl pf hf hnf ic bins false false dropna du dof hsf
  obtain ⟨_, _, _, -, -, -, k4⟩ := phik_matrix_result hg fl pf hgr hng ic bins false false dropna du dof hsg'
  rw [ht] at h4
  rw [hu] at k4
  obtain ⟨_, _, _, _, -, -, h5, h6, -⟩ := h4
  obtain ⟨_, _, _, _, -, -, k5, k6, -⟩ := k4
  have hrows : u.rows = t.rows := by rw [k6, hkept, h6]
  have hcols : u.cols = t.cols := by rw [k5.cols, h5.cols, ← k5.rows, ← h5.rows, hrows]
  refine ⟨hrows, hcols, fun a ha b hb' h1 h2 hnb => ?_⟩
  by_cases hab : a.name = b.name
  · rw [← hab, h5.diag a.name (by rw [← h5.rows]; exact h1), k5.diag a.name (by rw [← k5.rows, hrows]; exact h1)]
  have hka : Kept (ic.getD (guessIntervalCols f)) dropna a := by rwa [h6, mem_kept hnf ha] at h1
  have hkb : Kept (ic.getD (guessIntervalCols f)) dropna b := by rwa [h6, mem_kept hnf hb'] at h2
  obtain ⟨a1, b1, p1, p2, p3⟩ := phik_entry hg hf hnf hsf hbf ht ha hb' hka hkb hab
  obtain ⟨a2, b2, q1, q2, q3⟩ := phik_entry hg hgr hng hsg' hbg hu (List.mem_map_of_mem ha) (List.mem_map_of_mem hb')
    (by rw [hgu]; exact (rep_kept hk _ _ _).2 hka) (by rw [hgu]; exact (rep_kept hk _ _ _).2 hkb) hab
  rw [hgu] at q1 q2
  have hlen : ∀ {c c' : Column}, c ∈ f.cols → BinnedAs fl pf bins false (c.name ∈ ic.getD (guessIntervalCols f)) c c' →
      c'.cells.length = f.nrows := by
    intro c c' hc hB
    by_cases hp : c.name ∈ ic.getD (guessIntervalCols f)
    · obtain ⟨arr, e, s', g1, -, -, g4⟩ := hB.2.2 hp
      rw [g4, binArray_fst, List.length_map, ← hrect c hc]
      rw [mapM_toFloat_eq] at g1
      split at g1
      · simp only [Except.ok.injEq] at g1; rw [← g1, List.length_map]
      · simp at g1
    · rw [hB.2.1 hp, hrect c hc]
  have hl : a1.cells.length = b1.cells.length := (hlen ha p1).trans (hlen hb' p2).symm
  have := rep_isPhik hg.mvn hb (hnb _ _ p1 p2) p3 hk
  rw [← rep_records dropna du dof hl k] at this
  rw [records_congr dropna du dof ((p1.rep hk).unique q1 Iff.rfl) ((p2.rep hk).unique q2 Iff.rfl)] at this
  exact (isPhik_unique this q3).symm

/-- The hypotheses are met: two text columns, the second with three categories, each record written twice, the ideal Gaussian numerics. -/
def exR : Frame := ⟨3, [⟨"a", false, [.str "x", .str "y", .str "y"]⟩, ⟨"b", false, [.str "p", .str "q", .str "r"]⟩]⟩

example (fl : ℚ → ℚ) (pf : String → Option (Option ℚ)) :
    ∃ t u : LTable, ∃ w' x',
      (phikMatrix ⟨gaussMvn, idealBrentq⟩ none fl pf 0 (some []) (.one (.num 2)) false false true false false).exec ⟨[exR], []⟩ =
        (.ok t, w') ∧
      (phikMatrix ⟨gaussMvn, idealBrentq⟩ none fl pf 0 (some []) (.one (.num 2)) false false true false false).exec
        ⟨[repeatedFrame 2 exR], []⟩ = (.ok u, x') ∧
      u.rows = t.rows ∧ ("a" ∈ t.rows → "b" ∈ t.rows → u.v "a" "b" = t.v "a" "b") := by
  have hg : GoodNumerics ⟨gaussMvn, idealBrentq⟩ := Gauss.gaussian_numerics
  have hs : ∀ n, ValidSched n none := fun n o h => by cases h
  obtain ⟨t, w', ht⟩ := phik_matrix_returns hg fl pf (r := 0) (w := ⟨[exR], []⟩) (data := exR) rfl (by decide) (some [])
    (.one (.num 2)) false false true false false (hs _) (by
      intro c hc hn s; simp at hn) (by simp)
  obtain ⟨u, x', hu⟩ := phik_matrix_returns hg fl pf (r := 0) (w := ⟨[repeatedFrame 2 exR], []⟩) (data := repeatedFrame 2 exR) rfl
    (by decide) (some []) (.one (.num 2)) false false true false false (hs _) (by
      intro c hc hn s; simp at hn) (by simp)
  have hb : ∀ c : Column, ∃ e, EntryFor (.one (.num 2)) c.name e ∧ e ≠ .other := fun c => ⟨_, .one _ _, by simp⟩
  obtain ⟨h1, -, h3⟩ := phik_matrix_repeated hg idealBrentq_scaleFree fl pf (.one (.num 2)) true false false (k := 2) (by norm_num)
    (r := 0) (s := 0) (w := ⟨[exR], []⟩) (x := ⟨[repeatedFrame 2 exR], []⟩) (f := exR) rfl rfl (by simp [exR]) (by decide)
    (ic := some []) (hs _) (hs _) (fun c _ _ => hb c) ht hu
  refine ⟨t, u, w', x', ht, hu, h1, fun ha hb' => h3 ⟨"a", false, [.str "x", .str "y", .str "y"]⟩ (by simp [exR])
    ⟨"b", false, [.str "p", .str "q", .str "r"]⟩ (by simp [exR]) ha hb' ?_⟩
  rintro a' b' p1 p2 ⟨h, hT, -, hc⟩
  have e1 := p1.2.1 (by simp)
  have e2 := p2.2.1 (by simp)
  have hsub : [Cell.str "p", Cell.str "q", Cell.str "r"] ⊆ h.cols := by
    intro z hz
    rw [hT.cols_mem]
    simp only [List.mem_cons, List.not_mem_nil, or_false] at hz
    rcases hz with rfl | rfl | rfl
    · exact ⟨.str "x", by simp [records, e1, e2, view]⟩
    · exact ⟨.str "y", by simp [records, e1, e2, view]⟩
    · exact ⟨.str "y", by simp [records, e1, e2, view]⟩
  have := (List.subperm_of_subset (by decide) hsub).length_le
  simp at this
  omega

end Props

end Phik
