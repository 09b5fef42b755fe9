import Verif.Props.Matrix

/-! # Properties C11, C14: `phik_matrix` and `global_phik_array` on data frames -/

namespace Phik

open Spec Props

/-- What `phik_matrix` does, up to the call of `phik_from_rebinned_df`. -/
theorem phikMatrix_exec (nm : Numerics) (sched : Option (List ℕ)) (fl : ℚ → ℚ)
    (pf : String → Option (Option ℚ)) {r : Ref} {w : World} {data : Frame} (hr : w.heap[r]? = some data)
    (hn : data.names.Nodup) (ic : Option (List String)) (bins : Bins) (quantile noise dropna du dof : Bool) :
    ∃ icc w1 clean, (dqCheck r (ic.getD (guessIntervalCols data)) dropna).exec w =
        (.ok (w.heap.length, icc), w1) ∧ w1.heap = w.heap ++ [clean] ∧
      (phikMatrix nm sched fl pf r ic bins quantile noise dropna du dof).exec w =
        match binDataCore fl pf clean icc bins quantile with
        | .error e => (.error e, { w1 with heap := w1.heap ++ [clean] })
        | .ok (out, _) => (phikOfFrame nm sched (applyFlags dropna du dof out) noise,
            { w1 with heap := w1.heap ++ [applyFlags dropna du dof out] }) := by
  obtain ⟨icc, w1, clean, ws, h1, h2, -⟩ := dq_check hr hn (ic.getD (guessIntervalCols data)) dropna
  refine ⟨icc, w1, clean, h1, h2, ?_⟩
  unfold phikMatrix
  rw [M.exec_bind, M.exec_read_of hr]
  simp only [M.exec_bind, h1]
  rw [binData_exec fl pf (data := clean) (by rw [h2]; simp)]
  cases binDataCore fl pf clean icc bins quantile with
  | error e => rfl
  | ok v =>
    obtain ⟨out, dict⟩ := v
    simp only
    unfold phikFromRebinned
    rw [M.exec_bind, M.exec_read_of (f := out) (by simp)]
    simp only [M.exec_bind, M.exec_write, M.exec_ofExcept]
    simp

theorem linspace_ok (fl : ℚ → ℚ) (a b : ℚ) {n : ℤ} (h : 0 ≤ n) :
    ∃ l, linspace fl a b n = .ok l ∧ l.length = n.toNat := by
  unfold linspace
  rw [if_neg (by omega)]
  exact ⟨_, rfl, by simp⟩

theorem binEdges_ok (fl : ℚ → ℚ) {arr : List ℚ} (h : arr ≠ []) {n : ℤ} (hn : 0 ≤ n) (quantile : Bool) :
    ∃ l, binEdges fl arr n quantile = .ok l := by
  unfold binEdges
  cases quantile with
  | true =>
    obtain ⟨l, hl, hlen⟩ := linspace_ok fl 0 1 (n := n + 1) (by omega)
    have hs : arr.mergeSort.isEmpty = false := by
      rw [List.isEmpty_eq_false_iff]
      intro e
      apply h
      have := congrArg List.length e
      simpa using this
    simp only [if_true, hl, bind, Except.bind, hs, Bool.false_eq_true, if_false, pure, Except.pure]
    cases l with
    | nil => simp at hlen; omega
    | cons x xs => exact ⟨_, rfl⟩
  | false =>
    simp only [Bool.false_eq_true, if_false]
    obtain ⟨a, ha⟩ : ∃ a, arr.min? = some a := by
      cases hm : arr.min? with
      | none => exact absurd (List.min?_eq_none_iff.1 hm) h
      | some a => exact ⟨a, rfl⟩
    obtain ⟨b, hb⟩ : ∃ a, arr.max? = some a := by
      cases hm : arr.max? with
      | none => exact absurd (List.max?_eq_none_iff.1 hm) h
      | some a => exact ⟨a, rfl⟩
    rw [ha, hb]
    obtain ⟨l, hl, -⟩ := linspace_ok fl (fl (a - fl (1 / 10 ^ 14))) b (n := n + 1) (by omega)
    exact ⟨l, hl⟩

/-- An entry of `bins` that can be used: edges, or a number of bins that is not negative. -/
def GoodEntry (s : BinSpec) : Prop := (∃ l, s = .edges l) ∨ ∃ q, s = .num q ∧ 0 ≤ q

theorem truncQ_nonneg {q : ℚ} (h : 0 ≤ q) : 0 ≤ truncQ q := by
  unfold truncQ
  split
  · exact Int.floor_nonneg.2 h
  · next h' => exact absurd h (by simpa using h')

theorem binLoop_ok (fl : ℚ → ℚ) (pf : String → Option (Option ℚ)) (data : Frame) (bins : Bins)
    (quantile : Bool) (cols : List String)
    (h : ∀ name ∈ cols, GoodEntry (bins.entry name) ∧
      ∃ arr, colFloats pf data name = .ok arr ∧ arr.filterMap id ≠ [])
    (xbins : Option (List ℚ)) (out : Frame) (dict : List (String × List (ℚ × ℚ))) :
    ∃ v, binLoop fl pf data bins quantile cols xbins out dict = .ok v := by
  induction cols generalizing xbins out dict with
  | nil => exact ⟨_, rfl⟩
  | cons name rest ih =>
    obtain ⟨hs, arr, harr, hne⟩ := h name List.mem_cons_self
    have hsel : ∃ e, selectEdges fl pf data bins quantile name xbins = .ok (some e) := by
      unfold selectEdges
      rcases hs with ⟨l, hl⟩ | ⟨q, hq, h0⟩
      · rw [hl]; exact ⟨l, rfl⟩
      · rw [hq]
        obtain ⟨e, he⟩ := binEdges_ok fl hne (truncQ_nonneg h0) quantile
        simp only [harr, bind, Except.bind, he, pure, Except.pure]
        exact ⟨e, rfl⟩
    obtain ⟨e, he⟩ := hsel
    unfold binLoop
    simp only [he, harr, bind, Except.bind]
    exact ih (fun n hn => h n (List.mem_cons_of_mem _ hn)) _ _ _

theorem mapM_toFloat (pf : String → Option (Option ℚ)) {l : List Cell} (h : ∀ s, Cell.str s ∉ l) :
    ∃ arr, l.mapM (toFloat pf) = .ok arr ∧ ((∃ c ∈ l, c ≠ .nan) → arr.filterMap id ≠ []) := by
  induction l with
  | nil => exact ⟨[], rfl, by simp⟩
  | cons c l ih =>
    obtain ⟨arr, h1, h2⟩ := ih (fun s hs => h s (List.mem_cons_of_mem _ hs))
    cases c with
    | nan =>
      refine ⟨none :: arr, by simp [List.mapM_cons, toFloat, h1, bind, Except.bind, pure, Except.pure], ?_⟩
      rintro ⟨c, hc, hcn⟩
      rcases List.mem_cons.1 hc with rfl | hc
      · exact absurd rfl hcn
      · simpa using h2 ⟨c, hc, hcn⟩
    | num q =>
      exact ⟨some q :: arr, by simp [List.mapM_cons, toFloat, h1, bind, Except.bind, pure, Except.pure],
        by simp⟩
    | str s => exact absurd List.mem_cons_self (h s)

namespace Props

open scoped Classical in
/-- **C14 for `phik_matrix`.** When `phik_matrix` returns, the quality check kept the columns that satisfy
`Kept`, `bin_data` of these columns returned a frame with the same column names (described by
`bin_data_columns`), and the result is the phik matrix of that frame: its labels are the kept columns in the order of
the input.  When it raises, it is the exception of `bin_data`. -/
theorem phik_matrix_result {nm : Numerics} (hg : GoodNumerics nm) {sched : Option (List ℕ)}
    (fl : ℚ → ℚ) (pf : String → Option (Option ℚ)) {r : Ref} {w : World} {data : Frame}
    (hr : w.heap[r]? = some data) (hn : data.names.Nodup) (ic : Option (List String)) (bins : Bins)
    (quantile noise dropna du dof : Bool)
    (hs : ValidSched (cwr ((data.cols.filter
      (fun c => decide (Kept (ic.getD (guessIntervalCols data)) dropna c))).map (·.name))).length sched) :
    ∃ icc w1 clean, (dqCheck r (ic.getD (guessIntervalCols data)) dropna).exec w =
        (.ok (w.heap.length, icc), w1) ∧ w1.heap[w.heap.length]? = some clean ∧
      clean.cols = data.cols.filter (fun c => decide (Kept (ic.getD (guessIntervalCols data)) dropna c)) ∧
      match (phikMatrix nm sched fl pf r ic bins quantile noise dropna du dof).exec w with
      | (.ok t, w') => ∃ r2 dict w2 binned,
          (binData fl pf w.heap.length icc bins quantile).exec w1 = (.ok (r2, dict), w2) ∧
          w2.heap[r2]? = some binned ∧ IsPhikMatrix nm noise dropna du dof binned t ∧
          t.rows = (data.cols.filter
            (fun c => decide (Kept (ic.getD (guessIntervalCols data)) dropna c))).map (·.name) ∧
          w'.warns = w1.warns
      | (.error e, w') =>
          ((binData fl pf w.heap.length icc bins quantile).exec w1).1 = .error e ∧ w'.warns = w1.warns := by
  obtain ⟨icc, w1, clean, h1, h2, h3⟩ := phikMatrix_exec nm sched fl pf hr hn ic bins quantile noise dropna
    du dof
  obtain ⟨icc', w1', clean', ws, g1, g2, -, g4, -⟩ := dq_check hr hn (ic.getD (guessIntervalCols data)) dropna
  rw [h1] at g1
  cases g1
  rw [h2] at g2
  obtain rfl : clean = clean' := by simpa using g2
  have hclean : w1.heap[w.heap.length]? = some clean := by rw [h2]; simp
  refine ⟨icc, w1, clean, h1, hclean, g4, ?_⟩
  rw [h3, binData_exec fl pf hclean]
  cases hc : binDataCore fl pf clean icc bins quantile with
  | error e => exact ⟨rfl, rfl⟩
  | ok v =>
    obtain ⟨out, dict⟩ := v
    have hnames : out.names = clean.names := (binDataCore_names hc).1
    have hsub : clean.names.Sublist data.names := by
      unfold Frame.names; rw [g4]; exact List.filter_sublist.map _
    have hn' : out.names.Nodup := by rw [hnames]; exact hn.sublist hsub
    have hs' : ValidSched (cwr out.names).length sched := by
      rw [hnames]; unfold Frame.names; rw [g4]; exact hs
    obtain ⟨t, ht⟩ := phikOfFrame_total hg hn' hs' noise dropna du dof
    simp only [ht]
    have hspec := phikOfFrame_spec hn' hs' ht
    refine ⟨_, dict, _, out, rfl, by simp, hspec, ?_, trivial⟩
    rw [hspec.rows, hnames]
    unfold Frame.names
    rw [g4]

open scoped Classical in
/-- The columns that pass the quality check can be binned. -/
theorem prepared_bins (fl : ℚ → ℚ) (pf : String → Option (Option ℚ)) {r : Ref} {w w1 : World} {data clean : Frame}
    (hr : w.heap[r]? = some data) (hn : data.names.Nodup) (ic icc : List String) (bins : Bins) (quantile dropna : Bool)
    (h1 : (dqCheck r ic dropna).exec w = (.ok (w.heap.length, icc), w1)) (h2 : w1.heap[w.heap.length]? = some clean)
    (hnum : ∀ c ∈ data.cols, c.name ∈ ic → ∀ s, Cell.str s ∉ c.cells)
    (hbins : ∀ n ∈ ic, ∃ s, EntryFor bins n s ∧ GoodEntry s) :
    clean.cols = data.cols.filter (fun c => decide (Kept ic dropna c)) ∧ ∃ v, binDataCore fl pf clean icc bins quantile = .ok v := by
  obtain ⟨icc', w1', clean', ws, g1, g2, -, g4, g5, -⟩ :=
    dq_check hr hn ic dropna
  rw [h1] at g1
  cases g1
  replace g2 : w1.heap[w.heap.length]? = some clean' := by rw [g2]; simp
  rw [h2] at g2
  obtain rfl : clean = clean' := by simpa using g2
  have hsub : clean.names.Sublist data.names := by
    unfold Frame.names; rw [g4]; exact List.filter_sublist.map _
  have hnc : clean.names.Nodup := hn.sublist hsub
  have hcol : ∀ n ∈ icc, GoodEntry (bins.entry n) ∧
      ∃ arr, colFloats pf clean n = .ok arr ∧ arr.filterMap id ≠ [] := by
    intro n hnic
    rw [g5, List.mem_filter] at hnic
    obtain ⟨hic, hin⟩ := hnic
    obtain ⟨s, hs1, hs2⟩ := hbins n hic
    refine ⟨by rw [entry_of hs1]; exact hs2, ?_⟩
    obtain ⟨c, hc, rfl⟩ := List.mem_map.1 (by simpa using hin : n ∈ clean.names)
    have hc' := hc
    rw [g4, List.mem_filter] at hc'
    obtain ⟨hcd, hk⟩ := hc'
    have hk : Kept ic dropna c := by simpa using hk
    obtain ⟨arr, ha1, ha2⟩ := mapM_toFloat pf (hnum c hcd hic)
    refine ⟨arr, ?_, ha2 ?_⟩
    · unfold colFloats
      rw [getCol_of_mem hnc hc]
      exact ha1
    · unfold Kept at hk
      rw [if_pos (.inl hic)] at hk
      by_contra hall
      push Not at hall
      have : distinct c = 0 := by
        unfold distinct
        have : {x | x ∈ c.cells ∧ x ≠ Cell.nan} = ∅ := by
          ext x; simp only [Set.mem_ofPred_eq, Set.mem_empty_iff_false, iff_false, not_and, not_not]
          exact hall x
        rw [this]; simp
      omega
  have hcore : ∃ v, binDataCore fl pf clean icc bins quantile = .ok v := by
    unfold binDataCore
    have hd : dictCheck icc bins = .ok () := by
      cases hb : bins with
      | one s => rfl
      | dict d =>
        simp only [dictCheck]
        rw [if_pos]
        rw [List.all_eq_true]
        intro n hni
        rw [g5, List.mem_filter] at hni
        obtain ⟨s, hs1, -⟩ := hbins n hni.1
        rw [hb] at hs1
        cases hs1 with
        | dict _ _ _ h => rw [h]; rfl
    simp only [hd, bind, Except.bind]
    exact binLoop_ok fl pf clean bins quantile icc hcol _ _ _
  exact ⟨g4, hcore⟩

open scoped Classical in
/-- **C14 (totality).** `phik_matrix` returns for every frame with distinct column names whose interval
columns hold numbers and missing values only, when `bins` gives edges or a non-negative number of bins for
every interval column. -/
theorem phik_matrix_returns {nm : Numerics} (hg : GoodNumerics nm) {sched : Option (List ℕ)}
    (fl : ℚ → ℚ) (pf : String → Option (Option ℚ)) {r : Ref} {w : World} {data : Frame}
    (hr : w.heap[r]? = some data) (hn : data.names.Nodup) (ic : Option (List String)) (bins : Bins)
    (quantile noise dropna du dof : Bool)
    (hs : ValidSched (cwr ((data.cols.filter
      (fun c => decide (Kept (ic.getD (guessIntervalCols data)) dropna c))).map (·.name))).length sched)
    (hnum : ∀ c ∈ data.cols, c.name ∈ ic.getD (guessIntervalCols data) → ∀ s, Cell.str s ∉ c.cells)
    (hbins : ∀ n ∈ ic.getD (guessIntervalCols data), ∃ s, EntryFor bins n s ∧ GoodEntry s) :
    ∃ t w', (phikMatrix nm sched fl pf r ic bins quantile noise dropna du dof).exec w = (.ok t, w') := by
  obtain ⟨icc, w1, clean, h1, h2, h3⟩ := phikMatrix_exec nm sched fl pf hr hn ic bins quantile noise dropna
    du dof
  obtain ⟨g4, ⟨out, dict⟩, hc⟩ := prepared_bins fl pf hr hn _ icc bins quantile dropna h1 (by rw [h2]; exact List.getElem?_concat_length) hnum hbins
  have hnc : clean.names.Nodup := hn.sublist (by unfold Frame.names; rw [g4]; exact List.filter_sublist.map _)
  rw [h3, hc]
  have hnames : out.names = clean.names := (binDataCore_names hc).1
  obtain ⟨t, ht⟩ := phikOfFrame_total hg (by rw [hnames]; exact hnc)
    (by
      rw [hnames]; unfold Frame.names; rw [g4]; exact hs) noise dropna du dof
  simp only [ht]
  exact ⟨t, _, rfl⟩

/-- The hypotheses on the frame and the bins are met by a frame with a numeric and a text column and the
default `bins=10`. -/
example : exFrame.names.Nodup ∧
    (∀ c ∈ exFrame.cols, c.name ∈ guessIntervalCols exFrame → ∀ s, Cell.str s ∉ c.cells) ∧
    (∀ n ∈ guessIntervalCols exFrame, ∃ s, EntryFor (.one (.num 10)) n s ∧ GoodEntry s) := by
  refine ⟨by simp [exFrame, Frame.names], ?_, fun n _ => ⟨_, .one _ _, .inr ⟨10, rfl, by norm_num⟩⟩⟩
  simp [exFrame, guessIntervalCols]

end Props

/-! ### the caller's frames -/

namespace M

theorem Has.binData (fl : ℚ → ℚ) (pf : String → Option (Option ℚ)) {H : List Frame} (r : Ref)
    (cols : List String) (bins : Bins) (quantile : Bool) :
    Tr (Has H) (Phik.binData fl pf r cols bins quantile) (fun p w => Has H w ∧ H.length ≤ p.1) (Has H) := by
  refine Tr.bind (Has.read r) fun data => Tr.bind (Has.alloc data) fun copy => ?_
  refine Tr.bind (Q := fun _ w => Has H w ∧ H.length ≤ copy) ?_ ?_
  · intro w hw
    have := Has.ofExcept (H := H) (binDataCore fl pf data cols bins quantile) w hw.1
    rw [exec_ofExcept] at this ⊢
    cases hb : binDataCore fl pf data cols bins quantile with
    | error e => exact hw.1
    | ok v => exact hw
  · rintro ⟨out, dict⟩
    refine Tr.of_and fun hc => Tr.bind (Has.write hc out) fun _ => Tr.pure fun w h => ⟨h, hc⟩

theorem Has.warnAll {H : List Frame} (l : List Warning) :
    Tr (Has H) (M.warnAll l) (fun _ w => Has H w) (Has H) := by
  intro w hw
  rw [exec_warnAll]
  exact hw

theorem Has.dqCheck {H : List Frame} (r : Ref) (ic : List String) (dropna : Bool) :
    Tr (Has H) (Phik.dqCheck r ic dropna) (fun p w => Has H w ∧ H.length ≤ p.1) (Has H) := by
  refine Tr.bind (Has.read r) fun df => Tr.bind (Has.warnAll _) fun _ => Tr.bind (Has.warnAll _) fun _ =>
    Tr.bind (Has.alloc df) fun copy => ?_
  refine Tr.of_and fun hc => ?_
  split
  · exact Tr.bind (Has.write hc _) fun _ => Tr.pure fun w h => ⟨h, hc⟩
  · exact Tr.pure fun w h => ⟨h, hc⟩

theorem Has.phikFromRebinned {H : List Frame} (nm : Numerics) (sched : Option (List ℕ)) {r : Ref}
    (hr : H.length ≤ r) (noise dropna du dof : Bool) :
    Tr (Has H) (Phik.phikFromRebinned nm sched r noise dropna du dof) (fun _ w => Has H w) (Has H) :=
  Tr.bind (Has.read r) fun _ => Tr.bind (Has.write hr _) fun _ => Has.ofExcept _

/-- The result as a statement about the final state. -/
theorem Tr.final {α : Type} {H : List Frame} {m : M α} {Q : α → World → Prop} (h : Tr (Has H) m Q (Has H))
    (hq : ∀ a w, Q a w → Has H w) {w : World} (hw : w.heap = H) : H <+: (m.exec w).2.heap := by
  have := h w (by rw [Has, hw])
  revert this
  rcases m.exec w with ⟨res, w'⟩
  cases res with
  | ok a => exact fun h => hq a w' h
  | error e => exact fun h => h

end M

namespace Props

open M in
theorem has_phik_matrix (nm : Numerics) (sched : Option (List ℕ)) (fl : ℚ → ℚ)
    (pf : String → Option (Option ℚ)) {H : List Frame} (r : Ref) (ic : Option (List String))
    (bins : Bins) (quantile noise dropna du dof : Bool) :
    Tr (Has H) (phikMatrix nm sched fl pf r ic bins quantile noise dropna du dof) (fun _ w => Has H w)
      (Has H) := by
  refine Tr.bind (Has.read r) fun df => Tr.bind (Has.dqCheck r _ dropna) ?_
  rintro ⟨clean, icc⟩
  refine Tr.of_and fun _ => Tr.bind (Has.binData fl pf clean icc bins quantile) ?_
  rintro ⟨binned, dict⟩
  exact Tr.of_and fun hc => Has.phikFromRebinned nm sched hc _ _ _ _

/-- **C11 for `phik_matrix`.** Whether it returns or raises, every frame that existed is unchanged. -/
theorem phik_matrix_keeps_frames (nm : Numerics) (sched : Option (List ℕ)) (fl : ℚ → ℚ)
    (pf : String → Option (Option ℚ)) (r : Ref) (w : World) (ic : Option (List String))
    (bins : Bins) (quantile noise dropna du dof : Bool) :
    w.heap <+: ((phikMatrix nm sched fl pf r ic bins quantile noise dropna du dof).exec w).2.heap :=
  (has_phik_matrix nm sched fl pf r ic bins quantile noise dropna du dof).final (fun _ _ h => h) rfl

open M in
/-- **C11 for `global_phik_array`.** -/
theorem global_phik_array_keeps_frames (nm : Numerics) (sched : Option (List ℕ)) (fl : ℚ → ℚ)
    (pf : String → Option (Option ℚ)) (r : Ref) (w : World) (ic : Option (List String))
    (bins : Bins) (quantile noise dropna du dof : Bool) :
    w.heap <+: ((globalPhikArray nm sched fl pf r ic bins quantile noise dropna du dof).exec w).2.heap := by
  refine Tr.final (Q := fun _ w' => Has w.heap w') ?_ (fun _ _ h => h) rfl
  refine Tr.bind (Has.read r) fun df => Tr.bind (Has.dqCheck r _ dropna) ?_
  rintro ⟨clean, icc⟩
  refine Tr.of_and fun _ => Tr.bind (Has.binData fl pf clean icc bins quantile) ?_
  rintro ⟨binned, dict⟩
  refine Tr.of_and fun hc => Tr.bind (Has.phikFromRebinned nm sched hc _ _ _ _) fun t => ?_
  exact Tr.bind (Has.ofExcept _) fun _ => Tr.pure fun _ h => h

end Props
end Phik
