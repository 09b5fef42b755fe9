import Verif.Lemmas.BinData

/-!
# Properties C06-C11: binning of frames, contingency tables
-/

namespace Phik.Props

open Spec

/-- **C06.** When `bin_data` returns, the new frame has the same number of rows and the same columns in
the same order; a column that is not listed is unchanged; a listed column is the input column, read as
numbers, binned with the edges its entry of `bins` asks for, and the returned labels are those of that
binning; the input frame is unchanged. -/
theorem bin_data_columns (fl : ℚ → ℚ) (pf : String → Option (Option ℚ)) {r : Ref} {w w' : World}
    {data : Frame} (hr : w.heap[r]? = some data) {cols : List String} {bins : Bins} {quantile : Bool}
    (hent : ∀ name ∈ cols, ∃ s, EntryFor bins name s ∧ s ≠ .other) {r' : Ref}
    {dict : List (String × List (ℚ × ℚ))}
    (h : (binData fl pf r cols bins quantile).exec w = (.ok (r', dict), w')) :
    w'.heap[r]? = some data ∧ r' ≠ r ∧
    ∃ out, w'.heap[r']? = some out ∧ out.nrows = data.nrows ∧ out.names = data.names ∧
      (∀ (i : ℕ) (c : Column), data.cols[i]? = some c → ∃ c' : Column, out.cols[i]? = some c' ∧
        (c.name ∉ cols → c' = c) ∧
        (c.name ∈ cols → c'.name = c.name ∧ c'.numeric = false ∧ ∃ arr e s,
          colFloats pf data c.name = .ok arr ∧ EntryFor bins c.name s ∧ Requested fl quantile arr s e ∧
          c'.cells = (binArray arr e).1 ∧ dict.lookup c.name = some (binArray arr e).2)) ∧
      (∀ name, name ∉ cols → dict.lookup name = none) := by
  rw [binData_exec fl pf hr] at h
  have hrl : r < w.heap.length := (List.getElem?_eq_some_iff.1 hr).1
  cases hc : binDataCore fl pf data cols bins quantile with
  | error e => rw [hc] at h; simp at h
  | ok v =>
    obtain ⟨out, dict'⟩ := v
    rw [hc] at h
    simp only [Prod.mk.injEq, Except.ok.injEq] at h
    obtain ⟨⟨rfl, rfl⟩, rfl⟩ := h
    obtain ⟨f, h1, h2, h3, h4⟩ := binDataCore_spec hent hc
    refine ⟨?_, Nat.ne_of_gt hrl, out, by simp, h2, ?_, ?_, ?_⟩
    · rw [← hr]; exact List.getElem?_append_left hrl
    · unfold Frame.names
      rw [h3, List.map_map]
      apply List.map_congr_left
      intro d _
      simp only [Function.comp]
      split <;> rfl
    · intro i c hi
      refine ⟨_, by rw [h3, List.getElem?_map, hi]; rfl, ?_, ?_⟩
      · intro hn; simp [hn]
      · intro hn
        obtain ⟨arr, e, s, g1, g2, g3, g4⟩ := h1 _ hn
        simp only [hn, if_true, true_and]
        exact ⟨arr, e, s, g1, g2, g3, by rw [g4], by rw [h4, if_pos hn, g4]⟩
    · intro name hn; rw [h4, if_neg hn]

/-- A frame used in the examples. -/
def exFrame : Frame := ⟨3, [⟨"a", true, [.num 1, .nan, .num 7]⟩, ⟨"b", false, [.str "x", .str "y", .nan]⟩]⟩

example : ((binData (fun x => x) (fun _ => none) 0 ["a"] (.one (.edges [0, 5])) false).exec
    ⟨[exFrame], []⟩).1 = .ok (1, [("a", [(0, 5)])]) := by
  rw [binData_exec _ _ (data := exFrame) rfl]
  have : colFloats (fun _ => none) exFrame "a" = .ok [some 1, none, some 7] := rfl
  have e : (binArray [some 1, none, some 7] [0, 5]).2 = [(0, 5)] := by
    simp [binArray, searchsorted, searchGo]
  simp [binDataCore, dictCheck, binLoop, selectEdges, Bins.entry, this, e, bind, Except.bind, pure,
    Except.pure]

/-- **C07 (missing dictionary entry).** A bins dictionary that lacks a requested column is a ValueError,
whatever the data; no frame that existed changes. -/
theorem bin_data_missing_entry (fl : ℚ → ℚ) (pf : String → Option (Option ℚ)) {r : Ref} {w : World}
    {data : Frame} (hr : w.heap[r]? = some data) {cols : List String} {d : List (String × BinSpec)}
    {name : String} (hn : name ∈ cols) (hd : d.lookup name = none) (quantile : Bool) :
    ((binData fl pf r cols (.dict d) quantile).exec w).1 = .error .value := by
  rw [binData_exec fl pf hr]
  have : binDataCore fl pf data cols (.dict d) quantile = .error .value := by
    have hall : cols.all (fun c => (d.lookup c).isSome) = false := by
      rw [List.all_eq_false]; exact ⟨name, hn, by simp [hd]⟩
    unfold binDataCore dictCheck
    simp only [hall, Bool.false_eq_true, if_false]
    rfl
  rw [this]

/-- **C07 (unsupported bins).** A `bins` argument of an unsupported type raises UnboundLocalError as soon
as there is a column to bin that can be read as numbers. -/
theorem bin_data_unsupported (fl : ℚ → ℚ) (pf : String → Option (Option ℚ)) {r : Ref} {w : World}
    {data : Frame} (hr : w.heap[r]? = some data) {name : String} {rest : List String}
    {arr : List (Option ℚ)} (hf : colFloats pf data name = .ok arr) (quantile : Bool) :
    ((binData fl pf r (name :: rest) (.one .other) quantile).exec w).1 = .error .unboundLocal := by
  rw [binData_exec fl pf hr]
  have : binDataCore fl pf data (name :: rest) (.one .other) quantile = .error .unboundLocal := by
    simp [binDataCore, dictCheck, binLoop, selectEdges, Bins.entry, hf, bind, Except.bind, pure,
      Except.pure, throw, throwThe, MonadExceptOf.throw]
  rw [this]

/-- **C07 (unsupported dictionary entry, first column).** -/
theorem bin_data_unsupported_entry_first (fl : ℚ → ℚ) (pf : String → Option (Option ℚ)) {r : Ref}
    {w : World} {data : Frame} (hr : w.heap[r]? = some data) {name : String} {rest : List String}
    {d : List (String × BinSpec)} (hd : d.lookup name = some .other)
    (hall : ∀ c ∈ rest, (d.lookup c).isSome = true)
    {arr : List (Option ℚ)} (hf : colFloats pf data name = .ok arr) (quantile : Bool) :
    ((binData fl pf r (name :: rest) (.dict d) quantile).exec w).1 = .error .unboundLocal := by
  rw [binData_exec fl pf hr]
  have hall' : (name :: rest).all (fun c => (d.lookup c).isSome) = true := by
    simp only [List.all_cons, hd, Option.isSome_some, Bool.true_and, List.all_eq_true]
    exact hall
  have : binDataCore fl pf data (name :: rest) (.dict d) quantile = .error .unboundLocal := by
    unfold binDataCore dictCheck
    simp only [hall', if_true, bind, Except.bind]
    simp [binLoop, selectEdges, Bins.entry, hf, hd, bind, Except.bind, pure,
      Except.pure, throw, throwThe, MonadExceptOf.throw]
  rw [this]

/-- **C07 (violated part).** An unsupported dictionary entry of a later column is not an error: that
column is silently binned with the edges of the column binned before it. -/
theorem bin_data_stale_edges (fl : ℚ → ℚ) (pf : String → Option (Option ℚ)) {r : Ref} {w : World}
    {data : Frame} (hr : w.heap[r]? = some data) {a b : String} (hab : a ≠ b)
    {d : List (String × BinSpec)} {l : List ℚ} (ha : d.lookup a = some (.edges l))
    (hb : d.lookup b = some .other) {xa xb : List (Option ℚ)} (hxa : colFloats pf data a = .ok xa)
    (hxb : colFloats pf data b = .ok xb) {cb : Column} (hcb : cb ∈ data.cols) (hname : cb.name = b)
    (quantile : Bool) :
    ∃ r' dict w' out, (binData fl pf r [a, b] (.dict d) quantile).exec w = (.ok (r', dict), w') ∧
      w'.heap[r']? = some out ∧ ⟨b, false, (binArray xb l).1⟩ ∈ out.cols := by
  rw [binData_exec fl pf hr]
  have : binDataCore fl pf data [a, b] (.dict d) quantile = .ok
      ((data.setCol a ⟨a, false, (binArray xa l).1⟩).setCol b ⟨b, false, (binArray xb l).1⟩,
        [(b, (binArray xb l).2), (a, (binArray xa l).2)]) := by
    have e : (b == a) = false := by simpa using hab.symm
    simp [binDataCore, dictCheck, binLoop, selectEdges, Bins.entry, ha, hb, hxa, hxb, bind, Except.bind,
      pure, Except.pure, hab]
  simp only [this]
  refine ⟨_, _, _, _, rfl, List.getElem?_concat_length, ?_⟩
  simp only [Frame.setCol, List.map_map, List.mem_map, Function.comp]
  refine ⟨cb, hcb, ?_⟩
  have : (cb.name == a) = false := by rw [hname]; simpa using hab.symm
  simp [hname, hab.symm]

example : ∃ r' dict w' out, (binData (fun x => x) (fun _ => none) 0 ["a", "c"]
      (.dict [("a", .edges [0, 5]), ("c", .other)]) false).exec
      ⟨[⟨1, [⟨"a", true, [.num 1]⟩, ⟨"c", true, [.num 2]⟩]⟩], []⟩ = (.ok (r', dict), w') ∧
    w'.heap[r']? = some out ∧ ⟨"c", false, (binArray [some 2] [0, 5]).1⟩ ∈ out.cols :=
  bin_data_stale_edges _ _ (data := ⟨1, [⟨"a", true, [.num 1]⟩, ⟨"c", true, [.num 2]⟩]⟩) rfl (by decide)
    rfl rfl (xa := [some 1]) rfl rfl (cb := ⟨"c", true, [.num 2]⟩) (by simp) rfl _

theorem binLoop_reads {fl : ℚ → ℚ} {pf : String → Option (Option ℚ)} {data : Frame} {bins : Bins} {quantile : Bool}
    {cols : List String} {xbins : Option (List ℚ)} {out : Frame} {dict : List (String × List (ℚ × ℚ))}
    {v : Frame × List (String × List (ℚ × ℚ))} (h : binLoop fl pf data bins quantile cols xbins out dict = .ok v) :
    ∀ name ∈ cols, ∃ arr, colFloats pf data name = .ok arr := by
  induction cols generalizing xbins out dict with
  | nil => simp
  | cons n rest ih =>
    rw [binLoop] at h
    obtain ⟨xb, -, h⟩ := except_bind_ok h
    obtain ⟨arr, h1, h⟩ := except_bind_ok h
    cases xb with
    | none => cases h
    | some e =>
      intro name hm
      rcases List.mem_cons.1 hm with rfl | hm
      · exact ⟨arr, h1⟩
      · exact ih h name hm

theorem mapM_unreadable {pf : String → Option (Option ℚ)} {l : List Cell} {s : String} (hm : Cell.str s ∈ l)
    (hs : pf s = none) : l.mapM (toFloat pf) = .error .value := by
  induction l with
  | nil => cases hm
  | cons c l ih =>
    rw [List.mapM_cons]
    cases hc : toFloat pf c with
    | error e =>
      have : e = .value := by
        cases c with
        | nan => cases hc
        | num q => cases hc
        | str t =>
          simp only [toFloat] at hc
          split at hc
          · cases hc
          · cases hc; rfl
      rw [this]; rfl
    | ok v =>
      rcases List.mem_cons.1 hm with rfl | hm
      · simp [toFloat, hs] at hc
      · simp only [bind, Except.bind, ih hm]

/-- **C07 (text that is not a number, missing column).** If a requested column is missing, or has an entry of text that
`float` cannot read, the call raises; KeyError or ValueError if that column is the first and the bins are complete. -/
theorem bin_data_unreadable (fl : ℚ → ℚ) (pf : String → Option (Option ℚ)) {r : Ref} {w : World} {data : Frame}
    (hr : w.heap[r]? = some data) {cols : List String} {name : String} (hn : name ∈ cols) (bins : Bins) (quantile : Bool) :
    (name ∉ data.names →
      (∀ v, ((binData fl pf r cols bins quantile).exec w).1 ≠ .ok v) ∧
      (∀ rest, cols = name :: rest → (∀ d, bins = .dict d → ∀ c ∈ cols, (d.lookup c).isSome = true) →
        ((binData fl pf r cols bins quantile).exec w).1 = .error .key)) ∧
    (∀ c, data.getCol name = .ok c → ∀ s, Cell.str s ∈ c.cells → pf s = none →
      (∀ v, ((binData fl pf r cols bins quantile).exec w).1 ≠ .ok v) ∧
      (∀ rest, cols = name :: rest → (∀ d, bins = .dict d → ∀ c ∈ cols, (d.lookup c).isSome = true) →
        ((binData fl pf r cols bins quantile).exec w).1 = .error .value)) := by
  have key : ∀ e, colFloats pf data name = .error e →
      (∀ v, ((binData fl pf r cols bins quantile).exec w).1 ≠ .ok v) ∧
      (∀ rest, cols = name :: rest → (∀ d, bins = .dict d → ∀ c ∈ cols, (d.lookup c).isSome = true) →
        ((binData fl pf r cols bins quantile).exec w).1 = .error e) := by
    intro e he
    rw [binData_exec fl pf hr]
    constructor
    · intro v h
      cases hc : binDataCore fl pf data cols bins quantile with
      | error e => rw [hc] at h; cases h
      | ok o =>
        unfold binDataCore at hc
        obtain ⟨-, -, hc⟩ := except_bind_ok hc
        obtain ⟨arr, ha⟩ := binLoop_reads hc name hn
        rw [he] at ha; cases ha
    · rintro rest rfl hd
      have hcheck : dictCheck (name :: rest) bins = .ok () := by
        unfold dictCheck
        cases bins with
        | one s => rfl
        | dict d =>
          have : (name :: rest).all (fun c => (d.lookup c).isSome) = true := by
            rw [List.all_eq_true]; exact hd d rfl
          simp only [this, if_true]
      have : binDataCore fl pf data (name :: rest) bins quantile = .error e := by
        unfold binDataCore
        rw [hcheck]
        simp only [bind, Except.bind, binLoop, selectEdges]
        cases bins.entry name <;> simp [he, bind, Except.bind, pure, Except.pure]
      rw [this]
  refine ⟨fun hm => key _ ?_, fun c hc s hs hp => key _ ?_⟩
  · unfold colFloats Frame.getCol Frame.col?
    have : data.cols.find? (fun c => c.name == name) = none := by
      rw [List.find?_eq_none]
      intro c hc
      simp only [beq_iff_eq]
      rintro rfl
      exact hm (List.mem_map_of_mem hc)
    rw [this]; rfl
  · unfold colFloats
    rw [hc]
    exact mapM_unreadable hs hp

/-- A column with the text "many": ValueError, although the second column is numeric. -/
example : ((binData (fun x => x) (fun _ => none) 0 ["a", "c"] (.one (.num 3)) false).exec
      ⟨[⟨1, [⟨"a", false, [.str "many"]⟩, ⟨"c", true, [.num 2]⟩]⟩], []⟩).1 = .error .value :=
  ((bin_data_unreadable _ _ (data := ⟨1, [⟨"a", false, [.str "many"]⟩, ⟨"c", true, [.num 2]⟩]⟩) rfl (name := "a")
    (by simp) _ _).2 ⟨"a", false, [.str "many"]⟩ rfl "many" (by simp) rfl).2 ["c"] rfl (fun _ h => by cases h)

/-! ### contingency tables -/

theorem table_total {recs : List (Option Cell × Option Cell)} {rows cols : List Cell}
    (hr : rows.Nodup) (hc : cols.Nodup)
    (h : ∀ a b, (some a, some b) ∈ recs → a ∈ rows ∧ b ∈ cols) :
    ∑ i : Fin rows.length, ∑ j : Fin cols.length, recs.count (some rows[i], some cols[j]) =
      recs.countP fun p => p.1.isSome && p.2.isSome := by
  induction recs with
  | nil => simp
  | cons p ps ih =>
    simp only [List.count_cons, Finset.sum_add_distrib, List.countP_cons]
    rw [ih (fun a b hab => h a b (List.mem_cons_of_mem _ hab))]
    congr 1
    obtain ⟨x, y⟩ := p
    cases x with
    | none => simp
    | some a =>
      cases y with
      | none => simp
      | some b =>
        obtain ⟨ha, hb⟩ := h a b (List.mem_cons_self ..)
        obtain ⟨i, hi, rfl⟩ := List.getElem_of_mem ha
        obtain ⟨j, hj, rfl⟩ := List.getElem_of_mem hb
        rw [Finset.sum_eq_single ⟨i, hi⟩, Finset.sum_eq_single ⟨j, hj⟩]
        · simp
        · intro k _ hk
          rw [if_neg]
          simp only [beq_iff_eq, Prod.mk.injEq, Option.some.injEq, not_and]
          intro _ he
          apply hk
          ext
          exact (hc.getElem_inj_iff.1 (by simpa using he.symm))
        · simp
        · intro k _ hk
          apply Finset.sum_eq_zero
          intro m _
          rw [if_neg]
          simp only [beq_iff_eq, Prod.mk.injEq, Option.some.injEq, not_and]
          intro he
          exfalso
          apply hk
          ext
          exact (hr.getElem_inj_iff.1 (by simpa using he.symm))
        · simp

/-- **C08.** A contingency table has no empty row and no empty column, and the sum of its cells is the
number of records both of whose entries are kept. -/
theorem table_totals {recs : List (Option Cell × Option Cell)} {h : Hist} (ht : IsTable recs h) :
    (∀ i, 0 < h.arr.rowSum i) ∧ (∀ j, 0 < h.arr.colSum j) ∧
      h.arr.total = recs.countP fun p => p.1.isSome && p.2.isSome := by
  refine ⟨fun i => ?_, fun j => ?_, ?_⟩
  · change Fin h.rows.length at i
    obtain ⟨b, hb⟩ := (ht.rows_mem h.rows[i]).1 (List.getElem_mem _)
    obtain ⟨j, hj, rfl⟩ := List.getElem_of_mem ((ht.cols_mem b).2 ⟨_, hb⟩)
    refine lt_of_lt_of_le ?_ (Finset.single_le_sum (f := fun j => h.v i j) (fun _ _ => Nat.zero_le _)
      (Finset.mem_univ (⟨j, hj⟩ : Fin h.cols.length)))
    change 0 < h.v i ⟨j, hj⟩
    rw [ht.counts i ⟨j, hj⟩]
    exact List.count_pos_iff.2 hb
  · change Fin h.cols.length at j
    obtain ⟨a, ha⟩ := (ht.cols_mem h.cols[j]).1 (List.getElem_mem _)
    obtain ⟨i, hi, rfl⟩ := List.getElem_of_mem ((ht.rows_mem a).2 ⟨_, ha⟩)
    refine lt_of_lt_of_le ?_ (Finset.single_le_sum (f := fun i => h.v i j) (fun _ _ => Nat.zero_le _)
      (Finset.mem_univ (⟨i, hi⟩ : Fin h.rows.length)))
    change 0 < h.v ⟨i, hi⟩ j
    rw [ht.counts ⟨i, hi⟩ j]
    exact List.count_pos_iff.2 ha
  · rw [← table_total (ht.rows_sorted.imp (fun h => ne_of_lt h)) (ht.cols_sorted.imp (fun h => ne_of_lt h))
      (fun a b hab => ⟨(ht.rows_mem a).2 ⟨b, hab⟩, (ht.cols_mem b).2 ⟨a, hab⟩⟩)]
    unfold Arr2.total
    exact Finset.sum_congr rfl fun i _ => Finset.sum_congr rfl fun j _ => ht.counts i j

/-- **C08 and C09.** `hist2d_from_rebinned_df` returns the contingency table of the two columns, where
each entry enters as `view` says: missing entries are left out or counted as 'NaN', 'UF' and 'OF' are
left out or counted, everything else is counted. -/
theorem hist2d_rebinned_table {r : Ref} {w : World} {data : Frame} (hr : w.heap[r]? = some data)
    {a b : Column} (h : data.cols = [a, b]) (dropna du dof : Bool) :
    ∃ hist w', (hist2dFromRebinned r dropna du dof).exec w = (.ok hist, w') ∧
      IsTable ((a.cells.zip b.cells).map fun p => (view dropna du dof p.1, view dropna du dof p.2)) hist := by
  obtain ⟨hist, h1, h2⟩ := hist2dFromRebinned_exec hr h dropna du dof
  exact ⟨hist, _, h1, h2⟩

/-- **C08, C09 and C11 for `hist2d`.** When `hist2d` returns, the table is the contingency table of the
two columns of the binned frame (whose columns are described by `bin_data_columns`: `binData` started in
the same state returns that frame), the frames that existed before are unchanged, and it raises exactly
when the frame does not have two columns or the binning raises. -/
theorem hist2d_table (fl : ℚ → ℚ) (pf : String → Option (Option ℚ)) {r : Ref} {w : World} {data : Frame}
    (hr : w.heap[r]? = some data) {ic : Option (List String)} {bins : Bins}
    {quantile dropna du dof : Bool} :
    match (hist2d fl pf r ic bins quantile dropna du dof).exec w with
    | (.ok (hist, dict), w') => w.heap <+: w'.heap ∧ data.cols.length = 2 ∧
        ∃ r' w1 out a b, (binData fl pf r (ic.getD (guessIntervalCols data)) bins quantile).exec w =
            (.ok (r', dict), w1) ∧ w1.heap[r']? = some out ∧ out.cols = [a, b] ∧
          IsTable ((a.cells.zip b.cells).map
            fun p => (view dropna du dof p.1, view dropna du dof p.2)) hist
    | (.error e, w') => w.heap <+: w'.heap ∧ (data.cols.length ≠ 2 ∧ e = .value ∨
        ((binData fl pf r (ic.getD (guessIntervalCols data)) bins quantile).exec w).1 = .error e) := by
  unfold hist2d
  rw [M.exec_bind, M.exec_read_of hr]
  by_cases h2 : data.cols.length = 2
  · simp only [h2, ne_eq, not_true_eq_false, if_false]
    rw [M.exec_bind]
    rw [binData_exec fl pf hr]
    cases hc : binDataCore fl pf data (ic.getD (guessIntervalCols data)) bins quantile with
    | error e => exact ⟨List.prefix_append _ _, Or.inr rfl⟩
    | ok v =>
      obtain ⟨out, dict⟩ := v
      simp only
      have hlen : out.cols.length = 2 := by
        have := congrArg List.length (binDataCore_names hc).1
        simpa [Frame.names, h2] using this
      obtain ⟨a, b, hab⟩ : ∃ a b, out.cols = [a, b] := by
        match hcol : out.cols, hlen with
        | [a, b], _ => exact ⟨a, b, rfl⟩
      have hr1 : (w.heap ++ [out])[w.heap.length]? = some out := by simp
      obtain ⟨hist, g1, g2⟩ := hist2dFromRebinned_exec (w := { w with heap := w.heap ++ [out] }) hr1 hab
        dropna du dof
      rw [M.exec_bind, g1]
      simp only [M.exec_pure]
      refine ⟨?_, trivial, _, _, out, a, b, rfl, hr1, hab, g2⟩
      rw [List.set_append_right _ _ le_rfl]
      exact List.prefix_append _ _
  · simp only [h2, ne_eq, not_false_eq_true, if_true]
    exact ⟨List.prefix_rfl, Or.inl ⟨trivial, rfl⟩⟩

example : (hist2d (fun x => x) (fun _ => none) 0 (some []) (.one (.num 10)) false true true true).exec
    ⟨[⟨2, [⟨"a", false, [.str "x", .str "y"]⟩, ⟨"b", false, [.str "u", .str "u"]⟩]⟩], []⟩ =
    (.ok (histOfPairs [(.str "x", .str "u"), (.str "y", .str "u")], []),
      ⟨[⟨2, [⟨"a", false, [.str "x", .str "y"]⟩, ⟨"b", false, [.str "u", .str "u"]⟩]⟩,
        ⟨2, [⟨"a", false, [.str "x", .str "y"]⟩, ⟨"b", false, [.str "u", .str "u"]⟩]⟩], []⟩) := rfl

/-! ### sentinel strings -/

/-- None of the strings the library uses as markers occurs in the column. -/
def NoSentinel (c : List Cell) : Prop :=
  Cell.str "UF" ∉ c ∧ Cell.str "OF" ∉ c ∧ Cell.str "NaN" ∉ c

/-- **C10 (positive part).** For columns free of the three marker strings, every pair of genuine
categories is counted as often as it occurs, whatever the flags. -/
theorem genuine_categories_counted {a b : List Cell} (ha : NoSentinel a) (hb : NoSentinel b)
    {dropna du dof : Bool} {h : Hist}
    (ht : IsTable ((a.zip b).map fun p => (view dropna du dof p.1, view dropna du dof p.2)) h)
    {x y : Cell} (hx : x ∈ a) (hxn : x ≠ .nan) (hy : y ∈ b) (hyn : y ≠ .nan) :
    ((x, y) ∈ a.zip b → x ∈ h.rows ∧ y ∈ h.cols) ∧
    ∀ i j, h.rows[i] = x → h.cols[j] = y → h.v i j = (a.zip b).count (x, y) := by
  have key : ∀ (l : List Cell), NoSentinel l → ∀ c ∈ l, ∀ z ∈ l, z ≠ .nan →
      (view dropna du dof c = some z ↔ c = z) := by
    rintro l ⟨h1, h2, h3⟩ c hc z hz hzn
    cases c with
    | nan =>
      simp only [view]
      constructor
      · intro h
        split at h
        · cases h
        · cases h; exact absurd hz h3
      · rintro rfl; exact absurd rfl hzn
    | num q => simp [view]
    | str s =>
      have e1 : s ≠ "UF" := by rintro rfl; exact h1 hc
      have e2 : s ≠ "OF" := by rintro rfl; exact h2 hc
      simp [view, e1, e2]
  have hrec : ∀ p ∈ a.zip b, ((view dropna du dof p.1, view dropna du dof p.2) = (some x, some y) ↔
      p = (x, y)) := by
    rintro ⟨u, v⟩ hp
    obtain ⟨hu, hv⟩ := List.of_mem_zip hp
    rw [Prod.mk.injEq, Prod.mk.injEq, key a ha u hu x hx hxn, key b hb v hv y hy hyn]
  constructor
  · intro hm
    have : (some x, some y) ∈ (a.zip b).map fun p => (view dropna du dof p.1, view dropna du dof p.2) :=
      List.mem_map.2 ⟨_, hm, (hrec _ hm).2 rfl⟩
    exact ⟨(ht.rows_mem x).2 ⟨y, this⟩, (ht.cols_mem y).2 ⟨x, this⟩⟩
  · intro i j hi hj
    rw [ht.counts i j, hi, hj]
    revert hrec
    generalize a.zip b = l
    intro hrec
    induction l with
    | nil => rfl
    | cons p ps ih =>
      simp only [List.map_cons, List.count_cons]
      rw [ih (fun q hq => hrec q (List.mem_cons_of_mem _ hq))]
      have := hrec p (List.mem_cons_self ..)
      by_cases hp : p = (x, y)
      · have h' := this.2 hp
        rw [h', if_pos (by simp), if_pos (by simp [hp])]
      · have h' := mt this.1 hp
        simp only [beq_iff_eq, h', if_false, hp]

example : NoSentinel [.str "x", .nan, .num 3] := by simp [NoSentinel]

/-- **C10 (violated, 'UF' and 'OF').** A genuine category 'UF' (or 'OF') disappears from the table with
the default flags, however often it occurs. -/
theorem sentinel_category_dropped {a b : List Cell} {dropna du dof : Bool} {h : Hist}
    (ht : IsTable ((a.zip b).map fun p => (view dropna du dof p.1, view dropna du dof p.2)) h) :
    (du = true → Cell.str "UF" ∉ h.rows ∧ Cell.str "UF" ∉ h.cols) ∧
    (dof = true → Cell.str "OF" ∉ h.rows ∧ Cell.str "OF" ∉ h.cols) := by
  have k1 : ∀ c, du = true → view dropna du dof c ≠ some (.str "UF") := by
    intro c hd
    cases c with
    | nan => cases dropna <;> simp [view]
    | num q => simp [view]
    | str s =>
      by_cases e : s = "UF"
      · simp [view, e, hd]
      · by_cases e2 : s = "OF"
        · subst e2; cases dof <;> simp [view]
        · simp [view, e, e2]
  have k2 : ∀ c, dof = true → view dropna du dof c ≠ some (.str "OF") := by
    intro c hd
    cases c with
    | nan => cases dropna <;> simp [view]
    | num q => simp [view]
    | str s =>
      by_cases e : s = "OF"
      · subst e; cases du <;> simp [view, hd]
      · by_cases e2 : s = "UF"
        · subst e2; cases du <;> simp [view]
        · simp [view, e, e2]
  refine ⟨fun hd => ⟨?_, ?_⟩, fun hd => ⟨?_, ?_⟩⟩
  all_goals
    first | rw [ht.rows_mem] | rw [ht.cols_mem]
    rintro ⟨c, hc⟩
    obtain ⟨p, -, hp⟩ := List.mem_map.1 hc
    simp only [Prod.mk.injEq] at hp
    first
    | exact k1 _ hd hp.1
    | exact k1 _ hd hp.2
    | exact k2 _ hd hp.1
    | exact k2 _ hd hp.2

/-- **C10 (violated, 'NaN').** With `dropna=False` a genuine category 'NaN' shares its row with the
missing values. -/
theorem nan_category_merged {a b : List Cell} {du dof : Bool} {h : Hist}
    (ht : IsTable ((a.zip b).map fun p => (view false du dof p.1, view false du dof p.2)) h)
    {i : Fin h.rows.length} (hi : h.rows[i] = .str "NaN") (j : Fin h.cols.length) :
    h.v i j = (a.zip b).countP (fun p => decide ((p.1 = .nan ∨ p.1 = .str "NaN") ∧
      view false du dof p.2 = some h.cols[j])) := by
  rw [ht.counts i j, hi]
  generalize h.cols[j] = y
  rw [List.count_eq_countP, List.countP_map]
  apply List.countP_congr
  rintro ⟨u, v⟩ _
  simp only [Function.comp, beq_iff_eq, Prod.mk.injEq, decide_eq_true_eq]
  refine and_congr_left fun _ => ?_
  cases u with
  | nan => simp [view]
  | num q => simp [view]
  | str s =>
    by_cases e1 : s = "UF"
    · subst e1; cases du <;> simp [view]
    · by_cases e2 : s = "OF"
      · subst e2; cases dof <;> simp [view]
      · simp [view, e1, e2]

/-! ### the caller's frames -/

/-- **C11 for `bin_data`.** Whether it returns or raises, every frame that existed is unchanged. -/
theorem bin_data_keeps_frames (fl : ℚ → ℚ) (pf : String → Option (Option ℚ)) (r : Ref) (w : World)
    (cols : List String) (bins : Bins) (quantile : Bool) :
    w.heap <+: ((binData fl pf r cols bins quantile).exec w).2.heap := by
  cases hr : w.heap[r]? with
  | none =>
    have : (binData fl pf r cols bins quantile).exec w = (.error .type, w) := by
      unfold binData
      rw [M.exec_bind, M.exec_read, hr]
    rw [this]
  | some data =>
    rw [binData_exec fl pf hr]
    cases binDataCore fl pf data cols bins quantile with
    | error e => exact List.prefix_append _ _
    | ok v => exact List.prefix_append _ _

/-- **C11 for `hist2d`.** -/
theorem hist2d_keeps_frames (fl : ℚ → ℚ) (pf : String → Option (Option ℚ)) (r : Ref) (w : World)
    (ic : Option (List String)) (bins : Bins) (quantile dropna du dof : Bool) :
    w.heap <+: ((hist2d fl pf r ic bins quantile dropna du dof).exec w).2.heap := by
  cases hr : w.heap[r]? with
  | none =>
    have : (hist2d fl pf r ic bins quantile dropna du dof).exec w = (.error .type, w) := by
      unfold hist2d
      rw [M.exec_bind, M.exec_read, hr]
    rw [this]
  | some data =>
    have := hist2d_table fl pf hr (ic := ic) (bins := bins) (quantile := quantile) (dropna := dropna)
      (du := du) (dof := dof)
    revert this
    rcases (hist2d fl pf r ic bins quantile dropna du dof).exec w with ⟨res, w'⟩
    cases res with
    | error e => exact fun h => h.1
    | ok v => exact fun h => h.1

end Phik.Props
