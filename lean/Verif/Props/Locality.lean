import Verif.Props.MatrixPipeline
import Verif.Props.SigMatrix
import Verif.Props.Rename
import Verif.Props.Records
import Verif.Props.HybridWitness

/-! # Property C67: an entry of a matrix depends on its own two columns only -/

namespace Phik

open Spec

/-- What the binning makes of one column. -/
def BinnedAs (fl : ℚ → ℚ) (pf : String → Option (Option ℚ)) (bins : Bins) (quantile : Bool) (isInterval : Prop)
    (c c' : Column) : Prop :=
  c'.name = c.name ∧ (¬ isInterval → c'.cells = c.cells) ∧
  (isInterval → ∃ arr e s, c.cells.mapM (toFloat pf) = .ok arr ∧ EntryFor bins c.name s ∧ Requested fl quantile arr s e ∧
    c'.cells = (binArray arr e).1)

theorem entryFor_unique {bins : Bins} {n : String} {s s' : BinSpec} (h : EntryFor bins n s) (h' : EntryFor bins n s') :
    s = s' := by
  cases h with
  | one => cases h'; rfl
  | dict d _ _ h =>
    cases h' with
    | dict _ _ _ h' => rw [h] at h'; exact Option.some.inj h'

theorem requested_unique {fl : ℚ → ℚ} {quantile : Bool} {arr : List (Option ℚ)} {s : BinSpec} {e e' : List ℚ}
    (h : Requested fl quantile arr s e) (h' : Requested fl quantile arr s e') : e = e' := by
  cases h with
  | edges => cases h'; rfl
  | num q l h =>
    cases h' with
    | num _ _ h' => rw [h] at h'; exact Except.ok.inj h'

theorem BinnedAs.unique {fl : ℚ → ℚ} {pf : String → Option (Option ℚ)} {bins : Bins} {quantile : Bool} {p q : Prop}
    {c c' c'' : Column} (h : BinnedAs fl pf bins quantile p c c') (h' : BinnedAs fl pf bins quantile q c c'') (hpq : p ↔ q) :
    c'.cells = c''.cells := by
  by_cases hp : p
  · obtain ⟨arr, e, s, h1, h2, h3, h4⟩ := h.2.2 hp
    obtain ⟨arr', e', s', h1', h2', h3', h4'⟩ := h'.2.2 (hpq.1 hp)
    obtain rfl : arr = arr' := by rw [h1] at h1'; exact Except.ok.inj h1'
    obtain rfl := entryFor_unique h2 h2'
    obtain rfl := requested_unique h3 h3'
    rw [h4, h4']
  · rw [h.2.1 hp, h'.2.1 (hpq.not.1 hp)]

/-- The columns of the binned frame of the pipeline. -/
theorem pipeline_columns {fl : ℚ → ℚ} {pf : String → Option (Option ℚ)} {r : Ref} {w : World} {data : Frame}
    (hr : w.heap[r]? = some data) (hn : data.names.Nodup) {ic : List String} {dropna : Bool} {bins : Bins} {quantile : Bool}
    (hent : ∀ c ∈ data.cols, c.name ∈ ic → ∃ s, EntryFor bins c.name s ∧ s ≠ .other) {icc : List String} {w1 : World}
    {clean : Frame} (h1 : (dqCheck r ic dropna).exec w = (.ok (w.heap.length, icc), w1))
    (h2 : w1.heap[w.heap.length]? = some clean) {r2 : Ref} {dict : List (String × List (ℚ × ℚ))} {w2 : World} {binned : Frame}
    (h3 : (binData fl pf w.heap.length icc bins quantile).exec w1 = (.ok (r2, dict), w2))
    (h4 : w2.heap[r2]? = some binned) {c : Column} (hc : c ∈ data.cols) (hk : Kept ic dropna c) :
    binned.names.Nodup ∧ ∃ c' ∈ binned.cols, BinnedAs fl pf bins quantile (c.name ∈ ic) c c' := by
  classical
  obtain ⟨icc', w1', clean', ws, g1, g2, -, g4, g5, -⟩ := Props.dq_check hr hn ic dropna
  rw [h1] at g1
  cases g1
  rw [g2] at h2
  obtain rfl : clean' = clean := by simpa using h2
  have hclean : w1.heap[w.heap.length]? = some clean' := by rw [g2]; simp
  have hcn : clean'.names.Nodup := hn.sublist (by unfold Frame.names; rw [g4]; exact List.filter_sublist.map _)
  have hicc : ∀ d ∈ clean'.cols, (d.name ∈ icc ↔ d.name ∈ ic) := by
    intro d hd
    rw [g5, List.mem_filter]
    have : d.name ∈ clean'.names := List.mem_map_of_mem hd
    simp [this]
  have hent' : ∀ name ∈ icc, ∃ s, EntryFor bins name s ∧ s ≠ .other := by
    intro n h
    have h' := h
    rw [g5, List.mem_filter] at h'
    obtain ⟨hic, hin⟩ := h'
    obtain ⟨d, hd, rfl⟩ := List.mem_map.1 (by simpa using hin : n ∈ clean'.names)
    rw [g4, List.mem_filter] at hd
    exact hent d hd.1 hic
  obtain ⟨-, -, out, k1, -, k3, k4, -⟩ := Props.bin_data_columns fl pf hclean hent' h3
  rw [h4] at k1
  obtain rfl : binned = out := Option.some.inj k1
  have hcc : c ∈ clean'.cols := by rw [g4, List.mem_filter]; exact ⟨hc, by simpa using hk⟩
  refine ⟨by rw [k3]; exact hcn, ?_⟩
  obtain ⟨i, hi⟩ := List.getElem?_of_mem hcc
  obtain ⟨c', e1, e2, e3⟩ := k4 i c hi
  refine ⟨c', List.mem_of_getElem? e1, ?_⟩
  by_cases hin : c.name ∈ icc
  · obtain ⟨e4, -, arr, e, s, e5, e6, e7, e8, -⟩ := e3 hin
    refine ⟨e4, fun h => absurd ((hicc c hcc).1 hin) h, fun _ => ⟨arr, e, s, ?_, e6, e7, e8⟩⟩
    unfold colFloats at e5
    rw [getCol_of_mem hcn hcc] at e5
    exact e5
  · have e4 := e2 hin
    subst e4
    exact ⟨rfl, fun _ => rfl, fun h => absurd ((hicc c' hcc).2 h) hin⟩

theorem col_unique {f : Frame} (hn : f.names.Nodup) {a b : Column} (ha : a ∈ f.cols) (hb : b ∈ f.cols) (h : a.name = b.name) :
    a = b := by
  have := col?_of_mem hn ha
  rw [h, col?_of_mem hn hb] at this
  exact (Option.some.inj this).symm

theorem records_swap (dropna du dof : Bool) (a b : Column) :
    (records dropna du dof a b).map Prod.swap = records dropna du dof b a := by
  unfold records
  rw [List.map_map, ← List.zip_swap b.cells a.cells, List.map_map]
  exact List.map_congr_left fun p _ => rfl

theorem records_congr (dropna du dof : Bool) {a b a' b' : Column} (h : a.cells = a'.cells) (h' : b.cells = b'.cells) :
    records dropna du dof a b = records dropna du dof a' b' := by
  unfold records; rw [h, h']

open scoped Classical in
/-- One entry of the phik matrix. -/
theorem phik_entry {nm : Numerics} (hg : GoodNumerics nm) {sched : Option (List ℕ)}
    {fl : ℚ → ℚ} {pf : String → Option (Option ℚ)} {r : Ref} {w w' : World} {data : Frame}
    (hr : w.heap[r]? = some data) (hn : data.names.Nodup) {ic : Option (List String)} {bins : Bins}
    {quantile noise dropna du dof : Bool}
    (hs : ValidSched (cwr ((data.cols.filter
      (fun c => decide (Kept (ic.getD (guessIntervalCols data)) dropna c))).map (·.name))).length sched)
    (hent : ∀ c ∈ data.cols, c.name ∈ ic.getD (guessIntervalCols data) → ∃ s, EntryFor bins c.name s ∧ s ≠ .other)
    {t : LTable} (h : (phikMatrix nm sched fl pf r ic bins quantile noise dropna du dof).exec w = (.ok t, w'))
    {a b : Column} (ha : a ∈ data.cols) (hb : b ∈ data.cols) (hka : Kept (ic.getD (guessIntervalCols data)) dropna a)
    (hkb : Kept (ic.getD (guessIntervalCols data)) dropna b) (hab : a.name ≠ b.name) :
    ∃ a' b', BinnedAs fl pf bins quantile (a.name ∈ ic.getD (guessIntervalCols data)) a a' ∧
      BinnedAs fl pf bins quantile (b.name ∈ ic.getD (guessIntervalCols data)) b b' ∧
      IsPhik nm noise (records dropna du dof a' b') (t.v a.name b.name) := by
  obtain ⟨icc, w1, clean, h1, h2, h3, h4⟩ := Props.phik_matrix_result hg fl pf hr hn ic bins quantile noise dropna du dof hs
  rw [h] at h4
  obtain ⟨r2, dict, w2, binned, h5, h6, h7, h8, -⟩ := h4
  obtain ⟨hnb, a', ha', hBa⟩ := pipeline_columns hr hn hent h1 h2 h5 h6 ha hka
  obtain ⟨-, b', hb', hBb⟩ := pipeline_columns hr hn hent h1 h2 h5 h6 hb hkb
  refine ⟨a', b', hBa, hBb, ?_⟩
  have hma : a.name ∈ binned.names := by rw [← hBa.1]; exact List.mem_map_of_mem ha'
  have hmb : b.name ∈ binned.names := by rw [← hBb.1]; exact List.mem_map_of_mem hb'
  rcases sublist_total hma hmb hab with hsub | hsub
  · obtain ⟨x, hx, y, hy, ex, ey, hxy⟩ := h7.entry _ _ hsub
    obtain rfl := col_unique hnb ha' hx (by rw [hBa.1, ex])
    obtain rfl := col_unique hnb hb' hy (by rw [hBb.1, ey])
    exact hxy
  · obtain ⟨x, hx, y, hy, ex, ey, hxy⟩ := h7.entry _ _ hsub
    obtain rfl := col_unique hnb hb' hx (by rw [hBb.1, ex])
    obtain rfl := col_unique hnb ha' hy (by rw [hBa.1, ey])
    rw [h7.symm _ hma _ hmb, ← records_swap, Props.isPhik_swap hg.mvn]
    exact hxy

open scoped Classical in
/-- One entry of the significance matrix. -/
theorem sig_entry {F : Type} (S : SigNum) (R : ℕ → SimRun F) (method : String) {fl : ℚ → ℚ}
    {pf : String → Option (Option ℚ)} {r : Ref} {w w' : World} {data : Frame}
    (hr : w.heap[r]? = some data) (hn : data.names.Nodup) {ic : Option (List String)} {bins : Bins} {dropna du dof : Bool}
    (hent : ∀ c ∈ data.cols, c.name ∈ ic.getD (guessIntervalCols data) → ∃ s, EntryFor bins c.name s ∧ s ≠ .other)
    {t : LTab EReal} (h : (significanceMatrix S R fl pf r ic bins method dropna du dof).exec w = (.ok t, w'))
    {a b : Column} (ha : a ∈ data.cols) (hb : b ∈ data.cols) (hka : Kept (ic.getD (guessIntervalCols data)) dropna a)
    (hkb : Kept (ic.getD (guessIntervalCols data)) dropna b) :
    t.rows = (data.cols.filter (fun c => decide (Kept (ic.getD (guessIntervalCols data)) dropna c))).map (·.name) ∧
    ∃ a' b', BinnedAs fl pf bins false (a.name ∈ ic.getD (guessIntervalCols data)) a a' ∧
      BinnedAs fl pf bins false (b.name ∈ ic.getD (guessIntervalCols data)) b b' ∧
      (t.v a.name b.name = t.v b.name a.name) ∧
      (∀ k, (cwr t.rows)[k]? = some (a.name, b.name) → IsSig S (R k) method (records dropna du dof a' b') (t.v a.name b.name)) ∧
      (∀ k, (cwr t.rows)[k]? = some (b.name, a.name) → IsSig S (R k) method (records dropna du dof b' a') (t.v b.name a.name)) := by
  obtain ⟨icc, w1, clean, h1, h2, h3, h4⟩ := Props.significance_matrix_result S R method fl pf hr hn ic bins dropna du dof
  rcases h4 with ⟨t', w'', r2, dict, w2, binned, ws, k1, h5, h6, h7, h8, -⟩ | ⟨e, w'', k1, -⟩
  swap
  · rw [h] at k1; cases k1
  rw [h] at k1
  cases k1
  obtain ⟨hnb, a', ha', hBa⟩ := pipeline_columns hr hn hent h1 h2 h5 h6 ha hka
  obtain ⟨-, b', hb', hBb⟩ := pipeline_columns hr hn hent h1 h2 h5 h6 hb hkb
  have hma : a.name ∈ binned.names := by rw [← hBa.1]; exact List.mem_map_of_mem ha'
  have hmb : b.name ∈ binned.names := by rw [← hBb.1]; exact List.mem_map_of_mem hb'
  refine ⟨h8, a', b', hBa, hBb, h7.symm _ hma _ hmb, fun k hk => ?_, fun k hk => ?_⟩
  · rw [h7.rows] at hk
    obtain ⟨x, hx, y, hy, ex, ey, hxy⟩ := h7.entry _ _ _ hk
    obtain rfl := col_unique hnb ha' hx (by rw [hBa.1, ex])
    obtain rfl := col_unique hnb hb' hy (by rw [hBb.1, ey])
    exact hxy
  · rw [h7.rows] at hk
    obtain ⟨x, hx, y, hy, ex, ey, hxy⟩ := h7.entry _ _ _ hk
    obtain rfl := col_unique hnb hb' hx (by rw [hBb.1, ex])
    obtain rfl := col_unique hnb ha' hy (by rw [hBa.1, ey])
    exact hxy

theorem isSig_unique {F : Type} {S : SigNum} {R : SimRun F} {method : String} {recs : List (Option Cell × Option Cell)}
    {v v' : Option EReal} (h : IsSig S R method recs v) (h' : IsSig S R method recs v') : v = v' := by
  obtain ⟨t, ht, h⟩ := h
  obtain ⟨t', ht', h'⟩ := h'
  obtain rfl := table_unique ht ht'
  rcases h with ⟨h1, rfl⟩ | ⟨h1, p, hx⟩
  · rcases h' with ⟨-, rfl⟩ | ⟨g1, -⟩
    · rfl
    · exact absurd h1 g1
  · rcases h' with ⟨g1, -⟩ | ⟨g1, q, hy⟩
    · exact absurd g1 h1
    · rw [hx] at hy; cases hy; rfl

/-- The asymptotic significance does not look at the simulations. -/
theorem isSig_asymptotic {F G : Type} {S : SigNum} {R : SimRun F} {R' : SimRun G} (hR : R.lambda = R'.lambda)
    {recs : List (Option Cell × Option Cell)} {v : Option EReal} (h : IsSig S R "asymptotic" recs v) :
    IsSig S R' "asymptotic" recs v := by
  obtain ⟨t, ht, h⟩ := h
  refine ⟨t, ht, ?_⟩
  unfold sigFromHist2d at h ⊢
  rw [← hR]
  simpa using h

theorem isSig_swap {F : Type} {S : SigNum} {R : SimRun F}
    {recs : List (Option Cell × Option Cell)} {v : Option EReal} (h : IsSig S R "asymptotic" recs v) :
    IsSig S R "asymptotic" (recs.map Prod.swap) v := by
  obtain ⟨t, ht, h⟩ := h
  refine ⟨_, isTable_swap ht, ?_⟩
  rcases h with ⟨h1, rfl⟩ | ⟨h1, p, hp⟩
  · exact .inl ⟨h1.symm, rfl⟩
  · refine .inr ⟨fun h => h1 h.symm, p, ?_⟩
    rw [← hp]
    exact (Props.asymptotic_symmetric S R t.values).2

theorem pair_index {l : List String} {a b : String} (ha : a ∈ l) (hb : b ∈ l) :
    ∃ k : ℕ, (cwr l)[k]? = some (a, b) ∨ (cwr l)[k]? = some (b, a) := by
  induction l with
  | nil => simp at ha
  | cons x xs ih =>
    have mem : (a, b) ∈ cwr (x :: xs) ∨ (b, a) ∈ cwr (x :: xs) := by
      simp only [cwr, List.mem_append, List.mem_map, Prod.mk.injEq]
      rcases List.mem_cons.1 ha with rfl | ha'
      · exact .inl (.inl ⟨b, hb, rfl, rfl⟩)
      · rcases List.mem_cons.1 hb with rfl | hb'
        · exact .inr (.inl ⟨a, ha, rfl, rfl⟩)
        · obtain ⟨k, h | h⟩ := ih ha' hb'
          · exact .inl (.inr (List.mem_of_getElem? h))
          · exact .inr (.inr (List.mem_of_getElem? h))
    rcases mem with h | h
    · obtain ⟨k, hk⟩ := List.getElem?_of_mem h; exact ⟨k, .inl hk⟩
    · obtain ⟨k, hk⟩ := List.getElem?_of_mem h; exact ⟨k, .inr hk⟩

theorem kept_congr {ic ic' : List String} {dropna : Bool} {c : Column} (h : c.name ∈ ic ↔ c.name ∈ ic') :
    Kept ic dropna c ↔ Kept ic' dropna c := by
  unfold Kept; simp only [h]

open scoped Classical in
theorem mem_kept {f : Frame} (hn : f.names.Nodup) {c : Column} (hc : c ∈ f.cols) (P : Column → Prop) :
    c.name ∈ (f.cols.filter fun d => decide (P d)).map (·.name) ↔ P c := by
  constructor
  · intro h
    obtain ⟨d, hd, e⟩ := List.mem_map.1 h
    rw [List.mem_filter] at hd
    obtain rfl := col_unique hn hd.1 hc e
    simpa using hd.2
  · intro h
    exact List.mem_map.2 ⟨c, List.mem_filter.2 ⟨hc, by simpa using h⟩, rfl⟩

namespace Props

open scoped Classical in
/-- **C67 for `phik_matrix`.** Two calls of `phik_matrix` on frames `f` and `g` that both contain the columns `a` and `b`
(possibly in another order, among different other columns, in different worlds and with different schedules), with the same
options, where `a` and `b` are interval columns in both calls or in neither: the two results agree on whether `a` is listed,
and if both columns are, on the correlation of `a` and `b`. -/
theorem phik_matrix_local {nm : Numerics} (hg : GoodNumerics nm) (fl : ℚ → ℚ) (pf : String → Option (Option ℚ))
    (bins : Bins) (quantile noise dropna du dof : Bool)
    {r s : Ref} {w w' x x' : World} {f g : Frame} (hf : w.heap[r]? = some f) (hgr : x.heap[s]? = some g)
    (hnf : f.names.Nodup) (hng : g.names.Nodup) {icf icg : Option (List String)} {sf sg : Option (List ℕ)}
    (hsf : ValidSched (cwr ((f.cols.filter
      (fun c => decide (Kept (icf.getD (guessIntervalCols f)) dropna c))).map (·.name))).length sf)
    (hsg : ValidSched (cwr ((g.cols.filter
      (fun c => decide (Kept (icg.getD (guessIntervalCols g)) dropna c))).map (·.name))).length sg)
    (hbf : ∀ c ∈ f.cols, c.name ∈ icf.getD (guessIntervalCols f) → ∃ e, EntryFor bins c.name e ∧ e ≠ .other)
    (hbg : ∀ c ∈ g.cols, c.name ∈ icg.getD (guessIntervalCols g) → ∃ e, EntryFor bins c.name e ∧ e ≠ .other)
    {t u : LTable} (ht : (phikMatrix nm sf fl pf r icf bins quantile noise dropna du dof).exec w = (.ok t, w'))
    (hu : (phikMatrix nm sg fl pf s icg bins quantile noise dropna du dof).exec x = (.ok u, x'))
    {a b : Column} (haf : a ∈ f.cols) (hag : a ∈ g.cols) (hb1 : b ∈ f.cols) (hb2 : b ∈ g.cols)
    (hia : a.name ∈ icf.getD (guessIntervalCols f) ↔ a.name ∈ icg.getD (guessIntervalCols g))
    (hib : b.name ∈ icf.getD (guessIntervalCols f) ↔ b.name ∈ icg.getD (guessIntervalCols g)) :
    (a.name ∈ t.rows ↔ a.name ∈ u.rows) ∧
    (a.name ∈ t.rows → b.name ∈ t.rows → t.v a.name b.name = u.v a.name b.name) := by
  obtain ⟨_, _, _, -, -, -, h4⟩ := phik_matrix_result hg fl pf hf hnf icf bins quantile noise dropna du dof hsf
  obtain ⟨_, _, _, -, -, -, k4⟩ := phik_matrix_result hg fl pf hgr hng icg bins quantile noise dropna du dof hsg
  rw [ht] at h4
  rw [hu] at k4
  obtain ⟨_, _, _, _, -, -, h5, h6, -⟩ := h4
  obtain ⟨_, _, _, _, -, -, k5, k6, -⟩ := k4
  have e : a.name ∈ t.rows ↔ a.name ∈ u.rows := by
    rw [h6, k6, mem_kept hnf haf, mem_kept hng hag, kept_congr hia]
  refine ⟨e, fun h1 h2 => ?_⟩
  have h1' := e.1 h1
  have hka : Kept (icf.getD (guessIntervalCols f)) dropna a := by rwa [h6, mem_kept hnf haf] at h1
  have hkb : Kept (icf.getD (guessIntervalCols f)) dropna b := by rwa [h6, mem_kept hnf hb1] at h2
  by_cases hab : a.name = b.name
  · rw [← hab]
    have d1 := h5.diag a.name (by rw [← h5.rows]; exact h1)
    have d2 := k5.diag a.name (by rw [← k5.rows]; exact h1')
    rw [d1, d2]
  · obtain ⟨a1, b1, p1, p2, p3⟩ := phik_entry hg hf hnf hsf hbf ht haf hb1 hka hkb hab
    obtain ⟨a2, b2, q1, q2, q3⟩ := phik_entry hg hgr hng hsg hbg hu hag hb2 ((kept_congr hia).1 hka) ((kept_congr hib).1 hkb) hab
    rw [records_congr dropna du dof (p1.unique q1 hia) (p2.unique q2 hib)] at p3
    exact isPhik_unique p3 q3

/-- **C67 for `significance_matrix`.** The same for the significances: with the asymptotic method the entry of two columns is the
same in both results, whatever the other columns, the order of the columns and the simulations; with every method it is the
same if the two columns come in the same order and the simulations for their table are the same. -/
theorem significance_matrix_local {F : Type} (S : SigNum) (R R' : ℕ → SimRun F) (fl : ℚ → ℚ) (pf : String → Option (Option ℚ))
    (bins : Bins) (method : String) (dropna du dof : Bool)
    {r s : Ref} {w w' x x' : World} {f g : Frame} (hf : w.heap[r]? = some f) (hgr : x.heap[s]? = some g)
    (hnf : f.names.Nodup) (hng : g.names.Nodup) {icf icg : Option (List String)}
    (hbf : ∀ c ∈ f.cols, c.name ∈ icf.getD (guessIntervalCols f) → ∃ e, EntryFor bins c.name e ∧ e ≠ .other)
    (hbg : ∀ c ∈ g.cols, c.name ∈ icg.getD (guessIntervalCols g) → ∃ e, EntryFor bins c.name e ∧ e ≠ .other)
    {t u : LTab EReal} (ht : (significanceMatrix S R fl pf r icf bins method dropna du dof).exec w = (.ok t, w'))
    (hu : (significanceMatrix S R' fl pf s icg bins method dropna du dof).exec x = (.ok u, x'))
    {a b : Column} (haf : a ∈ f.cols) (hag : a ∈ g.cols) (hb1 : b ∈ f.cols) (hb2 : b ∈ g.cols)
    (hia : a.name ∈ icf.getD (guessIntervalCols f) ↔ a.name ∈ icg.getD (guessIntervalCols g))
    (hib : b.name ∈ icf.getD (guessIntervalCols f) ↔ b.name ∈ icg.getD (guessIntervalCols g)) :
    (a.name ∈ t.rows ↔ a.name ∈ u.rows) ∧
    (a.name ∈ t.rows → b.name ∈ t.rows →
      (∀ k l, (cwr t.rows)[k]? = some (a.name, b.name) → (cwr u.rows)[l]? = some (a.name, b.name) → R k = R' l →
        t.v a.name b.name = u.v a.name b.name) ∧
      (method = "asymptotic" → ∀ lam, (∀ k, (R k).lambda = lam ∧ (R' k).lambda = lam) →
        t.v a.name b.name = u.v a.name b.name)) := by
  classical
  have hrows : t.rows = (f.cols.filter (fun c => decide (Kept (icf.getD (guessIntervalCols f)) dropna c))).map (·.name) := by
    obtain ⟨_, _, _, -, -, -, h | ⟨_, _, h, -⟩⟩ := significance_matrix_result S R method fl pf hf hnf icf bins dropna du dof
    · obtain ⟨t', _, _, _, _, _, _, h, -, -, -, h8, -⟩ := h
      rw [ht] at h; cases h; exact h8
    · rw [ht] at h; cases h
  have hrows' : u.rows = (g.cols.filter (fun c => decide (Kept (icg.getD (guessIntervalCols g)) dropna c))).map (·.name) := by
    obtain ⟨_, _, _, -, -, -, h | ⟨_, _, h, -⟩⟩ := significance_matrix_result S R' method fl pf hgr hng icg bins dropna du dof
    · obtain ⟨t', _, _, _, _, _, _, h, -, -, -, h8, -⟩ := h
      rw [hu] at h; cases h; exact h8
    · rw [hu] at h; cases h
  have ea : a.name ∈ t.rows ↔ a.name ∈ u.rows := by
    rw [hrows, hrows', mem_kept hnf haf, mem_kept hng hag, kept_congr hia]
  have eb : b.name ∈ t.rows ↔ b.name ∈ u.rows := by
    rw [hrows, hrows', mem_kept hnf hb1, mem_kept hng hb2, kept_congr hib]
  refine ⟨ea, fun h1 h2 => ?_⟩
  have hka : Kept (icf.getD (guessIntervalCols f)) dropna a := by rwa [hrows, mem_kept hnf haf] at h1
  have hkb : Kept (icf.getD (guessIntervalCols f)) dropna b := by rwa [hrows, mem_kept hnf hb1] at h2
  obtain ⟨-, a1, b1, p1, p2, p3, p4, p5⟩ := sig_entry S R method hf hnf hbf ht haf hb1 hka hkb
  obtain ⟨-, a2, b2, q1, q2, q3, q4, q5⟩ := sig_entry S R' method hgr hng hbg hu hag hb2 ((kept_congr hia).1 hka)
    ((kept_congr hib).1 hkb)
  have hrec := records_congr dropna du dof (p1.unique q1 hia) (p2.unique q2 hib)
  constructor
  · intro k l hk hl hR
    have i1 := p4 k hk
    have i2 := q4 l hl
    rw [hrec, hR] at i1
    exact isSig_unique i1 i2
  · rintro rfl lam hR
    have g1 : ∃ k, IsSig S (R k) "asymptotic" (records dropna du dof a1 b1) (t.v a.name b.name) := by
      obtain ⟨k, hk | hk⟩ := pair_index h1 h2
      · exact ⟨k, p4 k hk⟩
      · refine ⟨k, ?_⟩
        rw [p3, ← records_swap]
        exact isSig_swap (p5 k hk)
    have g2 : ∃ k, IsSig S (R' k) "asymptotic" (records dropna du dof a2 b2) (u.v a.name b.name) := by
      obtain ⟨k, hk | hk⟩ := pair_index (ea.1 h1) (eb.1 h2)
      · exact ⟨k, q4 k hk⟩
      · refine ⟨k, ?_⟩
        rw [q3, ← records_swap]
        exact isSig_swap (q5 k hk)
    obtain ⟨k, g1⟩ := g1
    obtain ⟨l, g2⟩ := g2
    rw [hrec] at g1
    exact isSig_unique (isSig_asymptotic ((hR k).1.trans (hR l).2.symm) g1) g2

/-- Two frames sharing the columns `a` (an interval column) and `b`, in another order and with a third column in one of them. -/
def exF : Frame := ⟨3, [⟨"a", true, [.num 1, .nan, .num 5]⟩, ⟨"c", false, [.str "p", .str "q", .str "q"]⟩,
  ⟨"b", false, [.str "x", .str "y", .str "y"]⟩]⟩
def exG : Frame := ⟨3, [⟨"b", false, [.str "x", .str "y", .str "y"]⟩, ⟨"a", true, [.num 1, .nan, .num 5]⟩]⟩

/-- Non-vacuity: both calls return, and the theorem applies. -/
example {nm : Numerics} (hg : GoodNumerics nm) (fl : ℚ → ℚ) (pf : String → Option (Option ℚ)) :
    ∃ t u : LTable, ∃ w' x', (phikMatrix nm none fl pf 0 (some ["a"]) (.one (.num 2)) false true true false false).exec ⟨[exF], []⟩ =
        (.ok t, w') ∧
      (phikMatrix nm none fl pf 0 (some ["a"]) (.one (.num 2)) false true true false false).exec ⟨[exG], []⟩ = (.ok u, x') ∧
      ("a" ∈ t.rows ↔ "a" ∈ u.rows) ∧ ("a" ∈ t.rows → "b" ∈ t.rows → t.v "a" "b" = u.v "a" "b") := by
  have hs : ∀ n, ValidSched n none := fun n o h => by cases h
  have hbins : ∀ n ∈ ["a"], ∃ s, EntryFor (.one (.num 2)) n s ∧ GoodEntry s := fun n _ => ⟨_, .one _ _, by norm_num [GoodEntry]⟩
  obtain ⟨t, w', ht⟩ := phik_matrix_returns hg fl pf (r := 0) (w := ⟨[exF], []⟩) (data := exF) rfl (by decide) (some ["a"])
    (.one (.num 2)) false true true false false (hs _) (by
      intro c hc hn s
      simp only [exF, List.mem_cons, List.not_mem_nil, or_false, Option.getD_some] at hc hn
      rcases hc with rfl | rfl | rfl <;> simp_all) hbins
  obtain ⟨u, x', hu⟩ := phik_matrix_returns hg fl pf (r := 0) (w := ⟨[exG], []⟩) (data := exG) rfl (by decide) (some ["a"])
    (.one (.num 2)) false true true false false (hs _) (by
      intro c hc hn s
      simp only [exG, List.mem_cons, List.not_mem_nil, or_false, Option.getD_some] at hc hn
      rcases hc with rfl | rfl <;> simp_all) hbins
  have hb : ∀ c : Column, ∃ e, EntryFor (.one (.num 2)) c.name e ∧ e ≠ .other := fun c => ⟨_, .one _ _, by simp⟩
  exact ⟨t, u, w', x', ht, hu, phik_matrix_local hg fl pf _ false true true false false (f := exF) (g := exG) rfl rfl (by decide)
    (by decide) (hs _) (hs _) (fun c _ _ => hb c) (fun c _ _ => hb c) ht hu
    (a := ⟨"a", true, [.num 1, .nan, .num 5]⟩) (b := ⟨"b", false, [.str "x", .str "y", .str "y"]⟩)
    (by simp [exF]) (by simp [exG]) (by simp [exF]) (by simp [exG]) Iff.rfl Iff.rfl⟩

end Props

end Phik
