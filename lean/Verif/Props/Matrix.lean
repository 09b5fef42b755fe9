import Verif.Lemmas.Overview
import Verif.Props.DataQuality
import Verif.Props.BinData
import Verif.Props.PhikMore
import Verif.Props.PhikWitness

/-! # Properties C14, C25: the phik matrix -/

namespace Phik

open Spec Props

theorem names_mapCells (f : Frame) (g : Cell → Cell) : (f.mapCells g).names = f.names := by
  simp [Frame.names, Frame.mapCells, Function.comp_def]

theorem applyFlags_names (dropna du dof : Bool) (f : Frame) :
    (applyFlags dropna du dof f).names = f.names := by
  obtain ⟨g, h, -⟩ := applyFlags_cols dropna du dof f
  rw [h, names_mapCells]

/-- The table of two columns after the replacements. -/
theorem flags_table {dropna du dof : Bool} {f : Frame} (hn : f.names.Nodup) {a b : Column} (ha : a ∈ f.cols)
    (hb : b ∈ f.cols) :
    ∃ a' b', (applyFlags dropna du dof f).getCol a.name = .ok a' ∧
      (applyFlags dropna du dof f).getCol b.name = .ok b' ∧
      IsTable (records dropna du dof a b) (histOfPairs (a'.cells.zip b'.cells)) := by
  obtain ⟨g, h1, h2⟩ := applyFlags_cols dropna du dof f
  have hn' : (f.mapCells g).names.Nodup := by rwa [names_mapCells]
  have hmem : ∀ c ∈ f.cols, ({ c with cells := c.cells.map g } : Column) ∈ (f.mapCells g).cols :=
    fun c hc => List.mem_map.2 ⟨c, hc, rfl⟩
  refine ⟨{ a with cells := a.cells.map g }, { b with cells := b.cells.map g }, ?_, ?_, ?_⟩
  · rw [h1]; exact getCol_of_mem hn' (hmem a ha)
  · rw [h1]; exact getCol_of_mem hn' (hmem b hb)
  · have := histOfPairs_table ((a.cells.map g).zip (b.cells.map g))
    rw [List.zip_map] at this ⊢
    rw [List.map_map] at this
    simpa [records, Function.comp_def, h2] using this

theorem table_data {recs : List (Option Cell × Option Cell)} {h : Hist} (ht : IsTable recs h) :
    DataTable h.values := by
  obtain ⟨h1, h2, -⟩ := table_totals ht
  refine ⟨fun i j => ⟨h.v i j, rfl⟩, fun i => ?_, fun j => ?_⟩
  · change Fin h.rows.length at i
    have := h1 i
    by_contra hc
    simp only [FullRow, not_exists, not_not] at hc
    have : h.arr.rowSum i = 0 := Finset.sum_eq_zero fun j _ => by
      have := hc j
      change ((h.v i j : ℕ) : ℝ) = 0 at this
      exact_mod_cast this
    omega
  · change Fin h.cols.length at j
    have := h2 j
    by_contra hc
    simp only [FullCol, not_exists, not_not] at hc
    have : h.arr.colSum j = 0 := Finset.sum_eq_zero fun i _ => by
      have := hc i
      change ((h.v i j : ℕ) : ℝ) = 0 at this
      exact_mod_cast this
    omega

theorem sorted_ext {l l' : List Cell} (h1 : l.Pairwise (· < ·)) (h2 : l'.Pairwise (· < ·))
    (h : ∀ a, a ∈ l ↔ a ∈ l') : l = l' := by
  have hp : l.Perm l' := (List.perm_ext_iff_of_nodup (h1.imp ne_of_lt) (h2.imp ne_of_lt)).2 h
  exact hp.eq_of_pairwise (fun a b _ _ hab hba => absurd hba (not_lt_of_gt hab)) h1 h2

/-- The contingency table of given records is unique. -/
theorem table_unique {recs : List (Option Cell × Option Cell)} {h h' : Hist} (ht : IsTable recs h)
    (ht' : IsTable recs h') : h = h' := by
  obtain ⟨rows, cols, v⟩ := h
  obtain ⟨rows', cols', v'⟩ := h'
  have e1 : rows = rows' := sorted_ext ht.rows_sorted ht'.rows_sorted
    fun a => (ht.rows_mem a).trans (ht'.rows_mem a).symm
  have e2 : cols = cols' := sorted_ext ht.cols_sorted ht'.cols_sorted
    fun a => (ht.cols_mem a).trans (ht'.cols_mem a).symm
  subst e1 e2
  have : v = v' := by
    funext i j
    exact (ht.counts i j).trans (ht'.counts i j).symm
  rw [this]

namespace Props

/-- The value `IsPhik` describes is unique. -/
theorem isPhik_unique {nm : Numerics} {noise : Bool} {recs : List (Option Cell × Option Cell)}
    {v v' : Option ℝ} (h : IsPhik nm noise recs v) (h' : IsPhik nm noise recs v') : v = v' := by
  obtain ⟨t, ht, h⟩ := h
  obtain ⟨t', ht', h'⟩ := h'
  obtain rfl := table_unique ht ht'
  rcases h with ⟨h1, rfl⟩ | ⟨h1, h2, x, hx, rfl⟩
  · rcases h' with ⟨-, rfl⟩ | ⟨g1, g2, -⟩
    · rfl
    · omega
  · rcases h' with ⟨g1, -⟩ | ⟨g1, g2, y, hy, rfl⟩
    · omega
    · rw [hx] at hy; cases hy; rfl

/-- A number described by `IsPhik` lies in [0, 1]. -/
theorem isPhik_range {nm : Numerics} (hb : BrentqSpec nm.brentq) {noise : Bool}
    {recs : List (Option Cell × Option Cell)} {x : ℝ} (h : IsPhik nm noise recs (some x)) :
    0 ≤ x ∧ x ≤ 1 := by
  obtain ⟨t, ht, ⟨-, h⟩ | ⟨-, -, y, hy, h⟩⟩ := h
  · cases h
  · cases h; exact phik_range hb hy

end Props

/-! ### one pair -/

theorem calcPhik_diag (nm : Numerics) (f : Frame) (noise : Bool) (a : String) :
    calcPhik nm f noise (a, a) = .ok (a, a, some 1) := by
  simp [calcPhik, pure, Except.pure]

theorem calcPhik_names {nm : Numerics} {f : Frame} {noise : Bool} {co : String × String}
    {p : String × String × Option ℝ} (h : calcPhik nm f noise co = .ok p) : p.1 = co.1 ∧ p.2.1 = co.2 := by
  unfold calcPhik at h
  split at h
  · simp only [pure, Except.pure, Except.ok.injEq] at h; subst h; exact ⟨rfl, rfl⟩
  · simp only [pure, Except.pure] at h
    obtain ⟨a, -, h⟩ := except_bind_ok h
    obtain ⟨b, -, h⟩ := except_bind_ok h
    split at h
    · cases h; exact ⟨rfl, rfl⟩
    · obtain ⟨x, -, h⟩ := except_bind_ok h
      cases h; exact ⟨rfl, rfl⟩

theorem calcPhik_pair (nm : Numerics) {dropna du dof : Bool} {f : Frame} (noise : Bool) (hn : f.names.Nodup)
    {a b : Column} (ha : a ∈ f.cols) (hb : b ∈ f.cols) (hab : a.name ≠ b.name) :
    (∀ p, calcPhik nm (applyFlags dropna du dof f) noise (a.name, b.name) = .ok p →
      IsPhik nm noise (records dropna du dof a b) p.2.2) ∧
    (GoodNumerics nm → ∃ p, calcPhik nm (applyFlags dropna du dof f) noise (a.name, b.name) = .ok p) := by
  obtain ⟨a', b', e1, e2, ht⟩ := flags_table (dropna := dropna) (du := du) (dof := dof) hn ha hb
  set h := histOfPairs (a'.cells.zip b'.cells) with hh
  have hrun : calcPhik nm (applyFlags dropna du dof f) noise (a.name, b.name) =
      if h.rows.length = 0 ∨ h.cols.length = 0 ∨ h.rows.length = 1 ∨ h.cols.length = 1 then
        .ok (a.name, b.name, none)
      else (phikFromHist2d nm.mvn nm.brentq h.values noise).map fun x => (a.name, b.name, some x) := by
    unfold calcPhik
    simp only [hab, if_false, e1, e2, bind, Except.bind, ← hh]
    split
    · rfl
    · cases phikFromHist2d nm.mvn nm.brentq h.values noise <;> rfl
  rw [hrun]
  by_cases hs : h.rows.length = 0 ∨ h.cols.length = 0 ∨ h.rows.length = 1 ∨ h.cols.length = 1
  · simp only [hs, if_true]
    refine ⟨fun p hp => ?_, fun _ => ⟨_, rfl⟩⟩
    cases hp
    exact ⟨h, ht, .inl ⟨by omega, rfl⟩⟩
  · simp only [hs, if_false]
    refine ⟨fun p hp => ?_, fun hg => ?_⟩
    · cases hx : phikFromHist2d nm.mvn nm.brentq h.values noise with
      | error e => rw [hx] at hp; cases hp
      | ok x =>
        rw [hx] at hp
        cases hp
        exact ⟨h, ht, .inr ⟨by omega, by omega, x, hx, rfl⟩⟩
    · obtain ⟨_, _, _, x, -, -, -, -, -, hx, -⟩ := phik_of_data hg.mvn hg.brentq (table_data ht)
        (show 2 ≤ h.rows.length by omega) (show 2 ≤ h.cols.length by omega) noise
      rw [hx]
      exact ⟨_, rfl⟩

/-! ### all pairs -/

/-- A run of the tasks that returns, returns the results of the tasks in order. -/
theorem runTasks_ok_iff {α : Type} {tasks : List (Except Err α)} {sched : Option (List ℕ)}
    (hs : ValidSched tasks.length sched) (l : List α) :
    runTasks sched tasks = .ok l ↔ tasks = l.map .ok := by
  rw [← mapM_ok_iff]
  cases sched with
  | none => rfl
  | some order => exact (parallel_eq_serial tasks (hs order rfl)).1 l

theorem mem_names_cols {f : Frame} {n : String} (h : n ∈ f.names) : ∃ c ∈ f.cols, c.name = n :=
  List.mem_map.1 h

/-- Results of tasks over all pairs, entered into the overview table. -/
theorem pairs_table {names : List String} (hn : names.Nodup)
    {task : String × String → Except Err (String × String × Option ℝ)}
    (hname : ∀ co p, task co = .ok p → p.1 = co.1 ∧ p.2.1 = co.2)
    (hdiag : ∀ a p, task (a, a) = .ok p → p.2.2 = some 1)
    {l : List (String × String × Option ℝ)} (hl : (cwr names).map task = l.map .ok) :
    IsCorrTable names (fun a b v => ∃ p, task (a, b) = .ok p ∧ p.2.2 = v)
      (((overview l).reindexCols names).reindexRows names) := by
  set val : String → String → Option ℝ := fun a b => match task (a, b) with
    | .ok p => p.2.2
    | .error _ => none with hval
  have hok : ∀ co ∈ cwr names, ∃ p, task co = .ok p ∧ p = (co.1, co.2, val co.1 co.2) := by
    intro co hco
    have : task co ∈ l.map .ok := by rw [← hl]; exact List.mem_map_of_mem hco
    obtain ⟨p, -, hp⟩ := List.mem_map.1 this
    refine ⟨p, hp.symm, ?_⟩
    obtain ⟨h1, h2⟩ := hname co p hp.symm
    have h3 : val co.1 co.2 = p.2.2 := by simp only [hval, ← hp]
    rw [h3, ← h1, ← h2]
  have hl' : l = (cwr names).map fun co => (co.1, co.2, val co.1 co.2) := by
    have : (cwr names).map task = ((cwr names).map fun co => (co.1, co.2, val co.1 co.2)).map .ok := by
      rw [List.map_map]
      apply List.map_congr_left
      intro co hco
      obtain ⟨p, h1, h2⟩ := hok co hco
      rw [h1, h2]; rfl
    rw [hl] at this
    exact List.map_injective_iff.2 (fun a b h => by cases h; rfl) this
  have hov : ∀ a b, (((overview l).reindexCols names).reindexRows names).v a b =
      (overview ((cwr names).map fun co => (co.1, co.2, val co.1 co.2))).v a b := by
    intro a b; rw [overview_reindex, hl']
  refine ⟨rfl, rfl, fun a ha => ?_, fun a ha b hb => ?_, fun a b hab => ?_⟩
  · rw [hov, (overview_pairs hn val (b := a)).1 ha]
    obtain ⟨p, h1, h2⟩ := hok (a, a) (mem_cwr.2 (.inl ⟨rfl, ha⟩))
    have := hdiag a p h1
    rw [h2] at this
    exact this
  · by_cases hab : a = b
    · rw [hab]
    · rw [hov, hov]
      rcases sublist_total ha hb hab with h | h
      · obtain ⟨h1, h2⟩ := (overview_pairs hn val).2 h
        rw [h1, h2]
      · obtain ⟨h1, h2⟩ := (overview_pairs hn val).2 h
        rw [h1, h2]
  · rw [hov, ((overview_pairs hn val).2 hab).1]
    obtain ⟨p, h1, h2⟩ := hok (a, b) (mem_cwr.2 (.inr hab))
    exact ⟨p, h1, by rw [h2]⟩

theorem phikOfFrame_spec {nm : Numerics} {sched : Option (List ℕ)} {f : Frame} (hn : f.names.Nodup)
    (hs : ValidSched (cwr f.names).length sched) {noise dropna du dof : Bool} {t : LTable}
    (h : phikOfFrame nm sched (applyFlags dropna du dof f) noise = .ok t) :
    IsPhikMatrix nm noise dropna du dof f t := by
  unfold phikOfFrame at h
  rw [applyFlags_names] at h
  obtain ⟨l, h1, h⟩ := except_bind_ok h
  rw [runTasks_ok_iff (by simpa using hs)] at h1
  split at h
  · next h0 =>
    cases h
    have hnil : f.names = [] := by
      apply cwr_eq_nil
      have : l = [] := List.length_eq_zero_iff.1 h0
      rw [this] at h1
      simpa using h1
    unfold IsPhikMatrix
    rw [hnil]
    exact ⟨rfl, rfl, by simp, by simp, by simp⟩
  · cases h
    have := pairs_table hn (fun co p hp => calcPhik_names hp)
      (fun a p hp => by rw [calcPhik_diag] at hp; cases hp; rfl) h1
    refine ⟨this.rows, this.cols, this.diag, this.symm, fun a b hab => ?_⟩
    obtain ⟨p, hp, hv⟩ := this.entry a b hab
    obtain ⟨ca, ha, rfl⟩ := mem_names_cols (hab.subset (by simp) : a ∈ f.names)
    obtain ⟨cb, hb, rfl⟩ := mem_names_cols (hab.subset (by simp) : b ∈ f.names)
    refine ⟨ca, ha, cb, hb, rfl, rfl, ?_⟩
    rw [← hv]
    exact (calcPhik_pair nm noise hn ha hb (sublist_ne hn hab)).1 p hp

theorem phikOfFrame_total {nm : Numerics} (hg : GoodNumerics nm) {sched : Option (List ℕ)} {f : Frame}
    (hn : f.names.Nodup) (hs : ValidSched (cwr f.names).length sched) (noise dropna du dof : Bool) :
    ∃ t, phikOfFrame nm sched (applyFlags dropna du dof f) noise = .ok t := by
  have : ∃ l, (cwr f.names).map (calcPhik nm (applyFlags dropna du dof f) noise) = List.map .ok l := by
    apply all_ok
    intro k hk
    rw [List.length_map] at hk
    rw [List.getElem?_map, List.getElem?_eq_getElem hk]
    have hmem := List.getElem_mem hk
    generalize (cwr f.names)[k] = co at hmem
    obtain ⟨a, b⟩ := co
    simp only [Option.map_some, Option.some.injEq]
    rcases mem_cwr.1 hmem with ⟨rfl, -⟩ | hab
    · exact ⟨_, calcPhik_diag ..⟩
    · obtain ⟨ca, ha, rfl⟩ := mem_names_cols (hab.subset (by simp) : a ∈ f.names)
      obtain ⟨cb, hb, rfl⟩ := mem_names_cols (hab.subset (by simp) : b ∈ f.names)
      exact (calcPhik_pair nm noise hn ha hb (sublist_ne hn hab)).2 hg
  obtain ⟨l, hl⟩ := this
  unfold phikOfFrame
  rw [applyFlags_names, (runTasks_ok_iff (by simpa using hs) l).2 hl]
  simp only [bind, Except.bind, pure, Except.pure]
  split <;> exact ⟨_, rfl⟩

namespace Props

/-- **C14 and C25 for `phik_from_rebinned_df`.** For every frame with distinct column names and every
order in which the workers may finish, the call returns the phik matrix of the frame: labels in the order
of the columns, ones on the diagonal, symmetric, and for two different columns phik of their contingency
table (NaN if that has fewer than two rows or columns).  The only effect on the world is on the frame it
was given, whose entries are replaced. -/
theorem phik_matrix_of_frame {nm : Numerics} (hg : GoodNumerics nm) {sched : Option (List ℕ)} {r : Ref}
    {w : World} {f : Frame} (hr : w.heap[r]? = some f) (hn : f.names.Nodup)
    (hs : ValidSched (cwr f.names).length sched) (noise dropna du dof : Bool) :
    ∃ t w', (phikFromRebinned nm sched r noise dropna du dof).exec w = (.ok t, w') ∧
      IsPhikMatrix nm noise dropna du dof f t ∧
      (∀ a ∈ f.names, ∀ b ∈ f.names, ∀ x, t.v a b = some x → 0 ≤ x ∧ x ≤ 1) ∧
      w'.warns = w.warns ∧ (∀ q, q ≠ r → w'.heap[q]? = w.heap[q]?) := by
  obtain ⟨t, ht⟩ := phikOfFrame_total hg hn hs noise dropna du dof
  have hspec := phikOfFrame_spec hn hs ht
  refine ⟨t, ⟨w.heap.set r (applyFlags dropna du dof f), w.warns⟩, ?_, hspec, ?_, rfl, ?_⟩
  · unfold phikFromRebinned
    rw [M.exec_bind, M.exec_read_of hr]
    simp only [M.exec_bind, M.exec_write, M.exec_ofExcept, ht]
  · intro a ha b hb x hx
    have key : ∀ a b, [a, b].Sublist f.names → ∀ x, t.v a b = some x → 0 ≤ x ∧ x ≤ 1 := by
      intro a b hab x hx
      obtain ⟨ca, -, cb, -, -, -, h⟩ := hspec.entry a b hab
      rw [hx] at h
      exact isPhik_range hg.brentq h
    by_cases hab : a = b
    · subst hab
      rw [hspec.diag a ha] at hx
      cases hx; simp
    · rcases sublist_total ha hb hab with h | h
      · exact key a b h x hx
      · rw [hspec.symm a ha b hb] at hx
        exact key b a h x hx
  · intro q hq
    exact List.getElem?_set_ne hq.symm

/-- `IsPhikMatrix` determines the labels and the entries. -/
theorem phik_matrix_unique {nm : Numerics} {noise dropna du dof : Bool} {f : Frame} (hn : f.names.Nodup)
    {t t' : LTable}
    (h : IsPhikMatrix nm noise dropna du dof f t) (h' : IsPhikMatrix nm noise dropna du dof f t') :
    t.rows = t'.rows ∧ t.cols = t'.cols ∧ ∀ a ∈ f.names, ∀ b ∈ f.names, t.v a b = t'.v a b := by
  have key : ∀ a b, [a, b].Sublist f.names → t.v a b = t'.v a b := by
    intro a b hab
    obtain ⟨ca, ha, cb, hb, ea, eb, h1⟩ := h.entry a b hab
    obtain ⟨ca', ha', cb', hb', ea', eb', h1'⟩ := h'.entry a b hab
    have e1 : ca = ca' := by
      have := col?_of_mem hn ha
      rw [ea, ← ea', col?_of_mem hn ha'] at this
      exact (Option.some.inj this).symm
    have e2 : cb = cb' := by
      have := col?_of_mem hn hb
      rw [eb, ← eb', col?_of_mem hn hb'] at this
      exact (Option.some.inj this).symm
    subst e1 e2
    exact isPhik_unique h1 h1'
  refine ⟨h.rows.trans h'.rows.symm, h.cols.trans h'.cols.symm, fun a ha b hb => ?_⟩
  by_cases hab : a = b
  · subst hab; rw [h.diag a ha, h'.diag a ha]
  · rcases sublist_total ha hb hab with h1 | h1
    · exact key a b h1
    · rw [h.symm a ha b hb, h'.symm a ha b hb]; exact key b a h1

end Props
end Phik
