import Verif.Props.MatrixPipeline

/-! # Property C12: calling `phik_from_rebinned_df` again on the same frame -/

namespace Phik

open Spec Props

theorem sorted_short {l : List Cell} (h : l.Pairwise (· < ·)) : l.length < 2 ↔ ∀ a ∈ l, ∀ b ∈ l, a = b := by
  match l, h with
  | [], _ => simp
  | [a], _ => simp
  | a :: b :: l, h =>
    have : a ≠ b := ne_of_lt (List.rel_of_pairwise_cons h (by simp))
    simp only [List.length_cons]
    constructor
    · intro h; omega
    · intro h; exact absurd (h a (by simp) b (by simp)) this

namespace Props

/-- phik is NaN exactly when all records that are kept agree in one of the two entries (or none is kept). -/
theorem isPhik_none_iff {nm : Numerics} {noise : Bool} {recs : List (Option Cell × Option Cell)}
    {v : Option ℝ} (h : IsPhik nm noise recs v) :
    v = none ↔
      (∀ a b a' b', (some a, some b) ∈ recs → (some a', some b') ∈ recs → a = a') ∨
      (∀ a b a' b', (some a, some b) ∈ recs → (some a', some b') ∈ recs → b = b') := by
  obtain ⟨t, ht, h⟩ := h
  have e1 : t.rows.length < 2 ↔
      ∀ a b a' b', (some a, some b) ∈ recs → (some a', some b') ∈ recs → a = a' := by
    rw [sorted_short ht.rows_sorted]
    constructor
    · intro h a b a' b' h1 h2; exact h a ((ht.rows_mem a).2 ⟨b, h1⟩) a' ((ht.rows_mem a').2 ⟨b', h2⟩)
    · intro h a ha a' ha'
      obtain ⟨b, hb⟩ := (ht.rows_mem a).1 ha
      obtain ⟨b', hb'⟩ := (ht.rows_mem a').1 ha'
      exact h a b a' b' hb hb'
  have e2 : t.cols.length < 2 ↔
      ∀ a b a' b', (some a, some b) ∈ recs → (some a', some b') ∈ recs → b = b' := by
    rw [sorted_short ht.cols_sorted]
    constructor
    · intro h a b a' b' h1 h2; exact h b ((ht.cols_mem b).2 ⟨a, h1⟩) b' ((ht.cols_mem b').2 ⟨a', h2⟩)
    · intro h b hb b' hb'
      obtain ⟨a, ha⟩ := (ht.cols_mem b).1 hb
      obtain ⟨a', ha'⟩ := (ht.cols_mem b').1 hb'
      exact h a b a' b' ha ha'
  rw [← e1, ← e2]
  rcases h with ⟨h1, rfl⟩ | ⟨h1, h2, x, -, rfl⟩
  · exact iff_of_true rfl h1
  · simp only [reduceCtorEq, false_iff]; omega

end Props

theorem mapCells_congr {f : Frame} {g g' : Cell → Cell} (h : ∀ c ∈ f.cols, ∀ x ∈ c.cells, g x = g' x) :
    f.mapCells g = f.mapCells g' := by
  unfold Frame.mapCells
  congr 1
  apply List.map_congr_left
  intro c hc
  congr 1
  exact List.map_congr_left (h c hc)

theorem mapCells_id (f : Frame) : f.mapCells (fun c => c) = f := by
  simp [Frame.mapCells]

theorem mapCells_comp (f : Frame) (g g' : Cell → Cell) :
    (f.mapCells g).mapCells g' = f.mapCells fun c => g' (g c) := by
  simp [Frame.mapCells, Function.comp_def]

/-- The replacement of one entry. -/
def flagCell (dropna du dof : Bool) (c : Cell) : Cell :=
  let c := if dropna then c else if c = .nan then .str "NaN" else c
  let c := if du then (if c = .str "UF" then .nan else c) else c
  if dof then (if c = .str "OF" then .nan else c) else c

theorem applyFlags_eq (dropna du dof : Bool) (f : Frame) :
    applyFlags dropna du dof f = f.mapCells (flagCell dropna du dof) := by
  unfold applyFlags Frame.mapCells flagCell
  cases dropna <;> cases du <;> cases dof <;> simp [Function.comp_def]

theorem phikFromRebinned_exec (nm : Numerics) (sched : Option (List ℕ)) {r : Ref} {w : World} {f : Frame}
    (hr : w.heap[r]? = some f) (noise dropna du dof : Bool) :
    (phikFromRebinned nm sched r noise dropna du dof).exec w =
      (phikOfFrame nm sched (applyFlags dropna du dof f) noise,
        ⟨w.heap.set r (applyFlags dropna du dof f), w.warns⟩) := by
  unfold phikFromRebinned
  rw [M.exec_bind, M.exec_read_of hr]
  simp only [M.exec_bind, M.exec_write, M.exec_ofExcept]

namespace Props

/-- **C12 (positive part).** If missing values are dropped, or the frame has no entries 'UF' and 'OF' that
are to be dropped, a second call with the same flags returns (or raises) the same as the first and leaves
the world as it is. -/
theorem reuse_same_flags (nm : Numerics) (sched : Option (List ℕ)) {r : Ref} {w : World} {f : Frame}
    (hr : w.heap[r]? = some f) (noise dropna du dof : Bool)
    (h : dropna = true ∨ ∀ c ∈ f.cols, (du = true → Cell.str "UF" ∉ c.cells) ∧
      (dof = true → Cell.str "OF" ∉ c.cells)) :
    (phikFromRebinned nm sched r noise dropna du dof).exec
        ((phikFromRebinned nm sched r noise dropna du dof).exec w).2 =
      (phikFromRebinned nm sched r noise dropna du dof).exec w := by
  have hrl : r < w.heap.length := (List.getElem?_eq_some_iff.1 hr).1
  have hidem : applyFlags dropna du dof (applyFlags dropna du dof f) = applyFlags dropna du dof f := by
    rw [applyFlags_eq, applyFlags_eq, mapCells_comp]
    apply mapCells_congr
    intro c hc x hx
    rcases h with rfl | h
    · unfold flagCell
      by_cases e1 : x = .str "UF"
      · subst e1; cases du <;> cases dof <;> simp
      · by_cases e2 : x = .str "OF"
        · subst e2; cases du <;> cases dof <;> simp
        · cases du <;> cases dof <;> simp [e1, e2]
    · obtain ⟨h1, h2⟩ := h c hc
      have e1 : du = true → x ≠ .str "UF" := fun hd e => h1 hd (e ▸ hx)
      have e2 : dof = true → x ≠ .str "OF" := fun hd e => h2 hd (e ▸ hx)
      unfold flagCell
      by_cases e3 : x = .nan
      · subst e3; cases dropna <;> cases du <;> cases dof <;> simp
      · cases dropna <;> cases du <;> cases dof <;> simp_all
  rw [phikFromRebinned_exec nm sched hr]
  simp only
  rw [phikFromRebinned_exec nm sched (f := applyFlags dropna du dof f) (by simp [hrl]), hidem]
  simp

/-- The frame of the counterexamples: the only record with a second value of the first column is an
underflow. -/
def ufFrame : Frame :=
  ⟨3, [⟨"a", false, [.str "UF", .num 1, .num 1]⟩, ⟨"b", false, [.str "u", .str "u", .str "v"]⟩]⟩

theorem ufFrame_nodup : ufFrame.names.Nodup := by simp [ufFrame, Frame.names]

theorem uf_entry {nm : Numerics} {noise dropna du dof : Bool} {f : Frame} (hf : f.names = ["a", "b"]) {t : LTable}
    (h : IsPhikMatrix nm noise dropna du dof f t) :
    ∃ ca ∈ f.cols, ∃ cb ∈ f.cols, ca.name = "a" ∧ cb.name = "b" ∧
      IsPhik nm noise (records dropna du dof ca cb) (t.v "a" "b") :=
  h.entry "a" "b" (by rw [hf])

/-- **C12 (violated, same flags).** With `dropna=False` and `drop_underflow=True`, two calls with the same
flags on the same frame return different matrices: the dropped underflow of the first call becomes the
category 'NaN' of the second. -/
theorem reuse_same_flags_violated {nm : Numerics} (hg : GoodNumerics nm) (noise dof : Bool) :
    ∃ t1 t2 w1 w2, (phikFromRebinned nm none 0 noise false true dof).exec ⟨[ufFrame], []⟩ = (.ok t1, w1) ∧
      (phikFromRebinned nm none 0 noise false true dof).exec w1 = (.ok t2, w2) ∧
      t1.v "a" "b" = none ∧ t2.v "a" "b" ≠ none := by
  have hs : ∀ n, ValidSched n none := fun n order h => by cases h
  obtain ⟨t1, w1, h1, h2, -⟩ := phik_matrix_of_frame hg (sched := none) (r := 0) (w := ⟨[ufFrame], []⟩)
    (f := ufFrame) rfl ufFrame_nodup (hs _) noise false true dof
  have hw1 : w1 = ⟨[applyFlags false true dof ufFrame], []⟩ := by
    rw [phikFromRebinned_exec (f := ufFrame) nm none rfl] at h1
    exact (Prod.mk.inj h1).2.symm
  have hf1 : applyFlags false true dof ufFrame =
      ⟨3, [⟨"a", false, [.nan, .num 1, .num 1]⟩, ⟨"b", false, [.str "u", .str "u", .str "v"]⟩]⟩ := by
    cases dof <;> rfl
  rw [hf1] at hw1
  obtain ⟨t2, w2, g1, g2, -⟩ := phik_matrix_of_frame hg (sched := none) (r := 0) (w := w1)
    (f := ⟨3, [⟨"a", false, [.nan, .num 1, .num 1]⟩, ⟨"b", false, [.str "u", .str "u", .str "v"]⟩]⟩)
    (by rw [hw1]; rfl) (by simp [Frame.names]) (hs _) noise false true dof
  refine ⟨t1, t2, w1, w2, h1, g1, ?_, ?_⟩
  · obtain ⟨ca, hca, cb, hcb, na, nb, h⟩ := uf_entry rfl h2
    simp only [ufFrame, List.mem_cons, List.not_mem_nil, or_false] at hca hcb
    rcases hca with rfl | rfl <;> rcases hcb with rfl | rfl <;> simp at na nb
    rw [isPhik_none_iff h]
    left
    intro a b a' b' h1 h2
    simp [records, view] at h1 h2
    rcases h1 with h1 | h1 <;> rcases h2 with h2 | h2 <;> rw [h1.1, h2.1]
  · obtain ⟨ca, hca, cb, hcb, na, nb, h⟩ := uf_entry rfl g2
    simp only [List.mem_cons, List.not_mem_nil, or_false] at hca hcb
    rcases hca with rfl | rfl <;> rcases hcb with rfl | rfl <;> simp at na nb
    rw [Ne, isPhik_none_iff h, not_or]
    constructor
    · intro h'
      have := h' (.str "NaN") (.str "u") (.num 1) (.str "u") (by simp [records, view]) (by simp [records, view])
      cases this
    · intro h'
      have := h' (.num 1) (.str "u") (.num 1) (.str "v") (by simp [records, view]) (by simp [records, view])
      simp at this

/-- **C12 (violated, other flags).** After a call with `drop_underflow=True` a call with
`drop_underflow=False` on the same frame does not see the underflow records any more: the entry is NaN,
where a first call gives a number. -/
theorem reuse_other_flags_violated {nm : Numerics} (hg : GoodNumerics nm) (noise dof : Bool) :
    ∃ t t1 t2 w w1 w2, (phikFromRebinned nm none 0 noise true false dof).exec ⟨[ufFrame], []⟩ = (.ok t, w) ∧
      (phikFromRebinned nm none 0 noise true true dof).exec ⟨[ufFrame], []⟩ = (.ok t1, w1) ∧
      (phikFromRebinned nm none 0 noise true false dof).exec w1 = (.ok t2, w2) ∧
      t.v "a" "b" ≠ none ∧ t2.v "a" "b" = none := by
  have hs : ∀ n, ValidSched n none := fun n order h => by cases h
  obtain ⟨t, w, k1, k2, -⟩ := phik_matrix_of_frame hg (sched := none) (r := 0) (w := ⟨[ufFrame], []⟩)
    (f := ufFrame) rfl ufFrame_nodup (hs _) noise true false dof
  obtain ⟨t1, w1, h1, h2, -⟩ := phik_matrix_of_frame hg (sched := none) (r := 0) (w := ⟨[ufFrame], []⟩)
    (f := ufFrame) rfl ufFrame_nodup (hs _) noise true true dof
  have hw1 : w1 = ⟨[applyFlags true true dof ufFrame], []⟩ := by
    rw [phikFromRebinned_exec (f := ufFrame) nm none rfl] at h1
    exact (Prod.mk.inj h1).2.symm
  have hf1 : applyFlags true true dof ufFrame =
      ⟨3, [⟨"a", false, [.nan, .num 1, .num 1]⟩, ⟨"b", false, [.str "u", .str "u", .str "v"]⟩]⟩ := by
    cases dof <;> rfl
  rw [hf1] at hw1
  obtain ⟨t2, w2, g1, g2, -⟩ := phik_matrix_of_frame hg (sched := none) (r := 0) (w := w1)
    (f := ⟨3, [⟨"a", false, [.nan, .num 1, .num 1]⟩, ⟨"b", false, [.str "u", .str "u", .str "v"]⟩]⟩)
    (by rw [hw1]; rfl) (by simp [Frame.names]) (hs _) noise true false dof
  refine ⟨t, t1, t2, w, w1, w2, k1, h1, g1, ?_, ?_⟩
  · obtain ⟨ca, hca, cb, hcb, na, nb, h⟩ := uf_entry rfl k2
    simp only [ufFrame, List.mem_cons, List.not_mem_nil, or_false] at hca hcb
    rcases hca with rfl | rfl <;> rcases hcb with rfl | rfl <;> simp at na nb
    rw [Ne, isPhik_none_iff h, not_or]
    constructor
    · intro h'
      have := h' (.str "UF") (.str "u") (.num 1) (.str "u") (by simp [records, view]) (by simp [records, view])
      cases this
    · intro h'
      have := h' (.num 1) (.str "u") (.num 1) (.str "v") (by simp [records, view]) (by simp [records, view])
      simp at this
  · obtain ⟨ca, hca, cb, hcb, na, nb, h⟩ := uf_entry rfl g2
    simp only [List.mem_cons, List.not_mem_nil, or_false] at hca hcb
    rcases hca with rfl | rfl <;> rcases hcb with rfl | rfl <;> simp at na nb
    rw [isPhik_none_iff h]
    left
    intro a b a' b' h1 h2
    simp [records, view] at h1 h2
    rcases h1 with h1 | h1 <;> rcases h2 with h2 | h2 <;> rw [h1.1, h2.1]

end Props
end Phik
