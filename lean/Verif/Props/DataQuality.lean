import Verif.Spec.Matrix
import Verif.Lemmas.World

/-! # Property C13: the column quality filter -/

namespace Phik

open Spec

theorem col?_of_mem {f : Frame} (hn : f.names.Nodup) {c : Column} (hc : c ∈ f.cols) :
    f.col? c.name = some c := by
  unfold Frame.col?
  unfold Frame.names at hn
  revert hn hc
  generalize f.cols = l
  intro hn hc
  induction l with
  | nil => cases hc
  | cons d l ih =>
    rw [List.map_cons, List.nodup_cons] at hn
    rcases List.mem_cons.1 hc with rfl | hc
    · simp
    · have : (d.name == c.name) = false := by
        simp only [beq_eq_false_iff_ne]
        intro e
        exact hn.1 (e ▸ List.mem_map_of_mem hc)
      rw [List.find?_cons, this]
      exact ih hn.2 hc

theorem getCol_of_mem {f : Frame} (hn : f.names.Nodup) {c : Column} (hc : c ∈ f.cols) :
    f.getCol c.name = .ok c := by
  unfold Frame.getCol; rw [col?_of_mem hn hc]

theorem nunique_eq (c : Column) : c.nunique = distinct c := by
  unfold Column.nunique distinct
  rw [← Set.ncard_coe_finset]
  congr 1
  ext x
  simp only [List.coe_toFinset, Set.mem_setOf_eq, List.mem_filter, Bool.not_eq_true']
  cases x <;> simp [Cell.isNan]

theorem frame_nunique {f : Frame} (hn : f.names.Nodup) {c : Column} (hc : c ∈ f.cols) :
    f.nunique c.name = distinct c := by
  unfold Frame.nunique; rw [col?_of_mem hn hc]; exact nunique_eq c

theorem exec_warnAll (l : List Warning) (w : World) :
    (M.warnAll l).exec w = (.ok (), { w with warns := w.warns ++ l }) := by
  induction l generalizing w with
  | nil => simp [M.warnAll]
  | cons x xs ih =>
    unfold M.warnAll
    rw [M.exec_bind, M.exec_warn]
    simp only [ih, List.append_assoc, List.singleton_append]

theorem mem_otherCols {f : Frame} {ic : List String} {n : String} :
    n ∈ otherCols f ic ↔ n ∈ f.names ∧ n ∉ ic := by
  simp [otherCols]

/-- A column is dropped exactly if it is not `Kept`. -/
theorem mem_dropCols {f : Frame} (hn : f.names.Nodup) {ic : List String} (dropna : Bool) {c : Column}
    (hc : c ∈ f.cols) :
    c.name ∈ dropCols f (ic.filter fun c => f.names.contains c) dropna ↔ ¬ Kept ic dropna c := by
  have hname : c.name ∈ f.names := List.mem_map_of_mem hc
  unfold dropCols Kept
  simp only [List.mem_append, List.mem_filter, decide_eq_true_eq, mem_otherCols, frame_nunique hn hc,
    List.contains_iff_mem, hname, and_true, true_and, Bool.or_eq_true, Bool.and_eq_true]
  by_cases h1 : c.name ∈ ic
  · simp [h1]
  · cases dropna
    · simp [h1]
    · simp only [h1, not_false_eq_true, true_and, false_and, false_or, and_true, or_true, if_true]
      omega

theorem dropCols_subset {f : Frame} {ic : List String} {dropna : Bool} {n : String}
    (h : n ∈ dropCols f (ic.filter fun c => f.names.contains c) dropna) : n ∈ f.names := by
  unfold dropCols at h
  simp only [List.mem_append, List.mem_filter, mem_otherCols, List.contains_iff_mem] at h
  rcases h with h | h
  · exact h.1.2
  · exact h.1.1

namespace Props

open scoped Classical in
/-- **C13.** The quality check returns a new frame with exactly the columns that satisfy `Kept`, unchanged
and in order, and the requested interval columns that are in that frame, in order; it warns about every
column it drops and about every other-than-interval column with more than 1000 distinct values, and about
nothing else; all existing frames are unchanged. -/
theorem dq_check {r : Ref} {w : World} {data : Frame} (hr : w.heap[r]? = some data)
    (hn : data.names.Nodup) (ic : List String) (dropna : Bool) :
    ∃ ic' w' out ws, (dqCheck r ic dropna).exec w = (.ok (w.heap.length, ic'), w') ∧
      w'.heap = w.heap ++ [out] ∧ out.nrows = data.nrows ∧
      out.cols = data.cols.filter (fun c => decide (Kept ic dropna c)) ∧
      ic' = ic.filter (fun n => decide (n ∈ out.names)) ∧
      w'.warns = w.warns ++ ws ∧
      (∀ x, x ∈ ws ↔ (∃ c ∈ data.cols, x = .notEnoughUnique c.name ∧ ¬ Kept ic dropna c) ∨
        (∃ c ∈ data.cols, x = .manyUnique c.name ∧ c.name ∉ ic ∧ 1000 < distinct c)) := by
  set ic0 := ic.filter (fun c => data.names.contains c) with hic0
  set drop := dropCols data ic0 dropna with hdrop
  set ws := (((otherCols data ic0).filter fun c => decide (1000 < data.nunique c)).map Warning.manyUnique) ++
    drop.map .notEnoughUnique with hws
  have hfilt : data.cols.filter (fun c => !drop.contains c.name) =
      data.cols.filter (fun c => decide (Kept ic dropna c)) := by
    apply List.filter_congr
    intro c hc
    have := mem_dropCols hn dropna (ic := ic) hc
    rw [← hic0, ← hdrop] at this
    by_cases h : Kept ic dropna c
    · simp [h, this]
    · simp [h, this]
  have hwsm : ∀ x, x ∈ ws ↔ (∃ c ∈ data.cols, x = .notEnoughUnique c.name ∧ ¬ Kept ic dropna c) ∨
        (∃ c ∈ data.cols, x = .manyUnique c.name ∧ c.name ∉ ic ∧ 1000 < distinct c) := by
    intro x
    rw [hws, List.mem_append, or_comm]
    refine or_congr ?_ ?_
    · simp only [List.mem_map]
      constructor
      · rintro ⟨n, h1, rfl⟩
        obtain ⟨c, hc, rfl⟩ := List.mem_map.1 (dropCols_subset h1)
        exact ⟨c, hc, rfl, (mem_dropCols hn dropna hc).1 h1⟩
      · rintro ⟨c, hc, rfl, hk⟩
        exact ⟨_, (mem_dropCols hn dropna hc).2 hk, rfl⟩
    · simp only [List.mem_map, List.mem_filter, decide_eq_true_eq, mem_otherCols]
      constructor
      · rintro ⟨n, ⟨⟨h1, h2⟩, h3⟩, rfl⟩
        obtain ⟨c, hc, rfl⟩ := List.mem_map.1 h1
        rw [frame_nunique hn hc] at h3
        refine ⟨c, hc, rfl, fun h => h2 ?_, h3⟩
        rw [hic0, List.mem_filter]
        exact ⟨h, by simpa using h1⟩
      · rintro ⟨c, hc, rfl, h1, h2⟩
        refine ⟨_, ⟨⟨List.mem_map_of_mem hc, fun h => h1 (List.mem_filter.1 h).1⟩, ?_⟩, rfl⟩
        rwa [frame_nunique hn hc]
  have hexec : (dqCheck r ic dropna).exec w =
      (.ok (w.heap.length, ic0.filter fun c => !drop.contains c),
        ⟨w.heap ++ [data.drop drop], w.warns ++ ws⟩) := by
    unfold dqCheck
    rw [M.exec_bind, M.exec_read_of hr]
    simp only [← hic0, ← hdrop, M.exec_bind, exec_warnAll, M.exec_alloc]
    by_cases hd : drop.length > 0
    · simp only [hd, if_true, M.exec_bind, M.exec_write, M.exec_pure]
      simp [hws]
    · have hd' : drop = [] := List.length_eq_zero_iff.1 (by omega)
      rw [if_neg hd, M.exec_pure]
      simp only [hws, hd', Frame.drop, List.contains_nil, Bool.not_false, List.filter_true, List.map_nil,
        List.append_nil]
  refine ⟨_, _, data.drop drop, ws, hexec, rfl, rfl, hfilt, ?_, rfl, hwsm⟩
  rw [hic0, List.filter_filter]
  apply List.filter_congr
  intro n _
  have hmem : n ∈ (data.drop drop).names ↔ n ∈ data.names ∧ n ∉ drop := by
    simp only [Frame.names, Frame.drop, List.mem_map, List.mem_filter, Bool.not_eq_true']
    constructor
    · rintro ⟨c, ⟨h1, h2⟩, rfl⟩
      exact ⟨⟨c, h1, rfl⟩, by simpa using h2⟩
    · rintro ⟨⟨c, h1, rfl⟩, h2⟩
      exact ⟨c, ⟨h1, by simpa using h2⟩, rfl⟩
  by_cases h1 : n ∈ data.names <;> by_cases h2 : n ∈ drop <;> simp [hmem, h1, h2]

/-- An interval column with one value and an absent interval column are ignored, a constant categorical
column is kept because missing values are. -/
example : (dqCheck 0 ["x", "gone", "k"] false).exec
    ⟨[⟨2, [⟨"k", true, [.num 1, .num 1]⟩, ⟨"x", true, [.num 1, .num 2]⟩,
        ⟨"s", false, [.str "u", .nan]⟩]⟩], []⟩ =
    (.ok (1, ["x"]), ⟨[⟨2, [⟨"k", true, [.num 1, .num 1]⟩, ⟨"x", true, [.num 1, .num 2]⟩,
        ⟨"s", false, [.str "u", .nan]⟩]⟩, ⟨2, [⟨"x", true, [.num 1, .num 2]⟩, ⟨"s", false, [.str "u", .nan]⟩]⟩],
      [.notEnoughUnique "k"]⟩) := by with_unfolding_all rfl

end Props
end Phik
