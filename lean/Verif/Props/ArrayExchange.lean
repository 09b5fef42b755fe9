import Verif.Lemmas.RecordOrder
import Verif.Lemmas.Report
import Verif.Props.ColumnNames
import Verif.Props.SigArrays
import Verif.Props.PhikMore
import Verif.Props.HybridWitness
import Verif.Props.OutlierOrder
import Verif.Props.DataQuality

/-! # Property C97: exchange of two arrays -/

namespace Phik
open Spec M Out
namespace Props

/-! ### frames with the columns in the opposite order -/

/-- The frame with its columns in the opposite order. -/
def flipped (f : Frame) : Frame := { f with cols := f.cols.reverse }

theorem flipped_col {f : Frame} {a b : Column} (h : f.cols = [a, b]) (hn : a.name ≠ b.name) (n : String) :
    (flipped f).col? n = f.col? n := by
    unfold Frame.col? flipped
    simp only [h, List.reverse_cons, List.reverse_nil, List.nil_append, List.cons_append, List.find?_cons, List.find?_nil]
    by_cases ha : a.name = n <;> by_cases hb : b.name = n
    · exact absurd (ha.trans hb.symm) hn
    · have hb' : (b.name == n) = false := by simpa using hb
      rw [hb']
    · have ha' : (a.name == n) = false := by simpa using ha
      rw [ha']
    · have ha' : (a.name == n) = false := by simpa using ha
      have hb' : (b.name == n) = false := by simpa using hb
      rw [ha', hb']

theorem flipped_getCol {f : Frame} {a b : Column} (h : f.cols = [a, b]) (hn : a.name ≠ b.name) (n : String) :
    (flipped f).getCol n = f.getCol n := by
  unfold Frame.getCol
  rw [flipped_col h hn]

theorem flipped_setCol (f : Frame) (n : String) (c : Column) : flipped (f.setCol n c) = (flipped f).setCol n c := by
  unfold flipped Frame.setCol
  simp [List.map_reverse]

theorem binLoop_flipped (fl : ℚ → ℚ) (pf : String → Option (Option ℚ)) {f g : Frame} (hg : ∀ n, g.getCol n = f.getCol n)
    (bins : Bins) (q : Bool) (cols : List String) (xb : Option (List ℚ)) (out : Frame) (d : List (String × List (ℚ × ℚ))) :
    binLoop fl pf g bins q cols xb (flipped out) d = (binLoop fl pf f bins q cols xb out d).map fun p => (flipped p.1, p.2) := by
  induction cols generalizing xb out d with
  | nil => rfl
  | cons n rest ih =>
    have h1 : colFloats pf g n = colFloats pf f n := by unfold colFloats; rw [hg]
    have h2 : selectEdges fl pf g bins q n xb = selectEdges fl pf f bins q n xb := by
      unfold selectEdges
      rw [h1]
    unfold binLoop
    rw [h1, h2]
    cases selectEdges fl pf f bins q n xb with
    | error e => rfl
    | ok x =>
      cases colFloats pf f n with
      | error e => rfl
      | ok arr =>
        cases x with
        | none => rfl
        | some e =>
          simp only [bind, Except.bind]
          rw [← flipped_setCol, ih]

theorem binDataCore_flipped (fl : ℚ → ℚ) (pf : String → Option (Option ℚ)) {f : Frame} {a b : Column} (h : f.cols = [a, b])
    (hn : a.name ≠ b.name) (cols : List String) (bins : Bins) (q : Bool) :
    binDataCore fl pf (flipped f) cols bins q = (binDataCore fl pf f cols bins q).map fun p => (flipped p.1, p.2) := by
  unfold binDataCore
  cases dictCheck cols bins with
  | error e => rfl
  | ok u =>
    simp only [bind, Except.bind]
    exact binLoop_flipped fl pf (flipped_getCol h hn) bins q cols _ f []

/-! ### tables -/

/-- The table with rows and columns exchanged. -/
def Hist.flip (h : Hist) : Hist := ⟨h.cols, h.rows, fun j i => h.v i j⟩

theorem histOfPairs_swap (x y : List Cell) : histOfPairs (y.zip x) = Hist.flip (histOfPairs (x.zip y)) := by
  have hz : y.zip x = (x.zip y).map Prod.swap := (List.zip_swap _ _).symm
  have hk : (y.zip x).filter (fun p => !p.1.isNan && !p.2.isNan) =
      ((x.zip y).filter fun p => !p.1.isNan && !p.2.isNan).map Prod.swap := by
    rw [hz, List.filter_map]
    congr 1
    refine List.filter_congr fun p _ => ?_
    exact Bool.and_comm _ _
  have e : ∀ l : List (Cell × Cell), histOfPairs l = histOf
    (((l.filter fun p => !p.1.isNan && !p.2.isNan).map Prod.fst).toFinset)
    (((l.filter fun p => !p.1.isNan && !p.2.isNan).map Prod.snd).toFinset)
    fun p => (l.filter fun p => !p.1.isNan && !p.2.isNan).count p := fun _ => rfl
  have e1 : ∀ l : List (Cell × Cell), (l.map Prod.swap).map Prod.fst = l.map Prod.snd := fun l => by
    rw [List.map_map]; rfl
  have e2 : ∀ l : List (Cell × Cell), (l.map Prod.swap).map Prod.snd = l.map Prod.fst := fun l => by
    rw [List.map_map]; rfl
  have e3 : ∀ (l : List (Cell × Cell)) (p : Cell × Cell), (l.map Prod.swap).count p = l.count p.swap := fun l p => by
    simpa using List.count_map_of_injective l Prod.swap Prod.swap_injective p.swap
  rw [e, e, hk, e1, e2, funext fun p => e3 _ p]
  rfl

theorem flip_values (h : Hist) : (Hist.flip h).values = h.values.transpose := rfl

/-! ### phik and the significance of two binned arrays -/

/-- **C97.** `phik_from_binned_array(y, x)` is `phik_from_binned_array(x, y)`. -/
theorem phik_binned_exchange {nm : Numerics} (hm : MvnSpec nm.mvn) (render : ℚ → String) (x y : List Cell)
    (noise dropna du dof : Bool) (w w' : World) :
    ((phikFromBinnedArray nm render y x noise dropna du dof).exec w').1 =
      ((phikFromBinnedArray nm render x y noise dropna du dof).exec w).1 := by
  by_cases hlen : x.length = y.length
  · have ht := histOfPairs_table ((prepArray render dropna du dof x).zip (prepArray render dropna du dof y))
    unfold phikFromBinnedArray
    simp only [hlen, ne_eq, not_true_eq_false, if_false]
    rw [histOfPairs_swap (prepArray render dropna du dof x)]
    set h := histOfPairs ((prepArray render dropna du dof x).zip (prepArray render dropna du dof y)) with hh
    obtain ⟨ws, e, -⟩ := dqCheckHist2d_exec h.rows.length h.cols.length w
    obtain ⟨ws', e', -⟩ := dqCheckHist2d_exec (Hist.flip h).rows.length (Hist.flip h).cols.length w'
    rw [M.exec_bind, M.exec_bind, e, e']
    by_cases hs : 2 ≤ h.rows.length ∧ 2 ≤ h.cols.length
    · have hs' : 2 ≤ (Hist.flip h).rows.length ∧ 2 ≤ (Hist.flip h).cols.length := hs.symm
      simp only [hs, hs', and_self, decide_true, Bool.not_true, Bool.false_eq_true, if_false]
      rw [M.exec_bind, M.exec_bind, M.exec_ofExcept, M.exec_ofExcept, flip_values,
        phik_transpose hm nm.brentq (data_count (table_data ht) hs.1) noise]
      cases phikFromHist2d nm.mvn nm.brentq h.values noise <;> rfl
    · have hs' : ¬ (2 ≤ (Hist.flip h).rows.length ∧ 2 ≤ (Hist.flip h).cols.length) := fun g => hs g.symm
      simp only [hs, hs', decide_false, Bool.not_false, if_true]
      rfl
  · unfold phikFromBinnedArray
    simp only [ne_eq, hlen, Ne.symm hlen, not_false_eq_true, if_true]
    rfl

variable {F : Type}

/-- **C97.** With the asymptotic method `significance_from_binned_array(y, x)` is `significance_from_binned_array(x, y)`. -/
theorem significance_binned_exchange (S : SigNum) (R : SimRun F) (render : ℚ → String) (x y : List Cell)
    (dropna du dof : Bool) (w w' : World) :
    ((sigFromBinnedArray S R render y x "asymptotic" dropna du dof).exec w').1 =
      ((sigFromBinnedArray S R render x y "asymptotic" dropna du dof).exec w).1 := by
  by_cases hlen : x.length = y.length
  · unfold sigFromBinnedArray
    simp only [hlen, ne_eq, not_true_eq_false, if_false]
    rw [histOfPairs_swap (prepArray render dropna du dof x)]
    set h := histOfPairs ((prepArray render dropna du dof x).zip (prepArray render dropna du dof y)) with hh
    obtain ⟨ws, e, -⟩ := dqCheckHist2d_exec h.rows.length h.cols.length w
    obtain ⟨ws', e', -⟩ := dqCheckHist2d_exec (Hist.flip h).rows.length (Hist.flip h).cols.length w'
    rw [M.exec_bind, M.exec_bind, e, e']
    by_cases hs : 2 ≤ h.rows.length ∧ 2 ≤ h.cols.length
    · have hs' : 2 ≤ (Hist.flip h).rows.length ∧ 2 ≤ (Hist.flip h).cols.length := hs.symm
      simp only [hs, hs', and_self, decide_true, Bool.not_true, Bool.false_eq_true, if_false]
      rw [M.exec_ofExcept, M.exec_ofExcept, flip_values, (asymptotic_symmetric S R h.values).2]
    · have hs' : ¬ (2 ≤ (Hist.flip h).rows.length ∧ 2 ≤ (Hist.flip h).cols.length) := fun g => hs g.symm
      simp only [hs, hs', decide_false, Bool.not_false, if_true]
      rfl
  · unfold sigFromBinnedArray
    simp only [ne_eq, hlen, Ne.symm hlen, not_false_eq_true, if_true]
    rfl

/-! ### arrays with variables to bin -/

theorem read_last (l : List Frame) (f : Frame) (ws : List Warning) :
    (M.read l.length).exec ⟨l ++ [f], ws⟩ = (.ok f, ⟨l ++ [f], ws⟩) := M.exec_read_of (by simp)

theorem arrays_flipped (render : ℚ → String) (nx ny : String) (x y : List Cell) :
    arraysToFrameN render ny nx y x = (arraysToFrameN render nx ny x y).map flipped := by
  unfold arraysToFrameN
  by_cases hlen : x.length = y.length
  · have ha : (y ++ x).any Cell.isStr = (x ++ y).any Cell.isStr := by
      rw [List.any_append, List.any_append, Bool.or_comm]
    rw [if_neg (not_not.2 hlen.symm), if_neg (not_not.2 hlen), ha]
    split
    · simp [Except.map, flipped, hlen]
    · simp [Except.map, flipped, hlen]
  · rw [if_pos (Ne.symm hlen), if_pos hlen]
    rfl

theorem arrays_cols {render : ℚ → String} {nx ny : String} {x y : List Cell} {f : Frame}
    (h : arraysToFrameN render nx ny x y = .ok f) :
    ∃ q cx cy, f.cols = [⟨nx, q, cx⟩, ⟨ny, q, cy⟩] := by
  unfold arraysToFrameN at h
  split at h
  · cases h
  · split at h <;> cases h
    · exact ⟨_, _, _, rfl⟩
    · exact ⟨_, _, _, rfl⟩

theorem two_cols {fl : ℚ → ℚ} {pf : String → Option (Option ℚ)} {f out : Frame} {ic : List String} {bins : Bins} {q : Bool}
    {d : List (String × List (ℚ × ℚ))} {a b : Column} (hf : f.cols = [a, b])
    (h : binDataCore fl pf f ic bins q = .ok (out, d)) : ∃ cx cy, out.cols = [cx, cy] := by
  obtain ⟨g1, -⟩ := binDataCore_names h
  have hlen : out.cols.length = 2 := by
    have := congrArg List.length g1
    simpa [Frame.names, hf] using this
  exact List.length_eq_two.1 hlen

/-- **C97 (Series with names).** `phik_from_array` of two Series with different names is the same when the two arguments are
exchanged; exceptions are the same too. -/
theorem phik_series_exchange {nm : Numerics} (hm : MvnSpec nm.mvn) (render : ℚ → String) (fl : ℚ → ℚ)
    (pf : String → Option (Option ℚ)) {nx ny : String} (hn : nx ≠ ny) (x y : List Cell) (nv : List String) (bins : Bins)
    (quantile noise dropna du dof : Bool) (w w' : World) :
    ((phikFromArrayN nm render fl pf ny nx y x nv bins quantile noise dropna du dof).exec w').1 =
      ((phikFromArrayN nm render fl pf nx ny x y nv bins quantile noise dropna du dof).exec w).1 := by
  unfold phikFromArrayN
  by_cases hv : nv.length > 0
  · simp only [hv, if_true, M.exec_bind, M.exec_ofExcept, arrays_flipped render nx ny]
    cases hf : arraysToFrameN render nx ny x y with
    | error e => rfl
    | ok f =>
      obtain ⟨q, cx, cy, hc⟩ := arrays_cols hf
      have hr : (⟨w.heap ++ [f], w.warns⟩ : World).heap[w.heap.length]? = some f := by simp
      have hr' : (⟨w'.heap ++ [flipped f], w'.warns⟩ : World).heap[w'.heap.length]? = some (flipped f) := by simp
      simp only [Except.map, M.exec_alloc]
      rw [binData_exec fl pf hr, binData_exec fl pf hr', binDataCore_flipped fl pf hc hn]
      cases hb : binDataCore fl pf f nv bins quantile with
      | error e => rfl
      | ok p =>
        obtain ⟨out, d⟩ := p
        obtain ⟨a, b, hab⟩ := two_cols hc hb
        simp only [Except.map]
        rw [read_last, read_last]
        simp only [hab, flipped, List.reverse_cons, List.reverse_nil, List.nil_append, List.cons_append]
        exact phik_binned_exchange hm render _ _ noise dropna du dof _ _
  · simp only [hv, if_false]
    exact phik_binned_exchange hm render x y noise dropna du dof w w'

/-- **C97 (Series with names).** The same for `significance_from_array` with the asymptotic method. -/
theorem significance_series_exchange (S : SigNum) (R : SimRun F) (render : ℚ → String) (fl : ℚ → ℚ)
    (pf : String → Option (Option ℚ)) {nx ny : String} (hn : nx ≠ ny) (x y : List Cell) (nv : List String) (bins : Bins)
    (quantile dropna du dof : Bool) (w w' : World) :
    ((sigFromArrayN S R render fl pf ny nx y x nv bins quantile "asymptotic" dropna du dof).exec w').1 =
      ((sigFromArrayN S R render fl pf nx ny x y nv bins quantile "asymptotic" dropna du dof).exec w).1 := by
  unfold sigFromArrayN
  by_cases hv : nv.length > 0
  · simp only [hv, if_true, M.exec_bind, M.exec_ofExcept, arrays_flipped render nx ny]
    cases hf : arraysToFrameN render nx ny x y with
    | error e => rfl
    | ok f =>
      obtain ⟨q, cx, cy, hc⟩ := arrays_cols hf
      have hr : (⟨w.heap ++ [f], w.warns⟩ : World).heap[w.heap.length]? = some f := by simp
      have hr' : (⟨w'.heap ++ [flipped f], w'.warns⟩ : World).heap[w'.heap.length]? = some (flipped f) := by simp
      simp only [Except.map, M.exec_alloc]
      rw [binData_exec fl pf hr, binData_exec fl pf hr', binDataCore_flipped fl pf hc hn]
      cases hb : binDataCore fl pf f nv bins quantile with
      | error e => rfl
      | ok p =>
        obtain ⟨out, d⟩ := p
        obtain ⟨a, b, hab⟩ := two_cols hc hb
        simp only [Except.map]
        rw [read_last, read_last]
        simp only [hab, flipped, List.reverse_cons, List.reverse_nil, List.nil_append, List.cons_append]
        exact significance_binned_exchange S R render _ _ dropna du dof _ _
  · simp only [hv, if_false]
    exact significance_binned_exchange S R render x y dropna du dof w w'

/-! ### tables of two columns -/

theorem flipped_mapCells (f : Frame) (g : Cell → Cell) : (flipped f).mapCells g = flipped (f.mapCells g) := by
  unfold flipped Frame.mapCells
  simp [List.map_reverse]

theorem flipped_flags (dropna du dof : Bool) (f : Frame) :
    applyFlags dropna du dof (flipped f) = flipped (applyFlags dropna du dof f) := by
  unfold applyFlags
  cases dropna <;> cases du <;> cases dof <;> simp [flipped_mapCells]

theorem hist_exec2 {r : Ref} {w : World} {f : Frame} (hr : w.heap[r]? = some f) {a b a' b' : Column} (hf : f.cols = [a, b])
    {dropna du dof : Bool} (h : (applyFlags dropna du dof f).cols = [a', b']) :
    (hist2dFromRebinned r dropna du dof).exec w =
      (.ok (histOfPairs (a'.cells.zip b'.cells)), { w with heap := w.heap.set r (applyFlags dropna du dof f) }) := by
  unfold hist2dFromRebinned
  rw [M.exec_bind, M.exec_read_of hr]
  have hl : ¬ f.cols.length ≠ 2 := by simp [hf]
  simp only [hl, if_false, M.exec_bind, M.exec_write, h]
  rfl

/-- **C97 (`hist2d_from_array` of two Series).** With the arguments exchanged the table is transposed, labels included; the bins
are the same. -/
theorem hist2d_series_exchange (render : ℚ → String) (fl : ℚ → ℚ) (pf : String → Option (Option ℚ)) {nx ny : String}
    (hn : nx ≠ ny) (x y : List Cell) (ic : List String) (bins : Bins) (quantile dropna du dof : Bool) (w w' : World) :
    ((hist2dFromArrayN render fl pf ny nx y x (some ic) bins quantile dropna du dof).exec w').1 =
      ((hist2dFromArrayN render fl pf nx ny x y (some ic) bins quantile dropna du dof).exec w).1.map
        fun p => (Hist.flip p.1, p.2) := by
  unfold hist2dFromArrayN hist2d
  simp only [M.exec_bind, M.exec_ofExcept, arrays_flipped render nx ny]
  cases hf : arraysToFrameN render nx ny x y with
  | error e => rfl
  | ok f =>
    obtain ⟨q, cx, cy, hc⟩ := arrays_cols hf
    have hc' : (flipped f).cols.length = 2 := by simp [flipped, hc]
    have hl : f.cols.length = 2 := by simp [hc]
    have hr : (⟨w.heap ++ [f], w.warns⟩ : World).heap[w.heap.length]? = some f := by simp
    have hr' : (⟨w'.heap ++ [flipped f], w'.warns⟩ : World).heap[w'.heap.length]? = some (flipped f) := by simp
    simp only [Except.map, M.exec_alloc, M.exec_read_of hr, M.exec_read_of hr', hl, hc', ne_eq, not_true_eq_false, if_false,
      M.exec_bind, Option.getD_some]
    rw [binData_exec fl pf hr, binData_exec fl pf hr', binDataCore_flipped fl pf hc hn]
    cases hb : binDataCore fl pf f ic bins quantile with
    | error e => rfl
    | ok p =>
      obtain ⟨out, d⟩ := p
      obtain ⟨a, b, hab⟩ := two_cols hc hb
      have hab' : (flipped out).cols = [b, a] := by simp [flipped, hab]
      obtain ⟨a', b', h1, -⟩ := hist_of_flags dropna du dof out hab
      have h1' : (applyFlags dropna du dof (flipped out)).cols = [b', a'] := by
        rw [flipped_flags]
        simp [flipped, h1]
      simp only [Except.map]
      rw [hist_exec2 (by simp) hab' h1', hist_exec2 (by simp) hab h1, histOfPairs_swap]
      rfl

/-! ### outlier matrices -/

/-- The results of a call for an outlier matrix and of the call with the variables exchanged: both raise, both return NaN, or both
return a matrix, one the transposed of the other. -/
def Exchanged : Except Err (Option OutTab) → Except Err (Option OutTab) → Prop
  | .ok none, .ok none => True
  | .ok (some t), .ok (some u) => IsTransposed t u
  | .error _, .error _ => True
  | _, _ => False

/-- The outlier matrix of a table with two columns. -/
noncomputable def outOf (N : OutNum) (fmt : ℚ → String) (d : List (String × List (ℚ × ℚ))) (ci : String) (a b : Column) (h : Hist) :
    Except Err (Option OutTab) :=
  if (h.rows.length = 1 ∨ h.cols.length = 1) ∨ (h.rows.length = 0 ∨ h.cols.length = 0) then .ok none
  else match relabel fmt d a h.rows, relabel fmt d b h.cols, outlierFromHist2d N h.arr ci with
    | .ok rows, .ok cols, .ok t =>
      if hs : t.r = rows.length ∧ t.c = cols.length then
        .ok (some ⟨rows, cols, fun i j => (t.v (i.cast hs.1.symm) (j.cast hs.2.symm)).2⟩)
      else .error .value
    | .error e, _, _ => .error e
    | _, .error e, _ => .error e
    | _, _, .error e => .error e

theorem out_exec (N : OutNum) (fmt : ℚ → String) (d : List (String × List (ℚ × ℚ))) (ci : String) {r : Ref} {w : World} {f : Frame}
    (hr : w.heap[r]? = some f) {a b a' b' : Column} (hf : f.cols = [a, b])
    {dropna du dof : Bool} (h : (applyFlags dropna du dof f).cols = [a', b']) :
    ((outlierFromRebinned N fmt r d ci dropna du dof).exec w).1 =
      outOf N fmt d ci a' b' (histOfPairs (a'.cells.zip b'.cells)) := by
  have hlt : r < w.heap.length := (List.getElem?_eq_some_iff.1 hr).1
  have hr2 : (⟨w.heap.set r (applyFlags dropna du dof f), w.warns⟩ : World).heap[r]? = some (applyFlags dropna du dof f) := by
    simp [hlt]
  unfold outlierFromRebinned outOf
  rw [M.exec_bind, hist_exec2 hr hf h]
  dsimp only
  rw [M.exec_bind, M.exec_read_of hr2]
  dsimp only
  rw [h]
  dsimp only
  set H := histOfPairs (a'.cells.zip b'.cells)
  by_cases hs : (H.rows.length = 1 ∨ H.cols.length = 1) ∨ (H.rows.length = 0 ∨ H.cols.length = 0)
  · simp only [hs, if_true]
    rfl
  · simp only [hs, if_false, M.exec_bind, M.exec_ofExcept]
    cases relabel fmt d a' H.rows with
    | error e => cases relabel fmt d b' H.cols <;> cases outlierFromHist2d N H.arr ci <;> rfl
    | ok rows =>
      cases relabel fmt d b' H.cols with
      | error e => cases outlierFromHist2d N H.arr ci <;> rfl
      | ok cols =>
        cases outlierFromHist2d N H.arr ci with
        | error e => rfl
        | ok t =>
          dsimp only
          split <;> rfl

theorem hist2d_shape {N : OutNum} {t : Arr2 ℕ} {ci : String} {u : Arr2 (Option ℝ × FVal)} (h : outlierFromHist2d N t ci = .ok u) :
    ∃ g, u = ⟨t.r, t.c, g⟩ := by
  unfold outlierFromHist2d at h
  split at h
  · cases h
  · obtain ⟨g, hg, -⟩ := cells2_inv h
    exact ⟨g, hg⟩

theorem outOf_flip (N : OutNum) (fmt : ℚ → String) (d : List (String × List (ℚ × ℚ))) (ci : String) (a b : Column) (h : Hist) :
    Exchanged (outOf N fmt d ci a b h) (outOf N fmt d ci b a (Hist.flip h)) := by
  unfold outOf
  by_cases hs : (h.rows.length = 1 ∨ h.cols.length = 1) ∨ (h.rows.length = 0 ∨ h.cols.length = 0)
  · have hs' : ((Hist.flip h).rows.length = 1 ∨ (Hist.flip h).cols.length = 1) ∨
        ((Hist.flip h).rows.length = 0 ∨ (Hist.flip h).cols.length = 0) := by
      change (h.cols.length = 1 ∨ h.rows.length = 1) ∨ (h.cols.length = 0 ∨ h.rows.length = 0)
      tauto
    rw [if_pos hs, if_pos hs']
    trivial
  · have hs' : ¬ (((Hist.flip h).rows.length = 1 ∨ (Hist.flip h).cols.length = 1) ∨
        ((Hist.flip h).rows.length = 0 ∨ (Hist.flip h).cols.length = 0)) := by
      change ¬ ((h.cols.length = 1 ∨ h.rows.length = 1) ∨ (h.cols.length = 0 ∨ h.rows.length = 0))
      tauto
    rw [if_neg hs, if_neg hs']
    change Exchanged _ (match relabel fmt d b h.cols, relabel fmt d a h.rows, outlierFromHist2d N (Hist.flip h).arr ci with
      | .ok rows, .ok cols, .ok t => _
      | .error e, _, _ => _
      | _, .error e, _ => _
      | _, _, .error e => _)
    cases hra : relabel fmt d a h.rows with
    | error e =>
      cases relabel fmt d b h.cols <;> cases outlierFromHist2d N h.arr ci <;> cases outlierFromHist2d N (Hist.flip h).arr ci <;> trivial
    | ok rows =>
      cases hrb : relabel fmt d b h.cols with
      | error e =>
        cases outlierFromHist2d N h.arr ci <;> cases outlierFromHist2d N (Hist.flip h).arr ci <;> trivial
      | ok cols =>
        cases ht : outlierFromHist2d N h.arr ci with
        | error e =>
          cases ht' : outlierFromHist2d N (Hist.flip h).arr ci with
          | error e => trivial
          | ok u =>
            obtain ⟨g, rfl⟩ := hist2d_shape ht'
            have := outlier_exchange N ci (fun j i => h.v i j) ht'
            rw [show outlierFromHist2d N h.arr ci = _ from this] at ht
            cases ht
        | ok t =>
          obtain ⟨g, rfl⟩ := hist2d_shape ht
          have h2 := outlier_exchange N ci h.v ht
          rw [show outlierFromHist2d N (Hist.flip h).arr ci = _ from h2]
          dsimp only
          have e1 : rows.length = h.rows.length := relabel_length hra
          have e2 : cols.length = h.cols.length := relabel_length hrb
          have q1 : h.arr.r = rows.length ∧ h.arr.c = cols.length := ⟨e1.symm, e2.symm⟩
          have q2 : h.cols.length = cols.length ∧ h.rows.length = rows.length := ⟨e2.symm, e1.symm⟩
          rw [dif_pos q1, dif_pos q2]
          refine ⟨rfl, rfl, ?_⟩
          rintro i j ⟨i', hi'⟩ ⟨j', hj'⟩ h1 h2
          cases h1
          cases h2
          rfl

/-! ### the order of the interval columns -/

/-- The entry of this column in a dictionary `bins`, if there is one, is a number of bins or edges: one that `bin_data` knows. -/
def KnownEntry (bins : Bins) (n : String) : Prop := ∀ d, bins = .dict d → d.lookup n ≠ some .other

theorem selectEdges_known {fl : ℚ → ℚ} {pf : String → Option (Option ℚ)} {f : Frame} {bins : Bins} {q : Bool} {n : String}
    (h : bins.entry n ≠ .other) (xb : Option (List ℚ)) :
    selectEdges fl pf f bins q n xb = selectEdges fl pf f bins q n none ∧
      ∀ o, selectEdges fl pf f bins q n none = .ok o → ∃ e, o = some e := by
  unfold selectEdges
  cases he : bins.entry n with
  | num m =>
    refine ⟨rfl, fun o ho => ?_⟩
    dsimp only at ho
    obtain ⟨arr, -, ho⟩ := except_bind_ok ho
    obtain ⟨e, -, ho⟩ := except_bind_ok ho
    cases ho
    exact ⟨e, rfl⟩
  | edges l =>
    refine ⟨rfl, fun o ho => ?_⟩
    cases ho
    exact ⟨l, rfl⟩
  | other => exact absurd he h

theorem known_entry {fl : ℚ → ℚ} {pf : String → Option (Option ℚ)} {f : Frame} {bins : Bins} {q : Bool} {n : String}
    {cols : List String} {p : Frame × List (String × List (ℚ × ℚ))} (h : binDataCore fl pf f cols bins q = .ok p) (hn : n ∈ cols)
    (hk : KnownEntry bins n) : bins.entry n ≠ .other := by
  unfold binDataCore at h
  cases bins with
  | one s =>
    rintro rfl
    cases cols with
    | nil => cases hn
    | cons c l =>
      obtain ⟨u, -, h⟩ := except_bind_ok h
      unfold binLoop at h
      obtain ⟨u, hu, h⟩ := except_bind_ok h
      cases hu
      obtain ⟨arr, -, h⟩ := except_bind_ok h
      cases h
  | dict d =>
    obtain ⟨u, hu, -⟩ := except_bind_ok h
    unfold dictCheck at hu
    dsimp only at hu
    split_ifs at hu with ha
    have h1 := (List.all_eq_true.1 ha) n hn
    have h2 := hk d rfl
    unfold Bins.entry
    dsimp only
    cases hd : d.lookup n with
    | none => rw [hd] at h1; cases h1
    | some s =>
      rw [hd] at h2
      intro e
      exact h2 (by rw [← e])

theorem setCol_comm (f : Frame) {a b : String} (hab : a ≠ b) (ca cb : List Cell) :
    (f.setCol a ⟨a, false, ca⟩).setCol b ⟨b, false, cb⟩ = (f.setCol b ⟨b, false, cb⟩).setCol a ⟨a, false, ca⟩ := by
  unfold Frame.setCol
  simp only [List.map_map, Frame.mk.injEq, true_and]
  refine List.map_congr_left fun c _ => ?_
  simp only [Function.comp_apply, beq_iff_eq]
  by_cases h1 : c.name = a
  · have h2 : c.name ≠ b := fun e => hab (h1.symm.trans e)
    simp [h1, hab]
  · by_cases h2 : c.name = b
    · simp [h2, hab.symm]
    · simp [h1, h2]

theorem binDataCore_order {fl : ℚ → ℚ} {pf : String → Option (Option ℚ)} {f o : Frame} {bins : Bins} {q : Bool} {a b : String}
    (hab : a ≠ b) (ha : KnownEntry bins a) (hb : KnownEntry bins b) {d : List (String × List (ℚ × ℚ))}
    (h : binDataCore fl pf f [a, b] bins q = .ok (o, d)) :
    ∃ d', binDataCore fl pf f [b, a] bins q = .ok (o, d') ∧ ∀ n, d'.lookup n = d.lookup n := by
  replace ha := known_entry h (by simp) ha
  replace hb := known_entry h (by simp) hb
  unfold binDataCore at h ⊢
  have hd : dictCheck [b, a] bins = dictCheck [a, b] bins := by
    unfold dictCheck
    cases bins with
    | one s => rfl
    | dict l =>
      simp only [List.all_cons, List.all_nil, Bool.and_true]
      rw [Bool.and_comm]
  rw [hd]
  cases hc : dictCheck [a, b] bins with
  | error e => rw [hc] at h; cases h
  | ok u =>
    rw [hc] at h
    simp only [bind, Except.bind] at h ⊢
    unfold binLoop at h
    rw [(selectEdges_known ha _).1] at h
    obtain ⟨xa, hxa, h⟩ := except_bind_ok h
    obtain ⟨ea, rfl⟩ := (selectEdges_known ha none).2 _ hxa
    obtain ⟨va, hva, h⟩ := except_bind_ok h
    dsimp only at h
    unfold binLoop at h
    rw [(selectEdges_known hb _).1] at h
    obtain ⟨xb', hxb, h⟩ := except_bind_ok h
    obtain ⟨eb, rfl⟩ := (selectEdges_known hb none).2 _ hxb
    obtain ⟨vb, hvb, h⟩ := except_bind_ok h
    dsimp only at h
    unfold binLoop at h
    cases h
    refine ⟨(a, (binArray va ea).2) :: List.filter (fun p => p.1 != a) ((b, (binArray vb eb).2) :: List.filter (fun p => p.1 != b) []),
      ?_, ?_⟩
    · unfold binLoop
      rw [(selectEdges_known hb _).1, hxb, hvb]
      simp only [bind, Except.bind]
      unfold binLoop
      rw [(selectEdges_known ha _).1, hxa, hva]
      simp only [bind, Except.bind]
      unfold binLoop
      rw [setCol_comm f hab]
    · intro n
      have h1 : (a != b) = true := by simpa using hab
      have h2 : (b != a) = true := by simpa using hab.symm
      simp only [List.filter_nil, List.filter_cons, h1, h2, if_true, List.lookup_cons, List.lookup_nil]
      by_cases e1 : n = a
      · subst e1
        have : (n == b) = false := by simpa using hab
        simp [this]
      · have : (n == a) = false := by simpa using e1
        simp [this]

/-! ### frames of two columns -/

theorem dq_exec {r : Ref} {w : World} {f : Frame} (hr : w.heap[r]? = some f) (ic : List String) (dropna : Bool) :
    ∃ ws, (dqCheck r ic dropna).exec w = (.ok (w.heap.length,
        (ic.filter fun c => f.names.contains c).filter fun c => !(dropCols f (ic.filter fun c => f.names.contains c) dropna).contains c),
      ⟨w.heap ++ [f.drop (dropCols f (ic.filter fun c => f.names.contains c) dropna)], ws⟩) := by
  set ic0 := ic.filter (fun c => f.names.contains c) with hic0
  set drop := dropCols f ic0 dropna with hdrop
  refine ⟨w.warns ++
    (((otherCols f ic0).filter fun c => decide (1000 < f.nunique c)).map Warning.manyUnique ++
    drop.map .notEnoughUnique), ?_⟩
  unfold dqCheck
  rw [M.exec_bind, M.exec_read_of hr]
  simp only [← hic0, ← hdrop, M.exec_bind, exec_warnAll, M.exec_alloc]
  by_cases hd : drop.length > 0
  · simp only [hd, if_true, M.exec_bind, M.exec_write, M.exec_pure]
    simp
  · have hd' : drop = [] := List.length_eq_zero_iff.1 (by omega)
    rw [if_neg hd, M.exec_pure]
    simp only [hd', Frame.drop, List.contains_nil, Bool.not_false, List.filter_true, List.map_nil, List.append_nil]

theorem hist_not_two {r : Ref} {w : World} {f : Frame} (hr : w.heap[r]? = some f) (hf : f.cols.length ≠ 2) (dropna du dof : Bool) :
    ∃ w', (hist2dFromRebinned r dropna du dof).exec w = (.error .value, w') := by
  unfold hist2dFromRebinned
  rw [M.exec_bind, M.exec_read_of hr]
  simp only [hf, ne_eq, not_false_eq_true, if_true]
  exact ⟨_, rfl⟩

/-- The quality check finds fault with one of the two columns. -/
def Faulty (f : Frame) (ic : List String) (dropna : Bool) : Prop :=
  ∃ c ∈ f.cols, c.name ∈ dropCols f (ic.filter fun c => f.names.contains c) dropna

/-- The outlier matrix of a frame of two columns: an exception if a column is dropped; otherwise the matrix of the table of the
binned columns. -/
theorem outlier_frame_exec (N : OutNum) (fmt : ℚ → String) (fl : ℚ → ℚ) (pf : String → Option (Option ℚ)) {r : Ref} {w : World}
    {f : Frame} (hr : w.heap[r]? = some f) {a b : Column} (hf : f.cols = [a, b]) (ic : List String) (ci : String) (bins : Bins)
    (quantile dropna du dof : Bool) :
    (Faulty f ic dropna ∧ ∃ e, ((outlierMatrix N fmt fl pf r (some ic) ci bins quantile dropna du dof).exec w).1 = .error e) ∨
    (¬ Faulty f ic dropna ∧
      ((∃ e, binDataCore fl pf f (ic.filter fun c => f.names.contains c) bins quantile = .error e ∧
        ((outlierMatrix N fmt fl pf r (some ic) ci bins quantile dropna du dof).exec w).1 = .error e) ∨
      ∃ o d a' b', binDataCore fl pf f (ic.filter fun c => f.names.contains c) bins quantile = .ok (o, d) ∧
        (applyFlags dropna du dof o).cols = [a', b'] ∧
        ((outlierMatrix N fmt fl pf r (some ic) ci bins quantile dropna du dof).exec w).1 =
          (outOf N fmt d ci a' b' (histOfPairs (a'.cells.zip b'.cells))).map fun t => (t, d))) := by
  set ic0 := ic.filter (fun c => f.names.contains c) with hic0
  set drop := dropCols f ic0 dropna with hdrop
  obtain ⟨ws, hdq⟩ := dq_exec hr ic dropna
  simp only [← hic0, ← hdrop] at hdq
  have hl : ¬ f.cols.length ≠ 2 := by simp [hf]
  have hrd : (⟨w.heap ++ [f.drop drop], ws⟩ : World).heap[w.heap.length]? = some (f.drop drop) := by simp
  have hrun : (outlierMatrix N fmt fl pf r (some ic) ci bins quantile dropna du dof).exec w =
      (do
        let (binned, dict) ← binData fl pf w.heap.length (ic0.filter fun c => !drop.contains c) bins quantile
        let t ← outlierFromRebinned N fmt binned dict ci dropna du dof
        pure (t, dict) : M _).exec ⟨w.heap ++ [f.drop drop], ws⟩ := by
    unfold outlierMatrix
    rw [M.exec_bind, M.exec_read_of hr]
    simp only [hl, if_false, Option.getD_some]
    rw [M.exec_bind, hdq]
  rw [hrun]
  simp only [M.exec_bind]
  rw [binData_exec fl pf hrd]
  by_cases hF : Faulty f ic dropna
  · left
    refine ⟨hF, ?_⟩
    have hshort : (f.drop drop).cols.length ≠ 2 := by
      obtain ⟨c, hc, hm⟩ := hF
      have hlt : (f.drop drop).cols.length < f.cols.length := by
        unfold Frame.drop
        refine List.length_filter_lt_length_iff_exists.2 ⟨c, hc, ?_⟩
        have : drop.contains c.name = true := List.contains_iff_mem.2 hm
        rw [this]
        decide
      rw [hf] at hlt
      exact hlt.ne
    cases hb : binDataCore fl pf (f.drop drop) (ic0.filter fun c => !drop.contains c) bins quantile with
    | error e => exact ⟨e, rfl⟩
    | ok p =>
      obtain ⟨o, d⟩ := p
      obtain ⟨g1, -⟩ := binDataCore_names hb
      have ho : o.cols.length ≠ 2 := by
        have := congrArg List.length g1
        simp only [Frame.names, List.length_map] at this
        rwa [this]
      obtain ⟨w', hw'⟩ := hist_not_two (r := (w.heap ++ [f.drop drop]).length) (w := ⟨w.heap ++ [f.drop drop] ++ [o], ws⟩)
        (f := o) (by simp) ho dropna du dof
      refine ⟨.value, ?_⟩
      dsimp only
      unfold outlierFromRebinned
      rw [M.exec_bind, hw']
  · right
    refine ⟨hF, ?_⟩
    have hno : ∀ n ∈ f.names, drop.contains n = false := by
      intro n hn
      obtain ⟨c, hc, rfl⟩ := List.mem_map.1 hn
      have : c.name ∉ drop := fun h => hF ⟨c, hc, h⟩
      simpa using this
    have e1 : f.drop drop = f := by
      unfold Frame.drop
      rw [List.filter_eq_self.2]
      intro c hc
      rw [hno _ (List.mem_map.2 ⟨c, hc, rfl⟩)]
      rfl
    have e2 : (ic0.filter fun c => !drop.contains c) = ic0 := by
      refine List.filter_eq_self.2 fun c hc => ?_
      have : c ∈ f.names := by
        rw [hic0] at hc
        simpa using (List.mem_filter.1 hc).2
      rw [hno c this]
      rfl
    rw [e1, e2]
    cases hb : binDataCore fl pf f ic0 bins quantile with
    | error e => exact .inl ⟨e, rfl, rfl⟩
    | ok p =>
      obtain ⟨o, d⟩ := p
      obtain ⟨u, v, huv⟩ := two_cols hf hb
      obtain ⟨a', b', h1, -⟩ := hist_of_flags dropna du dof o huv
      refine .inr ⟨o, d, a', b', rfl, h1, ?_⟩
      dsimp only
      have hx := out_exec N fmt d ci (r := (w.heap ++ [f]).length) (w := ⟨w.heap ++ [f] ++ [o], ws⟩) (by simp) huv h1
      rw [← hx]
      rcases (outlierFromRebinned N fmt (w.heap ++ [f]).length d ci dropna du dof).exec ⟨w.heap ++ [f] ++ [o], ws⟩ with ⟨res, w1⟩
      cases res <;> rfl

theorem mem_dropCols {f : Frame} {ic : List String} {dropna : Bool} {n : String} :
    n ∈ dropCols f ic dropna ↔ (n ∈ ic ∧ f.nunique n < 2) ∨
      ((n ∈ f.names ∧ n ∉ ic) ∧ (f.nunique n = 0 ∨ (f.nunique n = 1 ∧ dropna = true))) := by
  unfold dropCols otherCols
  simp [List.mem_append, List.mem_filter]

theorem flipped_names (f : Frame) : (flipped f).names = f.names.reverse := by
  unfold Frame.names flipped
  simp

theorem faulty_flipped {f : Frame} {a b : Column} (hf : f.cols = [a, b]) (hn : a.name ≠ b.name) {ic ic' : List String}
    (hic : ∀ n, n ∈ ic' ↔ n ∈ ic) (dropna : Bool) : Faulty (flipped f) ic' dropna ↔ Faulty f ic dropna := by
  have hnu : ∀ n, (flipped f).nunique n = f.nunique n := fun n => by
    unfold Frame.nunique
    rw [flipped_col hf hn]
  unfold Faulty
  simp only [mem_dropCols, hnu, flipped_names, List.mem_reverse, List.mem_filter, List.contains_iff_mem, hic]
  simp [flipped]

theorem outOf_congr (N : OutNum) (fmt : ℚ → String) {d d' : List (String × List (ℚ × ℚ))} (h : ∀ n, d'.lookup n = d.lookup n)
    (ci : String) (a b : Column) (H : Hist) : outOf N fmt d' ci a b H = outOf N fmt d ci a b H := by
  have hr : ∀ c l, relabel fmt d' c l = relabel fmt d c l := fun c l => by
    unfold relabel
    rw [h]
  unfold outOf
  rw [hr, hr]

/-- The two lists of interval columns are the same, or hold the same two columns, for which `bins` has known entries. -/
def SameIntervals (bins : Bins) (nx ny : String) (ic ic' : List String) : Prop :=
  ic' = ic ∨ (ic = [nx, ny] ∧ ic' = [ny, nx] ∧ KnownEntry bins nx ∧ KnownEntry bins ny)

theorem binDataCore_exchange (fl : ℚ → ℚ) (pf : String → Option (Option ℚ)) {f : Frame} {a b : Column} (hf : f.cols = [a, b])
    (hn : a.name ≠ b.name) {bins : Bins} {ic ic' : List String} (hic : SameIntervals bins a.name b.name ic ic') (q : Bool) :
    (∃ e e', binDataCore fl pf f (ic.filter fun c => f.names.contains c) bins q = .error e ∧
      binDataCore fl pf (flipped f) (ic'.filter fun c => (flipped f).names.contains c) bins q = .error e') ∨
    ∃ o d d', binDataCore fl pf f (ic.filter fun c => f.names.contains c) bins q = .ok (o, d) ∧
      binDataCore fl pf (flipped f) (ic'.filter fun c => (flipped f).names.contains c) bins q = .ok (flipped o, d') ∧
      ∀ n, d'.lookup n = d.lookup n := by
  have hc : ∀ n, (flipped f).names.contains n = f.names.contains n := fun n => by
    rw [flipped_names, List.contains_reverse]
  simp only [hc, binDataCore_flipped fl pf hf hn]
  rcases hic with rfl | ⟨rfl, rfl, ka, kb⟩
  · cases h : binDataCore fl pf f (ic'.filter fun c => f.names.contains c) bins q with
    | error e => exact .inl ⟨e, e, rfl, rfl⟩
    | ok p => exact .inr ⟨p.1, p.2, p.2, rfl, rfl, fun _ => rfl⟩
  · have ha : f.names.contains a.name = true := by
      rw [List.contains_iff_mem]; simp [Frame.names, hf]
    have hb : f.names.contains b.name = true := by
      rw [List.contains_iff_mem]; simp [Frame.names, hf]
    have e1 : [a.name, b.name].filter (fun c => f.names.contains c) = [a.name, b.name] := by
      rw [List.filter_cons, if_pos ha, List.filter_cons, if_pos hb]; rfl
    have e2 : [b.name, a.name].filter (fun c => f.names.contains c) = [b.name, a.name] := by
      rw [List.filter_cons, if_pos hb, List.filter_cons, if_pos ha]; rfl
    rw [e1, e2]
    cases h : binDataCore fl pf f [a.name, b.name] bins q with
    | error e =>
      cases h' : binDataCore fl pf f [b.name, a.name] bins q with
      | error e' => exact .inl ⟨e, e', rfl, rfl⟩
      | ok p =>
        obtain ⟨d', hd', -⟩ := binDataCore_order hn.symm kb ka h'
        rw [h] at hd'
        cases hd'
    | ok p =>
      obtain ⟨d', hd', hl⟩ := binDataCore_order hn ka kb h
      exact .inr ⟨p.1, p.2, d', rfl, by rw [hd']; rfl, hl⟩

/-- **C97 (frames).** `outlier_significance_matrix` of a frame with its two columns in the opposite order: both calls raise, both
return NaN, or the second matrix is the transposed of the first. -/
theorem outlier_frame_exchange (N : OutNum) (fmt : ℚ → String) (fl : ℚ → ℚ) (pf : String → Option (Option ℚ)) {r r' : Ref}
    {w w' : World} {f : Frame} {a b : Column} (hf : f.cols = [a, b]) (hn : a.name ≠ b.name) (hr : w.heap[r]? = some f)
    (hr' : w'.heap[r']? = some (flipped f)) {bins : Bins} {ic ic' : List String} (hic : SameIntervals bins a.name b.name ic ic')
    (ci : String) (quantile dropna du dof : Bool) :
    Exchanged (((outlierMatrix N fmt fl pf r (some ic) ci bins quantile dropna du dof).exec w).1.map Prod.fst)
      (((outlierMatrix N fmt fl pf r' (some ic') ci bins quantile dropna du dof).exec w').1.map Prod.fst) := by
  have hf' : (flipped f).cols = [b, a] := by simp [flipped, hf]
  have hmem : ∀ n, n ∈ ic' ↔ n ∈ ic := by
    rcases hic with rfl | ⟨rfl, rfl, -⟩
    · exact fun _ => Iff.rfl
    · intro n; simp [or_comm]
  have hF := faulty_flipped hf hn hmem dropna
  rcases outlier_frame_exec N fmt fl pf hr hf ic ci bins quantile dropna du dof with ⟨h1, e, he⟩ | ⟨h1, h2⟩
  · rcases outlier_frame_exec N fmt fl pf hr' hf' ic' ci bins quantile dropna du dof with ⟨-, e', he'⟩ | ⟨h1', -⟩
    · rw [he, he']
      trivial
    · exact absurd (hF.2 h1) h1'
  · rcases outlier_frame_exec N fmt fl pf hr' hf' ic' ci bins quantile dropna du dof with ⟨h1', -⟩ | ⟨-, h2'⟩
    · exact absurd (hF.1 h1') h1
    · rcases binDataCore_exchange fl pf hf hn hic quantile with ⟨e, e', g1, g2⟩ | ⟨o, d, d', g1, g2, g3⟩
      · rw [g1] at h2
        rw [g2] at h2'
        rcases h2 with ⟨e1, -, h2⟩ | ⟨_, _, _, _, h, -⟩
        · rcases h2' with ⟨e2, -, h2'⟩ | ⟨_, _, _, _, h, -⟩
          · rw [h2, h2']
            trivial
          · cases h
        · cases h
      · rw [g1] at h2
        rw [g2] at h2'
        rcases h2 with ⟨e1, h, -⟩ | ⟨_, _, a', b', h, k1, k2⟩
        · cases h
        cases h
        rcases h2' with ⟨e1, h, -⟩ | ⟨_, _, b'', a'', h, k1', k2'⟩
        · cases h
        cases h
        rw [flipped_flags] at k1'
        have : [b'', a''] = [b', a'] := by rw [← k1']; simp [flipped, k1]
        cases this
        rw [k2, k2', histOfPairs_swap a'.cells b'.cells, outOf_congr N fmt g3]
        have hx := outOf_flip N fmt d ci a' b' (histOfPairs (a'.cells.zip b'.cells))
        revert hx
        cases outOf N fmt d ci a' b' (histOfPairs (a'.cells.zip b'.cells)) <;>
          cases outOf N fmt d ci b' a' (Hist.flip (histOfPairs (a'.cells.zip b'.cells))) <;> exact id

/-! ### outlier matrices and tables of two Series -/

theorem guess_arrays {render : ℚ → String} {nx ny : String} {x y : List Cell} {f : Frame}
    (h : arraysToFrameN render nx ny x y = .ok f) :
    (guessIntervalCols f = [] ∧ guessIntervalCols (flipped f) = []) ∨
      (guessIntervalCols f = [nx, ny] ∧ guessIntervalCols (flipped f) = [ny, nx]) := by
  obtain ⟨q, cx, cy, hc⟩ := arrays_cols h
  unfold guessIntervalCols
  cases q
  · left; simp [flipped, hc]
  · right; simp [flipped, hc]

theorem sameIntervals_arrays {render : ℚ → String} {nx ny : String} {x y : List Cell} {f : Frame}
    (h : arraysToFrameN render nx ny x y = .ok f) {bins : Bins} {nv : Option (List String)}
    (hnv : nv = none → KnownEntry bins nx ∧ KnownEntry bins ny) :
    SameIntervals bins nx ny (nv.getD (guessIntervalCols f)) (nv.getD (guessIntervalCols (flipped f))) := by
  cases nv with
  | some l => exact .inl rfl
  | none =>
    rcases guess_arrays h with ⟨h1, h2⟩ | ⟨h1, h2⟩
    · left; simp [h1, h2]
    · right; simp [h1, h2, hnv rfl]

/-- **C97 (Series with names).** `outlier_significance_from_array` of two Series, with the arguments exchanged: both calls raise,
both return NaN, or the second matrix is the transposed of the first.  When the interval variables are guessed, a dictionary
`bins` must have no unsupported entry for them. -/
theorem outlier_series_exchange (N : OutNum) (fmt render : ℚ → String) (fl : ℚ → ℚ) (pf : String → Option (Option ℚ))
    {nx ny : String} (hn : nx ≠ ny) (x y : List Cell) {nv : Option (List String)} {bins : Bins}
    (hnv : nv = none → KnownEntry bins nx ∧ KnownEntry bins ny) (quantile : Bool) (ci : String) (dropna du dof : Bool)
    (w w' : World) :
    Exchanged ((outlierFromArrayN N fmt render fl pf nx ny x y nv bins quantile ci dropna du dof).exec w).1
      ((outlierFromArrayN N fmt render fl pf ny nx y x nv bins quantile ci dropna du dof).exec w').1 := by
  unfold outlierFromArrayN
  simp only [M.exec_bind, M.exec_ofExcept, arrays_flipped render nx ny]
  cases hf : arraysToFrameN render nx ny x y with
  | error e => trivial
  | ok f =>
    obtain ⟨q, cx, cy, hc⟩ := arrays_cols hf
    have hr : (⟨w.heap ++ [f], w.warns⟩ : World).heap[w.heap.length]? = some f := by simp
    have hr' : (⟨w'.heap ++ [flipped f], w'.warns⟩ : World).heap[w'.heap.length]? = some (flipped f) := by simp
    have key := outlier_frame_exchange N fmt fl pf hc hn hr hr' (sameIntervals_arrays hf hnv) ci quantile dropna du dof
    simp only [Except.map, M.exec_alloc]
    revert key
    rcases (outlierMatrix N fmt fl pf w.heap.length (some (nv.getD (guessIntervalCols f))) ci bins quantile dropna du dof).exec
      ⟨w.heap ++ [f], w.warns⟩ with ⟨res, w1⟩
    rcases (outlierMatrix N fmt fl pf w'.heap.length (some (nv.getD (guessIntervalCols (flipped f)))) ci bins quantile dropna du
      dof).exec ⟨w'.heap ++ [flipped f], w'.warns⟩ with ⟨res', w1'⟩
    cases res <;> cases res' <;> exact id

/-- The results of two calls of `hist2d`: both raise, or the second table is the transposed of the first and the bins of every
column are the same. -/
def HistExchanged : Except Err (Hist × List (String × List (ℚ × ℚ))) → Except Err (Hist × List (String × List (ℚ × ℚ))) → Prop
  | .ok p, .ok p' => p'.1 = Hist.flip p.1 ∧ ∀ n, p'.2.lookup n = p.2.lookup n
  | .error _, .error _ => True
  | _, _ => False

/-- **C97 (`hist2d_from_array` of two Series).** The same when the interval variables are guessed, if a dictionary `bins` has no
unsupported entry for them. -/
theorem hist2d_series_exchange_guess (render : ℚ → String) (fl : ℚ → ℚ) (pf : String → Option (Option ℚ)) {nx ny : String}
    (hn : nx ≠ ny) (x y : List Cell) {ic : Option (List String)} {bins : Bins}
    (hic : ic = none → KnownEntry bins nx ∧ KnownEntry bins ny) (quantile dropna du dof : Bool) (w w' : World) :
    HistExchanged ((hist2dFromArrayN render fl pf nx ny x y ic bins quantile dropna du dof).exec w).1
      ((hist2dFromArrayN render fl pf ny nx y x ic bins quantile dropna du dof).exec w').1 := by
  unfold hist2dFromArrayN hist2d
  simp only [M.exec_bind, M.exec_ofExcept, arrays_flipped render nx ny]
  cases hf : arraysToFrameN render nx ny x y with
  | error e => trivial
  | ok f =>
    obtain ⟨q, cx, cy, hc⟩ := arrays_cols hf
    have hc' : (flipped f).cols.length = 2 := by simp [flipped, hc]
    have hl : f.cols.length = 2 := by simp [hc]
    have hr : (⟨w.heap ++ [f], w.warns⟩ : World).heap[w.heap.length]? = some f := by simp
    have hr' : (⟨w'.heap ++ [flipped f], w'.warns⟩ : World).heap[w'.heap.length]? = some (flipped f) := by simp
    simp only [Except.map, M.exec_alloc, M.exec_read_of hr, M.exec_read_of hr', hl, hc', ne_eq, not_true_eq_false, if_false,
      M.exec_bind]
    rw [binData_exec fl pf hr, binData_exec fl pf hr']
    have key : (∃ e e', binDataCore fl pf f (ic.getD (guessIntervalCols f)) bins quantile = .error e ∧
        binDataCore fl pf (flipped f) (ic.getD (guessIntervalCols (flipped f))) bins quantile = .error e') ∨
      ∃ o d d', binDataCore fl pf f (ic.getD (guessIntervalCols f)) bins quantile = .ok (o, d) ∧
        binDataCore fl pf (flipped f) (ic.getD (guessIntervalCols (flipped f))) bins quantile = .ok (flipped o, d') ∧
        ∀ n, d'.lookup n = d.lookup n := by
      rw [binDataCore_flipped fl pf hc hn]
      rcases sameIntervals_arrays hf hic with h | ⟨h1, h2, ka, kb⟩
      · rw [h]
        cases binDataCore fl pf f (ic.getD (guessIntervalCols f)) bins quantile with
        | error e => exact .inl ⟨e, e, rfl, rfl⟩
        | ok p => exact .inr ⟨p.1, p.2, p.2, rfl, rfl, fun _ => rfl⟩
      · rw [h1, h2]
        cases h : binDataCore fl pf f [nx, ny] bins quantile with
        | error e =>
          cases h' : binDataCore fl pf f [ny, nx] bins quantile with
          | error e' => exact .inl ⟨e, e', rfl, rfl⟩
          | ok p =>
            obtain ⟨d', hd', -⟩ := binDataCore_order hn.symm kb ka h'
            rw [h] at hd'
            cases hd'
        | ok p =>
          obtain ⟨d', hd', hl⟩ := binDataCore_order hn ka kb h
          exact .inr ⟨p.1, p.2, d', rfl, by rw [hd']; rfl, hl⟩
    rcases key with ⟨e, e', g1, g2⟩ | ⟨o, d, d', g1, g2, g3⟩
    · rw [g1, g2]
      trivial
    · rw [g1, g2]
      obtain ⟨a, b, hab⟩ := two_cols hc g1
      have hab' : (flipped o).cols = [b, a] := by simp [flipped, hab]
      obtain ⟨a', b', h1, -⟩ := hist_of_flags dropna du dof o hab
      have h1' : (applyFlags dropna du dof (flipped o)).cols = [b', a'] := by
        rw [flipped_flags]
        simp [flipped, h1]
      dsimp only
      rw [hist_exec2 (by simp) hab h1, hist_exec2 (by simp) hab' h1']
      exact ⟨histOfPairs_swap _ _, g3⟩

/-! ### arrays -/

/-- The name 'x' for 'y' and 'y' for 'x'. -/
def swapXY (s : String) : String := if s = "x" then "y" else if s = "y" then "x" else s

theorem swapXY_invol (s : String) : swapXY (swapXY s) = s := by
  unfold swapXY
  by_cases h1 : s = "x"
  · simp [h1]
  · by_cases h2 : s = "y"
    · simp [h2]
    · simp [h1, h2]

theorem swapXY_inj : Function.Injective swapXY := Function.LeftInverse.injective swapXY_invol

theorem swapXY_map (l : List String) : (l.map swapXY).map swapXY = l := by
  rw [List.map_map, show swapXY ∘ swapXY = id from funext swapXY_invol, List.map_id]

theorem swapXY_bins (bins : Bins) : renameBins swapXY (renameBins swapXY bins) = bins := by
  cases bins with
  | one s => rfl
  | dict d =>
    change Bins.dict ((d.map fun p => (swapXY p.1, p.2)).map fun p => (swapXY p.1, p.2)) = _
    rw [List.map_map]
    congr 1
    conv_rhs => rw [← List.map_id d]
    refine List.map_congr_left fun p _ => ?_
    simp [swapXY_invol]

theorem endAlike_eq {α : Type} {ρ : String → String} {w : World} {r : Ref} {a b : Except Err α × World}
    (h : EndAlike ρ w r Eq a b) : a.1 = b.1 := by
  obtain ⟨h, -⟩ := h
  rcases a with ⟨a, wa⟩
  rcases b with ⟨b, wb⟩
  cases a <;> cases b <;> simp_all

/-- **C97.** The functions of two arrays with the arguments exchanged, and the names 'x' and 'y' in `num_vars`, `interval_cols` and
`bins` too: `phik_from_array` and (asymptotic method) `significance_from_array` give the same result or the same exception,
`hist2d_from_array` gives the transposed table and `outlier_significance_from_array` the transposed matrix. -/
theorem array_exchange {nm : Numerics} (hm : MvnSpec nm.mvn) (S : SigNum) (R : SimRun F) (N : OutNum) (fmt render : ℚ → String)
    (fl : ℚ → ℚ) (pf : String → Option (Option ℚ)) (x y : List Cell) (nv : List String) {ic : Option (List String)} {bins : Bins}
    (hic : ic = none → KnownEntry bins "x" ∧ KnownEntry bins "y") (ci : String) (quantile noise dropna du dof : Bool) (w w' : World) :
    ((phikFromArray nm render fl pf y x (nv.map swapXY) (renameBins swapXY bins) quantile noise dropna du dof).exec w').1 =
      ((phikFromArray nm render fl pf x y nv bins quantile noise dropna du dof).exec w).1 ∧
    ((sigFromArray S R render fl pf y x (nv.map swapXY) (renameBins swapXY bins) quantile "asymptotic" dropna du dof).exec w').1 =
      ((sigFromArray S R render fl pf x y nv bins quantile "asymptotic" dropna du dof).exec w).1 ∧
    Exchanged ((outlierFromArray N fmt render fl pf x y ic bins quantile ci dropna du dof).exec w).1
      ((outlierFromArray N fmt render fl pf y x (ic.map (List.map swapXY)) (renameBins swapXY bins) quantile ci
        dropna du dof).exec w').1 ∧
    HistExchanged ((hist2dFromArray render fl pf x y ic bins quantile dropna du dof).exec w).1
      (((hist2dFromArray render fl pf y x (ic.map (List.map swapXY)) (renameBins swapXY bins) quantile
        dropna du dof).exec w').1.map fun p => (p.1, renameKeys swapXY p.2)) := by
  obtain ⟨h1, h2, h3, h4⟩ := series_names swapXY_inj nm S R N fmt render fl pf y x (nv.map swapXY) (ic.map (List.map swapXY))
    (renameBins swapXY bins) "asymptotic" ci quantile noise dropna du dof w'
  have hx : swapXY "x" = "y" := by decide
  have hy : swapXY "y" = "x" := by decide
  have hi : (ic.map (List.map swapXY)).map (List.map swapXY) = ic := by
    cases ic with
    | none => rfl
    | some l => simp only [Option.map_some, swapXY_map]
  rw [swapXY_map, swapXY_bins, hx, hy] at h1 h2
  rw [hi, swapXY_bins, hx, hy] at h3 h4
  have hne : "x" ≠ "y" := by decide
  refine ⟨?_, ?_, ?_, ?_⟩
  · rw [endAlike_eq h1]
    exact phik_series_exchange hm render fl pf hne x y nv bins quantile noise dropna du dof w w'
  · rw [endAlike_eq h2]
    exact significance_series_exchange S R render fl pf hne x y nv bins quantile dropna du dof w w'
  · rw [endAlike_eq h3]
    exact outlier_series_exchange N fmt render fl pf hne x y hic quantile ci dropna du dof w w'
  · have key := hist2d_series_exchange_guess render fl pf hne x y hic quantile dropna du dof w w'
    have h5 := h4.1
    revert key h5
    change HistExchanged _ _ → _ → HistExchanged ((hist2dFromArrayN render fl pf "x" "y" x y ic bins quantile dropna du dof).exec w).1 _
    generalize ((hist2dFromArrayN render fl pf "x" "y" x y ic bins quantile dropna du dof).exec w).1 = A
    generalize ((hist2dFromArrayN render fl pf "y" "x" y x ic bins quantile dropna du dof).exec w').1 = B
    generalize ((hist2dFromArray render fl pf y x (ic.map (List.map swapXY)) (renameBins swapXY bins) quantile
        dropna du dof).exec w').1 = C
    intro k1 k2
    cases A <;> cases B <;> cases C <;> simp_all [HistExchanged, Except.map]

/-- The lists ['a', 'a', 'b'] and ['u', 'v', 'v']: both calls return a table, the second one the first with rows and columns
exchanged; ('a', 'u') is counted once, whichever list comes first. -/
example (nm : Numerics) (hm : MvnSpec nm.mvn) (S : SigNum) (R : SimRun F) (N : OutNum) (fmt render : ℚ → String) (fl : ℚ → ℚ)
    (pf : String → Option (Option ℚ)) (w w' : World) :
    ∃ h, ((hist2dFromArray render fl pf [.str "a", .str "a", .str "b"] [.str "u", .str "v", .str "v"] none (.one (.num 10)) false true true
        true).exec w).1 = .ok (h, []) ∧
      ((hist2dFromArray render fl pf [.str "u", .str "v", .str "v"] [.str "a", .str "a", .str "b"] none (.one (.num 10)) false true true
        true).exec w').1 = .ok (Hist.flip h, []) ∧ Cell.str "a" ∈ h.rows ∧ Cell.str "a" ∉ h.cols := by
  obtain ⟨h, w1, h1, t1⟩ := hist2d_array_text render fl pf (x := [.str "a", .str "a", .str "b"]) (y := [.str "u", .str "v", .str "v"]) rfl
    (s := "a") (by simp) (ic := none) (.inl rfl) (.one (.num 10)) false true true true w
  obtain ⟨h', w2, h2, t2⟩ := hist2d_array_text render fl pf (x := [.str "u", .str "v", .str "v"]) (y := [.str "a", .str "a", .str "b"]) rfl
    (s := "a") (by simp) (ic := none) (.inl rfl) (.one (.num 10)) false true true true w'
  have key := (array_exchange hm S R N fmt render fl pf [.str "a", .str "a", .str "b"] [.str "u", .str "v", .str "v"] []
    (ic := none) (bins := .one (.num 10)) (by intro; simp [KnownEntry]) "exact" false false true true true w w').2.2.2
  have e : renameBins swapXY (.one (.num 10)) = .one (.num 10) := rfl
  rw [Option.map_none, e, h1, h2] at key
  refine ⟨h, by rw [h1], ?_, ?_, ?_⟩
  · rw [h2]
    have : h' = Hist.flip h := key.1
    rw [this]
  · refine (t1.rows_mem _).2 ⟨.str "u", ?_⟩
    simp [asStr, view]
  · intro hc
    obtain ⟨r, hr⟩ := (t1.cols_mem _).1 hc
    simp [asStr, view] at hr

/-- **C97 violated: an unsupported entry in `bins`.** The lists [0, 1] and [0, 1] with `bins` = {'x': 'auto', 'y': [0, 1]} (any
unsupported value for one, edges for the other) and the interval variables guessed: `hist2d_from_array(x, y)` raises
UnboundLocalError, the exchanged call with the exchanged dictionary returns a table, the second variable binned with the edges of
the first. -/
theorem hist2d_exchange_violated (render : ℚ → String) (fl : ℚ → ℚ) (pf : String → Option (Option ℚ)) (w w' : World) :
    ((hist2dFromArray render fl pf [.num 0, .num 1] [.num 0, .num 1] none (.dict [("x", .other), ("y", .edges [0, 1])]) false true
        true true).exec w).1 = .error .unboundLocal ∧
    ∃ p, ((hist2dFromArray render fl pf [.num 0, .num 1] [.num 0, .num 1] none
        (renameBins swapXY (.dict [("x", .other), ("y", .edges [0, 1])])) false true true true).exec w').1 = .ok p := by
  have hl : ([.num 0, .num 1] : List Cell).length = ([.num 0, .num 1] : List Cell).length := rfl
  rw [((hist2d_array_result render fl pf [.num 0, .num 1] [.num 0, .num 1] none _ false true true true w).2 hl).1,
    ((hist2d_array_result render fl pf [.num 0, .num 1] [.num 0, .num 1] none _ false true true true w').2 hl).1]
  have hf : arrayFrame render [.num 0, .num 1] [.num 0, .num 1] =
      ⟨2, [⟨"x", true, [.num 0, .num 1]⟩, ⟨"y", true, [.num 0, .num 1]⟩]⟩ := by
    unfold arrayFrame
    rw [if_neg (by simp)]
    rfl
  rw [hf]
  set f : Frame := ⟨2, [⟨"x", true, [.num 0, .num 1]⟩, ⟨"y", true, [.num 0, .num 1]⟩]⟩ with hdata
  have hr : (⟨w.heap ++ [f], w.warns⟩ : World).heap[w.heap.length]? = some f := by simp
  have hr' : (⟨w'.heap ++ [f], w'.warns⟩ : World).heap[w'.heap.length]? = some f := by simp
  have hl2 : f.cols.length = 2 := rfl
  have e1 : binDataCore fl pf f ((none : Option (List String)).getD (guessIntervalCols f))
      (.dict [("x", .other), ("y", .edges [0, 1])]) false = .error .unboundLocal := rfl
  have e2 : ∃ o d a b, binDataCore fl pf f ((none : Option (List String)).getD (guessIntervalCols f))
      (renameBins swapXY (.dict [("x", .other), ("y", .edges [0, 1])])) false = .ok (o, d) ∧ o.cols = [a, b] := ⟨_, _, _, _, rfl, rfl⟩
  obtain ⟨o, d, a, b, e2, e3⟩ := e2
  unfold hist2d
  simp only [M.exec_bind, M.exec_read_of hr, M.exec_read_of hr', hl2, ne_eq, not_true_eq_false, if_false]
  rw [binData_exec fl pf hr, binData_exec fl pf hr', e1, e2]
  constructor
  · rfl
  · obtain ⟨a', b', h1, -⟩ := hist_of_flags true true true o e3
    dsimp only
    rw [hist_exec2 (by simp) e3 h1]
    exact ⟨_, rfl⟩

end Props
end Phik
