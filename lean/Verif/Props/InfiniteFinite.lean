import Verif.Props.Infinite
import Verif.Spec.Infinite
import Verif.Props.Rename
import Verif.Props.Edges

/-! # Property C82: without infinite values the two models agree -/

namespace Phik

open Spec Props

/-! ### edges -/

theorem map_fin_inj {l l' : List ℚ} : l.map XF.fin = l'.map XF.fin ↔ l = l' :=
  ⟨fun h => List.map_injective_iff.2 (fun a b h => by cases h; rfl) h, fun h => by rw [h]⟩

theorem linspaceX_fin (fl : ℚ → ℚ) (start stop : ℚ) (num : ℤ) :
    linspaceX fl (.fin start) (.fin stop) num = (linspace fl start stop num).map (·.map .fin) := by
  unfold linspaceX linspace
  split
  · rfl
  · simp only [Except.map, List.map_map, Except.ok.injEq]
    apply List.map_congr_left
    intro i _
    have hsub : XF.sub fl (.fin stop) (.fin start) = .fin (fl (stop - start)) := by
      simp [XF.sub, XF.neg, XF.add, sub_eq_add_neg]
    simp only [Function.comp, hsub, XF.divPos, XF.scale, XF.add, XF.fin.injEq]
    split
    · rfl
    · split
      · split <;> rfl
      · rfl

theorem min?_fin (l : List ℚ) : (l.map XF.fin).min? = l.min?.map .fin := by
  cases h : l.min? with
  | none => rw [List.min?_eq_none_iff] at h; subst h; rfl
  | some a =>
    obtain ⟨h1, h2⟩ := (List.min?_eq_some_iff).1 h
    rw [Option.map_some, List.min?_eq_some_iff]
    refine ⟨List.mem_map_of_mem h1, fun b hb => ?_⟩
    obtain ⟨b, hb', rfl⟩ := List.mem_map.1 hb
    exact XF.fin_le_fin.2 (h2 b hb')

theorem max?_fin (l : List ℚ) : (l.map XF.fin).max? = l.max?.map .fin := by
  cases h : l.max? with
  | none => rw [List.max?_eq_none_iff] at h; subst h; rfl
  | some a =>
    obtain ⟨h1, h2⟩ := (List.max?_eq_some_iff).1 h
    rw [Option.map_some, List.max?_eq_some_iff]
    refine ⟨List.mem_map_of_mem h1, fun b hb => ?_⟩
    obtain ⟨b, hb', rfl⟩ := List.mem_map.1 hb
    exact XF.fin_le_fin.2 (h2 b hb')

theorem finites_fin (l : List ℚ) : finites (l.map .fin) = some l := by
  unfold finites
  induction l with
  | nil => rfl
  | cons a l ih => rw [List.map_cons, List.mapM_cons, ih]; rfl

theorem filter_asXF (arr : List (Option ℚ)) : (arr.map asXF).filter (· ≠ .nan) = (arr.filterMap id).map .fin := by
  induction arr with
  | nil => rfl
  | cons a arr ih => cases a <;> simp_all [asXF]

theorem binEdgesX_fin (fl : ℚ → ℚ) (arr : List (Option ℚ)) (n : ℤ) (quantile : Bool) :
    binEdgesX fl ((arr.map asXF).filter (· ≠ .nan)) n quantile =
      (binEdges fl (arr.filterMap id) n quantile).map (·.map .fin) := by
  rw [filter_asXF]
  unfold binEdgesX
  cases quantile with
  | true => simp only [if_true, finites_fin]
  | false =>
    simp only [Bool.false_eq_true, if_false, min?_fin, max?_fin, binEdges]
    cases h1 : (arr.filterMap id).min? with
    | none => rfl
    | some lo =>
      cases h2 : (arr.filterMap id).max? with
      | none => rfl
      | some hi =>
        simp only [Option.map_some]
        rw [show XF.sub fl (.fin lo) (.fin (fl (1 / 10 ^ 14))) = .fin (fl (lo - fl (1 / 10 ^ 14))) by
          simp [XF.sub, XF.neg, XF.add, sub_eq_add_neg]]
        exact linspaceX_fin ..

/-! ### bin_array -/

theorem sorted_fin {edges : List ℚ} (hs : edges.Pairwise (· ≤ ·)) : (edges.map XF.fin).Pairwise (· ≤ ·) := by
  rw [List.pairwise_map]
  exact hs.imp fun h => XF.fin_le_fin.2 h

theorem below_fin {edges : List ℚ} (hs : edges.Pairwise (· ≤ ·)) (x : Option ℚ) :
    below (edges.map .fin) (asXF x) = searchsorted edges x := by
  cases x with
  | none =>
    unfold below searchsorted asXF
    rw [List.filter_eq_self.2, List.length_map]
    intro e he
    obtain ⟨q, -, rfl⟩ := List.mem_map.1 he
    simpa using XF.fin_lt_nan q
  | some x =>
    change below (edges.map .fin) (.fin x) = searchGo edges x 0 edges.length
    obtain ⟨-, b, c, d⟩ := searchGo_spec edges x 0 edges.length (Nat.zero_le _)
    generalize searchGo edges x 0 edges.length = k at *
    have hb := fun {i : ℕ} (hi : i < (edges.map XF.fin).length) => below_iff (sorted_fin hs) (.fin x) hi
    have hget : ∀ i, i < edges.length → (edges.map XF.fin).getD i .nan = .fin (edges.getD i 0) := by
      intro i hi
      rw [getD_lt (by simpa using hi), getD_lt hi, List.getElem_map]
    have hle := below_le (edges.map XF.fin) (.fin x)
    rw [List.length_map] at hle
    apply le_antisymm
    · by_contra hlt
      have h1 := (hb (i := k) (by rw [List.length_map]; omega)).2 (by omega)
      rw [hget k (by omega), XF.fin_lt_fin] at h1
      have := d (by omega)
      linarith
    · rcases Nat.eq_zero_or_pos k with h0 | h0
      · omega
      · have := c h0
        have h1 := (hb (i := k - 1) (by rw [List.length_map]; omega)).1 (by rw [hget _ (by omega), XF.fin_lt_fin]; exact this)
        omega

theorem binArrayX_fin {edges : List ℚ} (hs : edges.Pairwise (· ≤ ·)) (arr : List (Option ℚ)) :
    binArrayX (arr.map asXF) (edges.map .fin) = ((binArray arr edges).1, asXLabels (binArray arr edges).2) := by
  have hidx : searchsortedX (edges.map .fin) (arr.map asXF) = arr.map (searchsorted edges) := by
    rw [searchsortedX_below (sorted_fin hs), List.map_map]
    exact List.map_congr_left fun x _ => below_fin hs x
  unfold binArrayX binArray
  simp only [hidx, List.length_map]
  refine Prod.ext ?_ ?_
  · simp only
    congr 2
    rw [List.zipWith_map_left]
    congr 1
    congr 1
    funext x b
    cases x <;> simp [asXF]
  · simp only [asXLabels, List.map_filterMap]
    apply List.filterMap_congr
    intro i hi
    rw [List.mem_range] at hi
    have hget : ∀ i, i < edges.length → (edges.map XF.fin).getD i .nan = .fin (edges.getD i 0) := by
      intro i hi
      rw [getD_lt (by simpa using hi), getD_lt hi, List.getElem_map]
    rw [hget i (by omega), hget (i + 1) (by omega)]
    split <;> rfl

/-! ### bin_data -/

theorem find_asX (f : Frame) (name : String) :
    (asXFrame f).find? (fun c => c.name == name) =
      (f.cols.find? fun c => c.name == name).map fun c => ⟨c.name, c.numeric, c.cells.map .cell⟩ := by
  unfold asXFrame
  induction f.cols with
  | nil => rfl
  | cons c l ih =>
    simp only [List.map_cons, List.find?_cons]
    cases c.name == name
    · simpa using ih
    · rfl

theorem getXCol_asX (f : Frame) (name : String) :
    getXCol (asXFrame f) name = (f.getCol name).map fun c => ⟨c.name, c.numeric, c.cells.map .cell⟩ := by
  unfold getXCol Frame.getCol Frame.col?
  rw [find_asX]
  cases f.cols.find? (fun c => c.name == name) <;> rfl

theorem toFloatX_asX (pf : String → Option (Option ℚ)) (c : Cell) :
    toFloatX (asXParse pf) (.cell c) = (toFloat pf c).map asXF := by
  cases c with
  | nan => rfl
  | num q => rfl
  | str s =>
    simp only [toFloatX, toFloat, asXParse]
    cases pf s <;> rfl

theorem colFloatsX_asX (pf : String → Option (Option ℚ)) (f : Frame) (name : String) :
    colFloatsX (asXParse pf) (asXFrame f) name = (colFloats pf f name).map (·.map asXF) := by
  unfold colFloatsX colFloats
  rw [getXCol_asX]
  cases f.getCol name with
  | error e => rfl
  | ok c =>
    simp only [Except.map, bind, Except.bind]
    induction c.cells with
    | nil => rfl
    | cons x l ih =>
      rw [List.map_cons, List.mapM_cons, List.mapM_cons, toFloatX_asX]
      cases toFloat pf x with
      | error e => rfl
      | ok v =>
        simp only [Except.map, bind, Except.bind] at ih ⊢
        rw [ih]
        cases l.mapM (toFloat pf) <;> rfl

theorem lookup_asX (d : List (String × BinSpec)) (name : String) :
    (d.map fun p => (p.1, asXSpec p.2)).lookup name = (d.lookup name).map asXSpec := by
  induction d with
  | nil => rfl
  | cons p d ih =>
    obtain ⟨k, v⟩ := p
    simp only [List.map_cons, List.lookup_cons]
    cases name == k
    · simpa using ih
    · rfl

theorem entry_asX (bins : Bins) (name : String) : (asXBins bins).entry name = asXSpec (bins.entry name) := by
  cases bins with
  | one s => rfl
  | dict d =>
    unfold asXBins XBins.entry Bins.entry
    simp only [lookup_asX]
    cases d.lookup name <;> rfl

theorem selectEdgesX_asX (fl : ℚ → ℚ) (pf : String → Option (Option ℚ)) (f : Frame) (bins : Bins) (quantile : Bool)
    (name : String) (xb : Option (List ℚ)) :
    selectEdgesX fl (asXParse pf) (asXFrame f) (asXBins bins) quantile name (xb.map (·.map .fin)) =
      (selectEdges fl pf f bins quantile name xb).map (·.map (·.map .fin)) := by
  unfold selectEdgesX selectEdges
  rw [entry_asX]
  cases bins.entry name with
  | other => rfl
  | edges l => rfl
  | num q =>
    simp only [asXSpec]
    rw [colFloatsX_asX]
    cases colFloats pf f name with
    | error e => rfl
    | ok arr =>
      simp only [Except.map, bind, Except.bind]
      rw [binEdgesX_fin]
      cases binEdges fl (arr.filterMap id) (truncQ q) quantile <;> rfl

theorem setXCol_asX (f : Frame) (name : String) (c : Column) :
    setXCol (asXFrame f) name ⟨c.name, c.numeric, c.cells.map .cell⟩ = asXFrame (f.setCol name c) := by
  unfold setXCol asXFrame Frame.setCol
  simp only [List.map_map]
  apply List.map_congr_left
  intro d _
  simp only [Function.comp]
  split <;> rfl

/-- All edges that `bin_data` may use are sorted. -/
def SortedUse (fl : ℚ → ℚ) (pf : String → Option (Option ℚ)) (data : Frame) (bins : Bins) (quantile : Bool) : Prop :=
  ∀ name, (∀ l, bins.entry name = .edges l → l.Pairwise (· ≤ ·)) ∧
    ∀ q arr e, bins.entry name = .num q → colFloats pf data name = .ok arr →
      binEdges fl (arr.filterMap id) (truncQ q) quantile = .ok e → e.Pairwise (· ≤ ·)

theorem binLoopX_asX {fl : ℚ → ℚ} {pf : String → Option (Option ℚ)} {data : Frame} {bins : Bins} {quantile : Bool}
    (hs : SortedUse fl pf data bins quantile) (cols : List String) (xb : Option (List ℚ))
    (hx : ∀ l, xb = some l → l.Pairwise (· ≤ ·)) (out : Frame) (dict : List (String × List (ℚ × ℚ))) :
    binLoopX fl (asXParse pf) (asXFrame data) (asXBins bins) quantile cols (xb.map (·.map .fin)) (asXFrame out)
        (asXDict dict) =
      (binLoop fl pf data bins quantile cols xb out dict).map fun p => (asXFrame p.1, asXDict p.2) := by
  induction cols generalizing xb out dict with
  | nil => rfl
  | cons name rest ih =>
    unfold binLoopX binLoop
    rw [selectEdgesX_asX, colFloatsX_asX]
    cases hsel : selectEdges fl pf data bins quantile name xb with
    | error e => rfl
    | ok xb' =>
      cases harr : colFloats pf data name with
      | error e => rfl
      | ok arr =>
        simp only [Except.map, bind, Except.bind]
        cases xb' with
        | none => rfl
        | some e =>
          have he : e.Pairwise (· ≤ ·) := by
            unfold selectEdges at hsel
            cases hent : bins.entry name with
            | other => rw [hent] at hsel; cases hsel; exact hx e rfl
            | edges l => rw [hent] at hsel; cases hsel; exact (hs name).1 e hent
            | num q =>
              rw [hent] at hsel
              simp only at hsel
              obtain ⟨arr', ha', hsel⟩ := except_bind_ok hsel
              obtain ⟨e', he', hsel⟩ := except_bind_ok hsel
              cases hsel
              exact (hs name).2 q arr' e hent ha' he'
          simp only [Option.map_some]
          rw [binArrayX_fin he]
          have h1 := setXCol_asX out name ⟨name, false, (binArray arr e).1⟩
          simp only at h1 ⊢
          rw [h1]
          have h2 : (name, asXLabels (binArray arr e).2) :: (asXDict dict).filter (fun p => p.1 != name) =
              asXDict ((name, (binArray arr e).2) :: dict.filter (fun p => p.1 != name)) := by
            simp [asXDict, List.filter_map, Function.comp_def]
          rw [h2]
          have := ih (some e) (fun l hl => by cases hl; exact he)
            (out.setCol name ⟨name, false, (binArray arr e).1⟩)
            ((name, (binArray arr e).2) :: dict.filter (fun p => p.1 != name))
          simp only [Option.map_some] at this
          exact this

theorem binDataX_asX {fl : ℚ → ℚ} {pf : String → Option (Option ℚ)} {data : Frame} {bins : Bins} {quantile : Bool}
    (hs : SortedUse fl pf data bins quantile) (cols : List String) :
    binDataX fl (asXParse pf) (asXFrame data) cols (asXBins bins) quantile =
      (binDataCore fl pf data cols bins quantile).map fun p => (asXFrame p.1, asXDict p.2) := by
  unfold binDataX binDataCore
  have hd : dictCheckX cols (asXBins bins) = dictCheck cols bins := by
    cases bins with
    | one s => rfl
    | dict d =>
      unfold dictCheckX dictCheck asXBins
      simp only [lookup_asX, Option.isSome_map]
  rw [hd]
  cases dictCheck cols bins with
  | error e => rfl
  | ok u =>
    simp only [bind, Except.bind]
    cases bins with
    | dict d => exact binLoopX_asX hs cols none (by simp) data []
    | one s =>
      cases s with
      | num q => exact binLoopX_asX hs cols none (by simp) data []
      | other => exact binLoopX_asX hs cols none (by simp) data []
      | edges l =>
        refine binLoopX_asX hs cols (some l) (fun l' hl => ?_) data []
        cases hl
        exact (hs "").1 l rfl

/-! ### phik_matrix -/

theorem cell_strictMono : StrictMono XCell.cell := by
  intro a b h
  change XCell.enc _ < XCell.enc _
  have h' : Cell.enc a < Cell.enc b := h
  cases a <;> cases b <;> simp_all [XCell.enc, Cell.enc, Prod.Lex.toLex_lt_toLex]

theorem cell_sort (s : List Cell) : (s.map XCell.cell).toFinset.sort (· ≤ ·) = (s.toFinset.sort (· ≤ ·)).map XCell.cell := by
  have := Finset.map_sort (s := s.toFinset) (f := ⟨XCell.cell, cell_strictMono.injective⟩) (r := (· ≤ ·)) (r' := (· ≤ ·))
    (fun a _ b _ => (cell_strictMono.le_iff_le (a := a) (b := b)).symm)
  refine Eq.trans ?_ this.symm
  congr 1
  ext x
  simp

theorem countsX_asX (l : List (Cell × Cell)) :
    ∃ (h1 : (countsX (l.map fun p => (XCell.cell p.1, XCell.cell p.2))).r = (histOfPairs l).rows.length)
      (h2 : (countsX (l.map fun p => (XCell.cell p.1, XCell.cell p.2))).c = (histOfPairs l).cols.length),
      ∀ i j, (histOfPairs l).v (Fin.cast h1 i) (Fin.cast h2 j) =
        (countsX (l.map fun p => (XCell.cell p.1, XCell.cell p.2))).v i j := by
  have hk : (l.map fun p => (XCell.cell p.1, XCell.cell p.2)).filter (fun p => !p.1.isNan && !p.2.isNan) =
      (l.filter fun p => !p.1.isNan && !p.2.isNan).map fun p => (XCell.cell p.1, XCell.cell p.2) := by
    rw [List.filter_map]; rfl
  have hr : (((l.map fun p => (XCell.cell p.1, XCell.cell p.2)).filter fun p => !p.1.isNan && !p.2.isNan).map
      Prod.fst).toFinset.sort (· ≤ ·) =
      (((l.filter fun p => !p.1.isNan && !p.2.isNan).map Prod.fst).toFinset.sort (· ≤ ·)).map XCell.cell := by
    rw [hk, ← cell_sort, List.map_map, List.map_map]; rfl
  have hc : (((l.map fun p => (XCell.cell p.1, XCell.cell p.2)).filter fun p => !p.1.isNan && !p.2.isNan).map
      Prod.snd).toFinset.sort (· ≤ ·) =
      (((l.filter fun p => !p.1.isNan && !p.2.isNan).map Prod.snd).toFinset.sort (· ≤ ·)).map XCell.cell := by
    rw [hk, ← cell_sort, List.map_map, List.map_map]; rfl
  refine ⟨?_, ?_, fun i j => ?_⟩
  · exact (congrArg List.length hr).trans (List.length_map ..)
  · exact (congrArg List.length hc).trans (List.length_map ..)
  · simp only [countsX, histOfPairs]
    have hinj : Function.Injective fun p : Cell × Cell => (XCell.cell p.1, XCell.cell p.2) := by
      rintro ⟨a, b⟩ ⟨c, d⟩ h
      simpa using h
    have e1 := List.getElem_of_eq hr i.2
    have e2 := List.getElem_of_eq hc j.2
    simp only [List.getElem_map] at e1 e2
    rw [← List.count_map_of_injective _ _ hinj, ← hk]
    congr 1
    exact Prod.ext e1.symm e2.symm

theorem calcPhikX_asX (nm : Numerics) (f : Frame) (noise : Bool) (co : String × String) :
    calcPhikX nm (asXFrame f) noise co = calcPhik nm f noise co := by
  unfold calcPhikX calcPhik
  split
  · rfl
  · rw [getXCol_asX, getXCol_asX]
    cases f.getCol co.1 with
    | error e => rfl
    | ok a =>
      cases f.getCol co.2 with
      | error e => rfl
      | ok b =>
        simp only [Except.map, bind, Except.bind]
        have hz : (a.cells.map XCell.cell).zip (b.cells.map XCell.cell) =
            (a.cells.zip b.cells).map fun p => (XCell.cell p.1, XCell.cell p.2) := by
          rw [List.zip_map]; rfl
        rw [hz]
        obtain ⟨h1, h2, h3⟩ := countsX_asX (a.cells.zip b.cells)
        generalize hl : a.cells.zip b.cells = l at *
        rw [h1, h2]
        split
        · rfl
        · rw [phik_reindex nm noise (a := Arr2.map (fun n : ℕ => (n : ℝ)) (countsX _)) (b := (histOfPairs l).values)
            (finCongr h1) (finCongr h2) (fun i j => by
              simp only [Hist.values, Hist.arr, Arr2.map]
              exact congrArg _ (h3 i j))]

theorem applyFlagsX_asX (dropna du dof : Bool) (f : Frame) :
    applyFlagsX dropna du dof (asXFrame f) = asXFrame (applyFlags dropna du dof f) := by
  rw [applyFlagsX_eq, applyFlags_eq]
  unfold asXFrame Frame.mapCells
  simp only [List.map_map]
  apply List.map_congr_left
  intro c _
  simp only [Function.comp, List.map_map]
  rfl

theorem names_asX (f : Frame) : (asXFrame f).map (·.name) = f.names := by
  unfold asXFrame Frame.names
  rw [List.map_map]; rfl

theorem phikFromRebinnedX_asX (nm : Numerics) (sched : Option (List ℕ)) (f : Frame) (noise dropna du dof : Bool) :
    phikFromRebinnedX nm sched (asXFrame f) noise dropna du dof =
      phikOfFrame nm sched (applyFlags dropna du dof f) noise := by
  unfold phikFromRebinnedX phikOfFrame
  rw [applyFlagsX_asX]
  simp only [names_asX]
  have : (cwr (applyFlags dropna du dof f).names).map (calcPhikX nm (asXFrame (applyFlags dropna du dof f)) noise) =
      (cwr (applyFlags dropna du dof f).names).map (calcPhik nm (applyFlags dropna du dof f) noise) :=
    List.map_congr_left fun co _ => calcPhikX_asX nm _ noise co
  rw [this]

theorem nuniqueX_asX (f : Frame) (name : String) : nuniqueX (asXFrame f) name = f.nunique name := by
  unfold nuniqueX Frame.nunique Frame.col? Column.nunique
  rw [find_asX]
  cases f.cols.find? (fun c => c.name == name) with
  | none => rfl
  | some c =>
    simp only [Option.map_some]
    rw [List.filter_map]
    change ((c.cells.filter fun x => !x.isNan).map XCell.cell).toFinset.card = _
    rw [← Finset.card_map ⟨XCell.cell, cell_strictMono.injective⟩]
    congr 1
    ext x
    simp

theorem dqCheckX_asX {r : Ref} {w : World} {data : Frame} (hr : w.heap[r]? = some data) (ic : List String) (dropna : Bool) :
    ∃ clean icc w1, (dqCheck r ic dropna).exec w = (.ok (w.heap.length, icc), w1) ∧ w1.heap = w.heap ++ [clean] ∧
      clean.cols.Sublist data.cols ∧ dqCheckX (asXFrame data) ic dropna = (asXFrame clean, icc) := by
  set ic0 := ic.filter (fun c => data.names.contains c) with hic0
  set drop := dropCols data ic0 dropna with hdrop
  refine ⟨data.drop drop, ic0.filter fun c => !drop.contains c, ⟨w.heap ++ [data.drop drop], w.warns ++
    (((otherCols data ic0).filter fun c => decide (1000 < data.nunique c)).map Warning.manyUnique ++
    drop.map .notEnoughUnique)⟩, ?_, rfl, List.filter_sublist, ?_⟩
  · unfold dqCheck
    rw [M.exec_bind, M.exec_read_of hr]
    simp only [← hic0, ← hdrop, M.exec_bind, exec_warnAll, M.exec_alloc]
    by_cases hd : drop.length > 0
    · simp only [hd, if_true, M.exec_bind, M.exec_write, M.exec_pure]
      simp
    · have hd' : drop = [] := List.length_eq_zero_iff.1 (by omega)
      rw [if_neg hd, M.exec_pure]
      simp only [hd', Frame.drop, List.contains_nil, Bool.not_false, List.filter_true, List.map_nil, List.append_nil]
  · unfold dqCheckX
    simp only [names_asX, nuniqueX_asX, ← hic0]
    have hd : ic0.filter (fun c => decide (data.nunique c < 2)) ++
        ((data.names.toFinset \ ic0.toFinset).sort (· ≤ ·)).filter (fun c =>
          decide (data.nunique c = 0) || (decide (data.nunique c = 1) && dropna)) = drop := rfl
    rw [hd]
    refine Prod.ext ?_ rfl
    simp only [asXFrame, Frame.drop, List.filter_map]
    rfl

theorem phikMatrixX_asX (nm : Numerics) (sched : Option (List ℕ)) (fl : ℚ → ℚ) (pf : String → Option (Option ℚ)) {r : Ref}
    {w : World} {data : Frame} (hr : w.heap[r]? = some data) (ic : Option (List String)) (bins : Bins)
    (quantile noise dropna du dof : Bool)
    (hs : ∀ clean : Frame, clean.cols.Sublist data.cols → SortedUse fl pf clean bins quantile) :
    phikMatrixX nm sched fl (asXParse pf) (asXFrame data) ic (asXBins bins) quantile noise dropna du dof =
      ((phikMatrix nm sched fl pf r ic bins quantile noise dropna du dof).exec w).1 := by
  have hg : ((asXFrame data).filter (·.numeric)).map (·.name) = guessIntervalCols data := by
    unfold asXFrame guessIntervalCols
    rw [List.filter_map, List.map_map]
    rfl
  obtain ⟨clean, icc, w1, h1, h2, h3, h4⟩ := dqCheckX_asX hr (ic.getD (guessIntervalCols data)) dropna
  unfold phikMatrixX phikMatrix
  rw [hg]
  simp only [h4]
  rw [binDataX_asX (hs clean h3), M.exec_bind, M.exec_read_of hr]
  simp only [M.exec_bind, h1]
  rw [binData_exec fl pf (data := clean) (by rw [h2]; simp)]
  cases binDataCore fl pf clean icc bins quantile with
  | error e => rfl
  | ok v =>
    obtain ⟨out, dict⟩ := v
    simp only [Except.map, bind, Except.bind]
    rw [phikFromRebinnedX_asX]
    unfold phikFromRebinned
    rw [M.exec_bind, M.exec_read_of (f := out) (by simp)]
    simp only [M.exec_bind, M.exec_write, M.exec_ofExcept]

namespace Props

/-- **C82 (data without infinities).** For data, edges and strings without infinite values, the model with infinities returns
what the model without them returns (and raises the same exceptions), in exact arithmetic and in binary64, when given edges are
sorted and given numbers of bins are from 1 to 2^48: `bin_edges`, `bin_array`, and `phik_matrix`. -/
theorem infinite_conservative {fl : ℚ → ℚ} (hfl : fl = (fun x => x) ∨ fl = rne53) :
    (∀ (arr : List (Option ℚ)) (n : ℤ) (quantile : Bool),
      binEdgesX fl ((arr.map asXF).filter (· ≠ .nan)) n quantile =
        (binEdges fl (arr.filterMap id) n quantile).map (·.map .fin)) ∧
    (∀ (arr : List (Option ℚ)) (edges : List ℚ), edges.Pairwise (· ≤ ·) →
      binArrayX (arr.map asXF) (edges.map .fin) = ((binArray arr edges).1, asXLabels (binArray arr edges).2)) ∧
    ∀ (nm : Numerics) (sched : Option (List ℕ)) (pf : String → Option (Option ℚ)) (r : Ref) (w : World) (data : Frame),
      w.heap[r]? = some data →
      (∀ c ∈ data.cols, ∀ x ∈ c.cells, ∀ v, toFloat pf x = .ok (some v) → fl v = v) →
      ∀ (ic : Option (List String)) (bins : Bins),
      (∀ n s, EntryFor bins n s → (∃ l : List ℚ, s = .edges l ∧ l.Pairwise (· ≤ ·)) ∨
        ∃ q : ℚ, s = .num q ∧ 1 ≤ q ∧ q ≤ 2 ^ 48) →
      ∀ quantile noise dropna du dof,
      phikMatrixX nm sched fl (asXParse pf) (asXFrame data) ic (asXBins bins) quantile noise dropna du dof =
        ((phikMatrix nm sched fl pf r ic bins quantile noise dropna du dof).exec w).1 := by
  refine ⟨fun arr n quantile => binEdgesX_fin fl arr n quantile, fun arr edges hs => binArrayX_fin hs arr, ?_⟩
  intro nm sched pf r w data hr hrep ic bins hbins quantile noise dropna du dof
  refine phikMatrixX_asX nm sched fl pf hr ic bins quantile noise dropna du dof fun clean hcl name => ⟨fun l hl => ?_, ?_⟩
  · have : EntryFor bins name (.edges l) := by
      cases bins with
      | one s => cases hl; exact .one _ _
      | dict d =>
        unfold Bins.entry at hl
        simp only at hl
        cases hd : d.lookup name with
        | none => rw [hd] at hl; cases hl
        | some s => rw [hd] at hl; cases hl; exact .dict _ _ _ hd
    rcases hbins name _ this with ⟨l', h1, h2⟩ | ⟨q, h1, -⟩
    · cases h1; exact h2
    · cases h1
  · intro q arr e hq harr he
    have : EntryFor bins name (.num q) := by
      cases bins with
      | one s => cases hq; exact .one _ _
      | dict d =>
        unfold Bins.entry at hq
        simp only at hq
        cases hd : d.lookup name with
        | none => rw [hd] at hq; cases hq
        | some s => rw [hd] at hq; cases hq; exact .dict _ _ _ hd
    rcases hbins name _ this with ⟨l', h1, -⟩ | ⟨q', h1, h2, h3⟩
    · cases h1
    · cases h1
      have ht : truncQ q = ⌊q⌋ := by unfold truncQ; rw [if_pos (by linarith)]
      have hf1 : 1 ≤ ⌊q⌋ := Int.le_floor.2 (by exact_mod_cast h2)
      have hf2 : ⌊q⌋ ≤ 2 ^ 48 := by
        have : ((⌊q⌋ : ℤ) : ℚ) ≤ 2 ^ 48 := (Int.floor_le q).trans h3
        exact_mod_cast this
      obtain ⟨n, hn⟩ : ∃ n : ℕ, ⌊q⌋ = n := ⟨⌊q⌋.toNat, by omega⟩
      rw [ht, hn] at he
      refine auto_edges_sorted hfl (fun x hx => ?_) (n := n) (by omega) (by omega) he
      simp only [List.mem_filterMap, id] at hx
      obtain ⟨y, hy, rfl⟩ := hx
      unfold colFloats at harr
      obtain ⟨c, hc, harr⟩ := except_bind_ok harr
      obtain ⟨x', hx', hxy⟩ := (mapM_mem harr).2 _ hy
      have hcm : c ∈ clean.cols := by
        unfold Frame.getCol Frame.col? at hc
        cases hf : clean.cols.find? (fun c => c.name == name) with
        | none => rw [hf] at hc; cases hc
        | some d => rw [hf] at hc; cases hc; exact List.mem_of_find?_eq_some hf
      exact hrep c (hcl.subset hcm) x' hx' x hxy

/-- The frame of the example: one infinite value among numbers, and a categorical column. -/
def infFrame : XFrame :=
  [⟨"x", true, [.cell (.num 1), .cell (.num 2), .pinf, .cell (.num 2)]⟩,
   ⟨"y", false, [.cell (.str "u"), .cell (.str "v"), .cell (.str "v"), .cell (.str "v")]⟩]

/-- The hypotheses of `infinite_column_lost` can be met: `phik_matrix` with the default flags returns NaN for the two columns
of `infFrame`. -/
theorem infinite_column_lost_example (nm : Numerics) (pf : String → Option XF) (noise : Bool) :
    ∃ t, phikMatrixX nm none (fun x => x) pf infFrame none (.one (.num 10)) false noise true true true = .ok t ∧
      t.rows = ["x", "y"] ∧ t.v "x" "y" = none := by
  have hdq : dqCheckX infFrame ["x"] true = (infFrame, ["x"]) := by with_unfolding_all rfl
  have hf : colFloatsX pf infFrame "x" = .ok [.fin 1, .fin 2, .pinf, .fin 2] := rfl
  obtain ⟨e, he, -, hcells, hlab⟩ := infinite_auto_all_underflow (fun x => x) (arr := [.fin 1, .fin 2, .pinf, .fin 2])
    (Or.inr (by simp)) (n := truncQ 10) (by simp [truncQ])
  have hbin : binDataX (fun x => x) pf infFrame ["x"] (.one (.num 10)) false =
      .ok (setXCol infFrame "x" ⟨"x", false, (binArrayX [.fin 1, .fin 2, .pinf, .fin 2] e).1.map .cell⟩, [("x", [])]) := by
    unfold binDataX binLoopX
    simp only [dictCheckX, bind, Except.bind, selectEdgesX, XBins.entry, hf, he, pure, Except.pure, hlab, binLoopX]
    rfl
  have hout : ∃ t, phikFromRebinnedX nm none (setXCol infFrame "x"
      ⟨"x", false, (binArrayX [.fin 1, .fin 2, .pinf, .fin 2] e).1.map .cell⟩) noise true true true = .ok t := by
    have hset : setXCol infFrame "x" ⟨"x", false, (binArrayX [.fin 1, .fin 2, .pinf, .fin 2] e).1.map .cell⟩ =
        [⟨"x", false, (binArrayX [.fin 1, .fin 2, .pinf, .fin 2] e).1.map .cell⟩,
         ⟨"y", false, [.cell (.str "u"), .cell (.str "v"), .cell (.str "v"), .cell (.str "v")]⟩] := by
      simp [setXCol, infFrame]
    rw [hset, hcells]
    unfold phikFromRebinnedX
    simp only [applyFlagsX_eq, List.map_cons, List.map_nil, cwr, List.append_nil, List.cons_append, List.nil_append,
      runTasks]
    have h1 : ∀ (f : XFrame) (a : String), calcPhikX nm f noise (a, a) = .ok (a, a, some 1) := by
      intro f a; unfold calcPhikX; rw [if_pos rfl]; rfl
    have h2 : ∀ f : XFrame, (∃ a b, getXCol f "x" = .ok a ∧ getXCol f "y" = .ok b ∧
        ∀ x ∈ a.cells, x.isNan = true ∨ x = .pinf) → calcPhikX nm f noise ("x", "y") = .ok ("x", "y", none) := by
      rintro f ⟨a, b, ha, hb, hc⟩
      unfold calcPhikX
      rw [if_neg (by decide)]
      simp only [ha, hb, bind, Except.bind]
      have := countsX_small (l := a.cells.zip b.cells)
        (Or.inl ⟨.pinf, fun p hp => hc _ (List.of_mem_zip (a := p.1) (b := p.2) hp).1⟩)
      rw [if_pos (by omega)]
      rfl
    rw [h1, h1, h2 _ ⟨_, _, rfl, rfl, by
      simp [XCell.map, flagX, XCell.isNan, Cell.isNan]⟩]
    simp only [List.mapM_cons, List.mapM_nil, id, bind, Except.bind, pure, Except.pure]
    exact ⟨_, rfl⟩
  obtain ⟨t, ht⟩ := hout
  have hmat : phikMatrixX nm none (fun x => x) pf infFrame none (.one (.num 10)) false noise true true true = .ok t := by
    unfold phikMatrixX
    have hg : (none : Option (List String)).getD ((infFrame.filter (·.numeric)).map (·.name)) = ["x"] := by
      simp [infFrame]
    simp only [hg, hdq, hbin, bind, Except.bind]
    exact ht
  have hrows : t.rows = ["x", "y"] := by
    have := phikFromRebinnedX_spec (by simp [setXCol, infFrame]) (by intro o ho; cases ho) ht
    rw [this.rows]
    simp [setXCol, infFrame]
  refine ⟨t, hmat, hrows, ?_⟩
  exact (infinite_column_lost (by simp [infFrame]) hmat (by intro o ho; cases ho)
    (c := ⟨"x", true, [.cell (.num 1), .cell (.num 2), .pinf, .cell (.num 2)]⟩) (by simp [infFrame])
    (by simp [infFrame]) ⟨.pinf, by simp, Or.inr rfl⟩ rfl (Or.inl rfl) (by rw [hrows]; simp) (b := "y")
    (by rw [hrows]; simp) (by decide)).1

example : (binArrayX [.ninf, .fin 3, .pinf, .nan] [.ninf, .fin 0, .pinf]).1 = [.str "UF", .num 2, .num 2, .nan] := by
  rw [binArrayX_fst (searchsortedX_below (by
    simp only [List.pairwise_cons, List.mem_cons, List.not_mem_nil, or_false, forall_eq_or_imp, forall_eq]
    exact ⟨⟨XF.ninf_le _, XF.ninf_le _⟩, (XF.fin_lt_pinf 0).le, by simp, by simp⟩) _)]
  have h3 : XF.fin 0 < XF.fin 3 := XF.fin_lt_fin.2 (by norm_num)
  simp [xcellOf, below, XF.not_lt_ninf, XF.ninf_lt_fin, h3, (XF.fin_lt_pinf 3).not_gt, XF.fin_lt_pinf, XF.ninf_lt_pinf]

end Props

end Phik
