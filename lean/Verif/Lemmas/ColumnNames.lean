import Verif.Spec.ColumnNames
import Verif.Lemmas.Overview
import Verif.Lemmas.World
import Mathlib.Data.List.Perm.Basic

/-! # Renaming columns: the parts of the functions without side effects -/

namespace Phik

open Spec

section
variable {ρ : String → String} (hρ : Function.Injective ρ)

/-- The column with its new name. -/
def renCol (ρ : String → String) (c : Column) : Column := { c with name := ρ c.name }

@[simp] theorem renCol_cells (c : Column) : (renCol ρ c).cells = c.cells := rfl
@[simp] theorem renCol_name (c : Column) : (renCol ρ c).name = ρ c.name := rfl

theorem renameFrame_cols (f : Frame) : (renameFrame ρ f).cols = f.cols.map (renCol ρ) := rfl
theorem renameFrame_nrows (f : Frame) : (renameFrame ρ f).nrows = f.nrows := rfl

theorem renameFrame_names (f : Frame) : (renameFrame ρ f).names = f.names.map ρ := by
  simp [Frame.names, renameFrame_cols, Function.comp_def]

include hρ

theorem beq_ren (a b : String) : (ρ a == ρ b) = (a == b) := by
  by_cases h : a = b
  · simp [h]
  · have : ρ a ≠ ρ b := fun e => h (hρ e)
    simp [h, this]

theorem contains_ren (l : List String) (a : String) : (l.map ρ).contains (ρ a) = l.contains a := by
  induction l with
  | nil => rfl
  | cons b l ih => rw [List.map_cons, List.contains_cons, List.contains_cons, ih, beq_ren hρ]

theorem lookup_ren {α : Type} (d : List (String × α)) (a : String) : (renameKeys ρ d).lookup (ρ a) = d.lookup a := by
  induction d with
  | nil => rfl
  | cons p d ih =>
    obtain ⟨k, v⟩ := p
    simp only [renameKeys, List.map_cons, List.lookup_cons]
    rw [beq_ren hρ]
    cases a == k
    · exact ih
    · rfl

theorem col?_ren (f : Frame) (n : String) : (renameFrame ρ f).col? (ρ n) = (f.col? n).map (renCol ρ) := by
  unfold Frame.col?
  rw [renameFrame_cols, List.find?_map]
  congr 2
  funext c
  exact beq_ren hρ _ _

theorem getCol_ren (f : Frame) (n : String) : (renameFrame ρ f).getCol (ρ n) = (f.getCol n).map (renCol ρ) := by
  unfold Frame.getCol
  rw [col?_ren hρ]
  cases f.col? n <;> rfl

theorem setCol_ren (f : Frame) (n : String) (c : Column) :
    (renameFrame ρ f).setCol (ρ n) (renCol ρ c) = renameFrame ρ (f.setCol n c) := by
  unfold Frame.setCol
  simp only [renameFrame, List.map_map, Frame.mk.injEq, true_and]
  refine List.map_congr_left fun d _ => ?_
  simp only [Function.comp_apply, beq_ren hρ]
  cases d.name == n <;> rfl

omit hρ in
theorem mapCells_ren (f : Frame) (g : Cell → Cell) : (renameFrame ρ f).mapCells g = renameFrame ρ (f.mapCells g) := by
  unfold Frame.mapCells renameFrame
  simp only [List.map_map, Function.comp_def]

omit hρ in
theorem applyFlags_ren (dropna du dof : Bool) (f : Frame) :
    applyFlags dropna du dof (renameFrame ρ f) = renameFrame ρ (applyFlags dropna du dof f) := by
  unfold applyFlags
  cases dropna <;> cases du <;> cases dof <;> simp [mapCells_ren]

theorem colFloats_ren (pf : String → Option (Option ℚ)) (f : Frame) (n : String) :
    colFloats pf (renameFrame ρ f) (ρ n) = colFloats pf f n := by
  unfold colFloats
  rw [getCol_ren hρ]
  cases f.getCol n <;> rfl

theorem entry_ren (bins : Bins) (n : String) : (renameBins ρ bins).entry (ρ n) = bins.entry n := by
  cases bins with
  | one s => rfl
  | dict d =>
    unfold Bins.entry renameBins
    simp only
    rw [show (d.map fun p => (ρ p.1, p.2)).lookup (ρ n) = _ from lookup_ren hρ d n]

theorem selectEdges_ren (fl : ℚ → ℚ) (pf : String → Option (Option ℚ)) (f : Frame) (bins : Bins) (q : Bool) (n : String)
    (x : Option (List ℚ)) :
    selectEdges fl pf (renameFrame ρ f) (renameBins ρ bins) q (ρ n) x = selectEdges fl pf f bins q n x := by
  unfold selectEdges
  rw [entry_ren hρ, colFloats_ren hρ]

theorem binLoop_ren (fl : ℚ → ℚ) (pf : String → Option (Option ℚ)) (f : Frame) (bins : Bins) (q : Bool) (cols : List String)
    (x : Option (List ℚ)) (out : Frame) (d : List (String × List (ℚ × ℚ))) :
    binLoop fl pf (renameFrame ρ f) (renameBins ρ bins) q (cols.map ρ) x (renameFrame ρ out) (renameKeys ρ d) =
      (binLoop fl pf f bins q cols x out d).map fun p => (renameFrame ρ p.1, renameKeys ρ p.2) := by
  induction cols generalizing x out d with
  | nil => rfl
  | cons n rest ih =>
    simp only [List.map_cons, binLoop, selectEdges_ren hρ, colFloats_ren hρ]
    cases selectEdges fl pf f bins q n x with
    | error e => rfl
    | ok x' =>
      simp only [bind, Except.bind]
      cases colFloats pf f n with
      | error e => rfl
      | ok arr =>
        cases x' with
        | none => rfl
        | some e =>
          simp only
          rw [← ih, show (⟨ρ n, false, (binArray arr e).1⟩ : Column) = renCol ρ ⟨n, false, (binArray arr e).1⟩ from rfl,
            setCol_ren hρ]
          congr 1
          simp only [renameKeys, List.map_cons, List.filter_map, Function.comp_def, bne]
          congr 3
          funext p
          rw [beq_ren hρ]

theorem dictCheck_ren (cols : List String) (bins : Bins) : dictCheck (cols.map ρ) (renameBins ρ bins) = dictCheck cols bins := by
  cases bins with
  | one s => rfl
  | dict d =>
    unfold dictCheck renameBins
    simp only
    rw [List.all_map]
    have : ((fun c => ((d.map fun p => (ρ p.1, p.2)).lookup c).isSome) ∘ ρ) = fun c => (d.lookup c).isSome := by
      funext c
      exact congrArg Option.isSome (lookup_ren hρ d c)
    rw [this]

theorem binDataCore_ren (fl : ℚ → ℚ) (pf : String → Option (Option ℚ)) (f : Frame) (cols : List String) (bins : Bins) (q : Bool) :
    binDataCore fl pf (renameFrame ρ f) (cols.map ρ) (renameBins ρ bins) q =
      (binDataCore fl pf f cols bins q).map fun p => (renameFrame ρ p.1, renameKeys ρ p.2) := by
  unfold binDataCore
  rw [dictCheck_ren hρ]
  cases dictCheck cols bins with
  | error e => rfl
  | ok u =>
    simp only [bind, Except.bind]
    rw [← binLoop_ren hρ]
    congr 1
    cases bins with
    | one s => cases s <;> rfl
    | dict d => rfl

/-! ### the quality check -/

omit hρ in
theorem guess_ren (f : Frame) : guessIntervalCols (renameFrame ρ f) = (guessIntervalCols f).map ρ := by
  unfold guessIntervalCols
  rw [renameFrame_cols, List.filter_map, List.map_map, List.map_map]
  rfl

theorem nunique_ren (f : Frame) (n : String) : (renameFrame ρ f).nunique (ρ n) = f.nunique n := by
  unfold Frame.nunique
  rw [col?_ren hρ]
  cases f.col? n <;> rfl

theorem mem_ren (l : List String) (a : String) : ρ a ∈ l.map ρ ↔ a ∈ l := by
  rw [List.mem_map]
  exact ⟨fun ⟨b, h1, h2⟩ => hρ h2 ▸ h1, fun h => ⟨a, h, rfl⟩⟩

theorem otherCols_ren (f : Frame) (ic : List String) :
    (otherCols (renameFrame ρ f) (ic.map ρ)).Perm ((otherCols f ic).map ρ) := by
  unfold otherCols
  refine (List.perm_ext_iff_of_nodup (Finset.sort_nodup _ _) ((Finset.sort_nodup _ _).map hρ)).2 fun a => ?_
  rw [Finset.mem_sort, List.mem_map]
  simp only [Finset.mem_sort, Finset.mem_sdiff, List.mem_toFinset, renameFrame_names, List.mem_map]
  constructor
  · rintro ⟨⟨b, h1, rfl⟩, h2⟩
    exact ⟨b, ⟨h1, fun h => h2 ⟨b, h, rfl⟩⟩, rfl⟩
  · rintro ⟨b, ⟨h1, h2⟩, rfl⟩
    exact ⟨⟨b, h1, rfl⟩, fun ⟨c, h3, h4⟩ => h2 (hρ h4 ▸ h3)⟩

theorem otherCols_filter_ren (f : Frame) (ic : List String) (p : ℕ → Bool) :
    ((otherCols (renameFrame ρ f) (ic.map ρ)).filter fun c => p ((renameFrame ρ f).nunique c)).Perm
      (((otherCols f ic).filter fun c => p (f.nunique c)).map ρ) := by
  refine ((otherCols_ren hρ f ic).filter _).trans (List.Perm.of_eq ?_)
  rw [List.filter_map]
  congr 2
  funext c
  simp only [Function.comp_apply, nunique_ren hρ]

theorem dropCols_ren (f : Frame) (ic : List String) (dropna : Bool) :
    (dropCols (renameFrame ρ f) (ic.map ρ) dropna).Perm ((dropCols f ic dropna).map ρ) := by
  unfold dropCols
  rw [List.map_append]
  refine List.Perm.append (List.Perm.of_eq ?_) ?_
  · rw [List.filter_map]
    congr 2
    funext c
    simp only [Function.comp_apply, nunique_ren hρ]
  · exact otherCols_filter_ren hρ f ic fun k => decide (k = 0) || (decide (k = 1) && dropna)

theorem drop_ren (f : Frame) {l l' : List String} (h : l'.Perm (l.map ρ)) :
    (renameFrame ρ f).drop l' = renameFrame ρ (f.drop l) := by
  unfold Frame.drop
  simp only [renameFrame, Frame.mk.injEq, true_and, List.filter_map]
  congr 2
  funext c
  simp only [Function.comp_apply]
  rw [← contains_ren hρ l]
  congr 1
  rw [Bool.eq_iff_iff, List.contains_iff_mem, List.contains_iff_mem]
  exact h.mem_iff

/-! ### the matrix -/

omit hρ in
theorem cwr_ren (l : List String) : cwr (l.map ρ) = (cwr l).map fun p => (ρ p.1, ρ p.2) := by
  induction l with
  | nil => rfl
  | cons a l ih => simp only [List.map_cons, cwr, ih, List.map_append, List.map_map, Function.comp_def]

omit hρ in
theorem comb2_ren (l : List String) : comb2 (l.map ρ) = (comb2 l).map fun p => (ρ p.1, ρ p.2) := by
  induction l with
  | nil => rfl
  | cons a l ih => simp only [List.map_cons, comb2, ih, List.map_append, List.map_map, Function.comp_def]

omit hρ in
theorem mapM_id_map {α β : Type} (g : α → β) (l : List (Except Err α)) :
    (l.map (Except.map g)).mapM id = (l.mapM id).map (List.map g) := by
  induction l with
  | nil => rfl
  | cons x l ih =>
    rw [List.map_cons, List.mapM_cons, List.mapM_cons, ih]
    cases x with
    | error e => rfl
    | ok a => cases h : l.mapM id <;> rfl

omit hρ in
theorem runOrder_map {α β : Type} (g : α → β) (l : List (Except Err α)) (order : List ℕ) (slots : List (Option α)) :
    runOrder (l.map (Except.map g)) order (slots.map (Option.map g)) =
      (runOrder l order slots).map (List.map (Option.map g)) := by
  induction order generalizing slots with
  | nil => rfl
  | cons k rest ih =>
    unfold runOrder
    rw [List.getElem?_map]
    rcases l[k]? with _ | _ | a
    · rfl
    · rfl
    · have := ih (slots.set k (some a))
      rw [List.map_set] at this
      exact this

omit hρ in
theorem collect_map {α β : Type} (g : α → β) (l : List (Option α)) :
    collect (l.map (Option.map g)) = (collect l).map (List.map g) := by
  induction l with
  | nil => rfl
  | cons x l ih =>
    cases x with
    | none => rfl
    | some a =>
      simp only [List.map_cons, Option.map_some, collect, ih]
      cases collect l <;> rfl

omit hρ in
theorem runTasks_map {α β : Type} (g : α → β) (sched : Option (List ℕ)) (l : List (Except Err α)) :
    runTasks sched (l.map (Except.map g)) = (runTasks sched l).map (List.map g) := by
  cases sched with
  | none => exact mapM_id_map g l
  | some order =>
    simp only [runTasks]
    have h := runOrder_map g l order (l.map fun _ => none)
    rw [List.map_map] at h ⊢
    simp only [Function.comp_def, Option.map_none] at h ⊢
    rw [h]
    cases runOrder l order (l.map fun _ => none) with
    | error e => rfl
    | ok s => exact collect_map g s

theorem calcPhik_ren (nm : Numerics) (f : Frame) (noise : Bool) (co : String × String) :
    calcPhik nm (renameFrame ρ f) noise (ρ co.1, ρ co.2) =
      (calcPhik nm f noise co).map fun p => (ρ p.1, ρ p.2.1, p.2.2) := by
  unfold calcPhik
  simp only [hρ.eq_iff, getCol_ren hρ]
  split
  · rfl
  cases f.getCol co.1 with
  | error e => rfl
  | ok a =>
    simp only [Except.map, bind, Except.bind]
    cases f.getCol co.2 with
    | error e => rfl
    | ok b =>
      change @ite _ ((histOfPairs (a.cells.zip b.cells)).rows.length = 0 ∨ (histOfPairs (a.cells.zip b.cells)).cols.length = 0 ∨
          (histOfPairs (a.cells.zip b.cells)).rows.length = 1 ∨ (histOfPairs (a.cells.zip b.cells)).cols.length = 1) _ _ _ = _
      by_cases hc : (histOfPairs (a.cells.zip b.cells)).rows.length = 0 ∨ (histOfPairs (a.cells.zip b.cells)).cols.length = 0 ∨
          (histOfPairs (a.cells.zip b.cells)).rows.length = 1 ∨ (histOfPairs (a.cells.zip b.cells)).cols.length = 1
      · rw [if_pos hc]; dsimp only; rw [if_pos hc]; rfl
      · rw [if_neg hc]; dsimp only; rw [if_neg hc]
        rw [renCol_cells, renCol_cells]
        cases phikFromHist2d nm.mvn nm.brentq (histOfPairs (a.cells.zip b.cells)).values noise <;> rfl

theorem overview_ren {α : Type} [Avg α] (l : List (String × String × Option α)) (a b : String) :
    (overview (renamePairs ρ l)).v (ρ a) (ρ b) = (overview l).v a b := by
  simp only [overview, renamePairs]
  rw [List.flatMap_map]
  have : (l.flatMap fun p => [(ρ p.1, ρ p.2.1, p.2.2), (ρ p.2.1, ρ p.1, p.2.2)]) =
      (l.flatMap fun p => [(p.1, p.2.1, p.2.2), (p.2.1, p.1, p.2.2)]).map fun p => (ρ p.1, ρ p.2.1, p.2.2) := by
    rw [List.map_flatMap]
    rfl
  rw [this, List.filter_map, List.map_map]
  simp only [Function.comp_def, beq_ren hρ]

theorem overview_table {α : Type} [Avg α] (names : List String) (l : List (String × String × Option α)) :
    SameLabelled ρ (if l.length = 0 then ⟨names, names, fun _ _ => none⟩ else ((overview l).reindexCols names).reindexRows names)
      (if (renamePairs ρ l).length = 0 then ⟨names.map ρ, names.map ρ, fun _ _ => none⟩
        else ((overview (renamePairs ρ l)).reindexCols (names.map ρ)).reindexRows (names.map ρ)) := by
  have e : (renamePairs ρ l).length = l.length := by simp [renamePairs]
  rw [e]
  split
  · exact ⟨rfl, rfl, fun _ _ => rfl⟩
  · refine ⟨rfl, rfl, fun a b => ?_⟩
    rw [overview_reindex, overview_reindex, overview_ren hρ]

theorem phikOfFrame_ren (nm : Numerics) (sched : Option (List ℕ)) (f : Frame) (noise : Bool) :
    match phikOfFrame nm sched f noise, phikOfFrame nm sched (renameFrame ρ f) noise with
    | .ok t, .ok t' => SameLabelled ρ t t'
    | .error e, .error e' => e = e'
    | _, _ => False := by
  unfold phikOfFrame
  rw [renameFrame_names, cwr_ren, List.map_map]
  have : (calcPhik nm (renameFrame ρ f) noise ∘ fun p => (ρ p.1, ρ p.2)) =
      Except.map (fun p => (ρ p.1, ρ p.2.1, p.2.2)) ∘ calcPhik nm f noise := by
    funext co
    exact calcPhik_ren hρ nm f noise co
  rw [this, ← List.map_map, runTasks_map]
  cases runTasks sched ((cwr f.names).map (calcPhik nm f noise)) with
  | error e => rfl
  | ok l =>
    have h := overview_table hρ f.names l
    simp only [bind, Except.bind, Except.map, pure, Except.pure]
    have e : (renamePairs ρ l).length = l.length := by simp [renamePairs]
    rw [e] at h
    rw [List.length_map]
    by_cases hl : l.length = 0
    · rw [if_pos hl, if_pos hl] at h ⊢; exact h
    · rw [if_neg hl, if_neg hl] at h ⊢; exact h

end

end Phik
