import Verif.Spec.Binning
import Verif.Lemmas.Binning
import Verif.Lemmas.Except
import Verif.Lemmas.World

/-! # `bin_data` and the contingency table -/

namespace Phik

open Spec

theorem except_bind_ok {α β : Type} {m : Except Err α} {f : α → Except Err β} {b : β}
    (h : (m >>= f) = .ok b) : ∃ a, m = .ok a ∧ f a = .ok b := by
  cases m with
  | error e => cases h
  | ok a => exact ⟨a, rfl, h⟩

theorem entry_of {bins : Bins} {name : String} {s : BinSpec} (h : EntryFor bins name s) :
    bins.entry name = s := by
  cases h with
  | one => rfl
  | dict d _ _ h => simp [Bins.entry, h]

theorem lookup_filter_ne {β : Type} {n m : String} (h : n ≠ m) (d : List (String × β)) :
    (d.filter (fun p => p.1 != m)).lookup n = d.lookup n := by
  induction d with
  | nil => rfl
  | cons p ps ih =>
    obtain ⟨a, b⟩ := p
    by_cases ha : a = m
    · subst ha
      have : (n == a) = false := by simpa using h
      simp [List.lookup_cons, this, ih]
    · have : (a != m) = true := by simpa using ha
      simp only [List.filter_cons, this, if_true, List.lookup_cons, ih]

/-- Edges used for a column whose entry is supported. -/
theorem binLoop_spec {fl : ℚ → ℚ} {pf : String → Option (Option ℚ)} {data : Frame} {bins : Bins}
    {quantile : Bool} (cols : List String)
    (hent : ∀ name ∈ cols, bins.entry name ≠ .other) :
    ∀ (xbins : Option (List ℚ)) (out : Frame) (dict : List (String × List (ℚ × ℚ))) (out' : Frame)
      (dict' : List (String × List (ℚ × ℚ))),
      binLoop fl pf data bins quantile cols xbins out dict = .ok (out', dict') →
      ∃ f : String → List Cell × List (ℚ × ℚ),
        (∀ name ∈ cols, ∃ arr e, colFloats pf data name = .ok arr ∧
          Requested fl quantile arr (bins.entry name) e ∧ f name = binArray arr e) ∧
        out'.nrows = out.nrows ∧
        out'.cols = out.cols.map (fun d => if d.name ∈ cols then ⟨d.name, false, (f d.name).1⟩ else d) ∧
        (∀ name, dict'.lookup name = if name ∈ cols then some (f name).2 else dict.lookup name) := by
  induction cols with
  | nil =>
    intro xbins out dict out' dict' h
    simp only [binLoop, Except.ok.injEq, Prod.mk.injEq] at h
    obtain ⟨rfl, rfl⟩ := h
    exact ⟨fun _ => ([], []), by simp, rfl, by simp, by simp⟩
  | cons name rest ih =>
    intro xbins out dict out' dict' h
    rw [binLoop] at h
    obtain ⟨xb, h1, h2⟩ := except_bind_ok h
    obtain ⟨arr, h3, h4⟩ := except_bind_ok h2
    have hreq : ∃ e, xb = some e ∧ Requested fl quantile arr (bins.entry name) e := by
      have hn := hent name (List.mem_cons_self ..)
      unfold selectEdges at h1
      cases hc : bins.entry name with
      | other => exact absurd hc hn
      | edges l =>
        rw [hc] at h1
        have : some l = xb := by simpa [pure, Except.pure] using h1
        exact ⟨l, this.symm, .edges l⟩
      | num q =>
        rw [hc] at h1
        obtain ⟨arr', g1, g2⟩ := except_bind_ok h1
        obtain ⟨e, g3, g4⟩ := except_bind_ok g2
        rw [h3] at g1
        cases g1
        have : some e = xb := by simpa [pure, Except.pure] using g4
        exact ⟨e, this.symm, .num q e g3⟩
    obtain ⟨e, rfl, hreq⟩ := hreq
    simp only at h4
    obtain ⟨f, hf1, hf2, hf3, hf4⟩ := ih (fun n hn => hent n (List.mem_cons_of_mem _ hn)) _ _ _ _ _ h4
    refine ⟨fun n => if n ∈ rest then f n else binArray arr e, ?_, ?_, ?_, ?_⟩
    · intro n hn
      by_cases hr : n ∈ rest
      · simp only [hr, if_true]; exact hf1 n hr
      · simp only [hr, if_false]
        rcases List.mem_cons.1 hn with rfl | hn
        · exact ⟨arr, e, h3, hreq, rfl⟩
        · exact absurd hn hr
    · rw [hf2]; rfl
    · rw [hf3]
      simp only [Frame.setCol, List.map_map]
      apply List.map_congr_left
      intro d _
      simp only [Function.comp]
      by_cases hd : d.name = name
      · subst hd
        simp only [beq_self_eq_true, if_true]
        by_cases hr : d.name ∈ rest <;> simp [hr]
      · have : (d.name == name) = false := by simpa using hd
        simp only [this, Bool.false_eq_true, if_false]
        by_cases hr : d.name ∈ rest <;> simp [hr, hd]
    · intro n
      rw [hf4]
      by_cases hr : n ∈ rest
      · simp [hr]
      · simp only [hr, if_false, List.mem_cons, or_false]
        by_cases hn : n = name
        · subst hn; simp
        · rw [List.lookup_cons]
          have hne : (n == name) = false := by simpa using hn
          simp only [hne, hn, if_false]
          exact lookup_filter_ne hn dict

/-- Binning never changes the names of the columns, whatever the entries. -/
theorem binLoop_names {fl : ℚ → ℚ} {pf : String → Option (Option ℚ)} {data : Frame} {bins : Bins}
    {quantile : Bool} (cols : List String) :
    ∀ (xbins : Option (List ℚ)) (out : Frame) (dict : List (String × List (ℚ × ℚ))) (out' : Frame)
      (dict' : List (String × List (ℚ × ℚ))),
      binLoop fl pf data bins quantile cols xbins out dict = .ok (out', dict') →
      out'.names = out.names ∧ out'.nrows = out.nrows := by
  induction cols with
  | nil =>
    intro xbins out dict out' dict' h
    simp only [binLoop, Except.ok.injEq, Prod.mk.injEq] at h
    obtain ⟨rfl, rfl⟩ := h
    exact ⟨rfl, rfl⟩
  | cons name rest ih =>
    intro xbins out dict out' dict' h
    rw [binLoop] at h
    obtain ⟨xb, h1, h2⟩ := except_bind_ok h
    obtain ⟨arr, h3, h4⟩ := except_bind_ok h2
    cases xb with
    | none => cases h4
    | some e =>
      obtain ⟨g1, g2⟩ := ih _ _ _ _ _ h4
      refine ⟨?_, g2⟩
      rw [g1]
      unfold Frame.names Frame.setCol
      simp only [List.map_map]
      apply List.map_congr_left
      intro d _
      simp only [Function.comp]
      by_cases hd : d.name = name
      · simp [hd]
      · have : (d.name == name) = false := by simpa using hd
        simp [this]

theorem binDataCore_names {fl : ℚ → ℚ} {pf : String → Option (Option ℚ)} {data : Frame} {bins : Bins}
    {quantile : Bool} {cols : List String} {out : Frame} {dict : List (String × List (ℚ × ℚ))}
    (h : binDataCore fl pf data cols bins quantile = .ok (out, dict)) :
    out.names = data.names ∧ out.nrows = data.nrows := by
  unfold binDataCore at h
  obtain ⟨u, -, h⟩ := except_bind_ok h
  exact binLoop_names cols _ _ _ _ _ h

/-- The result of `bin_data` when it returns. -/
theorem binDataCore_spec {fl : ℚ → ℚ} {pf : String → Option (Option ℚ)} {data : Frame} {bins : Bins}
    {quantile : Bool} {cols : List String} {out : Frame} {dict : List (String × List (ℚ × ℚ))}
    (hent : ∀ name ∈ cols, ∃ s, EntryFor bins name s ∧ s ≠ .other)
    (h : binDataCore fl pf data cols bins quantile = .ok (out, dict)) :
    ∃ f : String → List Cell × List (ℚ × ℚ),
      (∀ name ∈ cols, ∃ arr e s, colFloats pf data name = .ok arr ∧ EntryFor bins name s ∧
        Requested fl quantile arr s e ∧ f name = binArray arr e) ∧
      out.nrows = data.nrows ∧
      out.cols = data.cols.map (fun d => if d.name ∈ cols then ⟨d.name, false, (f d.name).1⟩ else d) ∧
      (∀ name, dict.lookup name = if name ∈ cols then some (f name).2 else none) := by
  unfold binDataCore at h
  obtain ⟨u, -, h⟩ := except_bind_ok h
  obtain ⟨f, h1, h2, h3, h4⟩ := binLoop_spec cols (fun name hn => by
    obtain ⟨s, hs, hne⟩ := hent name hn
    rwa [entry_of hs]) _ _ _ _ _ h
  refine ⟨f, fun name hn => ?_, h2, h3, fun name => by rw [h4]; simp⟩
  obtain ⟨s, hs, hne⟩ := hent name hn
  obtain ⟨arr, e, g1, g2, g3⟩ := h1 name hn
  rw [entry_of hs] at g2
  exact ⟨arr, e, s, g1, hs, g2, g3⟩

/-- `bin_data` works on a new frame. -/
theorem binData_exec (fl : ℚ → ℚ) (pf : String → Option (Option ℚ)) {r : Ref} {w : World} {data : Frame}
    (hr : w.heap[r]? = some data) (cols : List String) (bins : Bins) (quantile : Bool) :
    (binData fl pf r cols bins quantile).exec w =
      match binDataCore fl pf data cols bins quantile with
      | .ok (out, dict) => (.ok (w.heap.length, dict), { w with heap := w.heap ++ [out] })
      | .error e => (.error e, { w with heap := w.heap ++ [data] }) := by
  unfold binData
  rw [M.exec_bind, M.exec_read_of hr]
  simp only [M.exec_bind, M.exec_alloc, M.exec_ofExcept]
  cases binDataCore fl pf data cols bins quantile with
  | error e => rfl
  | ok v =>
    obtain ⟨out, dict⟩ := v
    simp only [M.exec_write, M.exec_pure, M.exec_bind]
    simp

/-! ### contingency tables -/

/-- The entry, unless missing. -/
def Cell.opt : Cell → Option Cell
  | .nan => none
  | c => some c

theorem opt_eq_some {a c : Cell} : a.opt = some c ↔ a = c ∧ a.isNan = false := by
  cases a <;> simp [Cell.opt, Cell.isNan]

theorem histOfPairs_table (pairs : List (Cell × Cell)) :
    IsTable (pairs.map fun p => (p.1.opt, p.2.opt)) (histOfPairs pairs) := by
  have hk : ∀ a b, (a, b) ∈ pairs.filter (fun p => !p.1.isNan && !p.2.isNan) ↔
      (some a, some b) ∈ pairs.map fun p => (p.1.opt, p.2.opt) := by
    intro a b
    simp only [List.mem_filter, List.mem_map, Prod.mk.injEq, Prod.exists, opt_eq_some]
    constructor
    · rintro ⟨h1, h2⟩
      simp only [Bool.and_eq_true, Bool.not_eq_true'] at h2
      exact ⟨a, b, h1, ⟨rfl, h2.1⟩, ⟨rfl, h2.2⟩⟩
    · rintro ⟨a', b', h1, ⟨rfl, h2⟩, ⟨rfl, h3⟩⟩
      exact ⟨h1, by simp [h2, h3]⟩
  constructor
  · exact (Finset.sortedLT_sort (α := Cell)
      ((pairs.filter fun p => !p.1.isNan && !p.2.isNan).map Prod.fst).toFinset).pairwise
  · exact (Finset.sortedLT_sort (α := Cell)
      ((pairs.filter fun p => !p.1.isNan && !p.2.isNan).map Prod.snd).toFinset).pairwise
  · intro a
    simp only [← hk]
    simp only [histOfPairs, Finset.mem_sort, List.mem_toFinset, List.mem_map, Prod.exists,
      exists_and_right, exists_eq_right]
  · intro b
    simp only [← hk]
    simp only [histOfPairs, Finset.mem_sort, List.mem_toFinset, List.mem_map, Prod.exists,
      exists_eq_right]
  · intro i j
    change List.count ((histOfPairs pairs).rows.get i, (histOfPairs pairs).cols.get j) _ = _
    change _ = List.count (some ((histOfPairs pairs).rows.get i), some ((histOfPairs pairs).cols.get j)) _
    generalize ((histOfPairs pairs).rows.get i) = a
    generalize ((histOfPairs pairs).cols.get j) = b
    clear i j hk
    induction pairs with
    | nil => rfl
    | cons p ps ih =>
      obtain ⟨x, y⟩ := p
      simp only [List.map_cons, List.count_cons]
      by_cases hx : x.isNan = false ∧ y.isNan = false
      · rw [List.filter_cons, if_pos (by simp [hx.1, hx.2]), List.count_cons, ih]
        congr 1
        have e1 : x.opt = some x := opt_eq_some.2 ⟨rfl, hx.1⟩
        have e2 : y.opt = some y := opt_eq_some.2 ⟨rfl, hx.2⟩
        simp only [e1, e2, beq_iff_eq, Prod.mk.injEq, Option.some.injEq]
      · rw [List.filter_cons, if_neg (by simpa using hx), ih]
        rw [if_neg]
        · rfl
        · simp only [beq_iff_eq, Prod.mk.injEq, opt_eq_some]
          rintro ⟨⟨rfl, h1⟩, ⟨rfl, h2⟩⟩
          exact hx ⟨h1, h2⟩

/-- The three replacements act as `view`. -/
theorem applyFlags_cols (dropna du dof : Bool) (f : Frame) :
    ∃ g : Cell → Cell, (applyFlags dropna du dof f) = f.mapCells g ∧
      ∀ c, (g c).opt = view dropna du dof c := by
  refine ⟨fun c =>
    let c := if dropna then c else if c = .nan then .str "NaN" else c
    let c := if du then (if c = .str "UF" then .nan else c) else c
    if dof then (if c = .str "OF" then .nan else c) else c, ?_, ?_⟩
  · unfold applyFlags Frame.mapCells
    cases dropna <;> cases du <;> cases dof <;> simp [Function.comp_def]
  · intro c
    cases c with
    | nan => cases dropna <;> cases du <;> cases dof <;> simp [view, Cell.opt]
    | num q => cases dropna <;> cases du <;> cases dof <;> simp [view, Cell.opt]
    | str s =>
      by_cases h1 : s = "UF"
      · subst h1; cases dropna <;> cases du <;> cases dof <;> simp [view, Cell.opt]
      · by_cases h2 : s = "OF"
        · subst h2; cases dropna <;> cases du <;> cases dof <;> simp [view, Cell.opt]
        · cases dropna <;> cases du <;> cases dof <;> simp [view, Cell.opt, h1, h2]

/-- The table `hist2d_from_rebinned_df` makes of two columns. -/
def tableOf (dropna du dof : Bool) (a b : List Cell) : List (Option Cell × Option Cell) :=
  (a.zip b).map fun p => (view dropna du dof p.1, view dropna du dof p.2)

theorem hist_of_flags (dropna du dof : Bool) (f : Frame) {a b : Column} (h : f.cols = [a, b]) :
    ∃ a' b', (applyFlags dropna du dof f).cols = [a', b'] ∧
      IsTable (tableOf dropna du dof a.cells b.cells) (histOfPairs (a'.cells.zip b'.cells)) := by
  obtain ⟨g, h1, h2⟩ := applyFlags_cols dropna du dof f
  refine ⟨{ a with cells := a.cells.map g }, { b with cells := b.cells.map g }, ?_, ?_⟩
  · rw [h1, Frame.mapCells, h]; rfl
  · have := histOfPairs_table ((a.cells.map g).zip (b.cells.map g))
    rw [List.zip_map] at this ⊢
    rw [List.map_map] at this
    simpa [tableOf, Function.comp_def, h2] using this

theorem hist2dFromRebinned_exec {r : Ref} {w : World} {data : Frame} (hr : w.heap[r]? = some data)
    {a b : Column} (h : data.cols = [a, b]) (dropna du dof : Bool) :
    ∃ hist, (hist2dFromRebinned r dropna du dof).exec w =
        (.ok hist, { w with heap := w.heap.set r (applyFlags dropna du dof data) }) ∧
      IsTable (tableOf dropna du dof a.cells b.cells) hist := by
  obtain ⟨a', b', h1, h2⟩ := hist_of_flags dropna du dof data h
  refine ⟨_, ?_, h2⟩
  unfold hist2dFromRebinned
  rw [M.exec_bind, M.exec_read_of hr]
  simp only [h, List.length_cons, List.length_nil, ne_eq, Nat.reduceAdd, not_true_eq_false, if_false, h1,
    M.exec_bind, M.exec_pure, M.exec_write]

end Phik
