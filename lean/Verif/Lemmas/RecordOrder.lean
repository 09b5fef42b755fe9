import Verif.Spec.RecordOrder
import Verif.Lemmas.OutlierFrame
import Verif.Model.Report

/-! # Programs run on the same records in another order -/

namespace Phik
open Spec

/-! ### lists -/

/-- The entries of `l` at the positions `idx`. -/
def pk {α : Type} (d : α) (idx : List ℕ) (l : List α) : List α := idx.map fun i => l.getD i d

theorem pick_eq (idx : List ℕ) (l : List Cell) : pick idx l = pk .nan idx l := rfl

theorem pk_map' {α β : Type} (d : α) (e : β) (g : α → β) {idx : List ℕ} {l : List α} (hi : ∀ i ∈ idx, i < l.length) :
    pk e idx (l.map g) = (pk d idx l).map g := by
  unfold pk
  rw [List.map_map]
  refine List.map_congr_left fun i h => ?_
  simp [List.getD_eq_getElem?_getD, hi i h]

theorem pk_perm {α : Type} (d : α) {idx : List ℕ} {l : List α} (h : idx.Perm (List.range l.length)) : (pk d idx l).Perm l := by
  have : (List.range l.length).map (fun i => l.getD i d) = l := by
    apply List.ext_getElem
    · simp
    · intro i h1 h2; simp [List.getD_eq_getElem?_getD, h2]
  unfold pk
  exact (h.map _).trans (by rw [this])

theorem pk_zip {α β : Type} (d : α) (e : β) {idx : List ℕ} {a : List α} {b : List β} (h : a.length = b.length)
    (hi : ∀ i ∈ idx, i < a.length) : (pk d idx a).zip (pk e idx b) = pk (d, e) idx (a.zip b) := by
  unfold pk
  rw [List.zip_map']
  refine List.map_congr_left fun i hm => ?_
  have h1 := hi i hm
  have h2 : i < b.length := h ▸ h1
  have h3 : i < (a.zip b).length := by rw [List.length_zip]; omega
  simp [List.getD_eq_getElem?_getD, h1, h2, h3]

theorem min?_perm {l l' : List ℚ} (h : l.Perm l') : l.min? = l'.min? := by
  cases e : l'.min? with
  | none =>
    rw [List.min?_eq_none_iff] at e ⊢
    rw [e] at h
    exact h.eq_nil
  | some a =>
    rw [List.min?_eq_some_iff] at e ⊢
    exact ⟨h.mem_iff.2 e.1, fun b hb => e.2 b (h.mem_iff.1 hb)⟩

theorem max?_perm {l l' : List ℚ} (h : l.Perm l') : l.max? = l'.max? := by
  cases e : l'.max? with
  | none =>
    rw [List.max?_eq_none_iff] at e ⊢
    rw [e] at h
    exact h.eq_nil
  | some a =>
    rw [List.max?_eq_some_iff] at e ⊢
    exact ⟨h.mem_iff.2 e.1, fun b hb => e.2 b (h.mem_iff.1 hb)⟩

theorem mergeSort_perm' {l l' : List ℚ} (h : l.Perm l') : l.mergeSort = l'.mergeSort := by
  have hp : l.mergeSort.Perm l'.mergeSort := (List.mergeSort_perm _ _).trans (h.trans (List.mergeSort_perm _ _).symm)
  have s : ∀ l : List ℚ, l.mergeSort.Pairwise (· ≤ ·) := fun l => by
    have := List.pairwise_mergeSort (le := fun a b : ℚ => decide (a ≤ b)) (fun a b c => by simpa using le_trans) (fun a b => by simpa using le_total a b) l
    simpa using this
  exact hp.eq_of_pairwise (fun a b _ _ h1 h2 => le_antisymm h1 h2) (s l) (s l')

theorem binEdges_perm (fl : ℚ → ℚ) {l l' : List ℚ} (h : l.Perm l') (n : ℤ) (q : Bool) : binEdges fl l n q = binEdges fl l' n q := by
  unfold binEdges
  rw [min?_perm h, max?_perm h, mergeSort_perm' h]

/-- The table with given label sets and counts. -/
def histOf (R C : Finset Cell) (cnt : Cell × Cell → ℕ) : Hist :=
  ⟨R.sort (· ≤ ·), C.sort (· ≤ ·), fun i j => cnt ((R.sort (· ≤ ·)).get i, (C.sort (· ≤ ·)).get j)⟩

theorem histOfPairs_perm {l l' : List (Cell × Cell)} (h : l.Perm l') : histOfPairs l = histOfPairs l' := by
  have hk := h.filter fun p => !p.1.isNan && !p.2.isNan
  have e : ∀ l : List (Cell × Cell), histOfPairs l = histOf
    (((l.filter fun p => !p.1.isNan && !p.2.isNan).map Prod.fst).toFinset)
    (((l.filter fun p => !p.1.isNan && !p.2.isNan).map Prod.snd).toFinset)
    fun p => (l.filter fun p => !p.1.isNan && !p.2.isNan).count p := fun _ => rfl
  rw [e, e, List.toFinset_eq_of_perm _ _ (hk.map _), List.toFinset_eq_of_perm _ _ (hk.map _), funext fun p => hk.count_eq p]

open scoped Classical in
theorem mapM_toFloat_eq (pf : String → Option (Option ℚ)) (l : List Cell) :
    l.mapM (toFloat pf) = if ∀ c ∈ l, ∃ v, toFloat pf c = .ok v then .ok (l.map fun c => ((toFloat pf c).toOption.getD none)) else .error .value := by
  have herr : ∀ c e, toFloat pf c = .error e → e = .value := by
    intro c e h
    cases c with
    | nan => simp [toFloat] at h
    | num q => simp [toFloat] at h
    | str s =>
      simp only [toFloat] at h
      split at h
      · simp at h
      · simpa using h.symm
  induction l with
  | nil => simp [pure, Except.pure]
  | cons c l ih =>
    rw [List.mapM_cons, ih]
    cases hc : toFloat pf c with
    | error e =>
      have : ¬ ∀ c' ∈ c :: l, ∃ v, toFloat pf c' = .ok v := by
        intro h
        obtain ⟨v, hv⟩ := h c List.mem_cons_self
        rw [hc] at hv; simp at hv
      rw [if_neg this, herr c e hc]
      rfl
    | ok v =>
      by_cases h : ∀ c ∈ l, ∃ v, toFloat pf c = .ok v
      · rw [if_pos h, if_pos (by
          intro c' hc'
          rcases List.mem_cons.1 hc' with rfl | hc'
          · exact ⟨v, hc⟩
          · exact h c' hc')]
        simp [bind, Except.bind, pure, Except.pure, hc, Except.toOption]
      · rw [if_neg h, if_neg fun h' => h fun c hc => h' c (List.mem_cons_of_mem _ hc)]
        rfl

/-! ### frames -/

/-- `g` is `f` with its rows reordered by `idx`. -/
structure ShufBy (idx : List ℕ) (f g : Frame) : Prop where
  rect : ∀ c ∈ f.cols, c.cells.length = f.nrows
  nrows : g.nrows = f.nrows
  perm : idx.Perm (List.range f.nrows)
  cols : g.cols = f.cols.map fun c => { c with cells := pk .nan idx c.cells }

theorem shuffled_iff {f g : Frame} : Shuffled f g ↔ ∃ idx, ShufBy idx f g :=
  ⟨fun ⟨h1, h2, idx, h3, h4⟩ => ⟨idx, h1, h2, h3, h4⟩, fun ⟨idx, h1, h2, h3, h4⟩ => ⟨h1, h2, idx, h3, h4⟩⟩

namespace ShufBy
variable {idx : List ℕ} {f g : Frame}

theorem lt (h : ShufBy idx f g) {i : ℕ} (hi : i ∈ idx) : i < f.nrows := List.mem_range.1 (h.perm.mem_iff.1 hi)

theorem lt' (h : ShufBy idx f g) {c : Column} (hc : c ∈ f.cols) : ∀ i ∈ idx, i < c.cells.length := fun i hi => by
  rw [h.rect c hc]; exact h.lt hi

theorem names (h : ShufBy idx f g) : g.names = f.names := by
  unfold Frame.names
  rw [h.cols, List.map_map]
  rfl

theorem guess (h : ShufBy idx f g) : guessIntervalCols g = guessIntervalCols f := by
  unfold guessIntervalCols
  rw [h.cols, List.filter_map, List.map_map]
  rfl

theorem length (h : ShufBy idx f g) : g.cols.length = f.cols.length := by rw [h.cols, List.length_map]

theorem col? (h : ShufBy idx f g) (n : String) :
    g.col? n = (f.col? n).map fun c => { c with cells := pk .nan idx c.cells } := by
  unfold Frame.col?
  rw [h.cols, List.find?_map]
  rfl

theorem cells_perm (h : ShufBy idx f g) {c : Column} (hc : c ∈ f.cols) : (pk .nan idx c.cells).Perm c.cells :=
  pk_perm _ (by rw [h.rect c hc]; exact h.perm)

theorem getCol (h : ShufBy idx f g) (n : String) :
    (∃ e, f.getCol n = .error e ∧ g.getCol n = .error e) ∨
      ∃ c ∈ f.cols, f.getCol n = .ok c ∧ g.getCol n = .ok { c with cells := pk .nan idx c.cells } := by
  unfold Frame.getCol
  rw [h.col?]
  cases e : f.col? n with
  | none => exact .inl ⟨_, rfl, rfl⟩
  | some c => exact .inr ⟨c, List.mem_of_find?_eq_some e, rfl, rfl⟩

theorem nunique (h : ShufBy idx f g) (n : String) : g.nunique n = f.nunique n := by
  unfold Frame.nunique
  rw [h.col?]
  cases e : f.col? n with
  | none => rfl
  | some c =>
    have := h.cells_perm (List.mem_of_find?_eq_some e)
    simp only [Option.map_some, Column.nunique]
    rw [List.toFinset_eq_of_perm _ _ (this.filter _)]

theorem otherCols (h : ShufBy idx f g) (ic : List String) : otherCols g ic = otherCols f ic := by
  unfold Phik.otherCols
  rw [h.names]

theorem dropCols (h : ShufBy idx f g) (ic : List String) (d : Bool) : dropCols g ic d = dropCols f ic d := by
  unfold Phik.dropCols
  rw [h.otherCols]
  simp only [h.nunique]

theorem drop (h : ShufBy idx f g) (l : List String) : ShufBy idx (f.drop l) (g.drop l) := by
  refine ⟨fun c hc => h.rect c (List.mem_filter.1 hc).1, h.nrows, h.perm, ?_⟩
  simp only [Frame.drop, h.cols, List.filter_map]
  rfl

theorem mapCells (h : ShufBy idx f g) (t : Cell → Cell) : ShufBy idx (f.mapCells t) (g.mapCells t) := by
  refine ⟨?_, h.nrows, h.perm, ?_⟩
  · intro c hc
    simp only [Frame.mapCells, List.mem_map] at hc
    obtain ⟨c', hc', rfl⟩ := hc
    simp only [List.length_map]
    exact h.rect c' hc'
  · simp only [Frame.mapCells, h.cols, List.map_map]
    refine List.map_congr_left fun c hc => ?_
    simp only [Function.comp]
    rw [pk_map' .nan .nan t (h.lt' hc)]

theorem applyFlags (h : ShufBy idx f g) (a b c : Bool) : ShufBy idx (applyFlags a b c f) (applyFlags a b c g) := by
  unfold Phik.applyFlags
  cases a <;> cases b <;> cases c <;> simp only [if_true, if_false, Bool.false_eq_true] <;>
    first | exact h | exact h.mapCells _ | exact (h.mapCells _).mapCells _ | exact ((h.mapCells _).mapCells _).mapCells _

theorem setCol (h : ShufBy idx f g) (n : String) (b : Bool) {l : List Cell} (hl : l.length = f.nrows) :
    ShufBy idx (f.setCol n ⟨n, b, l⟩) (g.setCol n ⟨n, b, pk .nan idx l⟩) := by
  refine ⟨?_, h.nrows, h.perm, ?_⟩
  · intro c hc
    simp only [Frame.setCol, List.mem_map] at hc
    obtain ⟨c', hc', rfl⟩ := hc
    split
    · exact hl
    · exact h.rect c' hc'
  · simp only [Frame.setCol, h.cols, List.map_map]
    refine List.map_congr_left fun c hc => ?_
    simp only [Function.comp]
    split <;> rfl

theorem colFloats (h : ShufBy idx f g) (pf : String → Option (Option ℚ)) (n : String) :
    (∃ e, colFloats pf f n = .error e ∧ colFloats pf g n = .error e) ∨
      ∃ l, l.length = f.nrows ∧ colFloats pf f n = .ok l ∧ colFloats pf g n = .ok (pk none idx l) := by
  unfold Phik.colFloats
  rcases h.getCol n with ⟨e, h1, h2⟩ | ⟨c, hc, h1, h2⟩
  · rw [h1, h2]; exact .inl ⟨_, rfl, rfl⟩
  rw [h1, h2]
  simp only [bind, Except.bind]
  rw [mapM_toFloat_eq, mapM_toFloat_eq]
  have hp := h.cells_perm hc
  by_cases ha : ∀ x ∈ c.cells, ∃ v, toFloat pf x = .ok v
  · rw [if_pos ha, if_pos fun x hx => ha x (hp.mem_iff.1 hx)]
    refine .inr ⟨_, by simpa using h.rect c hc, rfl, ?_⟩
    rw [pk_map' .nan none _ (h.lt' hc)]
  · rw [if_neg ha, if_neg fun h' => ha fun x hx => h' x (hp.mem_iff.2 hx)]
    exact .inl ⟨_, rfl, rfl⟩

end ShufBy

theorem binArray_pk (idx : List ℕ) {arr : List (Option ℚ)} (h : idx.Perm (List.range arr.length)) (e : List ℚ) :
    (binArray (pk none idx arr) e).1 = pk .nan idx (binArray arr e).1 ∧ (binArray (pk none idx arr) e).2 = (binArray arr e).2 := by
  have hi : ∀ i ∈ idx, i < arr.length := fun i hi => List.mem_range.1 (h.mem_iff.1 hi)
  constructor
  · rw [binArray_fst, binArray_fst, pk_map' none Cell.nan _ hi]
  · unfold binArray
    dsimp only
    have hp := (pk_perm none h).map (searchsorted e)
    refine List.filterMap_congr fun i _ => ?_
    simp only [hp.mem_iff]

/-- Two exceptions or two related results. -/
def ERel {α β : Type} (R : α → β → Prop) : Except Err α → Except Err β → Prop
  | .ok a, .ok b => R a b
  | .error e, .error e' => e = e'
  | _, _ => False

theorem selectEdges_shuf (fl : ℚ → ℚ) (pf : String → Option (Option ℚ)) {idx : List ℕ} {f g : Frame} (h : ShufBy idx f g)
    (bins : Bins) (q : Bool) (n : String) (x : Option (List ℚ)) :
    selectEdges fl pf g bins q n x = selectEdges fl pf f bins q n x := by
  unfold selectEdges
  split
  · rcases h.colFloats pf n with ⟨e, h1, h2⟩ | ⟨l, hl, h1, h2⟩
    · rw [h1, h2]
    · rw [h1, h2]
      simp only [bind, Except.bind]
      rw [binEdges_perm fl ((pk_perm none (by rw [hl]; exact h.perm)).filterMap id)]
  · rfl
  · rfl

theorem binLoop_shuf (fl : ℚ → ℚ) (pf : String → Option (Option ℚ)) {idx : List ℕ} {f g : Frame} (h : ShufBy idx f g)
    (bins : Bins) (q : Bool) (cols : List String) (x : Option (List ℚ)) {o o' : Frame} (ho : ShufBy idx o o')
    (hn : o.nrows = f.nrows) (d : List (String × List (ℚ × ℚ))) :
    ERel (fun a b => ShufBy idx a.1 b.1 ∧ a.2 = b.2) (binLoop fl pf f bins q cols x o d) (binLoop fl pf g bins q cols x o' d) := by
  induction cols generalizing x o o' d with
  | nil => exact ⟨ho, rfl⟩
  | cons n rest ih =>
    simp only [binLoop]
    rw [selectEdges_shuf fl pf h]
    cases hs : selectEdges fl pf f bins q n x with
    | error e => exact rfl
    | ok x' =>
      simp only [bind, Except.bind]
      rcases h.colFloats pf n with ⟨e, h1, h2⟩ | ⟨l, hl, h1, h2⟩
      · rw [h1, h2]; exact rfl
      rw [h1, h2]
      cases x' with
      | none => exact rfl
      | some e =>
        obtain ⟨b1, b2⟩ := binArray_pk idx (arr := l) (by rw [hl]; exact h.perm) e
        simp only [b1, b2]
        exact ih _ (ho.setCol n false (by rw [binArray_length, hl, hn])) (by simpa [Frame.setCol] using hn) _

theorem binDataCore_shuf (fl : ℚ → ℚ) (pf : String → Option (Option ℚ)) {f g : Frame} (h : Shuffled f g) (cols : List String)
    (bins : Bins) (q : Bool) :
    ERel (fun a b => Shuffled a.1 b.1 ∧ a.2 = b.2) (binDataCore fl pf f cols bins q) (binDataCore fl pf g cols bins q) := by
  obtain ⟨idx, h⟩ := shuffled_iff.1 h
  unfold binDataCore
  cases dictCheck cols bins with
  | error e => exact rfl
  | ok u =>
    simp only [bind, Except.bind]
    have := binLoop_shuf fl pf h bins q cols (match bins with | .one (.edges l) => some l | _ => none) h rfl []
    revert this
    cases binLoop fl pf f bins q cols (match bins with | .one (.edges l) => some l | _ => none) f [] <;>
      cases binLoop fl pf g bins q cols (match bins with | .one (.edges l) => some l | _ => none) g [] <;>
      simp only [ERel]
    · exact id
    · exact id
    · exact id
    · exact fun h => ⟨shuffled_iff.2 ⟨idx, h.1⟩, h.2⟩

theorem applyFlags_shuf {f g : Frame} (h : Shuffled f g) (a b c : Bool) : Shuffled (applyFlags a b c f) (applyFlags a b c g) := by
  obtain ⟨idx, h⟩ := shuffled_iff.1 h
  exact shuffled_iff.2 ⟨idx, h.applyFlags a b c⟩

theorem Spec.Shuffled.names {f g : Frame} (h : Shuffled f g) : g.names = f.names := by
  obtain ⟨idx, h⟩ := shuffled_iff.1 h
  exact h.names

theorem Spec.Shuffled.guess {f g : Frame} (h : Shuffled f g) : guessIntervalCols g = guessIntervalCols f := by
  obtain ⟨idx, h⟩ := shuffled_iff.1 h
  exact h.guess

/-- The two columns of a pair, in both frames: the tables are the same, and so are the sets of cells. -/
theorem Spec.Shuffled.pair {f g : Frame} (h : Shuffled f g) (n m : String) :
    (∃ e, f.getCol n = .error e ∧ g.getCol n = .error e) ∨
    ∃ a a', f.getCol n = .ok a ∧ g.getCol n = .ok a' ∧ a'.name = a.name ∧ a'.cells.Perm a.cells ∧
      ((∃ e, f.getCol m = .error e ∧ g.getCol m = .error e) ∨
        ∃ b b', f.getCol m = .ok b ∧ g.getCol m = .ok b' ∧ b'.name = b.name ∧ b'.cells.Perm b.cells ∧
          (a'.cells.zip b'.cells).Perm (a.cells.zip b.cells) ∧ Shuffled ⟨f.nrows, [a, b]⟩ ⟨g.nrows, [a', b']⟩) := by
  obtain ⟨idx, h⟩ := shuffled_iff.1 h
  rcases h.getCol n with h1 | ⟨a, ha, a1, a2⟩
  · exact .inl h1
  refine .inr ⟨a, _, a1, a2, rfl, h.cells_perm ha, ?_⟩
  rcases h.getCol m with h1 | ⟨b, hb, b1, b2⟩
  · exact .inl h1
  refine .inr ⟨b, _, b1, b2, rfl, h.cells_perm hb, ?_, shuffled_iff.2 ⟨idx, ?_, h.nrows, h.perm, rfl⟩⟩
  · rw [pk_zip _ _ ((h.rect a ha).trans (h.rect b hb).symm) (h.lt' ha)]
    refine pk_perm _ ?_
    rw [List.length_zip, h.rect a ha, h.rect b hb, min_self]
    exact h.perm
  · intro c hc
    simp only [List.mem_cons, List.not_mem_nil, or_false] at hc
    rcases hc with rfl | rfl
    · exact h.rect _ ha
    · exact h.rect _ hb

/-! ### programs -/

namespace M
variable {α β : Type}

/-- Two programs run on the same records in another order end alike, with results related by `R`. -/
def Same (R : α → β → Prop) (m : M α) (m' : M β) : Prop :=
  ∀ w w', SameWorld w w' → ERel R (m.exec w).1 (m'.exec w').1 ∧ SameWorld (m.exec w).2 (m'.exec w').2

theorem Same.pure {R : α → β → Prop} {a : α} {b : β} (h : R a b) : Same R (pure a) (pure b) := fun _ _ hw => ⟨h, hw⟩

theorem Same.throw {R : α → β → Prop} (e : Err) : Same R (throw e) (throw e) := fun _ _ hw => ⟨rfl, hw⟩

theorem Same.bind {γ δ : Type} {R : α → β → Prop} {S : γ → δ → Prop} {m : M α} {m' : M β} {k : α → M γ} {k' : β → M δ}
    (h : Same R m m') (hk : ∀ a b, R a b → Same S (k a) (k' b)) : Same S (m >>= k) (m' >>= k') := by
  intro w w' hw
  have h1 := h w w' hw
  rw [exec_bind, exec_bind]
  revert h1
  rcases m.exec w with ⟨x, v⟩
  rcases m'.exec w' with ⟨y, v'⟩
  cases x <;> cases y <;> simp only [ERel]
  · exact id
  · exact fun h => h.1.elim
  · exact fun h => h.1.elim
  · exact fun h => hk _ _ h.1 _ _ h.2

theorem Same.warn (x : Warning) : Same Eq (warn x) (warn x) := fun _ _ hw => ⟨rfl, by simp [hw.1], hw.2⟩

theorem Same.warnAll (l : List Warning) : Same Eq (M.warnAll l) (M.warnAll l) := by
  induction l with
  | nil => exact Same.pure rfl
  | cons x l ih => exact Same.bind (Same.warn x) fun _ _ _ => ih

theorem Same.ofExcept {R : α → β → Prop} {x : Except Err α} {y : Except Err β} (h : ERel R x y) :
    Same R (ofExcept x) (ofExcept y) := by
  intro w w' hw
  rw [exec_ofExcept, exec_ofExcept]
  exact ⟨h, hw⟩

theorem ERel.refl (x : Except Err α) : ERel Eq x x := by cases x <;> rfl

theorem Same.except (x : Except Err α) : Same Eq (M.ofExcept x) (M.ofExcept x) := Same.ofExcept (ERel.refl x)

theorem Same.read (r : Ref) : Same Shuffled (read r) (read r) := by
  intro w w' hw
  rw [exec_read, exec_read]
  have hl := hw.2.length_eq
  by_cases hr : r < w.heap.length
  · have hr' : r < w'.heap.length := hl ▸ hr
    rw [List.getElem?_eq_getElem hr, List.getElem?_eq_getElem hr']
    exact ⟨hw.2.get hr hr', hw⟩
  · have h1 : w.heap[r]? = none := List.getElem?_eq_none (Nat.not_lt.1 hr)
    have h2 : w'.heap[r]? = none := List.getElem?_eq_none (hl ▸ Nat.not_lt.1 hr)
    rw [h1, h2]
    exact ⟨rfl, hw⟩

theorem Same.alloc {f g : Frame} (h : Shuffled f g) : Same Eq (alloc f) (alloc g) := by
  intro w w' hw
  rw [exec_alloc, exec_alloc]
  exact ⟨hw.2.length_eq, hw.1, List.rel_append hw.2 (.cons h .nil)⟩

theorem Same.write {f g : Frame} (r : Ref) (h : Shuffled f g) : Same Eq (write r f) (write r g) := by
  intro w w' hw
  rw [exec_write, exec_write]
  refine ⟨rfl, hw.1, ?_⟩
  have := hw.2
  revert this
  generalize w.heap = a
  generalize w'.heap = b
  intro hab
  induction hab generalizing r with
  | nil => exact .nil
  | cons h1 h2 ih =>
    cases r with
    | zero => exact .cons h h2
    | succ r => exact .cons h1 (ih r)

theorem Same.eq {m m' : M α} (h : Same Eq m m') {w w' : World} (hw : SameWorld w w') : SameEnd (m.exec w) (m'.exec w') := by
  obtain ⟨h1, h2⟩ := h w w' hw
  refine ⟨?_, h2⟩
  revert h1
  cases (m.exec w).1 <;> cases (m'.exec w').1 <;> simp [ERel]

end M

end Phik
