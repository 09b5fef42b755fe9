import Verif.Spec.Monotone
import Verif.Lemmas.Monotone
import Verif.Lemmas.RecordOrder
import Verif.Props.DataQuality
import Verif.Props.BinData
import Verif.Model.Significance

/-! # Property C68: the scale of the data -/

namespace Phik

open Spec

/-! ### one column -/

/-- The binning of one column. -/
def colBin (fl : ℚ → ℚ) (pf : String → Option (Option ℚ)) (quantile : Bool) (s : BinSpec) (c : Column) : Except Err (List Cell) :=
  match c.cells.mapM (toFloat pf) with
  | .error e => .error e
  | .ok arr =>
    match (match s with
      | .num x => binEdges fl (arr.filterMap id) (truncQ x) quantile
      | .edges l => .ok l
      | .other => .error .unboundLocal) with
    | .error e => .error e
    | .ok e => .ok (binArray arr e).1

theorem binEdges_error_iff {arr : List ℚ} {f : ℚ → ℚ} {n : ℤ} {q : Bool} {e : Err} (h : binEdges id arr n q = .error e)
    (hk : ∀ l, binEdges id (arr.map f) n q = .ok l → ∃ l', binEdges id arr n q = .ok l') :
    binEdges id (arr.map f) n q = .error e := by
  cases h' : binEdges id (arr.map f) n q with
  | ok l => obtain ⟨l', hl'⟩ := hk l h'; rw [h] at hl'; cases hl'
  | error e' =>
    unfold binEdges at h h'
    cases q with
    | true =>
      simp only [if_true, bind, Except.bind, throw, throwThe, MonadExceptOf.throw, pure, Except.pure] at h h'
      cases hl : linspace id 0 1 (n + 1) with
      | error e0 => rw [hl] at h h'; rw [← h', ← h]
      | ok qs =>
        rw [hl] at h h'
        have h1 : e = .index := by
          simp only at h
          split at h
          · exact (Except.error.inj h).symm
          · split at h
            · exact (Except.error.inj h).symm
            · cases h
        have h2 : e' = .index := by
          simp only at h'
          split at h'
          · exact (Except.error.inj h').symm
          · split at h'
            · exact (Except.error.inj h').symm
            · cases h'
        rw [h1, h2]
    | false =>
      simp only [Bool.false_eq_true, if_false] at h h'
      have key : ∀ (x y : Option ℚ) (e : Err), (match x, y with
          | some lo, some hi => linspace id (id (lo - id (1 / 10 ^ 14))) hi (n + 1)
          | _, _ => (throw Err.value : Except Err (List ℚ))) = .error e → e = .value := by
        intro x y e h
        cases x with
        | none => cases h; rfl
        | some lo =>
          cases y with
          | none => cases h; rfl
          | some hi =>
            simp only [linspace] at h
            split at h
            · cases h; rfl
            · cases h
      rw [key _ _ _ h, key _ _ _ h']

theorem mapM_rescale (pf : String → Option (Option ℚ)) (φ : ℚ → ℚ) {l : List Cell} (h : ∀ x ∈ l, ∀ t, x ≠ .str t) :
    ∃ arr, l.mapM (toFloat pf) = .ok arr ∧ (l.map (onNum φ)).mapM (toFloat pf) = .ok (arr.map (Option.map φ)) ∧
      ∀ x, some x ∈ arr ↔ Cell.num x ∈ l := by
  induction l with
  | nil => exact ⟨[], rfl, rfl, by simp⟩
  | cons c l ih =>
    obtain ⟨arr, h1, h2, h3⟩ := ih fun x hx => h x (List.mem_cons_of_mem _ hx)
    rw [List.map_cons, List.mapM_cons, List.mapM_cons, h1, h2]
    cases c with
    | nan => exact ⟨none :: arr, rfl, rfl, fun x => by simp [h3]⟩
    | num q => exact ⟨some q :: arr, rfl, rfl, fun x => by simp [h3]⟩
    | str s => exact absurd rfl (h _ List.mem_cons_self s)

theorem filterMap_rescale (φ : ℚ → ℚ) (arr : List (Option ℚ)) :
    (arr.map (Option.map φ)).filterMap id = (arr.filterMap id).map φ := by
  induction arr with
  | nil => rfl
  | cons o l ih =>
    rw [List.map_cons]
    cases o with
    | none => exact ih
    | some x => exact congrArg (φ x :: ·) ih

theorem sameData_bin {fl : ℚ → ℚ} (pf : String → Option (Option ℚ)) {quantile : Bool} {s s' : BinSpec} {c c' : Column}
    (h : SameData fl quantile s s' c c') : colBin fl pf quantile s' c' = colBin fl pf quantile s c := by
  cases h with
  | unchanged => rfl
  | quantiles q _ φ hfl hq hstr hφ =>
    subst hfl hq
    obtain ⟨arr, h1, h2, h3⟩ := mapM_rescale pf φ hstr
    have hmem : ∀ x ∈ arr.filterMap id, x ∈ numbersOf c := by
      intro x hx
      obtain ⟨o, ho, rfl⟩ := List.mem_filterMap.1 hx
      exact (h3 x).1 ho
    have hφ' : ∀ x ∈ arr.filterMap id, ∀ y ∈ arr.filterMap id, x < y → φ x < φ y := fun x hx y hy =>
      hφ x (hmem x hx) y (hmem y hy)
    unfold colBin rescale
    simp only [h1, h2, filterMap_rescale]
    cases he : binEdges id (arr.filterMap id) (truncQ q) true with
    | ok e =>
      obtain ⟨e', he', hcut⟩ := binEdges_quantile_cuts hφ' he
      rw [he']
      simp only [binArray_cuts hcut]
    | error e =>
      rw [binEdges_error_iff (f := φ) he]
      intro l hl
      exact binEdges_quantile_back hφ' hl
  | shift q _ b hfl hq hstr =>
    subst hfl hq
    obtain ⟨arr, h1, h2, h3⟩ := mapM_rescale pf (· + b) hstr
    unfold colBin rescale
    simp only [h1, h2, filterMap_rescale]
    cases he : binEdges id (arr.filterMap id) (truncQ q) false with
    | ok e =>
      obtain ⟨e', he', hcut⟩ := binEdges_shift_cuts (b := b) he
      rw [he']
      simp only [binArray_cuts hcut]
    | error e =>
      rw [binEdges_error_iff (f := (· + b)) he]
      intro l hl
      obtain ⟨e', he', -⟩ := binEdges_shift_cuts (b := -b) hl
      rw [List.map_map] at he'
      have : ((fun x => x + -b) ∘ fun x => x + b) = (id : ℚ → ℚ) := by funext x; simp
      rw [this, List.map_id] at he'
      exact ⟨_, he'⟩
  | edges l _ φ hstr hφ =>
    obtain ⟨arr, h1, h2, h3⟩ := mapM_rescale pf φ hstr
    unfold colBin rescale
    simp only [h1, h2]
    rw [binArray_cuts]
    refine ⟨by simp, fun i hi x hx => ?_⟩
    obtain ⟨o, ho, rfl⟩ := List.mem_filterMap.1 hx
    rw [List.getD_eq_getElem _ _ hi, List.getD_eq_getElem _ _ (by simpa using hi), List.getElem_map]
    have m1 : x ∈ numbersOf c ∪ {x | x ∈ l} := .inl ((h3 x).1 ho)
    have m2 : l[i] ∈ numbersOf c ∪ {x | x ∈ l} := .inr (List.getElem_mem hi)
    refine ⟨hφ _ m2 _ m1, fun hlt => ?_⟩
    by_contra hc
    rcases eq_or_lt_of_le (not_lt.1 hc) with h | h
    · rw [h] at hlt; exact lt_irrefl _ hlt
    · exact absurd (hφ _ m1 _ m2 h) (not_lt.2 hlt.le)


theorem onNum_injOn {φ : ℚ → ℚ} {c : Column} (hφ : IncreasingOn φ (numbersOf c)) {a b : Cell} (ha : a ∈ c.cells) (hb : b ∈ c.cells)
    (h : onNum φ a = onNum φ b) : a = b := by
  cases a <;> cases b <;> simp only [onNum, Cell.num.injEq, reduceCtorEq] at h ⊢
  · next x y =>
    rcases lt_trichotomy x y with hl | rfl | hl
    · exact absurd h (hφ x ha y hb hl).ne
    · rfl
    · exact absurd h (hφ y hb x ha hl).ne'
  · exact h

theorem sameData_increasing {fl : ℚ → ℚ} {quantile : Bool} {s s' : BinSpec} {c c' : Column} (h : SameData fl quantile s s' c c') :
    c'.name = c.name ∧ c'.numeric = c.numeric ∧ c'.nunique = c.nunique ∧ s ≠ .other ∧ s' ≠ .other := by
  have key : ∀ φ, IncreasingOn φ (numbersOf c) → (rescale φ c).nunique = c.nunique := by
    intro φ hφ
    unfold Column.nunique rescale
    have hf : (c.cells.map (onNum φ)).filter (fun x => !x.isNan) = (c.cells.filter fun x => !x.isNan).map (onNum φ) := by
      rw [List.filter_map]
      congr 1
      refine List.filter_congr fun x _ => ?_
      cases x <;> rfl
    have hi : ∀ l : List Cell, (l.map (onNum φ)).toFinset = l.toFinset.image (onNum φ) := fun l => by ext; simp
    simp only [hf, hi]
    refine Finset.card_image_of_injOn fun a ha b hb hab => ?_
    simp only [List.coe_toFinset, List.mem_filter, Set.mem_setOf_eq] at ha hb
    exact onNum_injOn hφ ha.1 hb.1 hab
  cases h with
  | unchanged _ _ hs => exact ⟨rfl, rfl, rfl, hs, hs⟩
  | quantiles q _ φ hfl hq hstr hφ => exact ⟨rfl, rfl, key φ hφ, by simp, by simp⟩
  | shift q _ b => exact ⟨rfl, rfl, key _ fun x _ y _ h => by simpa using h, by simp, by simp⟩
  | edges l _ φ hstr hφ => exact ⟨rfl, rfl, key φ fun x hx y hy => hφ x (.inl hx) y (.inl hy), by simp, by simp⟩

/-! ### frames -/

/-- What the binning needs to know of two frames. -/
structure BinAlike (fl : ℚ → ℚ) (pf : String → Option (Option ℚ)) (quantile : Bool) (ic : List String) (bins bins' : Bins) (f g : Frame) :
    Prop where
  nrows : g.nrows = f.nrows
  cols : List.Forall₂ (fun c c' => c'.name = c.name ∧ c'.numeric = c.numeric ∧ c'.nunique = c.nunique ∧
    (c.name ∉ ic → c' = c) ∧ (c.name ∈ ic → ∃ s s', EntryFor bins c.name s ∧ EntryFor bins' c.name s' ∧ s ≠ .other ∧ s' ≠ .other ∧
      colBin fl pf quantile s' c' = colBin fl pf quantile s c)) f.cols g.cols

theorem Spec.SameFrames.alike {fl : ℚ → ℚ} (pf : String → Option (Option ℚ)) {quantile : Bool} {ic : List String} {bins bins' : Bins} {f g : Frame}
    (h : SameFrames fl quantile ic bins bins' f g) : BinAlike fl pf quantile ic bins bins' f g := by
  refine ⟨h.nrows, h.cols.imp fun c c' hc => ?_⟩
  split at hc
  · next hin =>
    obtain ⟨s, s', h1, h2, h3⟩ := hc
    obtain ⟨n1, n2, n3, n4, n5⟩ := sameData_increasing h3
    exact ⟨n1, n2, n3, fun h => absurd hin h, fun _ => ⟨s, s', h1, h2, n4, n5, sameData_bin pf h3⟩⟩
  · next hin => subst hc; exact ⟨rfl, rfl, rfl, fun _ => rfl, fun h => absurd h hin⟩

namespace BinAlike
variable {fl : ℚ → ℚ} {pf : String → Option (Option ℚ)} {quantile : Bool} {ic : List String} {bins bins' : Bins} {f g : Frame}

theorem names (h : BinAlike fl pf quantile ic bins bins' f g) : g.names = f.names := by
  unfold Frame.names
  have := h.cols
  clear h
  revert this
  generalize f.cols = a
  generalize g.cols = b
  intro this
  induction this with
  | nil => rfl
  | cons h1 _ ih => simp only [List.map_cons, h1.1, ih]

theorem guess (h : BinAlike fl pf quantile ic bins bins' f g) : guessIntervalCols g = guessIntervalCols f := by
  unfold guessIntervalCols
  have := h.cols
  clear h
  revert this
  generalize f.cols = a
  generalize g.cols = b
  intro this
  induction this with
  | nil => rfl
  | cons h1 _ ih =>
    simp only [List.filter_cons, h1.2.1]
    split
    · simp only [List.map_cons, h1.1, ih]
    · exact ih

theorem col? (h : BinAlike fl pf quantile ic bins bins' f g) (n : String) :
    (f.col? n = none ∧ g.col? n = none) ∨ ∃ c c', f.col? n = some c ∧ g.col? n = some c' ∧ c.name = n ∧ c'.nunique = c.nunique ∧
      (n ∈ ic → ∃ s s', EntryFor bins n s ∧ EntryFor bins' n s' ∧ s ≠ .other ∧ s' ≠ .other ∧
        colBin fl pf quantile s' c' = colBin fl pf quantile s c) := by
  unfold Frame.col?
  have := h.cols
  clear h
  revert this
  generalize f.cols = a
  generalize g.cols = b
  intro this
  induction this with
  | nil => exact .inl ⟨rfl, rfl⟩
  | @cons a b l l' h1 _ ih =>
    simp only [List.find?_cons, h1.1]
    by_cases e : a.name = n
    · subst e
      simp only [beq_self_eq_true]
      exact .inr ⟨a, b, rfl, rfl, rfl, h1.2.2.1, h1.2.2.2.2⟩
    · have : (a.name == n) = false := by simpa using e
      simp only [this]
      exact ih

theorem nunique (h : BinAlike fl pf quantile ic bins bins' f g) (n : String) : g.nunique n = f.nunique n := by
  unfold Frame.nunique
  rcases h.col? n with ⟨h1, h2⟩ | ⟨c, c', h1, h2, -, h3, -⟩
  · rw [h1, h2]
  · rw [h1, h2]; exact h3

theorem drop (h : BinAlike fl pf quantile ic bins bins' f g) (l : List String) :
    BinAlike fl pf quantile ic bins bins' (f.drop l) (g.drop l) := by
  refine ⟨h.nrows, ?_⟩
  unfold Frame.drop
  simp only
  have := h.cols
  clear h
  revert this
  generalize f.cols = a
  generalize g.cols = b
  intro this
  induction this with
  | nil => exact .nil
  | cons h1 _ ih =>
    simp only [List.filter_cons, h1.1]
    split
    · exact .cons h1 ih
    · exact ih

end BinAlike

/-! ### `bin_data` -/

theorem binLoop_step (fl : ℚ → ℚ) (pf : String → Option (Option ℚ)) (data : Frame) {bins : Bins} (quantile : Bool) {n : String}
    {s : BinSpec} (hs : EntryFor bins n s) (hne : s ≠ .other) (rest : List String) (x : Option (List ℚ)) (out : Frame)
    (d : List (String × List (ℚ × ℚ))) :
    (data.col? n = none ∧ binLoop fl pf data bins quantile (n :: rest) x out d = .error .key) ∨
    ∃ c, data.col? n = some c ∧
      ((∃ e, colBin fl pf quantile s c = .error e ∧ binLoop fl pf data bins quantile (n :: rest) x out d = .error e) ∨
       ∃ cells x' d', colBin fl pf quantile s c = .ok cells ∧
        binLoop fl pf data bins quantile (n :: rest) x out d =
          binLoop fl pf data bins quantile rest x' (out.setCol n ⟨n, false, cells⟩) d') := by
  have hent : bins.entry n = s := entry_of hs
  simp only [binLoop, selectEdges, hent, colFloats, Frame.getCol, bind, Except.bind, pure, Except.pure]
  cases hc : data.col? n with
  | none =>
    left
    cases s with
    | num q => exact ⟨rfl, rfl⟩
    | edges l => exact ⟨rfl, rfl⟩
    | other => exact absurd rfl hne
  | some c =>
    refine .inr ⟨c, rfl, ?_⟩
    unfold colBin
    cases hm : c.cells.mapM (toFloat pf) with
    | error e =>
      simp only [hm]
      left
      cases s with
      | num q => exact ⟨e, rfl, rfl⟩
      | edges l => exact ⟨e, rfl, rfl⟩
      | other => exact absurd rfl hne
    | ok arr =>
      simp only [hm]
      cases s with
      | num q =>
        dsimp only
        cases he : binEdges fl (arr.filterMap id) (truncQ q) quantile with
        | error e => exact .inl ⟨e, rfl, rfl⟩
        | ok e => exact .inr ⟨_, _, _, rfl, rfl⟩
      | edges l => exact .inr ⟨_, _, _, rfl, rfl⟩
      | other => exact absurd rfl hne

theorem entryFor_unique' {bins : Bins} {n : String} {s s' : BinSpec} (h : EntryFor bins n s) (h' : EntryFor bins n s') :
    s = s' := (entry_of h).symm.trans (entry_of h')

theorem binLoop_alike {fl : ℚ → ℚ} {pf : String → Option (Option ℚ)} {quantile : Bool} {ic : List String} {bins bins' : Bins} {f g : Frame}
    (h : BinAlike fl pf quantile ic bins bins' f g)
    (cols : List String) (hent : ∀ n ∈ cols, ∃ s s', EntryFor bins n s ∧ EntryFor bins' n s' ∧ s ≠ .other ∧ s' ≠ .other) (hsub : ∀ n ∈ cols, n ∈ ic) (x x' : Option (List ℚ)) (o o' : Frame) (hr : o'.nrows = o.nrows)
    (ho : List.Forall₂ (fun c c' => c'.name = c.name ∧ (c' = c ∨ c.name ∈ cols)) o.cols o'.cols)
    (d d' : List (String × List (ℚ × ℚ))) :
    ERel (fun a b => b.1 = a.1) (binLoop fl pf f bins quantile cols x o d) (binLoop fl pf g bins' quantile cols x' o' d') := by
  induction cols generalizing x x' o o' d d' with
  | nil =>
    obtain ⟨n1, c1⟩ := o
    obtain ⟨n2, c2⟩ := o'
    simp only at hr ho
    have : c2 = c1 := by
      clear hr
      induction ho with
      | nil => rfl
      | cons h1 _ ih =>
        rw [ih]
        rcases h1.2 with h | h
        · rw [h]
        · simp at h
    subst hr this
    rfl
  | cons n rest ih =>
    have hin := hsub n List.mem_cons_self
    have step : ∀ cells, List.Forall₂ (fun c c' => c'.name = c.name ∧ (c' = c ∨ c.name ∈ rest))
        (o.setCol n ⟨n, false, cells⟩).cols (o'.setCol n ⟨n, false, cells⟩).cols := by
      intro cells
      unfold Frame.setCol
      simp only [List.forall₂_map_left_iff, List.forall₂_map_right_iff]
      refine ho.imp fun c c' hc => ?_
      rw [hc.1]
      by_cases e : c.name = n
      · simp [e]
      · have : (c.name == n) = false := by simpa using e
        simp only [this, Bool.false_eq_true, if_false]
        refine ⟨hc.1, hc.2.imp id fun h => ?_⟩
        rcases List.mem_cons.1 h with h | h
        · exact absurd h e
        · exact h
    obtain ⟨s0, s0', e1, e2, e3, e4⟩ := hent n List.mem_cons_self
    rcases binLoop_step fl pf f quantile e1 e3 rest x o d with ⟨a1, a2⟩ | ⟨c, a1, a2⟩
    · rcases h.col? n with ⟨-, b1⟩ | ⟨c, c', b1, -⟩
      · rcases binLoop_step fl pf g quantile e2 e4 rest x' o' d' with ⟨-, k2⟩ | ⟨c, k1, -⟩
        · rw [a2, k2]; rfl
        · rw [b1] at k1; cases k1
      · rw [a1] at b1; cases b1
    · rcases h.col? n with ⟨b1, -⟩ | ⟨c0, c', b1, b2, -, -, b3⟩
      · rw [a1] at b1; cases b1
      rw [a1] at b1
      obtain rfl := Option.some.inj b1
      obtain ⟨s, s', f1, f2, -, -, f3⟩ := b3 hin
      rw [entryFor_unique' f1 e1, entryFor_unique' f2 e2] at f3
      rcases binLoop_step fl pf g quantile e2 e4 rest x' o' d' with ⟨k1, -⟩ | ⟨c1, k1, k2⟩
      · rw [b2] at k1; cases k1
      rw [b2] at k1
      obtain rfl := Option.some.inj k1
      rcases a2 with ⟨e, p1, p2⟩ | ⟨cells, y, dd, p1, p2⟩
      · rcases k2 with ⟨e', q1, q2⟩ | ⟨cells', y', dd', q1, q2⟩
        · rw [f3, p1] at q1
          cases q1
          rw [p2, q2]; rfl
        · rw [f3, p1] at q1; cases q1
      · rcases k2 with ⟨e', q1, q2⟩ | ⟨cells', y', dd', q1, q2⟩
        · rw [f3, p1] at q1; cases q1
        · rw [f3, p1] at q1
          cases q1
          rw [p2, q2]
          exact ih (fun n hn => hent n (List.mem_cons_of_mem _ hn)) (fun n hn => hsub n (List.mem_cons_of_mem _ hn)) _ _ _ _ (by simpa [Frame.setCol] using hr) (step cells) _ _

theorem dictCheck_ok {cols : List String} {bins : Bins} (h : ∀ n ∈ cols, ∃ s, EntryFor bins n s) : dictCheck cols bins = .ok () := by
  unfold dictCheck
  cases bins with
  | one => rfl
  | dict d =>
    simp only
    rw [if_pos]
    rw [List.all_eq_true]
    intro n hn
    obtain ⟨s, hs⟩ := h n hn
    cases hs with
    | dict _ _ _ h => rw [h]; rfl

theorem binDataCore_alike {fl : ℚ → ℚ} {pf : String → Option (Option ℚ)} {quantile : Bool} {ic : List String} {bins bins' : Bins} {f g : Frame}
    (h : BinAlike fl pf quantile ic bins bins' f g) {cols : List String} (hsub : ∀ n ∈ cols, n ∈ ic ∧ n ∈ f.names)
    (hall : ∀ c ∈ f.cols, c.name ∈ ic → c.name ∈ cols) :
    ERel (fun a b => b.1 = a.1) (binDataCore fl pf f cols bins quantile) (binDataCore fl pf g cols bins' quantile) := by
  have hent : ∀ n ∈ cols, ∃ s s', EntryFor bins n s ∧ EntryFor bins' n s' ∧ s ≠ .other ∧ s' ≠ .other := by
    intro n hn
    obtain ⟨hic, hnm⟩ := hsub n hn
    rcases h.col? n with ⟨h1, -⟩ | ⟨c, c', -, -, -, -, h3⟩
    · obtain ⟨c, hc, rfl⟩ := List.mem_map.1 hnm
      unfold Frame.col? at h1
      have := List.find?_eq_none.1 h1 c hc
      simp at this
    · obtain ⟨s, s', k1, k2, k3, k4, -⟩ := h3 hic
      exact ⟨s, s', k1, k2, k3, k4⟩
  unfold binDataCore
  rw [dictCheck_ok (bins := bins) fun n hn => (hent n hn).imp fun s h => h.choose_spec.1,
    dictCheck_ok (bins := bins') fun n hn => ⟨_, (hent n hn).choose_spec.choose_spec.2.1⟩]
  refine binLoop_alike h cols hent (fun n hn => (hsub n hn).1) _ _ _ _ h.nrows ?_ _ _
  have hall' : List.Forall₂ (fun c _ => c.name ∈ ic → c.name ∈ cols) f.cols g.cols := by
    have := h.cols.length_eq
    revert this hall
    generalize f.cols = a
    generalize g.cols = b
    intro hall hl
    induction a generalizing b with
    | nil => cases b with
      | nil => exact .nil
      | cons => simp at hl
    | cons x l ih => cases b with
      | nil => simp at hl
      | cons y l' => exact .cons (hall x List.mem_cons_self) (ih _ (fun c hc => hall c (List.mem_cons_of_mem _ hc)) (by simpa using hl))
  have := h.cols
  revert hall' this
  generalize f.cols = a
  generalize g.cols = b
  intro h1 h2
  induction h2 with
  | nil => exact .nil
  | cons k1 _ ih =>
    cases h1 with
    | cons m1 m2 =>
      refine .cons ⟨k1.1, ?_⟩ (ih m2)
      rename_i c c' _ _ _
      by_cases hin : c.name ∈ ic
      · exact .inr (m1 hin)
      · exact .inl (k1.2.2.2.1 hin)

/-! ### programs -/

/-- Both runs end with the same value or exception, and the same warnings have been issued. -/
def Alike {α : Type} (a b : Except Err α × World) : Prop := a.1 = b.1 ∧ a.2.warns = b.2.warns

/-- The same frame is found behind the references, and the same warnings have been issued. -/
def AtRef (b b' : Ref) (w w' : World) : Prop := w.warns = w'.warns ∧ ∃ f, w.heap[b]? = some f ∧ w'.heap[b']? = some f

/-- The programs only look at the frame behind their reference. -/
def Local {α : Type} (b b' : Ref) (m m' : M α) : Prop :=
  ∀ w w', AtRef b b' w w' → (m.exec w).1 = (m'.exec w').1 ∧ AtRef b b' (m.exec w).2 (m'.exec w').2

namespace Local
variable {α β : Type} {b b' : Ref}

theorem pure (a : α) : Local b b' (pure a) (pure a) := fun _ _ h => ⟨rfl, h⟩

theorem throw (e : Err) : Local b b' (throw e : M α) (throw e) := fun _ _ h => ⟨rfl, h⟩

theorem warn (x : Warning) : Local b b' (M.warn x) (M.warn x) := fun _ _ h => ⟨rfl, by simp [h.1], h.2⟩

theorem ofExcept (e : Except Err α) : Local b b' (M.ofExcept e) (M.ofExcept e) := fun w w' h => by
  rw [M.exec_ofExcept, M.exec_ofExcept]; exact ⟨rfl, h⟩

theorem bind {m m' : M α} {k k' : α → M β} (h : Local b b' m m') (hk : ∀ a, Local b b' (k a) (k' a)) :
    Local b b' (m >>= k) (m' >>= k') := by
  intro w w' hw
  have h1 := h w w' hw
  rw [M.exec_bind, M.exec_bind]
  revert h1
  rcases m.exec w with ⟨x, v⟩
  rcases m'.exec w' with ⟨y, v'⟩
  rintro ⟨h1, h2⟩
  simp only at h1
  subst h1
  cases x with
  | error e => exact ⟨rfl, h2⟩
  | ok a => exact hk a _ _ h2

theorem read : Local b b' (M.read b) (M.read b') := by
  rintro w w' ⟨h1, f, h2, h3⟩
  rw [M.exec_read_of h2, M.exec_read_of h3]
  exact ⟨rfl, h1, f, h2, h3⟩

theorem write (f : Frame) : Local b b' (M.write b f) (M.write b' f) := by
  rintro w w' ⟨h1, g, h2, h3⟩
  rw [M.exec_write, M.exec_write]
  obtain ⟨l2, -⟩ := List.getElem?_eq_some_iff.1 h2
  obtain ⟨l3, -⟩ := List.getElem?_eq_some_iff.1 h3
  exact ⟨rfl, h1, f, by simp [l2], by simp [l3]⟩

end Local

theorem phikFromRebinned_atRef (nm : Numerics) (sched : Option (List ℕ)) (b b' : Ref) (noise dropna du dof : Bool) :
    Local b b' (phikFromRebinned nm sched b noise dropna du dof) (phikFromRebinned nm sched b' noise dropna du dof) :=
  .bind .read fun _ => .bind (.write _) fun _ => .ofExcept _

theorem globalFromRebinned_atRef (nm : Numerics) (sched : Option (List ℕ)) (b b' : Ref) (noise dropna du dof : Bool) :
    Local b b' (globalFromRebinned nm sched b noise dropna du dof) (globalFromRebinned nm sched b' noise dropna du dof) :=
  .bind (phikFromRebinned_atRef nm sched b b' noise dropna du dof) fun _ => .bind (.ofExcept _) fun _ => .pure _

theorem hist2dFromRebinned_atRef (b b' : Ref) (dropna du dof : Bool) :
    Local b b' (hist2dFromRebinned b dropna du dof) (hist2dFromRebinned b' dropna du dof) := by
  unfold hist2dFromRebinned
  refine .bind .read fun data => ?_
  dsimp only
  by_cases h : data.cols.length ≠ 2
  · simp only [if_pos h]
    refine .bind (.throw _) fun _ => .bind (.write _) fun _ => ?_
    split <;> first | exact .pure _ | exact .throw _
  · simp only [if_neg h]
    refine .bind (.write _) fun _ => ?_
    split <;> first | exact .pure _ | exact .throw _

theorem sigLoop_atRef {F : Type} (S : SigNum) (R : ℕ → SimRun F) (sm : String) (f : Frame) (b b' : Ref) (k : ℕ) (l : List (String × String)) :
    Local b b' (sigLoop S R sm f k l) (sigLoop S R sm f k l) := by
  induction l generalizing k with
  | nil => exact .pure _
  | cons p l ih =>
    unfold sigLoop
    repeat' first
      | exact .pure _
      | exact .throw _
      | exact .warn _
      | exact .ofExcept _
      | exact ih _
      | dsimp only
      | refine Local.bind ?_ fun _ => ?_
      | split

theorem sigFromRebinned_atRef {F : Type} (S : SigNum) (R : ℕ → SimRun F) (b b' : Ref) (sm : String) (dropna du dof : Bool) :
    Local b b' (sigFromRebinned S R b sm dropna du dof) (sigFromRebinned S R b' sm dropna du dof) := by
  unfold sigFromRebinned
  refine .bind .read fun data => .bind (.write _) fun _ => .bind (sigLoop_atRef S R sm _ b b' _ _) fun l => ?_
  split <;> exact .pure _

theorem dqCheck_exec {r : Ref} {w : World} {f : Frame} (hr : w.heap[r]? = some f) {ic : List String} {dropna : Bool} :
    (dqCheck r ic dropna).exec w =
      (.ok (w.heap.length, (ic.filter fun c => f.names.contains c).filter fun c =>
          !(dropCols f (ic.filter fun c => f.names.contains c) dropna).contains c),
        ⟨w.heap ++ [f.drop (dropCols f (ic.filter fun c => f.names.contains c) dropna)],
          w.warns ++ ((((otherCols f (ic.filter fun c => f.names.contains c)).filter fun c => decide (1000 < f.nunique c)).map .manyUnique) ++
            (dropCols f (ic.filter fun c => f.names.contains c) dropna).map .notEnoughUnique)⟩) := by
  set ic0 := ic.filter (fun c => f.names.contains c) with hic0
  set drop := dropCols f ic0 dropna with hdrop
  unfold dqCheck
  rw [M.exec_bind, M.exec_read_of hr]
  simp only [← hic0, ← hdrop, M.exec_bind, exec_warnAll, M.exec_alloc]
  by_cases hd : drop.length > 0
  · simp only [hd, if_true, M.exec_bind, M.exec_write, M.exec_pure]
    simp
  · have hd' : drop = [] := List.length_eq_zero_iff.1 (by omega)
    rw [if_neg hd, M.exec_pure]
    simp only [hd', Frame.drop, List.contains_nil, Bool.not_false, List.filter_true, List.map_nil,
      List.append_nil]

/-- The pipeline of the matrix functions: the data quality check, the binning, and a step that looks at the binned frame only. -/
theorem pipeline_alike {α : Type} {fl : ℚ → ℚ} {pf : String → Option (Option ℚ)} {quantile : Bool} {bins bins' : Bins} {f g : Frame}
    {ic : List String} (h : BinAlike fl pf quantile ic bins bins' f g) {r r' : Ref} {w w' : World} (hf : w.heap[r]? = some f)
    (hg : w'.heap[r']? = some g) (hw : w.warns = w'.warns) (dropna : Bool) {k : Ref → M α}
    (hk : ∀ b b', Local b b' (k b) (k b')) :
    Alike ((do
      let (clean, icClean) ← dqCheck r ic dropna
      let (binned, _) ← binData fl pf clean icClean bins quantile
      k binned : M α).exec w) ((do
      let (clean, icClean) ← dqCheck r' ic dropna
      let (binned, _) ← binData fl pf clean icClean bins' quantile
      k binned : M α).exec w') := by
  have e0 : (ic.filter fun c => g.names.contains c) = ic.filter fun c => f.names.contains c := by rw [h.names]
  have e1 : ∀ l, otherCols g l = otherCols f l := fun l => by unfold otherCols; rw [h.names]
  have e2 : ∀ l, dropCols g l dropna = dropCols f l dropna := fun l => by
    unfold dropCols; rw [e1]; simp only [h.nunique]
  rw [M.exec_bind, M.exec_bind, dqCheck_exec hf, dqCheck_exec hg]
  simp only [e0, e1, e2, h.nunique, ← hw]
  generalize hdrop : dropCols f (ic.filter fun c => f.names.contains c) dropna = drop
  set icc := (ic.filter fun c => f.names.contains c).filter fun c => !drop.contains c with hicc
  have hd := h.drop drop
  have hcore := binDataCore_alike hd (cols := icc) (by
      intro n hn
      rw [hicc, List.mem_filter, List.mem_filter] at hn
      obtain ⟨⟨h1, h2⟩, h3⟩ := hn
      refine ⟨h1, ?_⟩
      obtain ⟨c, hc, rfl⟩ := List.mem_map.1 (by simpa using h2 : n ∈ f.names)
      exact List.mem_map_of_mem (List.mem_filter.2 ⟨hc, h3⟩)) (by
      intro c hc hin
      obtain ⟨h1, h2⟩ := List.mem_filter.1 hc
      rw [hicc, List.mem_filter, List.mem_filter]
      exact ⟨⟨hin, by rw [List.contains_iff_mem]; exact List.mem_map_of_mem h1⟩, h2⟩)
  rw [M.exec_bind, M.exec_bind, binData_exec fl pf (data := f.drop drop) (by simp), binData_exec fl pf (data := g.drop drop) (by simp)]
  revert hcore
  cases binDataCore fl pf (f.drop drop) icc bins quantile with
  | error e =>
    cases binDataCore fl pf (g.drop drop) icc bins' quantile with
    | error e' => intro he; cases he; exact ⟨rfl, rfl⟩
    | ok v => exact fun he => he.elim
  | ok v =>
    cases binDataCore fl pf (g.drop drop) icc bins' quantile with
    | error e' => exact fun he => he.elim
    | ok v' =>
      intro he
      simp only [ERel] at he
      refine (fun hh => ⟨hh.1, hh.2.1⟩) (hk (w.heap ++ [f.drop drop]).length (w'.heap ++ [g.drop drop]).length _ _ ?_)
      exact ⟨rfl, v.1, by simp, by simp [he]⟩

namespace Props

/-- **C68.** The scale of an interval variable does not matter: if interval columns are shifted (equal-width bins), transformed by any
increasing function (quantile bins), or transformed together with their explicit bin edges, then `phik_matrix`,
`global_phik_array` and, with equal-width bins or explicit edges, `significance_matrix`
return the same values or raise the same exceptions, and issue the same warnings. -/
theorem scale_free {F : Type} (nm : Numerics) (sched : Option (List ℕ)) (S : SigNum) (R : ℕ → SimRun F) (fl : ℚ → ℚ)
    (pf : String → Option (Option ℚ)) {r r' : Ref} {w w' : World} {f g : Frame} (hf : w.heap[r]? = some f)
    (hg : w'.heap[r']? = some g) (hw : w.warns = w'.warns) (ic : Option (List String)) {bins bins' : Bins} {quantile : Bool}
    (h : SameFrames fl quantile (ic.getD (guessIntervalCols f)) bins bins' f g) (noise dropna du dof : Bool) (sm : String) :
    Alike ((phikMatrix nm sched fl pf r ic bins quantile noise dropna du dof).exec w)
      ((phikMatrix nm sched fl pf r' ic bins' quantile noise dropna du dof).exec w') ∧
    Alike ((globalPhikArray nm sched fl pf r ic bins quantile noise dropna du dof).exec w)
      ((globalPhikArray nm sched fl pf r' ic bins' quantile noise dropna du dof).exec w') ∧
    (quantile = false →
      Alike ((significanceMatrix S R fl pf r ic bins sm dropna du dof).exec w)
        ((significanceMatrix S R fl pf r' ic bins' sm dropna du dof).exec w')) := by
  have ha := h.alike pf
  have hgs := ha.guess
  refine ⟨?_, ?_, fun hq => ?_⟩
  · unfold phikMatrix
    rw [M.exec_bind, M.exec_bind, M.exec_read_of hf, M.exec_read_of hg]
    simp only [hgs]
    exact pipeline_alike ha hf hg hw dropna fun b b' => phikFromRebinned_atRef nm sched b b' noise dropna du dof
  · unfold globalPhikArray
    rw [M.exec_bind, M.exec_bind, M.exec_read_of hf, M.exec_read_of hg]
    simp only [hgs]
    exact pipeline_alike ha hf hg hw dropna fun b b' => globalFromRebinned_atRef nm sched b b' noise dropna du dof
  · subst hq
    unfold significanceMatrix
    rw [M.exec_bind, M.exec_bind, M.exec_read_of hf, M.exec_read_of hg]
    simp only [hgs]
    exact pipeline_alike ha hf hg hw dropna fun b b' => sigFromRebinned_atRef S R b b' sm dropna du dof

/-- **C68 for `bin_data` and `hist2d`.** The binned data and the contingency table are the same (the bin edges in the labels differ, of course).
All interval columns that are named must exist. -/
theorem scale_free_binned (fl : ℚ → ℚ) (pf : String → Option (Option ℚ)) {r r' : Ref} {w w' : World} {f g : Frame}
    (hf : w.heap[r]? = some f) (hg : w'.heap[r']? = some g) (hw : w.warns = w'.warns) {bins bins' : Bins} {quantile : Bool} :
    (∀ cols : List String, (∀ n ∈ cols, n ∈ f.names) → SameFrames fl quantile cols bins bins' f g →
      match (binData fl pf r cols bins quantile).exec w, (binData fl pf r' cols bins' quantile).exec w' with
      | (.ok (b, _), v), (.ok (b', _), v') => ∃ out, v.heap[b]? = some out ∧ v'.heap[b']? = some out
      | (.error e, _), (.error e', _) => e = e'
      | _, _ => False) ∧
    (∀ (ic : Option (List String)), (∀ n ∈ ic.getD (guessIntervalCols f), n ∈ f.names) →
      SameFrames fl quantile (ic.getD (guessIntervalCols f)) bins bins' f g → ∀ dropna du dof : Bool,
      match (hist2d fl pf r ic bins quantile dropna du dof).exec w, (hist2d fl pf r' ic bins' quantile dropna du dof).exec w' with
      | (.ok (h, _), v), (.ok (h', _), v') => h = h' ∧ v.warns = v'.warns
      | (.error e, v), (.error e', v') => e = e' ∧ v.warns = v'.warns
      | _, _ => False) := by
  constructor
  · intro cols hsub h
    have hc := binDataCore_alike (h.alike pf) (cols := cols) (fun n hn => ⟨hn, hsub n hn⟩) fun c _ hc => hc
    rw [binData_exec fl pf hf, binData_exec fl pf hg]
    revert hc
    cases binDataCore fl pf f cols bins quantile with
    | error e =>
      cases binDataCore fl pf g cols bins' quantile with
      | error e' => exact id
      | ok v => exact fun he => he.elim
    | ok v =>
      cases binDataCore fl pf g cols bins' quantile with
      | error e' => exact fun he => he.elim
      | ok v' => intro he; have he : v'.1 = v.1 := he; exact ⟨v.1, by simp, by simp [he]⟩
  · intro ic hsub h dropna du dof
    have ha := h.alike pf
    have hc := binDataCore_alike ha (cols := ic.getD (guessIntervalCols f)) (fun n hn => ⟨hn, hsub n hn⟩) fun c _ hc => hc
    have hlen : g.cols.length = f.cols.length := ha.cols.length_eq.symm
    unfold hist2d
    rw [M.exec_bind, M.exec_bind, M.exec_read_of hf, M.exec_read_of hg]
    dsimp only
    rw [ha.guess, hlen]
    by_cases h2 : f.cols.length ≠ 2
    · rw [if_pos h2, if_pos h2]
      exact ⟨rfl, hw⟩
    · rw [if_neg h2, if_neg h2, M.exec_bind, M.exec_bind, binData_exec fl pf hf, binData_exec fl pf hg]
      revert hc
      cases binDataCore fl pf f (ic.getD (guessIntervalCols f)) bins quantile with
      | error e =>
        cases binDataCore fl pf g (ic.getD (guessIntervalCols f)) bins' quantile with
        | error e' => exact fun he => ⟨he, hw⟩
        | ok v => exact fun he => he.elim
      | ok v =>
        cases binDataCore fl pf g (ic.getD (guessIntervalCols f)) bins' quantile with
        | error e' => exact fun he => he.elim
        | ok v' =>
          intro he
          have he : v'.1 = v.1 := he
          obtain ⟨k1, k2⟩ := hist2dFromRebinned_atRef w.heap.length w'.heap.length dropna du dof ⟨w.heap ++ [v.1], w.warns⟩
            ⟨w'.heap ++ [v'.1], w'.warns⟩ ⟨hw, v.1, by simp, by simp [he]⟩
          obtain ⟨out, d⟩ := v
          obtain ⟨out', d'⟩ := v'
          simp only [M.exec_bind]
          revert k1 k2
          rcases (hist2dFromRebinned w.heap.length dropna du dof).exec ⟨w.heap ++ [out], w.warns⟩ with ⟨x, u⟩
          rcases (hist2dFromRebinned w'.heap.length dropna du dof).exec ⟨w'.heap ++ [out'], w'.warns⟩ with ⟨y, u'⟩
          intro k1 k2
          simp only at k1 k2
          subst k1
          cases x with
          | error e => exact ⟨rfl, k2.1⟩
          | ok h => exact ⟨rfl, k2.1⟩

/-- Two columns of numbers with missing values, the second one transformed by an increasing function. -/
example : SameFrames id true ["a"] (.one (.num 3)) (.one (.num 3))
    ⟨4, [⟨"a", true, [.num 1, .nan, .num 2, .num 7]⟩, ⟨"s", false, [.str "x", .str "y", .str "x", .nan]⟩]⟩
    ⟨4, [⟨"a", true, [.num 1, .nan, .num 4, .num 49]⟩, ⟨"s", false, [.str "x", .str "y", .str "x", .nan]⟩]⟩ := by
  refine ⟨rfl, .cons ?_ (.cons ?_ .nil)⟩
  · rw [if_pos (by simp)]
    have e : (⟨"a", true, [.num 1, .nan, .num 4, .num 49]⟩ : Column) = rescale (fun x => x * x) ⟨"a", true, [.num 1, .nan, .num 2, .num 7]⟩ := by
      simp only [rescale, onNum, List.map_cons, List.map_nil]; norm_num
    rw [e]
    refine ⟨_, _, .one _ _, .one _ _, .quantiles 3 _ _ rfl rfl (by simp) ?_⟩
    intro x hx y hy
    simp only [numbersOf, Set.mem_ofPred_eq, List.mem_cons, Cell.num.injEq, reduceCtorEq, List.not_mem_nil, or_false, false_or] at hx hy
    rcases hx with rfl | rfl | rfl <;> rcases hy with rfl | rfl | rfl <;> norm_num
  · rw [if_neg (by simp)]

/-- A shifted column with equal-width bins, and a column with explicit edges, both on another scale. -/
example : SameFrames id false ["a", "b"] (.dict [("a", .num 2), ("b", .edges [0, 2, 5])]) (.dict [("a", .num 2), ("b", .edges [0, 20, 50])])
    ⟨2, [⟨"a", true, [.num 1, .num 3]⟩, ⟨"b", true, [.num 1, .num 3]⟩]⟩
    ⟨2, [⟨"a", true, [.num 101, .num 103]⟩, ⟨"b", true, [.num 10, .num 30]⟩]⟩ := by
  refine ⟨rfl, .cons ?_ (.cons ?_ .nil)⟩
  · rw [if_pos (by simp)]
    have e : (⟨"a", true, [.num 101, .num 103]⟩ : Column) = rescale (fun x => x + 100) ⟨"a", true, [.num 1, .num 3]⟩ := by
      simp only [rescale, onNum, List.map_cons, List.map_nil]; norm_num
    rw [e]
    exact ⟨_, _, .dict _ _ _ rfl, .dict _ _ _ rfl, .shift 2 _ 100 rfl rfl (by simp)⟩
  · rw [if_pos (by simp)]
    have e : (⟨"b", true, [.num 10, .num 30]⟩ : Column) = rescale (fun x => 10 * x) ⟨"b", true, [.num 1, .num 3]⟩ := by
      simp only [rescale, onNum, List.map_cons, List.map_nil]; norm_num
    have e2 : ([0, 20, 50] : List ℚ) = [0, 2, 5].map fun x => 10 * x := by norm_num
    rw [e, e2]
    exact ⟨_, _, .dict _ _ _ rfl, .dict _ _ _ rfl, .edges _ _ _ (by simp) fun x _ y _ h => by simpa using h⟩

/-- **C68 (equal-width bins are not invariant under a change of the unit).** The lower edge is moved by a fixed amount, so a value between the
edges of the two scales changes its bin: here multiplying all values by 4 moves the second value from the
second to the first of two bins, in exact arithmetic. -/
theorem unit_matters : ∃ (l : List ℚ),
    ∃ e e', binEdges id l 2 false = .ok e ∧ binEdges id (l.map (4 * ·)) 2 false = .ok e' ∧
      (binArray (l.map some) e).1 = [.num 1, .num 2, .num 2] ∧
      (binArray ((l.map (4 * ·)).map some) e').1 = [.num 1, .num 1, .num 2] := by
  refine ⟨[0, 1 - 1 / (4 * 10 ^ 14), 2], [-1 / 10 ^ 14, 1 - 1 / (2 * 10 ^ 14), 2], [-1 / 10 ^ 14, 4 - 1 / (2 * 10 ^ 14), 8], ?_, ?_, ?_, ?_⟩
  · simp [binEdges, linspace, List.range_succ]
    norm_num
  · simp [binEdges, linspace, List.range_succ]
    norm_num
  · simp [binArray, searchsorted, searchGo]
    norm_num
  · simp [binArray, searchsorted, searchGo]
    norm_num

end Props

end Phik
