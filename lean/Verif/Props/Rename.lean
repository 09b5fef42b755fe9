import Verif.Props.Reuse

/-! # Properties C20, C26 on frames and arrays: renaming categories, exchanging columns -/

namespace Phik

open Spec Props

/-- Two arrays with the same numbers in another order have the same phik. -/
theorem phik_reindex (nm : Numerics) (noise : Bool) {a b : Arr2 ℝ} (e : Fin a.r ≃ Fin b.r)
    (f : Fin a.c ≃ Fin b.c) (h : ∀ i j, b.v (e i) (f j) = a.v i j) :
    phikFromHist2d nm.mvn nm.brentq a noise = phikFromHist2d nm.mvn nm.brentq b noise := by
  obtain ⟨r, c, v⟩ := a
  obtain ⟨r', c', v'⟩ := b
  simp only at e f
  obtain rfl : r = r' := by simpa using Fintype.card_congr e
  obtain rfl : c = c' := by simpa using Fintype.card_congr f
  rw [← phik_perm nm.mvn nm.brentq ⟨r, c, v'⟩ noise e f]
  congr 2
  funext i j
  exact (h i j).symm

theorem exists_table (recs : List (Option Cell × Option Cell)) : ∃ h, IsTable recs h := by
  set both : List (Cell × Cell) := recs.filterMap (fun p => match p with
    | (some a, some b) => some (a, b)
    | _ => none) with hboth
  have hm : ∀ a b, (a, b) ∈ both ↔ (some a, some b) ∈ recs := by
    intro a b
    rw [hboth, List.mem_filterMap]
    constructor
    · rintro ⟨⟨x, y⟩, h1, h2⟩
      cases x <;> cases y <;> simp at h2
      rw [← h2.1, ← h2.2]; exact h1
    · intro h; exact ⟨_, h, rfl⟩
  refine ⟨⟨(both.map Prod.fst).toFinset.sort (· ≤ ·), (both.map Prod.snd).toFinset.sort (· ≤ ·),
    fun i j => recs.count (some (((both.map Prod.fst).toFinset.sort (· ≤ ·))[i]),
      some (((both.map Prod.snd).toFinset.sort (· ≤ ·))[j]))⟩, ?_, ?_, ?_, ?_, fun i j => rfl⟩
  · exact (Finset.sortedLT_sort (α := Cell) (both.map Prod.fst).toFinset).pairwise
  · exact (Finset.sortedLT_sort (α := Cell) (both.map Prod.snd).toFinset).pairwise
  · intro a; simp [hm]
  · intro b; simp [hm]

/-- Position of the image of a label. -/
theorem rename_equiv {α β : Type} {l : List α} {l' : List β} {σ : α → β} (hl : l.Nodup) (hl' : l'.Nodup)
    (hinj : ∀ a ∈ l, ∀ b ∈ l, σ a = σ b → a = b) (hmem : ∀ b, b ∈ l' ↔ ∃ a ∈ l, σ a = b) :
    ∃ e : Fin l.length ≃ Fin l'.length, ∀ i, l'[e i] = σ l[i] := by
  have h1 : ∀ i : Fin l.length, ∃ j : Fin l'.length, l'[j] = σ l[i] := by
    intro i
    obtain ⟨j, hj, e⟩ := List.getElem_of_mem ((hmem (σ l[i])).2 ⟨_, List.getElem_mem _, rfl⟩)
    exact ⟨⟨j, hj⟩, e⟩
  choose f hf using h1
  have hbij : Function.Bijective f := by
    constructor
    · intro i j hij
      have : σ l[i] = σ l[j] := by rw [← hf i, ← hf j, hij]
      have := hinj _ (List.getElem_mem _) _ (List.getElem_mem _) this
      exact Fin.ext (hl.getElem_inj_iff.1 this)
    · intro j
      obtain ⟨a, ha, e⟩ := (hmem l'[j]).1 (List.getElem_mem _)
      obtain ⟨i, hi, rfl⟩ := List.getElem_of_mem ha
      refine ⟨⟨i, hi⟩, Fin.ext ?_⟩
      have h2 : l'[f ⟨i, hi⟩] = l'[j] := (hf ⟨i, hi⟩).trans e
      exact hl'.getElem_inj_iff.1 h2
  exact ⟨Equiv.ofBijective f hbij, hf⟩

namespace Props

/-- Renaming the values one-to-one permutes the rows and columns of the table. -/
theorem table_rename {recs : List (Option Cell × Option Cell)} {σ τ : Cell → Cell}
    (hσ : ∀ a b a' b', (some a, some b) ∈ recs → (some a', some b') ∈ recs → σ a = σ a' → a = a')
    (hτ : ∀ a b a' b', (some a, some b) ∈ recs → (some a', some b') ∈ recs → τ b = τ b' → b = b')
    {h h' : Hist} (ht : IsTable recs h) (ht' : IsTable (recs.map fun p => (p.1.map σ, p.2.map τ)) h') :
    ∃ (e : Fin h.rows.length ≃ Fin h'.rows.length) (f : Fin h.cols.length ≃ Fin h'.cols.length),
      h'.rows.length = h.rows.length ∧ h'.cols.length = h.cols.length ∧
      ∀ i j, h'.v (e i) (f j) = h.v i j := by
  have hmem : ∀ a' b', (some a', some b') ∈ recs.map (fun p => (p.1.map σ, p.2.map τ)) ↔
      ∃ a b, (some a, some b) ∈ recs ∧ σ a = a' ∧ τ b = b' := by
    intro a' b'
    rw [List.mem_map]
    constructor
    · rintro ⟨⟨x, y⟩, h1, h2⟩
      cases x <;> cases y <;> simp at h2
      exact ⟨_, _, h1, h2.1, h2.2⟩
    · rintro ⟨a, b, h1, rfl, rfl⟩; exact ⟨_, h1, rfl⟩
  obtain ⟨e, he⟩ := rename_equiv (l := h.rows) (l' := h'.rows) (σ := σ) (ht.rows_sorted.imp ne_of_lt)
    (ht'.rows_sorted.imp ne_of_lt)
    (fun a ha b hb => by
      obtain ⟨x, hx⟩ := (ht.rows_mem a).1 ha
      obtain ⟨y, hy⟩ := (ht.rows_mem b).1 hb
      exact hσ a x b y hx hy)
    (fun b => by
      rw [ht'.rows_mem]
      constructor
      · rintro ⟨y, hy⟩
        obtain ⟨a, c, h1, h2, -⟩ := (hmem b y).1 hy
        exact ⟨a, (ht.rows_mem a).2 ⟨c, h1⟩, h2⟩
      · rintro ⟨a, ha, rfl⟩
        obtain ⟨c, hc⟩ := (ht.rows_mem a).1 ha
        exact ⟨τ c, (hmem _ _).2 ⟨a, c, hc, rfl, rfl⟩⟩)
  obtain ⟨f, hf⟩ := rename_equiv (l := h.cols) (l' := h'.cols) (σ := τ) (ht.cols_sorted.imp ne_of_lt)
    (ht'.cols_sorted.imp ne_of_lt)
    (fun a ha b hb => by
      obtain ⟨x, hx⟩ := (ht.cols_mem a).1 ha
      obtain ⟨y, hy⟩ := (ht.cols_mem b).1 hb
      exact hτ x a y b hx hy)
    (fun b => by
      rw [ht'.cols_mem]
      constructor
      · rintro ⟨y, hy⟩
        obtain ⟨a, c, h1, -, h2⟩ := (hmem y b).1 hy
        exact ⟨c, (ht.cols_mem c).2 ⟨a, h1⟩, h2⟩
      · rintro ⟨a, ha, rfl⟩
        obtain ⟨c, hc⟩ := (ht.cols_mem a).1 ha
        exact ⟨σ c, (hmem _ _).2 ⟨c, a, hc, rfl, rfl⟩⟩)
  have hlen1 : h'.rows.length = h.rows.length := by simpa using (Fintype.card_congr e).symm
  have hlen2 : h'.cols.length = h.cols.length := by simpa using (Fintype.card_congr f).symm
  have hval : ∀ i j, h'.v (e i) (f j) = h.v i j := by
    intro i j
    rw [ht'.counts (e i) (f j), ht.counts i j, he i, hf j, List.count_eq_countP, List.countP_map,
      List.count_eq_countP]
    apply List.countP_congr
    rintro ⟨x, y⟩ hxy
    simp only [Function.comp, beq_iff_eq, Prod.mk.injEq]
    obtain ⟨c, hc⟩ := (ht.rows_mem h.rows[i]).1 (List.getElem_mem _)
    obtain ⟨d, hd⟩ := (ht.cols_mem h.cols[j]).1 (List.getElem_mem _)
    constructor
    · rintro ⟨h1, h2⟩
      cases x with
      | none => simp at h1
      | some x =>
        cases y with
        | none => simp at h2
        | some y =>
          simp only [Option.map_some, Option.some.injEq] at h1 h2 ⊢
          exact ⟨hσ x y _ c hxy hc h1, hτ x y d _ hxy hd h2⟩
    · rintro ⟨rfl, rfl⟩; exact ⟨rfl, rfl⟩
  exact ⟨e, f, hlen1, hlen2, hval⟩

/-- **C20 (records).** phik does not change when the values that occur are renamed one-to-one. -/
theorem isPhik_rename (nm : Numerics) (noise : Bool) {recs : List (Option Cell × Option Cell)}
    {σ τ : Cell → Cell}
    (hσ : ∀ a b a' b', (some a, some b) ∈ recs → (some a', some b') ∈ recs → σ a = σ a' → a = a')
    (hτ : ∀ a b a' b', (some a, some b) ∈ recs → (some a', some b') ∈ recs → τ b = τ b' → b = b')
    (v : Option ℝ) :
    IsPhik nm noise (recs.map fun p => (p.1.map σ, p.2.map τ)) v ↔ IsPhik nm noise recs v := by
  obtain ⟨h, ht⟩ := exists_table recs
  obtain ⟨h', ht'⟩ := exists_table (recs.map fun p => (p.1.map σ, p.2.map τ))
  obtain ⟨e, f, hlen1, hlen2, hval⟩ := table_rename hσ hτ ht ht'
  have hphik : phikFromHist2d nm.mvn nm.brentq h.values noise =
      phikFromHist2d nm.mvn nm.brentq h'.values noise :=
    phik_reindex nm noise (a := h.values) (b := h'.values) e f fun i j => by
      exact congrArg (Nat.cast (R := ℝ)) (hval i j)
  constructor
  · rintro ⟨h2, ht2, hc⟩
    obtain rfl := table_unique ht' ht2
    refine ⟨h, ht, ?_⟩
    rw [hphik, ← hlen1, ← hlen2]
    exact hc
  · rintro ⟨h2, ht2, hc⟩
    obtain rfl := table_unique ht ht2
    refine ⟨h', ht', ?_⟩
    rw [← hphik, hlen1, hlen2]
    exact hc

/-- **C20 (records).** phik does not change when the two variables are exchanged. -/
theorem isPhik_swap {nm : Numerics} (hm : MvnSpec nm.mvn) (noise : Bool)
    {recs : List (Option Cell × Option Cell)} (v : Option ℝ) :
    IsPhik nm noise (recs.map Prod.swap) v ↔ IsPhik nm noise recs v := by
  suffices key : ∀ recs : List (Option Cell × Option Cell), IsPhik nm noise recs v →
      IsPhik nm noise (recs.map Prod.swap) v by
    refine ⟨fun h => ?_, key recs⟩
    have := key _ h
    rwa [List.map_map, Prod.swap_swap_eq, List.map_id] at this
  rintro recs ⟨h, ht, hc⟩
  have hmem : ∀ a b, (some a, some b) ∈ recs.map Prod.swap ↔ (some b, some a) ∈ recs := by
    intro a b
    rw [List.mem_map]
    constructor
    · rintro ⟨⟨x, y⟩, h1, h2⟩; cases h2; exact h1
    · intro h; exact ⟨_, h, rfl⟩
  have ht' : IsTable (recs.map Prod.swap) ⟨h.cols, h.rows, fun j i => h.v i j⟩ := by
    refine ⟨ht.cols_sorted, ht.rows_sorted, fun a => ?_, fun a => ?_, fun i j => ?_⟩
    · rw [ht.cols_mem]; simp only [hmem]
    · rw [ht.rows_mem]; simp only [hmem]
    · rw [ht.counts j i]
      have := List.count_map_of_injective recs Prod.swap Prod.swap_injective
        (some h.rows[j], some h.cols[i])
      exact this.symm
  refine ⟨_, ht', ?_⟩
  rcases hc with ⟨h1, rfl⟩ | ⟨h1, h2, x, hx, rfl⟩
  · exact .inl ⟨h1.symm, rfl⟩
  · refine .inr ⟨h2, h1, x, ?_, rfl⟩
    rw [← hx]
    exact phik_transpose hm nm.brentq (data_isCount (table_data ht) h1) noise

/-- phik does not depend on the order of the records. -/
theorem isPhik_order (nm : Numerics) (noise : Bool) {recs recs' : List (Option Cell × Option Cell)}
    (hp : recs.Perm recs') (v : Option ℝ) : IsPhik nm noise recs v ↔ IsPhik nm noise recs' v := by
  have key : ∀ {recs recs' : List (Option Cell × Option Cell)}, recs.Perm recs' →
      IsPhik nm noise recs v → IsPhik nm noise recs' v := by
    rintro recs recs' hp ⟨h, ht, hc⟩
    exact ⟨h, ⟨ht.rows_sorted, ht.cols_sorted, fun a => by simp only [← hp.mem_iff]; exact ht.rows_mem a,
      fun a => by simp only [← hp.mem_iff]; exact ht.cols_mem a,
      fun i j => by rw [← hp.count_eq]; exact ht.counts i j⟩, hc⟩
  exact ⟨key hp, key hp.symm⟩

end Props

/-! ### renaming the categories of a column -/

/-- `σ` renames the entries of a column: one-to-one, missing values stay missing, and the strings the
library uses as markers are neither renamed nor new names. -/
structure Renames (σ : Cell → Cell) (cells : List Cell) : Prop where
  inj : ∀ a ∈ cells, ∀ b ∈ cells, σ a = σ b → a = b
  nan : ∀ a ∈ cells, (σ a = .nan ↔ a = .nan)
  old : NoSentinel cells
  new : NoSentinel (cells.map σ)

/-- The renaming on the entries of the contingency table. -/
def renamed (σ : Cell → Cell) (c : Cell) : Cell := if c = .str "NaN" then .str "NaN" else σ c

theorem view_plain {dropna du dof : Bool} {c : Cell} (h : c ≠ .nan) (h1 : c ≠ .str "UF") (h2 : c ≠ .str "OF") :
    view dropna du dof c = some c := by
  cases c with
  | nan => exact absurd rfl h
  | num q => rfl
  | str s => simp_all [view]

theorem view_rename {σ : Cell → Cell} {cells : List Cell} (h : Renames σ cells) {dropna du dof : Bool}
    {c : Cell} (hc : c ∈ cells) :
    view dropna du dof (σ c) = (view dropna du dof c).map (renamed σ) := by
  by_cases hn : c = .nan
  · rw [(h.nan c hc).2 hn, hn]
    cases dropna <;> simp [view, renamed]
  · have hn' : σ c ≠ .nan := fun e => hn ((h.nan c hc).1 e)
    have hm : σ c ∈ cells.map σ := List.mem_map_of_mem hc
    rw [view_plain hn' (fun e => h.new.1 (e ▸ hm)) (fun e => h.new.2.1 (e ▸ hm)),
      view_plain hn (fun e => h.old.1 (e ▸ hc)) (fun e => h.old.2.1 (e ▸ hc))]
    have : c ≠ .str "NaN" := fun e => h.old.2.2 (e ▸ hc)
    simp [renamed, this]

theorem view_eq_some {dropna du dof : Bool} {cells : List Cell} (h : NoSentinel cells) {c x : Cell}
    (hc : c ∈ cells) (hv : view dropna du dof c = some x) : (c = .nan ∧ x = .str "NaN") ∨ (c = x ∧ c ≠ .nan) := by
  by_cases hn : c = .nan
  · subst hn
    left
    cases dropna <;> simp [view] at hv
    exact ⟨rfl, hv.symm⟩
  · rw [view_plain hn (fun e => h.1 (e ▸ hc)) (fun e => h.2.1 (e ▸ hc))] at hv
    cases hv
    exact .inr ⟨rfl, hn⟩

theorem renamed_inj {σ : Cell → Cell} {cells : List Cell} (h : Renames σ cells) {dropna du dof : Bool}
    {c d x y : Cell} (hc : c ∈ cells) (hd : d ∈ cells) (hx : view dropna du dof c = some x)
    (hy : view dropna du dof d = some y) (e : renamed σ x = renamed σ y) : x = y := by
  have hnew : ∀ c ∈ cells, σ c ≠ .str "NaN" := fun c hc e => h.new.2.2 (e ▸ List.mem_map_of_mem hc)
  have hold : ∀ c ∈ cells, c ≠ .str "NaN" := fun c hc e => h.old.2.2 (e ▸ hc)
  rcases view_eq_some h.old hc hx with ⟨rfl, rfl⟩ | ⟨rfl, h1⟩
  · rcases view_eq_some h.old hd hy with ⟨-, rfl⟩ | ⟨rfl, h2⟩
    · rfl
    · simp only [renamed, if_true, hold d hd, if_false] at e
      exact absurd e.symm (hnew d hd)
  · rcases view_eq_some h.old hd hy with ⟨-, rfl⟩ | ⟨rfl, h2⟩
    · simp only [renamed, if_true, hold c hc, if_false] at e
      exact absurd e (hnew c hc)
    · simp only [renamed, hold c hc, hold d hd, if_false] at e
      exact h.inj c hc d hd e

namespace Props

/-- **C20 (columns).** phik of two columns does not change when the categories of each are renamed. -/
theorem isPhik_rename_columns (nm : Numerics) (noise dropna du dof : Bool) {a b : Column} {σ τ : Cell → Cell}
    (hσ : Renames σ a.cells) (hτ : Renames τ b.cells) (v : Option ℝ) :
    IsPhik nm noise (records dropna du dof { a with cells := a.cells.map σ } { b with cells := b.cells.map τ }) v ↔
      IsPhik nm noise (records dropna du dof a b) v := by
  have e : records dropna du dof { a with cells := a.cells.map σ } { b with cells := b.cells.map τ } =
      (records dropna du dof a b).map fun p => (p.1.map (renamed σ), p.2.map (renamed τ)) := by
    unfold records
    rw [List.zip_map, List.map_map, List.map_map]
    apply List.map_congr_left
    rintro ⟨x, y⟩ hxy
    obtain ⟨hx, hy⟩ := List.of_mem_zip hxy
    simp only [Function.comp, Prod.map, view_rename hσ hx, view_rename hτ hy]
  have hrec : ∀ x y, (some x, some y) ∈ records dropna du dof a b → ∃ c d, c ∈ a.cells ∧ d ∈ b.cells ∧
      view dropna du dof c = some x ∧ view dropna du dof d = some y := by
    intro x y h
    obtain ⟨⟨c, d⟩, h1, h2⟩ := List.mem_map.1 h
    obtain ⟨hc, hd⟩ := List.of_mem_zip h1
    simp only [Prod.mk.injEq] at h2
    exact ⟨c, d, hc, hd, h2.1, h2.2⟩
  rw [e]
  apply isPhik_rename
  · intro x y x' y' h h' he
    obtain ⟨c, -, hc, -, hx, -⟩ := hrec x y h
    obtain ⟨c', -, hc', -, hx', -⟩ := hrec x' y' h'
    exact renamed_inj hσ hc hc' hx hx' he
  · intro x y x' y' h h' he
    obtain ⟨-, d, -, hd, -, hy⟩ := hrec x y h
    obtain ⟨-, d', -, hd', -, hy'⟩ := hrec x' y' h'
    exact renamed_inj hτ hd hd' hy hy' he

/-- The frame with the categories of every column renamed. -/
def recode (σ : String → Cell → Cell) (f : Frame) : Frame :=
  { f with cols := f.cols.map fun c => { c with cells := c.cells.map (σ c.name) } }

/-- **C20 (phik matrix).** Renaming the categories of the columns of a binned frame one-to-one does not
change the phik matrix. -/
theorem phik_matrix_rename {nm : Numerics} (hg : GoodNumerics nm) {f : Frame} (hn : f.names.Nodup)
    (noise dropna du dof : Bool) {σ : String → Cell → Cell} (hσ : ∀ c ∈ f.cols, Renames (σ c.name) c.cells)
    (r r' : Ref) {w w' : World} (hr : w.heap[r]? = some f) (hr' : w'.heap[r']? = some (recode σ f)) :
    ∃ t t' u u', (phikFromRebinned nm none r noise dropna du dof).exec w = (.ok t, u) ∧
      (phikFromRebinned nm none r' noise dropna du dof).exec w' = (.ok t', u') ∧
      t.rows = t'.rows ∧ t.cols = t'.cols ∧ ∀ a ∈ f.names, ∀ b ∈ f.names, t.v a b = t'.v a b := by
  have hnames : (recode σ f).names = f.names := by simp [recode, Frame.names, Function.comp_def]
  have hs : ∀ n, ValidSched n none := fun n order h => by cases h
  obtain ⟨t, u, h1, h2, -⟩ := phik_matrix_of_frame hg hr hn (hs _) noise dropna du dof
  obtain ⟨t', u', h1', h2', -⟩ := phik_matrix_of_frame hg hr' (by rw [hnames]; exact hn) (hs _)
    noise dropna du dof
  refine ⟨t, t', u, u', h1, h1', ?_⟩
  refine phik_matrix_unique hn h2 ?_
  have h3 := h2'
  unfold IsPhikMatrix at h3 ⊢
  rw [hnames] at h3
  refine ⟨h3.rows, h3.cols, h3.diag, h3.symm, fun a b hab => ?_⟩
  obtain ⟨ca, ha, cb, hb, ea, eb, hp⟩ := h3.entry a b hab
  obtain ⟨a0, ha0, rfl⟩ := List.mem_map.1 ha
  obtain ⟨b0, hb0, rfl⟩ := List.mem_map.1 hb
  exact ⟨a0, ha0, b0, hb0, ea, eb,
    (isPhik_rename_columns nm noise dropna du dof (hσ a0 ha0) (hσ b0 hb0) _).1 hp⟩

/-- Upper-casing two categories, with a missing value, is a renaming. -/
example : Renames (fun c => if c = .str "x" then .str "X" else if c = .str "y" then .str "Y" else c)
    [.str "x", .nan, .str "y", .num 2] := by
  constructor
  · simp
  · simp
  · simp [NoSentinel]
  · simp [NoSentinel]

end Props
end Phik
