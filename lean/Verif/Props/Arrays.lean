import Verif.Spec.Arrays
import Verif.Props.Rename

/-! # Property C26: the array interface -/

namespace Phik

open Spec Props

/-- The strings of the numbers in an array are different from each other, from the strings in the array
and from the strings the library uses as markers. -/
structure GoodRender (render : ℚ → String) (x : List Cell) : Prop where
  inj : ∀ p q, Cell.num p ∈ x → Cell.num q ∈ x → render p = render q → p = q
  new : ∀ p, Cell.num p ∈ x → Cell.str (render p) ∉ x
  marker : ∀ p, Cell.num p ∈ x → render p ≠ "UF" ∧ render p ≠ "OF" ∧ render p ≠ "NaN"

/-- `dq_check_hist2d` of a table. -/
theorem dqCheckHist2d_exec (r c : ℕ) (w : World) :
    ∃ ws, (dqCheckHist2d r c).exec w = (.ok (decide (2 ≤ r ∧ 2 ≤ c)), ⟨w.heap, w.warns ++ ws⟩) ∧
      (ws = [] ↔ 2 ≤ r ∧ 2 ≤ c ∧ r ≤ 1000 ∧ c ≤ 1000) := by
  unfold dqCheckHist2d
  by_cases h : (r = 0 ∨ c = 0) ∨ (r = 1 ∨ c = 1)
  · rw [if_pos h, M.exec_bind, M.exec_warn]
    refine ⟨[.tooFew r c], ?_, ?_⟩
    · have : decide (2 ≤ r ∧ 2 ≤ c) = false := by simp; omega
      rw [this]; rfl
    · simp only [List.cons_ne_self, reduceCtorEq, false_iff]; omega
  · rw [if_neg h]
    have hd : decide (2 ≤ r ∧ 2 ≤ c) = true := by simp; omega
    rw [hd]
    by_cases h1 : 1000 < r <;> by_cases h2 : 1000 < c
    · refine ⟨[.manyBinsX r, .manyBinsY r], by simp [h1, h2, M.exec_bind], ?_⟩
      simp only [reduceCtorEq, false_iff]; omega
    · refine ⟨[.manyBinsX r], by simp [h1, h2, M.exec_bind], ?_⟩
      simp only [reduceCtorEq, false_iff]; omega
    · refine ⟨[.manyBinsY r], by simp [h1, h2, M.exec_bind], ?_⟩
      simp only [reduceCtorEq, false_iff]; omega
    · refine ⟨[], by simp [h1, h2, M.exec_bind], ?_⟩
      simp only [true_iff]; omega

/-- The preparation of one entry. -/
def prepCell (render : ℚ → String) (dropna du dof : Bool) (c : Cell) : Cell :=
  let c := if dropna then c else asStr render (if c = .nan then .str "NaN" else c)
  if du || dof then
    let c := asStr render c
    let c := if du then (if c = .str "UF" then .nan else c) else c
    if dof then (if c = .str "OF" then .nan else c) else c
  else c

theorem prepArray_eq (render : ℚ → String) (dropna du dof : Bool) (x : List Cell) :
    prepArray render dropna du dof x = x.map (prepCell render dropna du dof) := by
  unfold prepArray prepCell
  cases dropna <;> cases du <;> cases dof <;> simp [Function.comp_def]

/-- The renaming the preparation amounts to. -/
def rendering (render : ℚ → String) (dropna du dof : Bool) (c : Cell) : Cell :=
  if dropna && !du && !dof then c else asStr render c

theorem prep_view {render : ℚ → String} {x : List Cell} (hg : GoodRender render x) {dropna du dof : Bool}
    (hn : Cell.nan ∉ x ∨ dropna = false ∨ (du = false ∧ dof = false)) {c : Cell} (hc : c ∈ x) :
    (prepCell render dropna du dof c).opt = (view dropna du dof c).map (rendering render dropna du dof) := by
  cases c with
  | nan =>
    have : dropna = false ∨ (du = false ∧ dof = false) := hn.resolve_left (fun h => h hc)
    cases dropna <;> cases du <;> cases dof <;> simp_all [prepCell, view, rendering, asStr, Cell.opt]
  | num q =>
    obtain ⟨h1, h2, h3⟩ := hg.marker q hc
    cases dropna <;> cases du <;> cases dof <;> simp [prepCell, view, rendering, asStr, Cell.opt, h1, h2]
  | str s =>
    by_cases e1 : s = "UF"
    · subst e1
      cases dropna <;> cases du <;> cases dof <;> simp [prepCell, view, rendering, asStr, Cell.opt]
    · by_cases e2 : s = "OF"
      · subst e2
        cases dropna <;> cases du <;> cases dof <;> simp [prepCell, view, rendering, asStr, Cell.opt]
      · cases dropna <;> cases du <;> cases dof <;> simp [prepCell, view, rendering, asStr, Cell.opt, e1, e2]

theorem view_values {dropna du dof : Bool} {c x : Cell} (h : view dropna du dof c = some x) :
    x = c ∧ c ≠ .nan ∨ c = .nan ∧ x = .str "NaN" := by
  cases c with
  | nan => cases dropna <;> simp [view] at h; exact .inr ⟨rfl, h.symm⟩
  | num q => simp [view] at h; exact .inl ⟨h.symm, by simp⟩
  | str s =>
    simp only [view] at h
    split at h
    · cases h
    · split at h
      · cases h
      · cases h; exact .inl ⟨rfl, by simp⟩

theorem rendering_inj {render : ℚ → String} {x : List Cell} (hg : GoodRender render x) {dropna du dof : Bool}
    {c d a b : Cell} (hc : c ∈ x) (hd : d ∈ x) (ha : view dropna du dof c = some a)
    (hb : view dropna du dof d = some b)
    (e : rendering render dropna du dof a = rendering render dropna du dof b) : a = b := by
  have key : ∀ {c a : Cell}, c ∈ x → view dropna du dof c = some a → ∀ q, a = .num q → Cell.num q ∈ x := by
    intro c a hc ha q hq
    rcases view_values ha with ⟨h1, -⟩ | ⟨-, h1⟩
    · rw [← hq, h1]; exact hc
    · rw [hq] at h1; cases h1
  have key2 : ∀ {c a : Cell}, c ∈ x → view dropna du dof c = some a → ∀ s, a = .str s →
      Cell.str s ∈ x ∨ s = "NaN" := by
    intro c a hc ha q hq
    rcases view_values ha with ⟨h1, -⟩ | ⟨-, h1⟩
    · left; rw [← hq, h1]; exact hc
    · right; rw [hq] at h1; cases h1; rfl
  have key3 : ∀ {c : Cell}, view dropna du dof c ≠ some .nan := by
    intro c h
    rcases view_values h with ⟨h1, h2⟩ | ⟨-, h1⟩
    · exact h2 h1.symm
    · cases h1
  unfold rendering at e
  split at e
  · exact e
  · cases a with
    | nan => exact absurd ha key3
    | num p =>
      have hp := key hc ha p rfl
      cases b with
      | nan => exact absurd hb key3
      | num q =>
        simp only [asStr, Cell.str.injEq] at e
        rw [hg.inj p q hp (key hd hb q rfl) e]
      | str s =>
        simp only [asStr, Cell.str.injEq] at e
        rcases key2 hd hb s rfl with h | h
        · rw [← e] at h; exact absurd h (hg.new p hp)
        · rw [h] at e; exact absurd e (hg.marker p hp).2.2
    | str s =>
      cases b with
      | nan => exact absurd hb key3
      | num q =>
        have hq := key hd hb q rfl
        simp only [asStr, Cell.str.injEq] at e
        rcases key2 hc ha s rfl with h | h
        · rw [e] at h; exact absurd h (hg.new q hq)
        · rw [h] at e; exact absurd e.symm (hg.marker q hq).2.2
      | str s' => exact e

theorem array_phik {nm : Numerics} (hgn : GoodNumerics nm) (render : ℚ → String) {x y : List Cell}
    (hlen : x.length = y.length) (noise dropna du dof : Bool) (w : World) :
    ∃ v w', (phikFromBinnedArray nm render x y noise dropna du dof).exec w = (.ok v, w') ∧
      w'.heap = w.heap ∧
      IsPhik nm noise (((prepArray render dropna du dof x).zip (prepArray render dropna du dof y)).map
        fun p => (p.1.opt, p.2.opt)) v := by
  have ht := histOfPairs_table ((prepArray render dropna du dof x).zip (prepArray render dropna du dof y))
  unfold phikFromBinnedArray
  simp only [hlen, ne_eq, not_true_eq_false, if_false]
  set h := histOfPairs ((prepArray render dropna du dof x).zip (prepArray render dropna du dof y)) with hh
  obtain ⟨ws, e, -⟩ := dqCheckHist2d_exec h.rows.length h.cols.length w
  rw [M.exec_bind, e]
  by_cases hs : 2 ≤ h.rows.length ∧ 2 ≤ h.cols.length
  · simp only [hs, and_self, decide_true, Bool.not_true, Bool.false_eq_true, if_false]
    obtain ⟨_, _, _, v, -, -, -, -, -, hv, -⟩ := phik_of_data hgn.mvn hgn.brentq (table_data ht) hs.1 hs.2 noise
    rw [M.exec_bind, M.exec_ofExcept, hv]
    exact ⟨some v, _, rfl, rfl, h, ht, .inr ⟨hs.1, hs.2, v, hv, rfl⟩⟩
  · simp only [hs, decide_false, Bool.not_false, if_true]
    exact ⟨none, _, rfl, rfl, h, ht, .inl ⟨by omega, rfl⟩⟩

theorem mapM_length {α β : Type} (f : α → Except Err β) {l : List α} {l' : List β}
    (h : l.mapM f = .ok l') : l'.length = l.length := by
  induction l generalizing l' with
  | nil => cases h; rfl
  | cons a l ih =>
    rw [List.mapM_cons] at h
    obtain ⟨b, -, h⟩ := except_bind_ok h
    obtain ⟨bs, h1, h⟩ := except_bind_ok h
    cases h
    simp [ih h1]

theorem colFloats_length {pf : String → Option (Option ℚ)} {data : Frame}
    (hl : ∀ c ∈ data.cols, c.cells.length = data.nrows) {name : String} {arr : List (Option ℚ)}
    (h : colFloats pf data name = .ok arr) : arr.length = data.nrows := by
  unfold colFloats at h
  obtain ⟨c, h1, h2⟩ := except_bind_ok h
  rw [mapM_length _ h2]
  unfold Frame.getCol at h1
  cases hc : data.col? name with
  | none => rw [hc] at h1; cases h1
  | some d => rw [hc] at h1; cases h1; exact hl _ (List.mem_of_find?_eq_some hc)

theorem binLoop_lengths {fl : ℚ → ℚ} {pf : String → Option (Option ℚ)} {data : Frame}
    (hl : ∀ c ∈ data.cols, c.cells.length = data.nrows) {bins : Bins} {quantile : Bool} (cols : List String) :
    ∀ (xbins : Option (List ℚ)) (out : Frame) (dict : List (String × List (ℚ × ℚ))) (out' : Frame)
      (dict' : List (String × List (ℚ × ℚ))),
      (∀ c ∈ out.cols, c.cells.length = data.nrows) →
      binLoop fl pf data bins quantile cols xbins out dict = .ok (out', dict') →
      ∀ c ∈ out'.cols, c.cells.length = data.nrows := by
  induction cols with
  | nil =>
    intro xbins out dict out' dict' ho h
    simp only [binLoop, Except.ok.injEq, Prod.mk.injEq] at h
    obtain ⟨rfl, rfl⟩ := h
    exact ho
  | cons name rest ih =>
    intro xbins out dict out' dict' ho h
    rw [binLoop] at h
    obtain ⟨xb, h1, h2⟩ := except_bind_ok h
    obtain ⟨arr, h3, h4⟩ := except_bind_ok h2
    cases xb with
    | none => cases h4
    | some e =>
      refine ih _ _ _ _ _ ?_ h4
      intro c hc
      obtain ⟨d, hd, rfl⟩ := List.mem_map.1 hc
      split
      · rw [binArray_length, colFloats_length hl h3]
      · exact ho d hd

/-- Binning a proper frame gives a proper frame. -/
theorem binDataCore_wf {fl : ℚ → ℚ} {pf : String → Option (Option ℚ)} {data : Frame} {bins : Bins}
    {quantile : Bool} {cols : List String} {out : Frame} {dict : List (String × List (ℚ × ℚ))} (hwf : data.WF)
    (h : binDataCore fl pf data cols bins quantile = .ok (out, dict)) : out.WF := by
  obtain ⟨h1, h2⟩ := binDataCore_names h
  refine ⟨?_, by rw [h1]; exact hwf.nodup⟩
  rw [h2]
  unfold binDataCore at h
  obtain ⟨u, -, h⟩ := except_bind_ok h
  exact binLoop_lengths hwf.len _ _ _ _ _ _ hwf.len h

namespace Props

/-- **C26 (positive part).** `phik_from_binned_array` returns phik of the records as `phik_from_rebinned_df`
sees them, for arrays without missing values, and also with missing values if these are kept or if neither
underflow nor overflow is to be dropped. -/
theorem array_agrees {nm : Numerics} (hgn : GoodNumerics nm) {render : ℚ → String} {x y : List Cell}
    (hlen : x.length = y.length) (hx : GoodRender render x) (hy : GoodRender render y)
    (noise dropna du dof : Bool)
    (hn : (Cell.nan ∉ x ∧ Cell.nan ∉ y) ∨ dropna = false ∨ (du = false ∧ dof = false)) (w : World) :
    ∃ v w', (phikFromBinnedArray nm render x y noise dropna du dof).exec w = (.ok v, w') ∧
      w'.heap = w.heap ∧ IsPhik nm noise (records dropna du dof ⟨"x", false, x⟩ ⟨"y", false, y⟩) v := by
  obtain ⟨v, w', h1, h2, h3⟩ := array_phik hgn render hlen noise dropna du dof w
  refine ⟨v, w', h1, h2, ?_⟩
  have hnx : Cell.nan ∉ x ∨ dropna = false ∨ (du = false ∧ dof = false) := hn.imp_left And.left
  have hny : Cell.nan ∉ y ∨ dropna = false ∨ (du = false ∧ dof = false) := hn.imp_left And.right
  have e : ((prepArray render dropna du dof x).zip (prepArray render dropna du dof y)).map
        (fun p => (p.1.opt, p.2.opt)) = (records dropna du dof ⟨"x", false, x⟩ ⟨"y", false, y⟩).map
          fun p => (p.1.map (rendering render dropna du dof), p.2.map (rendering render dropna du dof)) := by
    rw [prepArray_eq, prepArray_eq, List.zip_map]
    unfold records
    rw [List.map_map, List.map_map]
    apply List.map_congr_left
    rintro ⟨a, b⟩ hab
    obtain ⟨ha, hb⟩ := List.of_mem_zip hab
    simp only [Function.comp, Prod.map, prep_view hx hnx ha, prep_view hy hny hb]
  rw [e] at h3
  have hrec : ∀ a b, (some a, some b) ∈ records dropna du dof ⟨"x", false, x⟩ ⟨"y", false, y⟩ →
      ∃ c d, c ∈ x ∧ d ∈ y ∧ view dropna du dof c = some a ∧ view dropna du dof d = some b := by
    intro a b h
    obtain ⟨⟨c, d⟩, h1, h2⟩ := List.mem_map.1 h
    obtain ⟨hc, hd⟩ := List.of_mem_zip h1
    simp only [Prod.mk.injEq] at h2
    exact ⟨c, d, hc, hd, h2.1, h2.2⟩
  refine (isPhik_rename nm noise ?_ ?_ v).1 h3
  · intro a b a' b' h h' he
    obtain ⟨c, -, hc, -, ha, -⟩ := hrec a b h
    obtain ⟨c', -, hc', -, ha', -⟩ := hrec a' b' h'
    exact rendering_inj hx hc hc' ha ha' he
  · intro a b a' b' h h' he
    obtain ⟨-, d, -, hd, -, hb⟩ := hrec a b h
    obtain ⟨-, d', -, hd', -, hb'⟩ := hrec a' b' h'
    exact rendering_inj hy hd hd' hb hb' he

/-- **C26 (positive part), as equality of the two interfaces.** -/
theorem array_eq_matrix_entry {nm : Numerics} (hgn : GoodNumerics nm) {render : ℚ → String} {x y : List Cell}
    (hlen : x.length = y.length) (hx : GoodRender render x) (hy : GoodRender render y)
    (noise dropna du dof : Bool)
    (hn : (Cell.nan ∉ x ∧ Cell.nan ∉ y) ∨ dropna = false ∨ (du = false ∧ dof = false)) (w : World)
    {r : Ref} {w1 : World} {a b : String} (hab : a ≠ b) {na nb : Bool}
    (hr : w1.heap[r]? = some ⟨x.length, [⟨a, na, x⟩, ⟨b, nb, y⟩]⟩) :
    ∃ v w' t w1', (phikFromBinnedArray nm render x y noise dropna du dof).exec w = (.ok v, w') ∧
      (phikFromRebinned nm none r noise dropna du dof).exec w1 = (.ok t, w1') ∧ t.v a b = v := by
  obtain ⟨v, w', h1, -, h3⟩ := array_agrees hgn hlen hx hy noise dropna du dof hn w
  obtain ⟨t, w1', g1, g2, -⟩ := phik_matrix_of_frame hgn (sched := none) hr
    (by simpa [Frame.names] using hab) (fun order h => by cases h) noise dropna du dof
  refine ⟨v, w', t, w1', h1, g1, ?_⟩
  obtain ⟨ca, ha, cb, hb, ea, eb, h⟩ := g2.entry a b (by simp [Frame.names])
  simp only [List.mem_cons, List.not_mem_nil, or_false] at ha hb
  have e1 : ca = ⟨a, na, x⟩ := by
    rcases ha with rfl | rfl
    · rfl
    · exact absurd ea hab.symm
  have e2 : cb = ⟨b, nb, y⟩ := by
    rcases hb with rfl | rfl
    · exact absurd eb hab
    · rfl
  subst e1 e2
  exact isPhik_unique h h3

/-- The hypotheses are met by a binned numeric column and a text column, for any rendering that tells the
two numbers apart. -/
example : GoodRender (fun q => if q = 1 then "1" else "2") [.num 1, .str "UF", .num 2] ∧
    GoodRender (fun q => if q = 1 then "1" else "2") [.str "u", .str "v", .str "v"] := by
  constructor <;> constructor <;> simp <;> (rintro p q (rfl | rfl) (rfl | rfl) <;> simp)

/-- **C26 (violated with missing values).** With the default flags a missing value in an array becomes a
category of its own: the array interface returns a number where the matrix interface, which drops the
record, returns NaN. -/
theorem array_nan_violated {nm : Numerics} (hgn : GoodNumerics nm) (render : ℚ → String) (noise : Bool) :
    ∃ v w' t w1', (phikFromBinnedArray nm render [.nan, .str "p", .str "p"] [.str "u", .str "u", .str "v"]
        noise true true true).exec ⟨[], []⟩ = (.ok (some v), w') ∧
      (phikFromRebinned nm none 0 noise true true true).exec
        ⟨[⟨3, [⟨"a", false, [.nan, .str "p", .str "p"]⟩, ⟨"b", false, [.str "u", .str "u", .str "v"]⟩]⟩], []⟩ =
        (.ok t, w1') ∧ t.v "a" "b" = none := by
  obtain ⟨v, w', h1, -, h3⟩ := array_phik hgn render (x := [.nan, .str "p", .str "p"])
    (y := [.str "u", .str "u", .str "v"]) rfl noise true true true ⟨[], []⟩
  obtain ⟨t, w1', g1, g2, -⟩ := phik_matrix_of_frame hgn (sched := none) (r := 0)
    (w := ⟨[⟨3, [⟨"a", false, [.nan, .str "p", .str "p"]⟩, ⟨"b", false, [.str "u", .str "u", .str "v"]⟩]⟩], []⟩)
    (f := ⟨3, [⟨"a", false, [.nan, .str "p", .str "p"]⟩, ⟨"b", false, [.str "u", .str "u", .str "v"]⟩]⟩)
    rfl (by simp [Frame.names]) (fun order h => by cases h) noise true true true
  have hv : v ≠ none := by
    rw [Ne, isPhik_none_iff h3, not_or]
    simp only [prepArray_eq]
    constructor
    · intro h'
      have := h' (.str "nan") (.str "u") (.str "p") (.str "u") (by simp [prepCell, asStr, Cell.opt])
        (by simp [prepCell, asStr, Cell.opt])
      simp at this
    · intro h'
      have := h' (.str "p") (.str "u") (.str "p") (.str "v") (by simp [prepCell, asStr, Cell.opt])
        (by simp [prepCell, asStr, Cell.opt])
      simp at this
  obtain ⟨z, rfl⟩ := Option.ne_none_iff_exists'.1 hv
  refine ⟨z, w', t, w1', h1, g1, ?_⟩
  obtain ⟨ca, hca, cb, hcb, na, nb, h⟩ := uf_entry rfl g2
  simp only [List.mem_cons, List.not_mem_nil, or_false] at hca hcb
  rcases hca with rfl | rfl <;> rcases hcb with rfl | rfl <;> simp at na nb
  rw [isPhik_none_iff h]
  left
  intro a b a' b' h1 h2
  simp [records, view] at h1 h2
  rcases h1 with h1 | h1 <;> rcases h2 with h2 | h2 <;> rw [h1.1, h2.1]

/-- **C26 for `phik_from_array`.** With variables to bin, `phik_from_array` is `bin_data` on the frame of
the two arrays followed by phik of the two binned columns; it raises what `bin_data` raises.  Existing
frames are unchanged. -/
theorem phik_from_array_result {nm : Numerics} (hgn : GoodNumerics nm) (render : ℚ → String) (fl : ℚ → ℚ)
    (pf : String → Option (Option ℚ)) {x y : List Cell} (hlen : x.length = y.length) {numVars : List String}
    (hnv : numVars ≠ []) (bins : Bins) (quantile noise dropna du dof : Bool) (w : World) :
    match (phikFromArray nm render fl pf x y numVars bins quantile noise dropna du dof).exec w with
    | (.ok v, w') => w.heap <+: w'.heap ∧ ∃ r' dict w1 out cx cy,
        (binData fl pf w.heap.length numVars bins quantile).exec
          ⟨w.heap ++ [arrayFrame render x y], w.warns⟩ = (.ok (r', dict), w1) ∧
        w1.heap[r']? = some out ∧ out.cols = [cx, cy] ∧ cx.name = "x" ∧ cy.name = "y" ∧
        (GoodRender render cx.cells → GoodRender render cy.cells →
          (Cell.nan ∉ cx.cells ∧ Cell.nan ∉ cy.cells) ∨ dropna = false ∨ (du = false ∧ dof = false) →
          IsPhik nm noise (records dropna du dof cx cy) v)
    | (.error e, w') => w.heap <+: w'.heap ∧ ((binData fl pf w.heap.length numVars bins quantile).exec
        ⟨w.heap ++ [arrayFrame render x y], w.warns⟩).1 = .error e := by
  have hpos : numVars.length > 0 := List.length_pos_iff.2 hnv
  set df : Frame := arrayFrame render x y with hdf
  have hframe : arraysToFrame render x y = .ok df := arraysToFrame_eq render hlen
  have hwf : df.WF := arrayFrame_wf render hlen
  have hr : (w.heap ++ [df])[w.heap.length]? = some df := by simp
  unfold phikFromArray
  simp only [hpos, if_true, hframe, M.exec_bind, M.exec_ofExcept, M.exec_alloc]
  rw [binData_exec fl pf (w := ⟨w.heap ++ [df], w.warns⟩) hr]
  cases hc : binDataCore fl pf df numVars bins quantile with
  | error e => exact ⟨by simp, rfl⟩
  | ok p =>
    obtain ⟨out, dict⟩ := p
    simp only
    have hout : (w.heap ++ [df] ++ [out])[(w.heap ++ [df]).length]? = some out := by
      rw [List.getElem?_append_right le_rfl]; simp
    obtain ⟨g1, g2⟩ := binDataCore_names hc
    have hwo := binDataCore_wf hwf hc
    have hcols : ∃ cx cy, out.cols = [cx, cy] ∧ cx.name = "x" ∧ cy.name = "y" := by
      have : out.cols.map (·.name) = ["x", "y"] := g1.trans (arrayFrame_names render x y)
      have hlen2 : out.cols.length = 2 := by simpa using congrArg List.length this
      obtain ⟨a, b, hab⟩ := List.length_eq_two.1 hlen2
      rw [hab] at this
      simp only [List.map_cons, List.map_nil, List.cons.injEq, and_true] at this
      exact ⟨a, b, hab, this.1, this.2⟩
    obtain ⟨cx, cy, hco, nx, ny⟩ := hcols
    rw [M.exec_read_of hout]
    simp only [hco]
    have hl2 : cx.cells.length = cy.cells.length := by
      rw [hwo.len cx (by rw [hco]; simp), hwo.len cy (by rw [hco]; simp)]
    obtain ⟨v, w', e1, e2, e3⟩ := array_phik hgn render hl2 noise dropna du dof ⟨w.heap ++ [df] ++ [out], w.warns⟩
    rw [e1]
    refine ⟨?_, _, dict, _, out, cx, cy, rfl, hout, hco, nx, ny, ?_⟩
    · rw [e2, List.append_assoc]; exact List.prefix_append _ _
    · intro hx hy hn
      obtain ⟨v', w'', f1, -, f3⟩ := array_agrees hgn hl2 hx hy noise dropna du dof hn
        ⟨w.heap ++ [df] ++ [out], w.warns⟩
      rw [e1] at f1
      cases f1
      exact f3

/-- **C26 for `phik_from_array`, nothing to bin.** Arrays of equal length: phik of the prepared entries (and,
under the conditions of C26, of the records as the matrix sees them); different length: ValueError. -/
theorem phik_from_array_plain {nm : Numerics} (hgn : GoodNumerics nm) (render : ℚ → String) (fl : ℚ → ℚ)
    (pf : String → Option (Option ℚ)) (x y : List Cell) (bins : Bins) (quantile noise dropna du dof : Bool)
    (w : World) :
    (x.length ≠ y.length → (phikFromArray nm render fl pf x y [] bins quantile noise dropna du dof).exec w =
      (.error .value, w)) ∧
    (x.length = y.length → ∃ v w',
      (phikFromArray nm render fl pf x y [] bins quantile noise dropna du dof).exec w = (.ok v, w') ∧
      w'.heap = w.heap ∧
      IsPhik nm noise (((prepArray render dropna du dof x).zip (prepArray render dropna du dof y)).map
        fun p => (p.1.opt, p.2.opt)) v ∧
      (GoodRender render x → GoodRender render y →
        (Cell.nan ∉ x ∧ Cell.nan ∉ y) ∨ dropna = false ∨ (du = false ∧ dof = false) →
        IsPhik nm noise (records dropna du dof ⟨"x", false, x⟩ ⟨"y", false, y⟩) v)) := by
  constructor
  · intro h
    change (phikFromBinnedArray nm render x y noise dropna du dof).exec w = _
    unfold phikFromBinnedArray
    rw [if_pos h]
    rfl
  · intro hlen
    obtain ⟨v, w', h1, h2, h3⟩ := array_phik hgn render hlen noise dropna du dof w
    refine ⟨v, w', h1, h2, h3, fun hx hy hn => ?_⟩
    obtain ⟨v', w'', g1, -, g3⟩ := array_agrees hgn hlen hx hy noise dropna du dof hn w
    rw [h1] at g1
    cases g1
    exact g3

end Props
end Phik
