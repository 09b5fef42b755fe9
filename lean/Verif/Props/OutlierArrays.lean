import Verif.Spec.Arrays
import Verif.Props.OutlierPairs
import Verif.Props.OutlierTable
import Verif.Props.KeepFrames

/-! # Property C62: outlier significances from arrays -/

namespace Phik
open Spec Out
namespace Props

theorem M.exec_fst {α β : Type} (m : M (α × β)) (w : World) :
    (m >>= fun p => (pure p.1 : M α)).exec w = ((m.exec w).1.map Prod.fst, (m.exec w).2) := by
  rw [M.exec_bind]
  rcases m.exec w with ⟨res, w'⟩
  cases res <;> rfl

/-- **C62.** `outlier_significance_from_array` raises ValueError for arrays of different lengths; otherwise it gives what
`outlier_significance_matrix` gives for the data frame of the two arrays, with the same arguments. No existing frame is
changed. -/
theorem outlier_array_result (N : OutNum) (fmt render : ℚ → String) (fl : ℚ → ℚ) (pf : String → Option (Option ℚ))
    (x y : List Cell) (nv : Option (List String)) (bins : Bins) (quantile : Bool) (ci : String) (dropna du dof : Bool)
    (w : World) :
    (x.length ≠ y.length →
      (outlierFromArray N fmt render fl pf x y nv bins quantile ci dropna du dof).exec w = (.error .value, w)) ∧
    (x.length = y.length →
      ((outlierFromArray N fmt render fl pf x y nv bins quantile ci dropna du dof).exec w).1 =
        ((outlierMatrix N fmt fl pf w.heap.length nv ci bins quantile dropna du dof).exec
          ⟨w.heap ++ [arrayFrame render x y], w.warns⟩).1.map Prod.fst ∧
      w.heap <+: ((outlierFromArray N fmt render fl pf x y nv bins quantile ci dropna du dof).exec w).2.heap) := by
  constructor
  · intro h
    unfold outlierFromArray arraysToFrame
    rw [if_pos h]
    rfl
  · intro h
    have hr : (⟨w.heap ++ [arrayFrame render x y], w.warns⟩ : World).heap[w.heap.length]? =
      some (arrayFrame render x y) := by simp
    have e : (outlierFromArray N fmt render fl pf x y nv bins quantile ci dropna du dof).exec w =
        ((outlierMatrix N fmt fl pf w.heap.length (some (nv.getD (guessIntervalCols (arrayFrame render x y)))) ci bins
          quantile dropna du dof) >>= fun p => (pure p.1 : M (Option OutTab))).exec
          ⟨w.heap ++ [arrayFrame render x y], w.warns⟩ := by
      unfold outlierFromArray
      rw [arraysToFrame_eq render h]
      rfl
    have e2 : (outlierMatrix N fmt fl pf w.heap.length (some (nv.getD (guessIntervalCols (arrayFrame render x y)))) ci bins
          quantile dropna du dof).exec ⟨w.heap ++ [arrayFrame render x y], w.warns⟩ =
        (outlierMatrix N fmt fl pf w.heap.length nv ci bins quantile dropna du dof).exec
          ⟨w.heap ++ [arrayFrame render x y], w.warns⟩ := by
      unfold outlierMatrix
      rw [M.exec_bind, M.exec_bind, M.exec_read_of hr]
      rfl
    rw [e, M.exec_fst, e2]
    refine ⟨rfl, ?_⟩
    exact (List.prefix_append _ [arrayFrame render x y]).trans (outlier_matrix_keeps_frames N fmt fl pf w.heap.length
      ⟨w.heap ++ [arrayFrame render x y], w.warns⟩ nv ci bins quantile dropna du dof)

/-- **C62 violated.** `outlier_significance_from_binned_array` does not take its input as bins: it is
`outlier_significance_from_array` with the default of ten uniform bins. -/
theorem binned_array_is_array (N : OutNum) (fmt render : ℚ → String) (fl : ℚ → ℚ) (pf : String → Option (Option ℚ))
    (x y : List Cell) (ci : String) (dropna du dof : Bool) (w : World) :
    (outlierFromBinnedArray N fmt render fl pf x y ci dropna du dof).exec w =
      (outlierFromArray N fmt render fl pf x y none (.one (.num 10)) false ci dropna du dof).exec w := by
  by_cases h : x.length = y.length
  · have hr : (⟨w.heap ++ [arrayFrame render x y], w.warns⟩ : World).heap[w.heap.length]? =
      some (arrayFrame render x y) := by simp
    unfold outlierFromBinnedArray outlierFromArray
    rw [arraysToFrame_eq render h]
    simp only [M.exec_bind, M.exec_ofExcept, M.exec_alloc]
    unfold outlierMatrix
    simp only [M.exec_bind, M.exec_read_of hr]
    rfl
  · unfold outlierFromBinnedArray outlierFromArray arraysToFrame
    rw [if_pos h]
    rfl

theorem guess_numbers (render : ℚ → String) {x y : List Cell} (hs : ∀ s, Cell.str s ∉ x ∧ Cell.str s ∉ y) :
    arrayFrame render x y = ⟨x.length, [⟨"x", true, x⟩, ⟨"y", true, y⟩]⟩ := by
  unfold arrayFrame
  rw [if_neg]
  rintro ⟨s, h | h⟩
  · exact (hs s).1 h
  · exact (hs s).2 h

/-- **C62 violated.** For arrays of numbers (such as bin indices), whatever their values are, the matrix of
`outlier_significance_from_binned_array` has no row and no column for a value: all labels are names of intervals, 'UF', 'OF' or
'NaN'. -/
theorem binned_array_rebins (N : OutNum) (fmt render : ℚ → String) {fl : ℚ → ℚ} (hfl : fl = (fun x => x) ∨ fl = rne53)
    (pf : String → Option (Option ℚ)) {x y : List Cell} (hrep : ∀ q, Cell.num q ∈ x ∨ Cell.num q ∈ y → fl q = q) (hs : ∀ s, Cell.str s ∉ x ∧ Cell.str s ∉ y) (ci : String) (dropna du dof : Bool) (w : World)
    {t : OutTab} (h : ((outlierFromBinnedArray N fmt render fl pf x y ci dropna du dof).exec w).1 = .ok (some t))
    (q : ℚ) : Cell.num q ∉ t.rows ∧ Cell.num q ∉ t.cols := by
  rw [binned_array_is_array] at h
  obtain ⟨h1, h2⟩ := outlier_array_result N fmt render fl pf x y none (.one (.num 10)) false ci dropna du dof w
  by_cases hl : x.length = y.length
  swap
  · rw [h1 hl] at h; cases h
  rw [(h2 hl).1, guess_numbers render hs] at h
  clear h1 h2
  set data : Frame := ⟨x.length, [⟨"x", true, x⟩, ⟨"y", true, y⟩]⟩ with hdata
  have hr : (⟨w.heap ++ [data], w.warns⟩ : World).heap[w.heap.length]? = some data := by simp
  have hn : data.names.Nodup := by simp [hdata, Frame.names]
  have hent : ∀ name ∈ (none : Option (List String)).getD (guessIntervalCols data),
      ∃ s, EntryFor (.one (.num 10)) name s ∧ s ≠ .other := fun _ _ => ⟨_, .one _ _, by simp⟩
  obtain ⟨-, h3⟩ := outlier_matrix_result N fmt fl pf hr hn none ci (.one (.num 10)) false dropna du dof hent
  obtain ⟨k1, k2⟩ := h3 _ _ rfl
  by_cases hk : Kept ((none : Option (List String)).getD (guessIntervalCols data)) dropna ⟨"x", true, x⟩ ∧
      Kept ((none : Option (List String)).getD (guessIntervalCols data)) dropna ⟨"y", true, y⟩
  swap
  · obtain ⟨e, he, -⟩ := k1 hk
    rw [he] at h; cases h
  have hspec : ∀ s name, EntryFor (.one (.num 10)) name s → SortedSpec s := by
    intro s name hs
    cases hs
    exact ⟨by norm_num, by norm_num⟩
  have hnum : ∀ {l : List Cell}, (∀ s, Cell.str s ∉ l) → ∀ c ∈ l, ∀ q, toFloat pf c = .ok (some q) → Cell.num q ∈ l := by
    intro l hl c hc q hq
    cases c with
    | nan => cases hq
    | num r => cases hq; exact hc
    | str s => exact absurd hc (hl s)
  rcases k2 hk with ⟨e, he, -⟩ | ⟨ea, eb, h1, h2, h3⟩
  · rw [he] at h; cases h
  obtain ⟨ra, rb, n, h4, h5⟩ := h3
    (goodEdges_of_spec hfl (fun _ s => hspec s _) (fun _ c hc q hq => hrep q (.inl (hnum (fun s => (hs s).1) c hc q hq))) h1)
    (goodEdges_of_spec hfl (fun _ s => hspec s _) (fun _ c hc q hq => hrep q (.inr (hnum (fun s => (hs s).2) c hc q hq))) h2)
  rw [h] at h5
  obtain ⟨-, -, r1, r2, -⟩ := h5
  have hea : ∃ e, ea = some e := by
    cases ea with
    | none => exact absurd (by simp [hdata, guessIntervalCols]) h1
    | some e => exact ⟨e, rfl⟩
  have heb : ∃ e, eb = some e := by
    cases eb with
    | none => exact absurd (by simp [hdata, guessIntervalCols]) h2
    | some e => exact ⟨e, rfl⟩
  obtain ⟨ea, rfl⟩ := hea
  obtain ⟨eb, rfl⟩ := heb
  have key : ∀ (e : List ℚ) (c : Cell) (d : Category), Belongs pf dropna du dof (some e) c d → d.name fmt ≠ .num q := by
    intro e c d hb
    cases hb <;> simp [Category.name]
  constructor
  · intro hm
    rw [r1] at hm
    obtain ⟨d, hd, hq⟩ := List.mem_map.1 hm
    obtain ⟨p, -, hb, -⟩ := (h4.rows_mem d).1 hd
    exact key _ _ _ hb hq
  · intro hm
    rw [r2] at hm
    obtain ⟨d, hd, hq⟩ := List.mem_map.1 hm
    obtain ⟨p, -, -, hb⟩ := (h4.cols_mem d).1 hd
    exact key _ _ _ hb hq

/-- **C62.** For lists with a string in them the input is taken as it is: if both columns pass the quality check, the rows and
columns are the entries, as strings, that occur together with one of the other list, in order. -/
theorem binned_array_strings (N : OutNum) (fmt render : ℚ → String) (fl : ℚ → ℚ) (pf : String → Option (Option ℚ))
    {x y : List Cell} (hl : x.length = y.length) {s : String} (hs : Cell.str s ∈ x ∨ Cell.str s ∈ y) (ci : String)
    (dropna du dof : Bool) (w : World)
    (kx : Kept [] dropna ⟨"x", false, x.map (asStr render)⟩) (ky : Kept [] dropna ⟨"y", false, y.map (asStr render)⟩) :
    ∃ ra rb n, Counts pf dropna du dof none none ⟨"x", false, x.map (asStr render)⟩ ⟨"y", false, y.map (asStr render)⟩
        ra rb n ∧
      IsOutlierMatrix N fmt ci ra rb n
        ((outlierFromBinnedArray N fmt render fl pf x y ci dropna du dof).exec w).1 := by
  rw [binned_array_is_array]
  obtain ⟨-, h2⟩ := outlier_array_result N fmt render fl pf x y none (.one (.num 10)) false ci dropna du dof w
  rw [(h2 hl).1]
  have hf : arrayFrame render x y = ⟨x.length, [⟨"x", false, x.map (asStr render)⟩, ⟨"y", false, y.map (asStr render)⟩]⟩ := by
    unfold arrayFrame
    rw [if_pos ⟨s, hs⟩]
  rw [hf]
  clear h2 hf
  set data : Frame := ⟨x.length, [⟨"x", false, x.map (asStr render)⟩, ⟨"y", false, y.map (asStr render)⟩]⟩ with hdata
  have hr : (⟨w.heap ++ [data], w.warns⟩ : World).heap[w.heap.length]? = some data := by simp
  have hn : data.names.Nodup := by simp [hdata, Frame.names]
  have hic : (none : Option (List String)).getD (guessIntervalCols data) = [] := rfl
  obtain ⟨-, h3⟩ := outlier_matrix_result N fmt fl pf hr hn none ci (.one (.num 10)) false dropna du dof
    (fun _ h => by rw [hic] at h; cases h)
  rcases (h3 _ _ rfl).2 (by rw [hic]; exact ⟨kx, ky⟩) with ⟨e, -, he⟩ | ⟨ea, eb, h1, h2, h3⟩
  · exfalso
    rw [binData_exec fl pf hr, hic] at he
    cases he
  · have hea : ea = none := by
      cases ea with
      | none => rfl
      | some e => exact absurd h1.1 (by rw [hic]; simp)
    have heb : eb = none := by
      cases eb with
      | none => rfl
      | some e => exact absurd h2.1 (by rw [hic]; simp)
    subst hea heb
    exact h3 trivial trivial

/-! ### examples -/

/-- With ten bins from 0 to 1 the entries 0 and 1 are in the first and in the last bin. -/
theorem ten_bins {pf : String → Option (Option ℚ)} {name : String} {cells : List Cell} {ic : List String}
    (h0 : Cell.num 0 ∈ cells) (h1 : Cell.num 1 ∈ cells) (h : ∀ c ∈ cells, c = .num 0 ∨ c = .num 1) {e : List ℚ}
    (he : EdgesFor (fun x => x) pf false (.one (.num 10)) ic ⟨name, true, cells⟩ (some e)) :
    ∃ a b c d : ℚ, b ≤ c ∧ a < b ∧ Belongs pf true true true (some e) (.num 0) (.interval a b) ∧
      Belongs pf true true true (some e) (.num 1) (.interval c d) := by
  obtain ⟨-, arr, s, harr, hs, hq⟩ := he
  cases hs
  simp only at harr
  have key : ∀ {l : List Cell} {arr : List (Option ℚ)}, (∀ c ∈ l, c = .num 0 ∨ c = .num 1) → l.mapM (toFloat pf) = .ok arr →
      ∀ q, q ∈ arr.filterMap id ↔ Cell.num q ∈ l := by
    intro l
    induction l with
    | nil => intro arr _ h q; cases h; simp
    | cons c l ih =>
      intro arr hl h q
      obtain ⟨r, rfl, hr⟩ : ∃ r, c = .num r ∧ (r = 0 ∨ r = 1) := by
        rcases hl c (by simp) with rfl | rfl
        · exact ⟨0, rfl, .inl rfl⟩
        · exact ⟨1, rfl, .inr rfl⟩
      rw [List.mapM_cons, show toFloat pf (.num r) = .ok (some r) from rfl] at h
      cases h' : l.mapM (toFloat pf) with
      | error e => rw [h'] at h; cases h
      | ok arr' =>
        rw [h'] at h
        cases h
        have := ih (fun c hc => hl c (by simp [hc])) h' q
        rw [List.filterMap_cons]
        change q ∈ r :: List.filterMap id arr' ↔ _
        rw [List.mem_cons, List.mem_cons, this, Cell.num.injEq]
  have k := key h harr
  obtain ⟨e', h1', h2', h3'⟩ := uniform_edges ((k 0).2 h0) ((k 1).2 h1) (fun x hx => by
    rcases h _ ((k x).1 hx) with hx | hx <;> simp only [Cell.num.injEq] at hx <;> subst hx <;> norm_num) (n := 10) (by norm_num)
  cases hq with
  | num _ _ hq =>
    rw [show truncQ 10 = ((10 : ℕ) : ℤ) by decide, h1'] at hq
    cases hq
    refine ⟨_, _, _, _, ?_, ?_, .interval (x := 0) (k := 0) rfl (by omega) ?_ ?_,
      .interval (x := 1) (k := 9) rfl (by omega) ?_ ?_⟩ <;> simp only [h3'] <;> norm_num

/-- The bin indices 0 and 1 are not the labels of the matrix. -/
example (fmt render : ℚ → String) (pf : String → Option (Option ℚ)) (w : World) :
    ∃ t, ((outlierFromBinnedArray trueOut fmt render (fun x => x) pf [.num 0, .num 0, .num 1, .num 1]
      [.num 0, .num 1, .num 0, .num 1] "poisson" true true true).exec w).1 = .ok (some t) ∧
      2 ≤ t.rows.length ∧ Cell.num 0 ∉ t.rows ∧ Cell.num 1 ∉ t.rows := by
  set x : List Cell := [.num 0, .num 0, .num 1, .num 1] with hx
  set y : List Cell := [.num 0, .num 1, .num 0, .num 1] with hy
  have hs : ∀ s, Cell.str s ∉ x ∧ Cell.str s ∉ y := by intro s; simp [hx, hy]
  obtain ⟨t, ht, hlen⟩ : ∃ t, ((outlierFromBinnedArray trueOut fmt render (fun x => x) pf x y "poisson" true true true).exec
      w).1 = .ok (some t) ∧ 2 ≤ t.rows.length := by
    rw [binned_array_is_array]
    obtain ⟨-, h2⟩ := outlier_array_result trueOut fmt render (fun x => x) pf x y none (.one (.num 10)) false "poisson" true
      true true w
    rw [(h2 rfl).1, guess_numbers render hs]
    clear h2
    set data : Frame := ⟨x.length, [⟨"x", true, x⟩, ⟨"y", true, y⟩]⟩ with hdata
    have hr : (⟨w.heap ++ [data], w.warns⟩ : World).heap[w.heap.length]? = some data := by simp
    have hn : data.names.Nodup := by simp [hdata, Frame.names]
    have hent : ∀ name ∈ (none : Option (List String)).getD (guessIntervalCols data),
        ∃ s, EntryFor (.one (.num 10)) name s := fun _ _ => ⟨_, .one _ _⟩
    have hk : ∀ c ∈ data.cols, Kept ((none : Option (List String)).getD (guessIntervalCols data)) true c := by
      intro c hc
      unfold Kept
      rw [← nunique_eq]
      revert c
      decide
    have hspec : ∀ s name, EntryFor (.one (.num 10)) name s → SortedSpec s := by
      intro s name hs
      cases hs
      exact ⟨by norm_num, by norm_num⟩
    rcases outlier_matrix_labels trueOut fmt (.inl rfl) pf hr rfl (by decide) none "poisson" (.one (.num 10)) false true true
      true hent (fun n _ s h => hspec s n h) (fun _ _ _ _ _ _ _ => rfl) (hk _ (by simp [hdata])) (hk _ (by simp [hdata])) with
      ⟨e, -, he⟩ | ⟨ea, eb, ra, rb, n, h1, h2, h3, h4⟩
    · exfalso
      rw [binData_exec (fun x => x) pf hr] at he
      have : ∃ v, binDataCore (fun x => x) pf data (((none : Option (List String)).getD (guessIntervalCols data)).filter
          fun n => decide (n ∈ data.names)) (.one (.num 10)) false = .ok v := ⟨_, rfl⟩
      obtain ⟨v, hv⟩ := this
      simp only [hv] at he
      cases he
    · have hea : ∃ e, ea = some e := by
        cases ea with
        | none => exact absurd (by decide) h1
        | some e => exact ⟨e, rfl⟩
      have heb : ∃ e, eb = some e := by
        cases eb with
        | none => exact absurd (by decide) h2
        | some e => exact ⟨e, rfl⟩
      obtain ⟨ea, rfl⟩ := hea
      obtain ⟨eb, rfl⟩ := heb
      obtain ⟨a, b, c, d, p1, p2, p3, p4⟩ := ten_bins (by simp [hx]) (by simp [hx]) (by simp [hx]) h1
      obtain ⟨a', b', c', d', p1', p2', p3', p4'⟩ := ten_bins (by simp [hy]) (by simp [hy]) (by simp [hy]) h2
      have two : ∀ {l : List Category} {a b c d : ℚ}, b ≤ c → a < b → Category.interval a b ∈ l → .interval c d ∈ l →
          2 ≤ l.length := by
        intro l a b c d h1 h2 h3 h4
        by_contra hlt
        have hne : Category.interval a b ≠ .interval c d := by
          intro h; cases h; linarith
        match l, hlt with
        | [], _ => cases h3
        | [z], _ =>
          rw [List.mem_singleton] at h3 h4
          exact hne (h3.trans h4.symm)
        | _ :: _ :: _, h => simp at h
      have la : 2 ≤ ra.length := two p1 p2
        ((h3.rows_mem _).2 ⟨(.num 0, .num 0), by simp [hx, hy], p3, _, p3'⟩)
        ((h3.rows_mem _).2 ⟨(.num 1, .num 0), by simp [hx, hy], p4, _, p3'⟩)
      have lb : 2 ≤ rb.length := two p1' p2'
        ((h3.cols_mem _).2 ⟨(.num 0, .num 0), by simp [hx, hy], ⟨_, p3⟩, p3'⟩)
        ((h3.cols_mem _).2 ⟨(.num 0, .num 1), by simp [hx, hy], ⟨_, p3⟩, p4'⟩)
      obtain ⟨v, hv, -⟩ := outlier_table trueOut_exact ⟨ra.length, rb.length, n⟩
      generalize Except.map Prod.fst _ = res at h4 ⊢
      match res, h4 with
      | .ok none, h4 =>
        exfalso
        change _ < 2 ∨ _ < 2 at h4
        omega
      | .error e, h4 =>
        have := h4.2.2
        rw [hv] at this
        cases this
      | .ok (some t), h4 => exact ⟨t, rfl, by rw [h4.2.2.1]; simpa using la⟩
  have hrep : ∀ q, Cell.num q ∈ x ∨ Cell.num q ∈ y → (fun x : ℚ => x) q = q := fun _ _ => rfl
  exact ⟨t, ht, hlen, (binned_array_rebins trueOut fmt render (.inl rfl) pf hrep hs "poisson" true true true w ht 0).1,
    (binned_array_rebins trueOut fmt render (.inl rfl) pf hrep hs "poisson" true true true w ht 1).1⟩

/-- Texts are taken as they are; a number beside a text becomes a text. -/
example (N : OutNum) (fmt : ℚ → String) (fl : ℚ → ℚ) (pf : String → Option (Option ℚ)) (w : World) :
    ∃ ra rb n, Counts pf true true true none none ⟨"x", false, [.str "a", .str "b", .str "a"]⟩
        ⟨"y", false, [.str "one", .str "u", .str "u"]⟩ ra rb n ∧
      IsOutlierMatrix N fmt "poisson" ra rb n ((outlierFromBinnedArray N fmt (fun _ => "one") fl pf
        [.str "a", .str "b", .str "a"] [.num 1, .str "u", .str "u"] "poisson" true true true).exec w).1 :=
  binned_array_strings N fmt (fun _ => "one") fl pf (x := [.str "a", .str "b", .str "a"]) (y := [.num 1, .str "u", .str "u"])
    rfl (s := "a") (by simp) "poisson" true true true w
    (by unfold Kept; rw [← nunique_eq]; decide) (by unfold Kept; rw [← nunique_eq]; decide)

end Props
end Phik
