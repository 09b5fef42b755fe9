import Verif.Spec.Outliers
import Verif.Lemmas.BinData
import Verif.Lemmas.Binning
import Verif.Lemmas.World

/-! # Labels of the outlier matrix: lemmas -/

namespace Phik.Out
open Phik Spec

theorem num_lt_num {a b : ℚ} : Cell.num a < Cell.num b ↔ a < b := by
  change Cell.enc _ < Cell.enc _ ↔ _
  simp only [Cell.enc, WithBot.coe_lt_coe]
  exact Sum.Lex.inl_lt_inl_iff

theorem num_lt_str (a : ℚ) (s : String) : Cell.num a < Cell.str s := by
  change Cell.enc _ < Cell.enc _
  simp only [Cell.enc, WithBot.coe_lt_coe]
  exact Sum.Lex.inl_lt_inr _ _

/-- Two strictly increasing lists with the same members are equal. -/
theorem sorted_ext {l l' : List Cell} (h : l.Pairwise (· < ·)) (h' : l'.Pairwise (· < ·))
    (hm : ∀ a, a ∈ l ↔ a ∈ l') : l = l' := by
  refine List.Perm.eq_of_pairwise (le := (· < ·)) (fun a b _ _ h1 h2 => absurd h1 (lt_asymm h2)) h h' ?_
  exact (List.perm_ext_iff_of_nodup (h.imp fun h => ne_of_lt h) (h'.imp fun h => ne_of_lt h)).2 hm

def isNum : Cell → Bool
  | .num _ => true
  | _ => false

theorem split_sorted : ∀ {l : List Cell}, l.Pairwise (· < ·) →
    (∀ c ∈ l, c ≠ Cell.nan) → l = l.filter isNum ++ l.filter (fun c => !isNum c)
  | [], _, _ => rfl
  | c :: cs, h, hn => by
    rw [List.pairwise_cons] at h
    have ih := split_sorted h.2 (fun c hc => hn c (List.mem_cons_of_mem _ hc))
    cases c with
    | nan => exact absurd rfl (hn _ List.mem_cons_self)
    | num q =>
      have e : isNum (.num q) = true := rfl
      simp only [List.filter_cons, e, if_true, Bool.not_true, Bool.false_eq_true, if_false, List.cons_append]
      rw [← ih]
    | str s =>
      have hall : ∀ d ∈ cs, isNum d = false := by
        intro d hd
        cases d with
        | nan => rfl
        | str => rfl
        | num q => exact absurd (h.1 _ hd) (not_lt.2 (num_lt_str q s).le)
      have h1 : cs.filter isNum = [] := by
        rw [List.filter_eq_nil_iff]; intro d hd; simp [hall d hd]
      have h2 : cs.filter (fun c => !isNum c) = cs := by
        rw [List.filter_eq_self]; intro d hd; simp [hall d hd]
      have e : isNum (.str s) = false := rfl
      simp only [List.filter_cons, e, Bool.false_eq_true, if_false, Bool.not_false, if_true, h1, h2,
        List.nil_append]

/-- The name of a bin, from its number. -/
def binName (fmt : ℚ → String) (lab : ℕ → ℚ × ℚ) : Cell → Cell
  | .num q => .str (fmt (lab (q.num.toNat - 1)).1 ++ "_" ++ fmt (lab (q.num.toNat - 1)).2)
  | c => c

theorem binName_num (fmt : ℚ → String) (lab : ℕ → ℚ × ℚ) (k : ℕ) :
    binName fmt lab (.num ((k + 1 : ℕ) : ℚ)) = .str (fmt (lab k).1 ++ "_" ++ fmt (lab k).2) := by
  have : (((k + 1 : ℕ) : ℚ)).num.toNat - 1 = k := by rw [Rat.num_natCast]; simp
  simp only [binName, this]

/-- The labels of one axis: every bin gets its own edges, whatever bins are missing; other labels stay. -/
theorem axisLabels_eq (fmt : ℚ → String) {K : List ℕ} (hK : K.Pairwise (· < ·)) {cells : List Cell}
    (horig : ∀ c, (c ∈ cells ∧ c ≠ .nan ∧ c ≠ .str "UF" ∧ c ≠ .str "OF" ∧ c ≠ .str "NaN") ↔
      ∃ k ∈ K, c = .num ((k + 1 : ℕ) : ℚ)) {labels : List Cell} (hl : labels.Pairwise (· < ·))
    (hlab : ∀ c ∈ labels, (∃ k ∈ K, c = .num ((k + 1 : ℕ) : ℚ)) ∨ ∃ s, c = .str s) (lab : ℕ → ℚ × ℚ) :
    axisLabels fmt cells (K.map lab) labels = .ok (labels.map (binName fmt lab)) := by
  set num : ℕ → Cell := fun k => .num ((k + 1 : ℕ) : ℚ) with hnum
  have hinj : Function.Injective num := by
    intro a b h; simpa [hnum] using h
  have hsort : (K.map num).Pairwise (· < ·) := by
    rw [List.pairwise_map]
    refine hK.imp fun h => ?_
    rw [hnum, num_lt_num]; exact_mod_cast Nat.succ_lt_succ h
  have hnd : (K.map num).Nodup := hsort.imp fun h => ne_of_lt h
  have horig' : (cells.filter fun x => !x.isNan && !([Cell.str "UF", .str "OF", .str "NaN"].contains x)).toFinset.sort
      (· ≤ ·) = K.map num := by
    refine sorted_ext (Finset.sortedLT_sort _).pairwise hsort fun c => ?_
    rw [Finset.mem_sort, List.mem_toFinset, List.mem_filter, List.mem_map]
    have : (!c.isNan && !([Cell.str "UF", .str "OF", .str "NaN"].contains c)) = true ↔
        c ≠ .nan ∧ c ≠ .str "UF" ∧ c ≠ .str "OF" ∧ c ≠ .str "NaN" := by
      cases c <;> simp [Cell.isNan]
    rw [this, horig c]
    simp only [hnum, eq_comm]
  set p : ℕ → Bool := fun k => decide (num k ∈ labels) with hp
  have hnums : labels.filter isNum = (K.filter p).map num := by
    refine sorted_ext (hl.filter _) ?_ fun c => ?_
    · rw [List.pairwise_map]
      refine (hK.filter _).imp fun h => ?_
      rw [hnum, num_lt_num]; exact_mod_cast Nat.succ_lt_succ h
    · simp only [List.mem_filter, List.mem_map, hp, decide_eq_true_eq]
      constructor
      · rintro ⟨h1, h2⟩
        rcases hlab c h1 with ⟨k, hk, rfl⟩ | ⟨s, rfl⟩
        · exact ⟨k, ⟨hk, h1⟩, rfl⟩
        · simp [isNum] at h2
      · rintro ⟨k, ⟨hk, h1⟩, rfl⟩
        exact ⟨h1, rfl⟩
  have hsplit := split_sorted hl (fun c hc => by
    rcases hlab c hc with ⟨k, -, rfl⟩ | ⟨s, rfl⟩ <;> simp)
  set rest := labels.filter (fun c => !isNum c) with hrest
  have hstr : rest.map (binName fmt lab) = rest := by
    conv_rhs => rw [← List.map_id rest]
    apply List.map_congr_left
    intro c hc
    rw [hrest, List.mem_filter] at hc
    cases c with
    | nan => rfl
    | str => rfl
    | num q => simp [isNum] at hc
  -- the bins that are present
  have himiss : ∀ i (hi : i < K.length), ((((K.map num).filter fun v => !labels.contains v).map
      fun v => (K.map num).idxOf v).contains i) = !p K[i] := by
    intro i hi
    rw [Bool.eq_iff_iff, List.contains_iff_mem, List.mem_map]
    simp only [List.mem_filter, Bool.not_eq_true', hp, decide_eq_false_iff_not]
    constructor
    · rintro ⟨v, ⟨h1, h2⟩, h3⟩
      have h4 : v = num K[i] := by
        subst h3
        have := List.getElem_idxOf (x := v) (xs := K.map num) (by rw [List.length_map]; exact hi)
        rw [List.getElem_map] at this
        exact this.symm
      rw [← h4]
      simpa using h2
    · intro h
      refine ⟨num K[i], ⟨List.mem_map_of_mem (List.getElem_mem _), by simpa using h⟩, ?_⟩
      have := hnd.idxOf_getElem i (by simpa using hi)
      rwa [List.getElem_map] at this
  have hvals : ((List.range (K.map lab).length).filter fun i =>
      !(((K.map num).filter fun v => !labels.contains v).map fun v => (K.map num).idxOf v).contains i).map
      (fun i => Cell.str (fmt ((K.map lab).getD i (0, 0)).1 ++ "_" ++ fmt ((K.map lab).getD i (0, 0)).2)) =
      (K.filter p).map fun k => Cell.str (fmt (lab k).1 ++ "_" ++ fmt (lab k).2) := by
    rw [List.length_map]
    have hrange : K = (List.range K.length).map fun i => K.getD i 0 := by
      apply List.ext_getElem
      · simp
      · intro i h1 h2
        simp [h1]
    conv_rhs => rw [hrange, List.filter_map, List.map_map]
    rw [List.filter_congr (q := p ∘ fun i => K.getD i 0)]
    · apply List.map_congr_left
      intro i hi
      have hi' : i < K.length := by
        have := (List.mem_filter.1 hi).1
        simpa using this
      simp [hi']
    · intro i hi
      have hi' : i < K.length := by simpa using hi
      rw [himiss i hi']
      simp [hi']
  unfold axisLabels
  dsimp only
  rw [horig', hvals]
  have hlen : ((K.filter p).map fun k => Cell.str (fmt (lab k).1 ++ "_" ++ fmt (lab k).2)).length =
      (labels.filter isNum).length := by rw [hnums]; simp
  have hdrop : labels.drop (labels.filter isNum).length = rest := by
    conv_lhs => rw [hsplit]
    rw [List.filter_append]
    have : (labels.filter isNum).filter isNum = labels.filter isNum := by simp
    rw [this]
    have h2 : rest.filter isNum = [] := by
      rw [hrest, List.filter_filter, List.filter_eq_nil_iff]; intro d _; cases isNum d <;> simp
    rw [h2, List.append_nil, List.drop_left]
  rw [hlen, hdrop]
  have hfinal : ((K.filter p).map fun k => Cell.str (fmt (lab k).1 ++ "_" ++ fmt (lab k).2)) ++ rest =
      labels.map (binName fmt lab) := by
    conv_rhs => rw [hsplit, List.map_append, hstr, hnums, List.map_map]
    congr 1
  rw [hfinal, if_pos (by simp)]

/-- The numbers of the populated bins. -/
def populated (arr : List (Option ℚ)) (e : List ℚ) : List ℕ :=
  (List.range (e.length - 1)).filter fun k => decide (k + 1 ∈ arr.map (searchsorted e))

theorem populated_sorted (arr : List (Option ℚ)) (e : List ℚ) : (populated arr e).Pairwise (· < ·) :=
  List.Pairwise.filter _ List.pairwise_lt_range

/-- The edges of a bin. -/
def edgePair (e : List ℚ) (k : ℕ) : ℚ × ℚ := (e.getD k 0, e.getD (k + 1) 0)

theorem binArray_snd (arr : List (Option ℚ)) (e : List ℚ) :
    (binArray arr e).2 = (populated arr e).map (edgePair e) := by
  unfold binArray populated
  dsimp only
  generalize List.range (e.length - 1) = R
  induction R with
  | nil => rfl
  | cons k ks ih =>
    by_cases h : k + 1 ∈ arr.map (searchsorted e)
    · simp only [List.filterMap_cons, List.filter_cons, h, if_true, decide_true, List.map_cons, edgePair]
      rw [ih]
    · simp only [List.filterMap_cons, List.filter_cons, h, if_false, decide_false, Bool.false_eq_true]
      rw [ih]

/-- The entries of a binned column. -/
theorem binCell_cases (e : List ℚ) (x : Option ℚ) : binCell e x = .nan ∨ binCell e x = .str "UF" ∨
    binCell e x = .str "OF" ∨ ∃ k : ℕ, binCell e x = .num ((k + 1 : ℕ) : ℚ) ∧ k + 1 < e.length ∧
      searchsorted e x = k + 1 := by
  cases x with
  | none => exact .inl rfl
  | some x =>
    obtain ⟨-, b, -, -⟩ := searchGo_spec e x 0 e.length (Nat.zero_le _)
    simp only [binCell, searchsorted]
    generalize searchGo e x 0 e.length = m at *
    by_cases h0 : m = 0
    · simp [h0]
    · by_cases h1 : m = e.length
      · right; right; left; rw [if_neg h0, if_pos h1]
      · right; right; right
        refine ⟨m - 1, ?_, by omega, by omega⟩
        rw [if_neg h0, if_neg h1]
        congr 2
        omega

theorem binCell_of_search {e : List ℚ} {x : Option ℚ} {k : ℕ} (hk : k + 1 < e.length)
    (h : searchsorted e x = k + 1) : binCell e x = .num ((k + 1 : ℕ) : ℚ) := by
  cases x with
  | none => simp only [searchsorted] at h; omega
  | some x =>
    simp only [searchsorted] at h
    simp only [binCell, h]
    rw [if_neg (by omega), if_neg (by omega)]

theorem mem_populated {arr : List (Option ℚ)} {e : List ℚ} {k : ℕ} :
    k ∈ populated arr e ↔ k + 1 < e.length ∧ ∃ x ∈ arr, searchsorted e x = k + 1 := by
  unfold populated
  rw [List.mem_filter, List.mem_range, decide_eq_true_eq, List.mem_map]
  constructor
  · rintro ⟨h, x, hx, e⟩; exact ⟨by omega, x, hx, e⟩
  · rintro ⟨h, x, hx, e⟩; exact ⟨by omega, x, hx, e⟩

/-- The cells of a binned column after the replacements. -/
theorem orig_of_flags {dropna du dof : Bool} {g : Cell → Cell} (hg : ∀ c, (g c).opt = view dropna du dof c)
    (arr : List (Option ℚ)) (e : List ℚ) (c : Cell) :
    (c ∈ (binArray arr e).1.map g ∧ c ≠ .nan ∧ c ≠ .str "UF" ∧ c ≠ .str "OF" ∧ c ≠ .str "NaN") ↔
      ∃ k ∈ populated arr e, c = .num ((k + 1 : ℕ) : ℚ) := by
  have hnum : ∀ q, g (.num q) = .num q := by
    intro q
    have := hg (.num q)
    simp only [view] at this
    exact (opt_eq_some.1 this).1
  rw [binArray_fst, List.map_map, List.mem_map]
  constructor
  · rintro ⟨⟨x, hx, rfl⟩, h1, h2, h3, h4⟩
    simp only [Function.comp] at *
    have hview := hg (binCell e x)
    have hopt : (g (binCell e x)).opt = some (g (binCell e x)) := by
      rw [opt_eq_some]
      refine ⟨rfl, ?_⟩
      cases hh : g (binCell e x) <;> first | rfl | exact absurd hh h1
    rw [hopt] at hview
    rcases binCell_cases e x with h | h | h | ⟨k, h, hk, hs⟩
    · rw [h] at hview
      simp only [view] at hview
      split at hview
      · cases hview
      · rw [h] at h4; exact absurd (Option.some.inj hview) h4
    · rw [h] at hview
      simp only [view] at hview
      split at hview
      · cases hview
      split at hview
      · cases hview
      · rw [h] at h2; exact absurd (Option.some.inj hview) h2
    · rw [h] at hview
      simp only [view] at hview
      split at hview
      · cases hview
      split at hview
      · cases hview
      · rw [h] at h3; exact absurd (Option.some.inj hview) h3
    · exact ⟨k, mem_populated.2 ⟨hk, x, hx, hs⟩, by rw [h, hnum]⟩
  · rintro ⟨k, hk, rfl⟩
    obtain ⟨hk1, x, hx, hs⟩ := mem_populated.1 hk
    refine ⟨⟨x, hx, ?_⟩, by simp, by simp, by simp, by simp⟩
    rw [Function.comp, binCell_of_search hk1 hs, hnum]

/-- The labels of a binned axis. -/
theorem relabel_binned (fmt : ℚ → String) {dropna du dof : Bool} {g : Cell → Cell}
    (hg : ∀ c, (g c).opt = view dropna du dof c) (arr : List (Option ℚ)) (e : List ℚ) {labels : List Cell}
    (hl : labels.Pairwise (· < ·))
    (hlab : ∀ c ∈ labels, ∃ x ∈ arr, view dropna du dof (binCell e x) = some c) :
    axisLabels fmt ((binArray arr e).1.map g) (binArray arr e).2 labels =
      .ok (labels.map (binName fmt (edgePair e))) := by
  rw [binArray_snd]
  refine axisLabels_eq fmt (populated_sorted arr e) (orig_of_flags hg arr e) hl (fun c hc => ?_) _
  obtain ⟨x, hx, hv⟩ := hlab c hc
  rcases binCell_cases e x with h | h | h | ⟨k, h, hk, hs⟩
  · rw [h] at hv; simp only [view] at hv
    split at hv <;> cases hv; exact .inr ⟨_, rfl⟩
  · rw [h] at hv; simp only [view] at hv
    split at hv
    · cases hv
    split at hv <;> cases hv; exact .inr ⟨_, rfl⟩
  · rw [h] at hv; simp only [view] at hv
    split at hv
    · cases hv
    split at hv <;> cases hv; exact .inr ⟨_, rfl⟩
  · rw [h] at hv; simp only [view] at hv
    cases hv
    exact .inl ⟨k, mem_populated.2 ⟨hk, x, hx, hs⟩, rfl⟩

/-! ### one axis -/

/-- The input entries `xs` of a column, its entries `ys` after binning, and the categories of the latter. -/
structure Axis (pf : String → Option (Option ℚ)) (dropna du dof : Bool) (ed : Option (List ℚ)) (xs ys : List Cell)
    (cat : Cell → Category) : Prop where
  len : xs.length = ys.length
  belongs : ∀ p ∈ xs.zip ys, ∀ c, Belongs pf dropna du dof ed p.1 c ↔
    ∃ v, view dropna du dof p.2 = some v ∧ cat v = c
  before : ∀ y ∈ ys, ∀ y' ∈ ys, ∀ v v', view dropna du dof y = some v → view dropna du dof y' = some v' →
    v < v' → (cat v).Before (cat v')

theorem Belongs.irrefl {pf : String → Option (Option ℚ)} {dropna du dof : Bool} {ed : Option (List ℚ)} {x : Cell}
    {c : Category} (h : Belongs pf dropna du dof ed x c) : ¬ c.Before c := by
  cases h with
  | value h => exact lt_irrefl _
  | interval hx hk h1 h2 => exact not_le.2 (lt_of_lt_of_le h1 h2)
  | under => exact lt_irrefl _
  | over => exact lt_irrefl _
  | missing => exact lt_irrefl _

theorem axis_plain (pf : String → Option (Option ℚ)) (dropna du dof : Bool) (xs : List Cell) :
    Axis pf dropna du dof none xs xs Category.value := by
  refine ⟨rfl, ?_, ?_⟩
  · intro p hp c
    have hself : p.1 = p.2 := by
      obtain ⟨i, hi, rfl⟩ := List.getElem_of_mem hp
      simp
    rw [hself]
    constructor
    · rintro ⟨h⟩; exact ⟨_, h, rfl⟩
    · rintro ⟨v, h, rfl⟩; exact .value h
  · intro y _ y' _ v v' _ _ h
    exact h

/-- The category of a binned entry. -/
def binCat (e : List ℚ) : Cell → Category
  | .num q => .interval (edgePair e (q.num.toNat - 1)).1 (edgePair e (q.num.toNat - 1)).2
  | .str s => .special s
  | .nan => .special "NaN"

theorem binCat_num (e : List ℚ) (k : ℕ) :
    binCat e (.num ((k + 1 : ℕ) : ℚ)) = .interval (edgePair e k).1 (edgePair e k).2 := by
  have : (((k + 1 : ℕ) : ℚ)).num.toNat - 1 = k := by rw [Rat.num_natCast]; simp
  simp only [binCat, this]

theorem binCat_name (fmt : ℚ → String) (e : List ℚ) {c : Cell} (hc : c ≠ .nan) :
    (binCat e c).name fmt = binName fmt (edgePair e) c := by
  cases c with
  | nan => exact absurd rfl hc
  | num q => rfl
  | str s => rfl

theorem mapM_toFloat {pf : String → Option (Option ℚ)} {xs : List Cell} {arr : List (Option ℚ)}
    (h : xs.mapM (toFloat pf) = .ok arr) : List.Forall₂ (fun x a => toFloat pf x = .ok a) xs arr := by
  induction xs generalizing arr with
  | nil => cases h; exact .nil
  | cons x xs ih =>
    rw [List.mapM_cons] at h
    obtain ⟨a, h1, h⟩ := except_bind_ok h
    obtain ⟨as, h2, h⟩ := except_bind_ok h
    cases h
    exact .cons h1 (ih h2)

theorem belongs_bin {pf : String → Option (Option ℚ)} (dropna du dof : Bool) {e : List ℚ}
    (hs : e.Pairwise (· ≤ ·)) (hne : e ≠ []) {x : Cell} {a : Option ℚ} (hx : toFloat pf x = .ok a) (c : Category) :
    Belongs pf dropna du dof (some e) x c ↔ ∃ v, view dropna du dof (binCell e a) = some v ∧ binCat e v = c := by
  have hl : 0 < e.length := List.length_pos_of_ne_nil hne
  have hh : e.getD 0 0 = e.head hne := by rw [getD_lt hl, List.head_eq_getElem]
  have hlast : e.getD (e.length - 1) 0 = e.getLast hne := by
    rw [getD_lt (by omega), List.getLast_eq_getElem]
  constructor
  · intro h
    cases h with
    | @interval _ _ y k hx' hk h1 h2 =>
      rw [hx] at hx'
      cases hx'
      have : binCell e (some y) = .num ((k + 1 : ℕ) : ℚ) := by
        rw [binCell_num_iff y hs]
        refine ⟨k + 1, rfl, by omega, hk, ?_, ?_⟩
        · rw [Nat.add_sub_cancel, getD_lt (by omega)]; exact h1
        · rw [getD_lt hk]; exact h2
      rw [this]
      refine ⟨_, rfl, ?_⟩
      rw [binCat_num]
      simp only [edgePair]
      rw [getD_lt (by omega), getD_lt hk]
    | @under _ _ y hx' he h hd =>
      rw [hx] at hx'
      cases hx'
      rw [(binCell_uf_iff y hs hne).2 (by rw [hh]; exact h)]
      exact ⟨.str "UF", by simp [view, hd], rfl⟩
    | @over _ _ y hx' he h hd =>
      rw [hx] at hx'
      cases hx'
      rw [(binCell_of_iff y hs hne).2 (by rw [hlast]; exact h)]
      exact ⟨.str "OF", by simp [view, hd], rfl⟩
    | missing hx' hd =>
      rw [hx] at hx'
      cases hx'
      exact ⟨.str "NaN", by simp [view, binCell, hd], rfl⟩
  · rintro ⟨v, hv, rfl⟩
    cases a with
    | none =>
      simp only [binCell, view] at hv
      cases dropna with
      | true => simp at hv
      | false => simp at hv; subst hv; exact .missing hx rfl
    | some y =>
      rcases binCell_cases e (some y) with h | h | h | ⟨k, h, hk, hsr⟩
      · simp only [binCell] at h
        split at h
        · cases h
        split at h <;> cases h
      · rw [h] at hv
        have h' := (binCell_uf_iff y hs hne).1 h
        rw [hh] at h'
        cases du with
        | true => simp [view] at hv
        | false => simp [view] at hv; subst hv; exact .under hx hne h' rfl
      · rw [h] at hv
        have h' := (binCell_of_iff y hs hne).1 h
        rw [hlast] at h'
        cases dof with
        | true => simp [view] at hv
        | false => simp [view] at hv; subst hv; exact .over hx hne h' rfl
      · rw [h] at hv
        simp only [view] at hv
        cases hv
        rw [binCat_num]
        obtain ⟨k', e1, h0, h1, h2, h3⟩ := (binCell_num_iff y hs _).1 h
        have : k' = k + 1 := by exact_mod_cast e1.symm
        subst this
        rw [Nat.add_sub_cancel] at h2
        simp only [edgePair]
        rw [getD_lt (by omega)] at h2 ⊢
        rw [getD_lt hk] at h3 ⊢
        exact .interval hx hk h2 h3

theorem str_lt_str {s t : String} : Cell.str s < Cell.str t ↔ s < t := by
  change Cell.enc _ < Cell.enc _ ↔ _
  simp only [Cell.enc, WithBot.coe_lt_coe]
  exact Sum.Lex.inr_lt_inr_iff

theorem axis_binned {pf : String → Option (Option ℚ)} (dropna du dof : Bool) {e : List ℚ}
    (hs : e.Pairwise (· ≤ ·)) (hne : e ≠ []) {xs : List Cell} {arr : List (Option ℚ)}
    (harr : xs.mapM (toFloat pf) = .ok arr) :
    Axis pf dropna du dof (some e) xs (binArray arr e).1 (binCat e) := by
  have hf := mapM_toFloat harr
  rw [binArray_fst]
  refine ⟨by rw [List.length_map, hf.length_eq], ?_, ?_⟩
  · intro p hp c
    rw [List.zip_map_right] at hp
    obtain ⟨q, hq, rfl⟩ := List.mem_map.1 hp
    have := (List.forall₂_iff_zip.1 hf).2 hq
    exact belongs_bin dropna du dof hs hne this c
  · intro y hy y' hy' v v' hv hv' hlt
    have key : ∀ y ∈ arr.map (binCell e), ∀ v, view dropna du dof y = some v →
        (∃ s, v = .str s) ∨ ∃ k, v = .num ((k + 1 : ℕ) : ℚ) ∧ k + 1 < e.length := by
      intro y hy v hv
      obtain ⟨x, -, rfl⟩ := List.mem_map.1 hy
      rcases binCell_cases e x with h | h | h | ⟨k, h, hk, hsr⟩
      · rw [h] at hv; simp only [view] at hv
        split at hv <;> cases hv; exact .inl ⟨_, rfl⟩
      · rw [h] at hv; simp only [view] at hv
        split at hv
        · cases hv
        split at hv <;> cases hv; exact .inl ⟨_, rfl⟩
      · rw [h] at hv; simp only [view] at hv
        split at hv
        · cases hv
        split at hv <;> cases hv; exact .inl ⟨_, rfl⟩
      · rw [h] at hv; simp only [view] at hv
        cases hv
        exact .inr ⟨k, rfl, hk⟩
    rcases key y hy v hv with ⟨s, rfl⟩ | ⟨k, rfl, hk⟩ <;> rcases key y' hy' v' hv' with ⟨s', rfl⟩ | ⟨k', rfl, hk'⟩
    · exact str_lt_str.1 hlt
    · exact absurd hlt (lt_asymm (num_lt_str _ _))
    · rw [binCat_num]; trivial
    · rw [binCat_num, binCat_num]
      rw [num_lt_num] at hlt
      have hlt' : k + 1 < k' + 1 := by exact_mod_cast hlt
      change e.getD (k + 1) 0 ≤ e.getD k' 0
      rw [getD_lt hk, getD_lt (by omega)]
      rcases (show k + 1 ≤ k' by omega).lt_or_eq with h | h
      · exact List.pairwise_iff_getElem.1 hs _ _ _ _ h
      · simp [h]

/-- Categories of different entries are different. -/
theorem Axis.inj {pf : String → Option (Option ℚ)} {dropna du dof : Bool} {ed : Option (List ℚ)} {xs ys : List Cell}
    {cat : Cell → Category} (A : Axis pf dropna du dof ed xs ys cat) {y y' v v' : Cell} (hy : y ∈ ys) (hy' : y' ∈ ys)
    (hv : view dropna du dof y = some v) (hv' : view dropna du dof y' = some v') (h : cat v = cat v') : v = v' := by
  obtain ⟨i, hi, rfl⟩ := List.getElem_of_mem hy
  have hm : (xs[i]'(by rw [A.len]; exact hi), ys[i]) ∈ xs.zip ys := by
    rw [List.mem_iff_getElem]
    exact ⟨i, by simp [A.len, hi], by simp⟩
  have hb := (A.belongs _ hm (cat v)).2 ⟨v, hv, rfl⟩
  rcases lt_trichotomy v v' with hlt | he | hlt
  · have := A.before _ hy _ hy' _ _ hv hv' hlt
    rw [← h] at this
    exact absurd this (Belongs.irrefl hb)
  · exact he
  · have := A.before _ hy' _ hy _ _ hv' hv hlt
    rw [← h] at this
    exact absurd this (Belongs.irrefl hb)

open scoped Classical in
/-- The contingency table in terms of categories. -/
theorem counts_of_axes {pf : String → Option (Option ℚ)} {dropna du dof : Bool} {ea eb : Option (List ℚ)}
    {a b a' b' : Column} {ca cb : Cell → Category} (A : Axis pf dropna du dof ea a.cells a'.cells ca)
    (B : Axis pf dropna du dof eb b.cells b'.cells cb) {h : Hist}
    (ht : IsTable (tableOf dropna du dof a'.cells b'.cells) h) :
    Counts pf dropna du dof ea eb a b (h.rows.map ca) (h.cols.map cb)
      (fun i j => h.v (i.cast (by simp)) (j.cast (by simp))) := by
  set L := (a.cells.zip a'.cells).zip (b.cells.zip b'.cells) with hL
  have e1 : a.cells.zip b.cells = L.map (fun p => (p.1.1, p.2.1)) := by
    have ha : a.cells = (a.cells.zip a'.cells).map Prod.fst := by rw [List.map_fst_zip]; exact A.len.le
    have hb : b.cells = (b.cells.zip b'.cells).map Prod.fst := by rw [List.map_fst_zip]; exact B.len.le
    conv_lhs => rw [ha, hb]
    rw [List.zip_map]; rfl
  have e2 : a'.cells.zip b'.cells = L.map (fun p => (p.1.2, p.2.2)) := by
    have ha : a'.cells = (a.cells.zip a'.cells).map Prod.snd := by rw [List.map_snd_zip]; exact A.len.ge
    have hb : b'.cells = (b.cells.zip b'.cells).map Prod.snd := by rw [List.map_snd_zip]; exact B.len.ge
    conv_lhs => rw [ha, hb]
    rw [List.zip_map]; rfl
  have hrec : tableOf dropna du dof a'.cells b'.cells =
      L.map (fun p => (view dropna du dof p.1.2, view dropna du dof p.2.2)) := by
    unfold tableOf
    rw [e2, List.map_map]; rfl
  have hLm : ∀ p ∈ L, p.1 ∈ a.cells.zip a'.cells ∧ p.2 ∈ b.cells.zip b'.cells := fun p hp => List.of_mem_zip hp
  have hmem2 : ∀ {x y : Cell} {l l' : List Cell}, (x, y) ∈ l.zip l' → y ∈ l' := fun h => (List.of_mem_zip h).2
  have hr : ∀ v ∈ h.rows, ∃ y ∈ a'.cells, view dropna du dof y = some v := by
    intro v hv
    obtain ⟨b0, hb⟩ := (ht.rows_mem v).1 hv
    rw [hrec] at hb
    obtain ⟨p, hp, he⟩ := List.mem_map.1 hb
    simp only [Prod.mk.injEq] at he
    exact ⟨_, hmem2 (hLm p hp).1, he.1⟩
  have hc : ∀ v ∈ h.cols, ∃ y ∈ b'.cells, view dropna du dof y = some v := by
    intro v hv
    obtain ⟨b0, hb⟩ := (ht.cols_mem v).1 hv
    rw [hrec] at hb
    obtain ⟨p, hp, he⟩ := List.mem_map.1 hb
    simp only [Prod.mk.injEq] at he
    exact ⟨_, hmem2 (hLm p hp).2, he.2⟩
  constructor
  · rw [List.pairwise_map]
    refine List.Pairwise.imp_of_mem (fun {v v'} hv hv' hlt => ?_) ht.rows_sorted
    obtain ⟨y, hy, e⟩ := hr v hv
    obtain ⟨y', hy', e'⟩ := hr v' hv'
    exact A.before _ hy _ hy' _ _ e e' hlt
  · rw [List.pairwise_map]
    refine List.Pairwise.imp_of_mem (fun {v v'} hv hv' hlt => ?_) ht.cols_sorted
    obtain ⟨y, hy, e⟩ := hc v hv
    obtain ⟨y', hy', e'⟩ := hc v' hv'
    exact B.before _ hy _ hy' _ _ e e' hlt
  · intro c
    rw [List.mem_map]
    constructor
    · rintro ⟨v, hv, rfl⟩
      obtain ⟨b0, hb⟩ := (ht.rows_mem v).1 hv
      rw [hrec] at hb
      obtain ⟨p, hp, he⟩ := List.mem_map.1 hb
      simp only [Prod.mk.injEq] at he
      refine ⟨(p.1.1, p.2.1), by rw [e1]; exact List.mem_map_of_mem hp, ?_, cb b0, ?_⟩
      · exact (A.belongs _ (hLm p hp).1 _).2 ⟨v, he.1, rfl⟩
      · exact (B.belongs _ (hLm p hp).2 _).2 ⟨b0, he.2, rfl⟩
    · rintro ⟨p, hp, h1, d, h2⟩
      rw [e1] at hp
      obtain ⟨q, hq, rfl⟩ := List.mem_map.1 hp
      obtain ⟨v, hv, rfl⟩ := (A.belongs _ (hLm q hq).1 _).1 h1
      obtain ⟨u, hu, rfl⟩ := (B.belongs _ (hLm q hq).2 _).1 h2
      refine ⟨v, (ht.rows_mem v).2 ⟨u, ?_⟩, rfl⟩
      rw [hrec, List.mem_map]
      exact ⟨q, hq, by rw [hv, hu]⟩
  · intro c
    rw [List.mem_map]
    constructor
    · rintro ⟨v, hv, rfl⟩
      obtain ⟨b0, hb⟩ := (ht.cols_mem v).1 hv
      rw [hrec] at hb
      obtain ⟨p, hp, he⟩ := List.mem_map.1 hb
      simp only [Prod.mk.injEq] at he
      refine ⟨(p.1.1, p.2.1), by rw [e1]; exact List.mem_map_of_mem hp, ⟨ca b0, ?_⟩, ?_⟩
      · exact (A.belongs _ (hLm p hp).1 _).2 ⟨b0, he.1, rfl⟩
      · exact (B.belongs _ (hLm p hp).2 _).2 ⟨v, he.2, rfl⟩
    · rintro ⟨p, hp, ⟨d, h1⟩, h2⟩
      rw [e1] at hp
      obtain ⟨q, hq, rfl⟩ := List.mem_map.1 hp
      obtain ⟨v, hv, rfl⟩ := (A.belongs _ (hLm q hq).1 _).1 h1
      obtain ⟨u, hu, rfl⟩ := (B.belongs _ (hLm q hq).2 _).1 h2
      refine ⟨u, (ht.cols_mem u).2 ⟨v, ?_⟩, rfl⟩
      rw [hrec, List.mem_map]
      exact ⟨q, hq, by rw [hv, hu]⟩
  · intro i j
    rw [ht.counts, hrec, e1, List.countP_map, List.count_eq_countP, List.countP_map]
    refine List.countP_congr fun p hp => ?_
    obtain ⟨hp1, hp2⟩ := hLm p hp
    have hi : (h.rows.map ca)[i] = ca (h.rows[i.cast (List.length_map _)]) := by
      rw [Fin.getElem_fin, List.getElem_map]; rfl
    have hj : (h.cols.map cb)[j] = cb (h.cols[j.cast (List.length_map _)]) := by
      rw [Fin.getElem_fin, List.getElem_map]; rfl
    simp only [Function.comp, beq_iff_eq, Prod.mk.injEq, decide_eq_true_eq]
    rw [hi, hj, A.belongs _ hp1, B.belongs _ hp2]
    constructor
    · rintro ⟨h1, h2⟩
      exact ⟨⟨_, h1, rfl⟩, ⟨_, h2, rfl⟩⟩
    · rintro ⟨⟨v, h1, h2⟩, ⟨u, h3, h4⟩⟩
      obtain ⟨y, hy, e⟩ := hr _ (List.getElem_mem (l := h.rows) (n := i.1) (by simpa using i.2))
      obtain ⟨y', hy', e'⟩ := hc _ (List.getElem_mem (l := h.cols) (n := j.1) (by simpa using j.2))
      have := A.inj (hmem2 hp1) hy h1 e h2
      have := B.inj (hmem2 hp2) hy' h3 e' h4
      subst v u
      exact ⟨h1, h3⟩

end Phik.Out
