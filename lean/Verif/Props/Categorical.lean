import Verif.Props.Rename
import Verif.Props.PhikCounts
import Verif.Props.Records
import Verif.Props.GaussianMono
import Verif.Props.PhikWitness
import Verif.Spec.Categorical

/-! # Property C78: categories that do not occur -/

namespace Phik
open Spec Props

theorem count_kept (pairs : List (Cell × Cell)) (a b : Cell) :
    (pairs.filter fun p => !p.1.isNan && !p.2.isNan).count (a, b) =
      if a.isNan = false ∧ b.isNan = false then (pairs.map fun p => (p.1.opt, p.2.opt)).count (some a, some b) else 0 := by
  induction pairs with
  | nil => simp
  | cons p ps ih =>
    obtain ⟨x, y⟩ := p
    simp only [List.map_cons, List.count_cons]
    by_cases hx : x.isNan = false ∧ y.isNan = false
    · rw [List.filter_cons, if_pos (by simp [hx.1, hx.2]), List.count_cons, ih]
      have e1 : x.opt = some x := opt_eq_some.2 ⟨rfl, hx.1⟩
      have e2 : y.opt = some y := opt_eq_some.2 ⟨rfl, hx.2⟩
      simp only [e1, e2, beq_iff_eq, Prod.mk.injEq, Option.some.injEq]
      by_cases hxy : x = a ∧ y = b
      · obtain ⟨rfl, rfl⟩ := hxy
        simp [hx]
      · simp [hxy]
    · rw [List.filter_cons, if_neg (by simpa using hx), ih]
      congr 1
      rw [if_neg]
      · simp
      · simp only [beq_iff_eq, Prod.mk.injEq, opt_eq_some]
        rintro ⟨⟨rfl, h1⟩, ⟨rfl, h2⟩⟩
        exact hx ⟨h1, h2⟩

theorem flags_cells (du dof : Bool) (c : DColumn) : ∃ g : Cell → Cell, (c.flags du dof).cells = c.cells.map g ∧
    ∀ x, (g x).opt = view true du dof x := by
  refine ⟨fun c =>
    let c := if du then (if c = .str "UF" then .nan else c) else c
    if dof then (if c = .str "OF" then .nan else c) else c, ?_, ?_⟩
  · unfold DColumn.flags DColumn.drop
    cases du <;> cases dof <;> simp [Function.comp_def]
  · intro c
    cases c with
    | nan => cases du <;> cases dof <;> simp [view, Cell.opt]
    | num q => cases du <;> cases dof <;> simp [view, Cell.opt]
    | str s =>
      by_cases h1 : s = "UF"
      · subst h1; cases du <;> cases dof <;> simp [view, Cell.opt]
      · by_cases h2 : s = "OF"
        · subst h2; cases du <;> cases dof <;> simp [view, Cell.opt]
        · cases du <;> cases dof <;> simp [view, Cell.opt, h1, h2]

theorem flags_name (du dof : Bool) (c : DColumn) : (c.flags du dof).name = c.name := by
  unfold DColumn.flags DColumn.drop; cases du <;> cases dof <;> rfl

theorem flags_levels (du dof : Bool) (c : DColumn) (hw : DColumn.WF c) : (c.flags du dof).levels =
    c.levels.map fun L => L.filter fun x => (view true du dof x).isSome := by
  unfold DColumn.flags DColumn.drop
  cases hL : c.levels with
  | none => cases du <;> cases dof <;> simp [hL]
  | some L =>
    have hn := (hw L hL).2.1
    have key : ∀ p : Cell → Bool, (∀ x ∈ L, p x = (view true du dof x).isSome) →
        L.filter p = L.filter fun x => (view true du dof x).isSome := fun p hp => List.filter_congr hp
    cases du <;> cases dof <;> simp only [if_true, if_false, Bool.false_eq_true, hL, Option.map_some, Option.some.injEq,
      List.filter_filter]
    · symm
      rw [List.filter_eq_self]
      intro x hx
      cases x with
      | nan => exact absurd hx hn
      | num q => rfl
      | str s => simp [view]
    all_goals
      refine key _ fun x hx => ?_
      cases x with
      | nan => exact absurd hx hn
      | num q => simp [view]
      | str s =>
        by_cases h1 : s = "UF"
        · subst h1; simp [view]
        · by_cases h2 : s = "OF"
          · subst h2; simp [view]
          · simp [view, h1, h2]

theorem flags_axis (du dof : Bool) (c : DColumn) (hw : DColumn.WF c) : IsAxis du dof c (c.flags du dof).axis := by
  unfold IsAxis DColumn.axis
  rw [flags_levels du dof c hw]
  cases hL : c.levels with
  | some L => rfl
  | none =>
    simp only [Option.map_none]
    obtain ⟨g, h1, h2⟩ := flags_cells du dof c
    rw [h1]
    refine ⟨(Finset.sortedLT_sort (α := Cell) _).pairwise, fun x => ?_⟩
    simp only [Finset.mem_sort, List.mem_toFinset, List.mem_filter, List.mem_map, Bool.not_eq_true']
    constructor
    · rintro ⟨⟨y, hy, rfl⟩, hx⟩
      exact ⟨y, hy, by rw [← h2]; exact opt_eq_some.2 ⟨rfl, hx⟩⟩
    · rintro ⟨y, hy, hx⟩
      rw [← h2, opt_eq_some] at hx
      exact ⟨⟨y, hy, hx.1⟩, by rw [← hx.1]; exact hx.2⟩

theorem axis_notNan {du dof : Bool} {c : DColumn} (hw : DColumn.WF c) {l : List Cell} (h : IsAxis du dof c l) {x : Cell}
    (hx : x ∈ l) : x.isNan = false := by
  have hne : x ≠ .nan := by
    rintro rfl
    unfold IsAxis at h
    cases hL : c.levels with
    | some L =>
      rw [hL] at h
      subst h
      exact (hw L hL).2.1 (List.mem_filter.1 hx).1
    | none =>
      rw [hL] at h
      obtain ⟨y, -, hy⟩ := (h.2 _).1 hx
      cases y with
      | nan => simp [view] at hy
      | num q => simp [view] at hy
      | str s =>
        simp only [view] at hy
        split at hy
        · cases hy
        · split at hy <;> cases hy
  cases x with
  | nan => exact absurd rfl hne
  | num q => rfl
  | str s => rfl

theorem recordsD_opt {du dof : Bool} {a b : DColumn} :
    (((a.flags du dof).cells.zip (b.flags du dof).cells).map fun p => (p.1.opt, p.2.opt)) = recordsD du dof a b := by
  obtain ⟨g, h1, h2⟩ := flags_cells du dof a
  obtain ⟨g', h1', h2'⟩ := flags_cells du dof b
  rw [h1, h1', List.zip_map, List.map_map]
  unfold recordsD
  refine List.map_congr_left fun p _ => ?_
  simp only [Function.comp_apply, Prod.map_fst, Prod.map_snd, h2, h2']

theorem histOfColumns_table {du dof : Bool} {a b : DColumn} (ha : DColumn.WF a) (hb : DColumn.WF b) :
    if a.levels = none ∧ b.levels = none then IsTable (recordsD du dof a b) (histOfColumns (a.flags du dof) (b.flags du dof))
    else IsTableD du dof a b (histOfColumns (a.flags du dof) (b.flags du dof)) := by
  have hnone : ∀ c : DColumn, DColumn.WF c → ((c.flags du dof).levels = none ↔ c.levels = none) := by
    intro c hc
    rw [flags_levels du dof c hc, Option.map_eq_none_iff]
  unfold histOfColumns
  simp only [hnone a ha, hnone b hb]
  split
  · rw [← recordsD_opt]
    exact histOfPairs_table _
  · refine ⟨flags_axis du dof a ha, flags_axis du dof b hb, fun i j => ?_⟩
    simp only
    rw [count_kept, recordsD_opt, if_pos]
    · rfl
    · exact ⟨axis_notNan ha (flags_axis du dof a ha) (List.get_mem _ _),
        axis_notNan hb (flags_axis du dof b hb) (List.get_mem _ _)⟩

theorem view_self {du dof : Bool} {y x : Cell} (h : view true du dof y = some x) : y = x ∧ y ≠ .nan := by
  cases y with
  | nan => simp [view] at h
  | num q => simp only [view, Option.some.injEq] at h; exact ⟨h, by simp⟩
  | str s =>
    simp only [view] at h
    split at h
    · cases h
    · split at h
      · cases h
      · cases h; exact ⟨rfl, by simp⟩

theorem axis_mem {du dof : Bool} {c : DColumn} (hw : DColumn.WF c) {l : List Cell} (h : IsAxis du dof c l) {y x : Cell}
    (hy : y ∈ c.cells) (hv : view true du dof y = some x) : x ∈ l := by
  unfold IsAxis at h
  cases hL : c.levels with
  | none => rw [hL] at h; exact (h.2 x).2 ⟨y, hy, hv⟩
  | some L =>
    rw [hL] at h
    subst h
    obtain ⟨rfl, hn⟩ := view_self hv
    exact List.mem_filter.2 ⟨((hw L hL).2.2 y hy).resolve_left hn, by rw [hv]; rfl⟩

theorem axis_nodup {du dof : Bool} {c : DColumn} (hw : DColumn.WF c) {l : List Cell} (h : IsAxis du dof c l) : l.Nodup := by
  unfold IsAxis at h
  cases hL : c.levels with
  | none => rw [hL] at h; exact h.1.imp ne_of_lt
  | some L => rw [hL] at h; subst h; exact (hw L hL).1.filter _

theorem axis_unique {du dof : Bool} {c : DColumn} {l l' : List Cell} (h : IsAxis du dof c l) (h' : IsAxis du dof c l') :
    l = l' := by
  unfold IsAxis at h h'
  cases hL : c.levels with
  | some L => rw [hL] at h h'; rw [h, h']
  | none =>
    rw [hL] at h h'
    exact sorted_ext h.1 h'.1 fun x => (h.2 x).trans (h'.2 x).symm

theorem record_mem {du dof : Bool} {a b : DColumn} (ha : DColumn.WF a) (hb : DColumn.WF b) {h : Hist}
    (ht : IsTableD du dof a b h) {x y : Cell} (hr : (some x, some y) ∈ recordsD du dof a b) : x ∈ h.rows ∧ y ∈ h.cols := by
  obtain ⟨⟨u, v⟩, hm, he⟩ := List.mem_map.1 hr
  simp only [Prod.mk.injEq] at he
  exact ⟨axis_mem ha ht.rows (List.of_mem_zip hm).1 he.1, axis_mem hb ht.cols (List.of_mem_zip hm).2 he.2⟩

theorem tableD_cell {du dof : Bool} {a b : DColumn} {h : Hist} (ht : IsTableD du dof a b h) (i : Fin h.values.r)
    (j : Fin h.values.c) : h.values.v i j ≠ 0 ↔ (some (h.rows.get i), some (h.cols.get j)) ∈ recordsD du dof a b := by
  have e := ht.counts i j
  have e' : h.values.v i j ≠ 0 ↔ h.v i j ≠ 0 := Nat.cast_ne_zero (R := ℝ)
  rw [e', ← Nat.pos_iff_ne_zero, e]
  exact List.count_pos_iff

theorem tableD_row {du dof : Bool} {a b : DColumn} (ha : DColumn.WF a) (hb : DColumn.WF b) {h : Hist}
    (ht : IsTableD du dof a b h) (i : Fin h.values.r) :
    FullRow h.values i ↔ ∃ y, (some (h.rows.get i), some y) ∈ recordsD du dof a b := by
  constructor
  · rintro ⟨j, hj⟩; exact ⟨_, (tableD_cell ht i j).1 hj⟩
  · rintro ⟨y, hy⟩
    obtain ⟨j, rfl⟩ := List.get_of_mem (record_mem ha hb ht hy).2
    exact ⟨j, (tableD_cell ht i j).2 hy⟩

theorem tableD_col {du dof : Bool} {a b : DColumn} (ha : DColumn.WF a) (hb : DColumn.WF b) {h : Hist}
    (ht : IsTableD du dof a b h) (j : Fin h.values.c) :
    FullCol h.values j ↔ ∃ x, (some x, some (h.cols.get j)) ∈ recordsD du dof a b := by
  constructor
  · rintro ⟨i, hi⟩; exact ⟨_, (tableD_cell ht i j).1 hi⟩
  · rintro ⟨x, hx⟩
    obtain ⟨i, rfl⟩ := List.get_of_mem (record_mem ha hb ht hx).1
    exact ⟨i, (tableD_cell ht i j).2 hx⟩

/-- The used labels of the table are the labels of the table of the same records without categories. -/
theorem used_equiv {l l' : List Cell} (hl : l.Nodup) (hl' : l'.Nodup) {P : Fin l.length → Prop} {P' : Fin l'.length → Prop}
    {Q : Cell → Prop} (hP : ∀ i, P i ↔ Q (l.get i)) (hQ : ∀ x, Q x → x ∈ l) (hP' : ∀ i, P' i)
    (hm : ∀ x, x ∈ l' ↔ Q x) : ∃ e : {i // P i} ≃ {i // P' i}, ∀ i, l'.get (e i).1 = l.get i.1 := by
  have h1 : ∀ i : {i // P i}, ∃ j : {j // P' j}, l'.get j.1 = l.get i.1 := by
    rintro ⟨i, hi⟩
    obtain ⟨j, hj⟩ := List.get_of_mem ((hm _).2 ((hP i).1 hi))
    exact ⟨⟨j, hP' j⟩, hj⟩
  choose f hf using h1
  refine ⟨Equiv.ofBijective f ⟨fun i j hij => ?_, fun j => ?_⟩, hf⟩
  · have : l.get i.1 = l.get j.1 := by rw [← hf i, ← hf j, hij]
    exact Subtype.ext (hl.injective_get this)
  · have hq := (hm _).1 (List.get_mem l' j.1)
    obtain ⟨i, hi⟩ := List.get_of_mem (hQ _ hq)
    refine ⟨⟨i, (hP i).2 (by rw [hi]; exact hq)⟩, Subtype.ext (hl'.injective_get ?_)⟩
    exact (hf _).trans hi

theorem tableD_same {du dof : Bool} {a b : DColumn} (ha : DColumn.WF a) (hb : DColumn.WF b) {h h' : Hist}
    (ht : IsTableD du dof a b h) (ht' : IsTable (recordsD du dof a b) h') :
    SameTable h.values h'.values ∧ nRows h.values = h'.rows.length ∧ nCols h.values = h'.cols.length := by
  have hd := table_data ht'
  obtain ⟨e, he⟩ := used_equiv (l := h.rows) (l' := h'.rows) (axis_nodup ha ht.rows) (ht'.rows_sorted.imp ne_of_lt)
    (P := FullRow h.values) (P' := FullRow h'.values) (Q := fun x => ∃ y, (some x, some y) ∈ recordsD du dof a b)
    (fun i => tableD_row ha hb ht i) (fun x ⟨y, hy⟩ => (record_mem ha hb ht hy).1) hd.rows ht'.rows_mem
  obtain ⟨f, hf⟩ := used_equiv (l := h.cols) (l' := h'.cols) (axis_nodup hb ht.cols) (ht'.cols_sorted.imp ne_of_lt)
    (P := FullCol h.values) (P' := FullCol h'.values) (Q := fun y => ∃ x, (some x, some y) ∈ recordsD du dof a b)
    (fun i => tableD_col ha hb ht i) (fun y ⟨x, hy⟩ => (record_mem ha hb ht hy).2) hd.cols ht'.cols_mem
  refine ⟨⟨e, f, fun i j => ?_⟩, ?_, ?_⟩
  · change ((h'.v (e i).1 (f j).1 : ℕ) : ℝ) = ((h.v i.1 j.1 : ℕ) : ℝ)
    have h1 : h'.rows[(e i).1] = h.rows[i.1] := he i
    have h2 : h'.cols[(f j).1] = h.cols[j.1] := hf j
    have h3 := ht'.counts (e i).1 (f j).1
    have h4 := ht.counts i.1 j.1
    rw [h1, h2] at h3
    exact congrArg _ (h3.trans h4.symm)
  · exact (Nat.card_congr e).trans ((Nat.card_congr (Equiv.subtypeUnivEquiv hd.rows)).trans (Nat.card_fin _))
  · exact (Nat.card_congr f).trans ((Nat.card_congr (Equiv.subtypeUnivEquiv hd.cols)).trans (Nat.card_fin _))

theorem tableD_total {du dof : Bool} {a b : DColumn} (ha : DColumn.WF a) (hb : DColumn.WF b) {h : Hist}
    (ht : IsTableD du dof a b h) (hr : HasRecord du dof a b) : 0 < h.values.total := by
  obtain ⟨x, y, hxy⟩ := hr
  obtain ⟨h1, h2⟩ := record_mem ha hb ht hxy
  obtain ⟨i, rfl⟩ := List.get_of_mem h1
  obtain ⟨j, rfl⟩ := List.get_of_mem h2
  have hne := (tableD_cell ht i j).2 hxy
  have hnn : ∀ i j, 0 ≤ h.values.v i j := fun i j => Nat.cast_nonneg (α := ℝ) _
  refine Finset.sum_pos' (fun i _ => Finset.sum_nonneg fun j _ => hnn i j) ⟨i, Finset.mem_univ _, ?_⟩
  exact Finset.sum_pos' (fun j _ => hnn i j) ⟨j, Finset.mem_univ _, lt_of_le_of_ne (hnn i j) (Ne.symm hne)⟩

theorem tableD_count {du dof : Bool} {a b : DColumn} (ha : DColumn.WF a) (hb : DColumn.WF b) {h : Hist}
    (ht : IsTableD du dof a b h) :
    h.values.total = ((recordsD du dof a b).countP fun p => p.1.isSome && p.2.isSome : ℕ) := by
  rw [← table_total (axis_nodup ha ht.rows) (axis_nodup hb ht.cols) fun x y hxy => record_mem ha hb ht hxy, Nat.cast_sum]
  refine Finset.sum_congr rfl fun i _ => ?_
  rw [Nat.cast_sum]
  exact Finset.sum_congr rfl fun j _ => congrArg (Nat.cast (R := ℝ)) (ht.counts i j)

theorem tableD_unique {du dof : Bool} {a b : DColumn} {h h' : Hist} (ht : IsTableD du dof a b h)
    (ht' : IsTableD du dof a b h') : h = h' := by
  obtain ⟨r, c, v⟩ := h
  obtain ⟨r', c', v'⟩ := h'
  obtain rfl : r = r' := axis_unique ht.rows ht'.rows
  obtain rfl : c = c' := axis_unique ht.cols ht'.cols
  congr
  funext i j
  exact (ht.counts i j).trans (ht'.counts i j).symm

theorem isPhikD_unique {nm : Numerics} {noise du dof : Bool} {a b : DColumn} {v v' : Option ℝ}
    (h : IsPhikD nm noise du dof a b v) (h' : IsPhikD nm noise du dof a b v') : v = v' := by
  unfold IsPhikD at h h'
  split at h
  · next hc => rw [if_pos hc] at h'; exact isPhik_unique h h'
  · next hc =>
    rw [if_neg hc] at h'
    obtain ⟨t, ht, h⟩ := h
    obtain ⟨t', ht', h'⟩ := h'
    obtain rfl := tableD_unique ht ht'
    rcases h with ⟨h1, rfl⟩ | ⟨h1, h2, x, hx, rfl⟩
    · rcases h' with ⟨-, rfl⟩ | ⟨g1, g2, -⟩
      · rfl
      · omega
    · rcases h' with ⟨g1, -⟩ | ⟨g1, g2, y, hy, rfl⟩
      · omega
      · rw [hx] at hy; cases hy; rfl

/-! ### one pair -/

theorem getDCol_of_mem {f : List DColumn} (hn : (f.map (·.name)).Nodup) {c : DColumn} (hc : c ∈ f) :
    getDCol f c.name = .ok c := by
  unfold getDCol
  have : f.find? (fun d => d.name == c.name) = some c := by
    induction f with
    | nil => cases hc
    | cons d ds ih =>
      rw [List.map_cons, List.nodup_cons] at hn
      rcases List.mem_cons.1 hc with rfl | hm
      · simp
      · rw [List.find?_cons_of_neg, ih hn.2 hm]
        simp only [beq_iff_eq]
        intro e
        exact hn.1 (e ▸ List.mem_map_of_mem hm)
  rw [this]

theorem calcPhikD_diag (nm : Numerics) (f : List DColumn) (noise : Bool) (a : String) :
    calcPhikD nm f noise (a, a) = .ok (a, a, some 1) := by
  simp [calcPhikD, pure, Except.pure]

theorem calcPhikD_names {nm : Numerics} {f : List DColumn} {noise : Bool} {co : String × String}
    {p : String × String × Option ℝ} (h : calcPhikD nm f noise co = .ok p) : p.1 = co.1 ∧ p.2.1 = co.2 := by
  unfold calcPhikD at h
  split at h
  · simp only [pure, Except.pure, Except.ok.injEq] at h; subst h; exact ⟨rfl, rfl⟩
  · simp only [pure, Except.pure] at h
    obtain ⟨a, -, h⟩ := except_bind_ok h
    obtain ⟨b, -, h⟩ := except_bind_ok h
    split at h
    · cases h; exact ⟨rfl, rfl⟩
    · obtain ⟨x, -, h⟩ := except_bind_ok h
      cases h; exact ⟨rfl, rfl⟩

theorem calcPhikD_pair (nm : Numerics) {du dof : Bool} {f : List DColumn} (noise : Bool)
    (hn : (f.map (·.name)).Nodup) (hw : ∀ c ∈ f, DColumn.WF c) {a b : DColumn} (ha : a ∈ f) (hb : b ∈ f)
    (hab : a.name ≠ b.name) :
    (∀ p, calcPhikD nm (f.map (DColumn.flags du dof)) noise (a.name, b.name) = .ok p →
      IsPhikD nm noise du dof a b p.2.2) ∧
    (GoodNumerics nm →
      ((a.levels = none ∧ b.levels = none) ∨ HasRecord du dof a b ∨ FewLabels du dof a ∨ FewLabels du dof b) →
      ∃ p, calcPhikD nm (f.map (DColumn.flags du dof)) noise (a.name, b.name) = .ok p) ∧
    (¬(a.levels = none ∧ b.levels = none) → ¬ HasRecord du dof a b → ¬ FewLabels du dof a → ¬ FewLabels du dof b →
      calcPhikD nm (f.map (DColumn.flags du dof)) noise (a.name, b.name) = .error .value) := by
  have hn' : ((f.map (DColumn.flags du dof)).map (·.name)).Nodup := by
    rw [List.map_map]
    have : ((·.name) ∘ DColumn.flags du dof) = fun c : DColumn => c.name := by
      funext c; exact flags_name du dof c
    rw [this]; exact hn
  have e1 := getDCol_of_mem hn' (List.mem_map_of_mem (f := DColumn.flags du dof) ha)
  have e2 := getDCol_of_mem hn' (List.mem_map_of_mem (f := DColumn.flags du dof) hb)
  rw [flags_name] at e1 e2
  have ht := histOfColumns_table (du := du) (dof := dof) (hw a ha) (hw b hb)
  set h := histOfColumns (a.flags du dof) (b.flags du dof) with hh
  have hrun : calcPhikD nm (f.map (DColumn.flags du dof)) noise (a.name, b.name) =
      if h.rows.length = 0 ∨ h.cols.length = 0 ∨ h.rows.length = 1 ∨ h.cols.length = 1 then
        .ok (a.name, b.name, none)
      else (phikFromHist2d nm.mvn nm.brentq h.values noise).map fun x => (a.name, b.name, some x) := by
    unfold calcPhikD
    simp only [hab, if_false, e1, e2, bind, Except.bind, ← hh]
    split
    · rfl
    · cases phikFromHist2d nm.mvn nm.brentq h.values noise <;> rfl
  rw [hrun]
  have hsmall : (h.rows.length = 0 ∨ h.cols.length = 0 ∨ h.rows.length = 1 ∨ h.cols.length = 1) ↔
      (h.rows.length < 2 ∨ h.cols.length < 2) := by omega
  simp only [hsmall]
  refine ⟨fun p hp => ?_, fun hg hcond => ?_, fun hcat hnr h1 h2 => ?_⟩
  · have hval : (h.rows.length < 2 ∨ h.cols.length < 2) ∧ p.2.2 = none ∨
        2 ≤ h.rows.length ∧ 2 ≤ h.cols.length ∧
        ∃ x, phikFromHist2d nm.mvn nm.brentq h.values noise = .ok x ∧ p.2.2 = some x := by
      split at hp
      · next hs => cases hp; exact .inl ⟨hs, rfl⟩
      · next hs =>
        cases hx : phikFromHist2d nm.mvn nm.brentq h.values noise with
        | error e => rw [hx] at hp; cases hp
        | ok x =>
          rw [hx] at hp
          cases hp
          exact .inr ⟨by omega, by omega, x, rfl, rfl⟩
    unfold IsPhikD
    split at ht
    · next hc => rw [if_pos hc]; exact ⟨h, ht, hval⟩
    · next hc => rw [if_neg hc]; exact ⟨h, ht, hval⟩
  · by_cases hs : h.rows.length < 2 ∨ h.cols.length < 2
    · rw [if_pos hs]; exact ⟨_, rfl⟩
    · rw [if_neg hs]
      split at ht
      · obtain ⟨_, _, _, x, -, -, -, -, -, hx, -⟩ := phik_of_data hg.mvn hg.brentq (table_data ht)
          (show 2 ≤ h.rows.length by omega) (show 2 ≤ h.cols.length by omega) noise
        rw [hx]; exact ⟨_, rfl⟩
      · next hc =>
        have hr : HasRecord du dof a b := by
          rcases hcond with h0 | h0 | h0 | h0
          · exact absurd h0 hc
          · exact h0
          · exact absurd (h0 _ ht.rows) (by omega)
          · exact absurd (h0 _ ht.cols) (by omega)
        obtain ⟨_, _, _, x, -, -, -, -, -, hx, -⟩ := phik_of_counts hg.mvn hg.brentq (a := h.values)
          (fun i j => ⟨h.v i j, rfl⟩) (tableD_total (hw a ha) (hw b hb) ht hr)
          (show 2 ≤ h.rows.length by omega) (show 2 ≤ h.cols.length by omega) noise
        rw [hx]; exact ⟨_, rfl⟩
  · rw [if_neg hcat] at ht
    have hs : ¬ (h.rows.length < 2 ∨ h.cols.length < 2) := by
      rintro (h0 | h0)
      · exact h1 fun l hl => by rw [axis_unique hl ht.rows]; exact h0
      · exact h2 fun l hl => by rw [axis_unique hl ht.cols]; exact h0
    rw [if_neg hs]
    have hz : ∀ i j, h.values.v i j = 0 := by
      intro i j
      by_contra hne
      exact hnr ⟨_, _, (tableD_cell ht i j).1 hne⟩
    unfold phikFromHist2d
    rw [get_chi2_rejects _ (.inl hz)]
    rfl

namespace Props

theorem names_flags (du dof : Bool) (f : List DColumn) :
    (f.map (DColumn.flags du dof)).map (·.name) = f.map (·.name) := by
  rw [List.map_map]
  refine List.map_congr_left fun c _ => flags_name du dof c

/-- **C78 (matrix).** For every frame of plain and categorical columns with distinct names and every order in which the
workers may finish: if every two columns of which one is categorical, both with two labels or more, have a common record,
`phik_from_rebinned_df` returns the matrix whose entry for two different columns is phik of the table over all labels, the
categories that do not occur included. -/
theorem phik_matrix_categorical {nm : Numerics} (hg : GoodNumerics nm) {sched : Option (List ℕ)} {f : List DColumn}
    (hn : (f.map (·.name)).Nodup) (hw : ∀ c ∈ f, DColumn.WF c)
    (hs : ValidSched (cwr (f.map (·.name))).length sched) (noise du dof : Bool)
    (hrec : ∀ a ∈ f, ∀ b ∈ f, a.name ≠ b.name → (a.levels ≠ none ∨ b.levels ≠ none) →
      HasRecord du dof a b ∨ FewLabels du dof a ∨ FewLabels du dof b) :
    ∃ t, phikFromRebinnedD nm sched f noise du dof = .ok t ∧
      IsCorrTable (f.map (·.name)) (fun x y v => ∃ a ∈ f, ∃ b ∈ f, a.name = x ∧ b.name = y ∧
        IsPhikD nm noise du dof a b v) t := by
  have hall : ∃ l, (cwr (f.map (·.name))).map (calcPhikD nm (f.map (DColumn.flags du dof)) noise) = List.map .ok l := by
    apply all_ok
    intro k hk
    rw [List.length_map] at hk
    rw [List.getElem?_map, List.getElem?_eq_getElem hk]
    have hmem := List.getElem_mem hk
    generalize (cwr (f.map (·.name)))[k] = co at hmem
    obtain ⟨x, y⟩ := co
    simp only [Option.map_some, Option.some.injEq]
    rcases mem_cwr.1 hmem with ⟨rfl, -⟩ | hab
    · exact ⟨_, calcPhikD_diag ..⟩
    · obtain ⟨ca, ha, rfl⟩ := List.mem_map.1 (hab.subset (by simp) : x ∈ f.map (·.name))
      obtain ⟨cb, hb, rfl⟩ := List.mem_map.1 (hab.subset (by simp) : y ∈ f.map (·.name))
      have hne := sublist_ne hn hab
      refine (calcPhikD_pair nm noise hn hw ha hb hne).2.1 hg ?_
      by_cases hc : ca.levels = none ∧ cb.levels = none
      · exact .inl hc
      · exact .inr (hrec ca ha cb hb hne (by tauto))
  obtain ⟨l, hl⟩ := hall
  unfold phikFromRebinnedD
  simp only [names_flags]
  rw [(runTasks_ok_iff (by simpa using hs) l).2 hl]
  simp only [bind, Except.bind, pure, Except.pure]
  split
  · next h0 =>
    refine ⟨_, rfl, ?_⟩
    have hnil : f.map (·.name) = [] := by
      apply cwr_eq_nil
      have : l = [] := List.length_eq_zero_iff.1 h0
      rw [this] at hl
      simpa using hl
    rw [hnil]
    exact ⟨rfl, rfl, by simp, by simp, by simp⟩
  · refine ⟨_, rfl, ?_⟩
    have := pairs_table hn (fun co p hp => calcPhikD_names hp)
      (fun a p hp => by rw [calcPhikD_diag] at hp; cases hp; rfl) hl
    refine ⟨this.rows, this.cols, this.diag, this.symm, fun x y hab => ?_⟩
    obtain ⟨p, hp, hv⟩ := this.entry x y hab
    obtain ⟨ca, ha, rfl⟩ := List.mem_map.1 (hab.subset (by simp) : x ∈ f.map (·.name))
    obtain ⟨cb, hb, rfl⟩ := List.mem_map.1 (hab.subset (by simp) : y ∈ f.map (·.name))
    refine ⟨ca, ha, cb, hb, rfl, rfl, ?_⟩
    rw [← hv]
    exact (calcPhikD_pair nm noise hn hw ha hb (sublist_ne hn hab)).1 p hp

/-- **C78 (no common record).** If two columns, one of them categorical, have two labels or more each but no common
record, the whole call raises; with plain columns the entry of the pair would be NaN. -/
theorem phik_matrix_no_record (nm : Numerics) {sched : Option (List ℕ)} {f : List DColumn}
    (hn : (f.map (·.name)).Nodup) (hw : ∀ c ∈ f, DColumn.WF c)
    (hs : ValidSched (cwr (f.map (·.name))).length sched) (noise du dof : Bool) {a b : DColumn} (ha : a ∈ f) (hb : b ∈ f)
    (hab : a.name ≠ b.name) (hcat : a.levels ≠ none ∨ b.levels ≠ none) (h0 : ¬ HasRecord du dof a b)
    (h1 : ¬ FewLabels du dof a) (h2 : ¬ FewLabels du dof b) :
    (∀ t, phikFromRebinnedD nm sched f noise du dof ≠ .ok t) ∧
      (GoodNumerics nm → phikFromRebinnedD nm sched f noise du dof = .error .value) ∧
      IsPhikD nm noise du dof (plain a) (plain b) none := by
  have hnot : ∀ t, phikFromRebinnedD nm sched f noise du dof ≠ .ok t := by
    intro t h
    unfold phikFromRebinnedD at h
    simp only [names_flags] at h
    obtain ⟨l, h3, -⟩ := except_bind_ok h
    rw [runTasks_ok_iff (by simpa using hs)] at h3
    have key : ∀ a ∈ f, ∀ b ∈ f, [a.name, b.name].Sublist (f.map (·.name)) → (a.levels ≠ none ∨ b.levels ≠ none) →
        ¬ HasRecord du dof a b → ¬ FewLabels du dof a → ¬ FewLabels du dof b → False := by
      intro a ha b hb hab hcat h0 h1 h2
      have e := (calcPhikD_pair nm noise hn hw ha hb (sublist_ne hn hab)).2.2 (by tauto) h0 h1 h2
      have hm := List.mem_map_of_mem (f := calcPhikD nm (f.map (DColumn.flags du dof)) noise)
        (mem_cwr.2 (.inr hab))
      rw [h3, e] at hm
      obtain ⟨p, -, hp⟩ := List.mem_map.1 hm
      cases hp
    have hswap : ∀ a b : DColumn, HasRecord du dof b a → HasRecord du dof a b := by
      rintro a b ⟨x, y, hxy⟩
      refine ⟨y, x, ?_⟩
      obtain ⟨⟨u, v⟩, hm, he⟩ := List.mem_map.1 hxy
      refine List.mem_map.2 ⟨(v, u), ?_, ?_⟩
      · rw [← List.zip_swap, List.mem_map]
        exact ⟨(u, v), hm, rfl⟩
      · simp only [Prod.mk.injEq] at he ⊢
        exact ⟨he.2, he.1⟩
    rcases sublist_total (List.mem_map_of_mem ha) (List.mem_map_of_mem hb) hab with hsub | hsub
    · exact key a ha b hb hsub hcat h0 h1 h2
    · exact key b hb a ha hsub hcat.symm (fun h => h0 (hswap _ _ h)) h2 h1
  refine ⟨hnot, fun hg => ?_, ?_⟩
  · have htask : ∀ e, .error e ∈ (cwr (f.map (·.name))).map (calcPhikD nm (f.map (DColumn.flags du dof)) noise) →
        e = .value := by
      intro e he
      obtain ⟨⟨x, y⟩, hmem, hxy⟩ := List.mem_map.1 he
      rcases mem_cwr.1 hmem with ⟨rfl, -⟩ | hab
      · rw [calcPhikD_diag] at hxy; cases hxy
      · obtain ⟨ca, ha, rfl⟩ := List.mem_map.1 (hab.subset (by simp) : x ∈ f.map (·.name))
        obtain ⟨cb, hb, rfl⟩ := List.mem_map.1 (hab.subset (by simp) : y ∈ f.map (·.name))
        obtain ⟨-, g1, g2⟩ := calcPhikD_pair nm (du := du) (dof := dof) noise hn hw ha hb (sublist_ne hn hab)
        by_cases hcond : (ca.levels = none ∧ cb.levels = none) ∨ HasRecord du dof ca cb ∨ FewLabels du dof ca ∨
            FewLabels du dof cb
        · obtain ⟨p, hp⟩ := g1 hg hcond
          rw [hp] at hxy; cases hxy
        · simp only [not_or] at hcond
          rw [g2 hcond.1 hcond.2.1 hcond.2.2.1 hcond.2.2.2] at hxy
          cases hxy; rfl
    cases hr : phikFromRebinnedD nm sched f noise du dof with
    | ok t => exact absurd hr (hnot t)
    | error e =>
      unfold phikFromRebinnedD at hr
      simp only [names_flags] at hr
      cases hrun : runTasks sched ((cwr (f.map (·.name))).map (calcPhikD nm (f.map (DColumn.flags du dof)) noise)) with
      | ok l =>
        rw [hrun] at hr
        simp only [bind, Except.bind, pure, Except.pure] at hr
        split at hr <;> cases hr
      | error e' =>
        rw [hrun] at hr
        cases hr
        cases sched with
        | none =>
          rw [htask e ((parallel_eq_serial _ (List.Perm.refl _)).2.2 e none (.inl rfl) hrun)]
        | some order =>
          rw [htask e ((parallel_eq_serial _ (by simpa using hs order rfl)).2.2 e _ (.inr rfl) hrun)]
  · unfold IsPhikD
    rw [if_pos ⟨rfl, rfl⟩]
    have e : recordsD du dof (plain a) (plain b) = recordsD du dof a b := rfl
    rw [e]
    obtain ⟨h, ht⟩ := exists_table (recordsD du dof a b)
    refine ⟨h, ht, .inl ⟨.inl ?_, rfl⟩⟩
    have : h.rows = [] := by
      rw [List.eq_nil_iff_forall_not_mem]
      intro x hx
      obtain ⟨y, hy⟩ := (ht.rows_mem x).1 hx
      exact h0 ⟨x, y, hy⟩
    rw [this]; simp

/-- **C78 (chi2).** Categories that do not occur do not change the test statistic. -/
theorem chi2_unused {du dof : Bool} {a b : DColumn} (ha : DColumn.WF a) (hb : DColumn.WF b) {h h' : Hist}
    (ht : IsTableD du dof a b h) (ht' : IsTable (recordsD du dof a b) h') (lambda : String) :
    getChi2 h.values lambda = getChi2 h'.values lambda :=
  get_chi2_sameTable (tableD_same ha hb ht ht').1 lambda

/-- **C78 (every category occurs).** If every label occurs in a record with a value in both columns, phik is the same as
for plain columns with the same entries. -/
theorem phik_all_used (nm : Numerics) {noise du dof : Bool} {a b : DColumn} (ha : DColumn.WF a) (hb : DColumn.WF b)
    (hu : AllUsed du dof a b) (v : Option ℝ) :
    IsPhikD nm noise du dof a b v ↔ IsPhikD nm noise du dof (plain a) (plain b) v := by
  have e : recordsD du dof (plain a) (plain b) = recordsD du dof a b := rfl
  unfold IsPhikD
  rw [if_pos (show (plain a).levels = none ∧ (plain b).levels = none from ⟨rfl, rfl⟩), e]
  split
  · rfl
  · next hc =>
    have hD := histOfColumns_table (du := du) (dof := dof) ha hb
    rw [if_neg hc] at hD
    generalize histOfColumns (a.flags du dof) (b.flags du dof) = h at hD
    obtain ⟨h', ht'⟩ := exists_table (recordsD du dof a b)
    have hmem1 : ∀ x, x ∈ h'.rows ↔ ∃ y ∈ h.rows, id y = x := by
      intro x
      simp only [id_eq, exists_eq_right]
      rw [ht'.rows_mem]
      exact ⟨fun ⟨y, hy⟩ => (record_mem ha hb hD hy).1, fun hx => hu.1 _ hD.rows x hx⟩
    have hmem2 : ∀ x, x ∈ h'.cols ↔ ∃ y ∈ h.cols, id y = x := by
      intro x
      simp only [id_eq, exists_eq_right]
      rw [ht'.cols_mem]
      exact ⟨fun ⟨y, hy⟩ => (record_mem ha hb hD hy).2, fun hx => hu.2 _ hD.cols x hx⟩
    obtain ⟨E, hE⟩ := rename_equiv (σ := id) (axis_nodup ha hD.rows) (ht'.rows_sorted.imp ne_of_lt)
      (fun _ _ _ _ h => h) hmem1
    obtain ⟨F, hF⟩ := rename_equiv (σ := id) (axis_nodup hb hD.cols) (ht'.cols_sorted.imp ne_of_lt)
      (fun _ _ _ _ h => h) hmem2
    have hval : ∀ i j, h'.v (E i) (F j) = h.v i j := by
      intro i j
      have h3 := ht'.counts (E i) (F j)
      rw [hE, hF] at h3
      exact h3.trans (hD.counts i j).symm
    have hphik : phikFromHist2d nm.mvn nm.brentq h.values noise =
        phikFromHist2d nm.mvn nm.brentq h'.values noise :=
      phik_reindex nm noise (a := h.values) (b := h'.values) E F fun i j => congrArg (Nat.cast (R := ℝ)) (hval i j)
    have hlen1 : h'.rows.length = h.rows.length := by simpa using (Fintype.card_congr E).symm
    have hlen2 : h'.cols.length = h.cols.length := by simpa using (Fintype.card_congr F).symm
    constructor
    · rintro ⟨h2, ht2, hc⟩
      obtain rfl := tableD_unique hD ht2
      refine ⟨h', ht', ?_⟩
      rw [← hphik, hlen1, hlen2]
      exact hc
    · rintro ⟨h2, ht2, hc⟩
      obtain rfl := table_unique ht' ht2
      refine ⟨h, hD, ?_⟩
      rw [hphik, ← hlen1, ← hlen2]
      exact hc

/-- **C78 (categories that do not occur; violated).** Two columns, one of them categorical, with `r` and `c` labels of which
`r'` and `c'` occur. phik compares the unchanged chi2 with the curve of an `r` by `c` table: it is 0 where plain columns
give NaN, and stays away from 1 when the smaller number of labels that occur is below the smaller number of labels,
also when the columns are identical. -/
theorem phik_unused {nm : Numerics} (hg : GoodNumerics nm) {noise du dof : Bool} {a b : DColumn} (ha : DColumn.WF a)
    (hb : DColumn.WF b) (hcat : a.levels ≠ none ∨ b.levels ≠ none) (hrec : HasRecord du dof a b) {h h' : Hist}
    (ht : IsTableD du dof a b h) (ht' : IsTable (recordsD du dof a b) h') (hr : 2 ≤ h.rows.length)
    (hc : 2 ≤ h.cols.length) :
    ∃ chi2 ped x : ℝ, getChi2 h'.values "pearson" = .ok chi2 ∧
      ped = (if noise then max 0 ((h'.rows.length : ℤ) * h'.cols.length - h.rows.length - h.cols.length + 1) else 0 : ℤ) ∧
      IsPhikD nm noise du dof a b (some x) ∧ 0 ≤ x ∧ x ≤ 1 ∧
      (h'.rows.length < 2 ∨ h'.cols.length < 2 → x = 0 ∧ IsPhikD nm noise du dof (plain a) (plain b) none) ∧
      (min h'.rows.length h'.cols.length < min h.rows.length h.cols.length →
        (chi2 ≤ ped ∧ x = 0) ∨ ∃ x₀, 0 ≤ x₀ ∧ x₀ < 1 ∧
          theoryChi2 nm.mvn h.rows.length h.cols.length
            ((recordsD du dof a b).countP fun p => p.1.isSome && p.2.isSome : ℕ) ped x₀ = chi2 ∧
          |x - x₀| ≤ 1 / 10 ^ 5 + 4 * 2 ^ (-52 : ℤ) * |x₀|) ∧
      (min h'.rows.length h'.cols.length < min h.rows.length h.cols.length →
        (∀ f u v tol y, nm.brentq f u v tol = .ok y → f y = 0) → x < 1) := by
  obtain ⟨hsame, n1, n2⟩ := tableD_same ha hb ht ht'
  have htot := tableD_total ha hb ht hrec
  have htt := tableD_count ha hb ht
  have hcount : IsCount h.values := ⟨fun i j => Nat.cast_nonneg (α := ℝ) _, htot⟩
  obtain ⟨chi2, ped, mx, x, e1, e2, e3, -, e4, e5, e6, e7, e8, -, e9⟩ := phik_of_counts hg.mvn hg.brentq (a := h.values)
    (fun i j => ⟨h.v i j, rfl⟩) htot hr hc noise
  rw [n1, n2] at e2 e4
  have hp : 0 ≤ ped := by
    rw [e2]; split
    · exact_mod_cast le_max_left _ _
    · simp
  have hbelow : min h'.rows.length h'.cols.length < min h.rows.length h.cols.length → chi2 < mx := by
    intro hmin
    rw [e3]
    refine lt_of_le_of_lt e4 (mul_lt_mul_of_pos_left ?_ htot)
    have h1 : 1 ≤ h'.rows.length ∧ 1 ≤ h'.cols.length := by
      obtain ⟨x, y, hxy⟩ := hrec
      exact ⟨List.length_pos_of_mem ((ht'.rows_mem x).2 ⟨y, hxy⟩), List.length_pos_of_mem ((ht'.cols_mem y).2 ⟨x, hxy⟩)⟩
    have : min (h'.rows.length - 1) (h'.cols.length - 1) < min (h.values.r - 1) (h.values.c - 1) := by
      change _ < min (h.rows.length - 1) (h.cols.length - 1)
      omega
    exact_mod_cast this
  refine ⟨chi2, ped, x, by rw [← e1]; exact (chi2_unused ha hb ht ht' _).symm, e2, ?_, e6, e7, fun hsm => ⟨?_, ?_⟩,
    fun hmin => ?_, fun hmin hexact => ?_⟩
  · unfold IsPhikD
    rw [if_neg (by tauto)]
    exact ⟨h, ht, .inr ⟨hr, hc, x, e5, rfl⟩⟩
  · refine e8 (le_trans ?_ hp)
    have : min (h'.rows.length - 1) (h'.cols.length - 1) = 0 := by omega
    rw [this] at e4
    simpa using e4
  · unfold IsPhikD
    rw [if_pos ⟨rfl, rfl⟩]
    exact ⟨h', ht', .inl ⟨hsm, rfl⟩⟩
  · rcases le_or_gt chi2 ped with hle | hgt
    · exact .inl ⟨hle, e8 hle⟩
    · right
      rw [← htt]
      exact (e9 hgt (hbelow hmin)).2.2
  · rcases le_or_gt chi2 ped with hle | hgt
    · rw [e8 hle]; exact zero_lt_one
    · obtain ⟨g1, g2, -⟩ := e9 hgt (hbelow hmin)
      refine lt_of_le_of_ne e7 ?_
      rintro rfl
      have := hexact _ _ _ _ _ g1
      rw [g2] at this
      have := hbelow hmin
      linarith

theorem phik_exists {nm : Numerics} (hg : GoodNumerics nm) (noise : Bool) (recs : List (Option Cell × Option Cell)) :
    ∃ v, IsPhik nm noise recs v := by
  obtain ⟨h, ht⟩ := exists_table recs
  by_cases hs : h.rows.length < 2 ∨ h.cols.length < 2
  · exact ⟨none, h, ht, .inl ⟨hs, rfl⟩⟩
  · obtain ⟨_, _, _, x, -, -, -, -, -, hx, -⟩ := phik_of_data hg.mvn hg.brentq (table_data ht)
      (show 2 ≤ h.rows.length by omega) (show 2 ≤ h.cols.length by omega) noise
    exact ⟨some x, h, ht, .inr ⟨by omega, by omega, x, hx, rfl⟩⟩

/-- **C78 (identical columns; violated).** A categorical column with three categories or more that occur and one that does
not, and a copy of it: as plain columns phik is exactly 1, as categorical columns it is below 1, with an exact root
finder. -/
theorem phik_copy_unused {nm : Numerics} (hg : GoodNumerics nm)
    (hexact : ∀ f u v tol y, nm.brentq f u v tol = .ok y → f y = 0) (noise du dof : Bool) {c : DColumn}
    (hw : DColumn.WF c) {L : List Cell} (hL : c.levels = some L) {x y z u : Cell} (hx : x ∈ c.cells) (hy : y ∈ c.cells)
    (hz : z ∈ c.cells) (hxy : x ≠ y) (hxz : x ≠ z) (hyz : y ≠ z) (vx : view true du dof x = some x)
    (vy : view true du dof y = some y) (vz : view true du dof z = some z) (hu : u ∈ L) (hu' : u ∉ c.cells)
    (vu : view true du dof u = some u) (name : String) :
    IsPhikD nm noise du dof (plain c) (plain { c with name := name }) (some 1) ∧
      ∃ v : ℝ, v < 1 ∧ IsPhikD nm noise du dof c { c with name := name } (some v) := by
  set d : DColumn := { c with name := name } with hd
  have hrecs : recordsD du dof c d = c.cells.map fun x => (view true du dof x, view true du dof x) := by
    unfold recordsD
    rw [hd]
    have : c.cells.zip c.cells = c.cells.map fun x => (x, x) := by
      induction c.cells with
      | nil => rfl
      | cons a l ih => simp only [List.zip_cons_cons, List.map_cons, ih]
    simp only [this, List.map_map, Function.comp_def]
  have hmem : ∀ a b, (some a, some b) ∈ recordsD du dof c d ↔ a = b ∧ a ∈ c.cells ∧ view true du dof a = some a := by
    intro a b
    rw [hrecs, List.mem_map]
    constructor
    · rintro ⟨w, hw, he⟩
      simp only [Prod.mk.injEq] at he
      obtain ⟨h1, -⟩ := view_self he.1
      obtain ⟨h2, -⟩ := view_self he.2
      subst h1
      exact ⟨h2, hw, he.1⟩
    · rintro ⟨rfl, h1, h2⟩
      exact ⟨a, h1, by rw [h2]⟩
  have m1 := (hmem x x).2 ⟨rfl, hx, vx⟩
  have m2 := (hmem y y).2 ⟨rfl, hy, vy⟩
  have m3 := (hmem z z).2 ⟨rfl, hz, vz⟩
  have hwd : DColumn.WF d := hw
  constructor
  · unfold IsPhikD
    rw [if_pos ⟨rfl, rfl⟩]
    have e : recordsD du dof (plain c) (plain d) = recordsD du dof c d := rfl
    rw [e]
    obtain ⟨v, hv⟩ := phik_exists hg noise (recordsD du dof c d)
    have := isPhik_determined hg hv
      (.inl fun a b b' h1 h2 => ((hmem _ _).1 h1).1.symm.trans ((hmem _ _).1 h2).1)
      ⟨⟨x, x, y, y, m1, m2, hxy⟩, ⟨x, x, y, y, m1, m2, hxy⟩⟩
      (.inl ⟨x, x, y, y, z, z, m1, m2, m3, hxy, hxz, hyz⟩)
    rw [← this]; exact hv
  · have ht := histOfColumns_table (du := du) (dof := dof) hw hwd
    rw [if_neg (by rw [hL]; simp)] at ht
    generalize histOfColumns (c.flags du dof) (d.flags du dof) = h at ht
    obtain ⟨h', ht'⟩ := exists_table (recordsD du dof c d)
    have hr1 : ∀ w, w ∈ h'.rows ↔ w ∈ c.cells ∧ view true du dof w = some w := fun w => by
      rw [ht'.rows_mem]
      exact ⟨fun ⟨b, hb⟩ => ((hmem _ _).1 hb).2, fun h => ⟨w, (hmem _ _).2 ⟨rfl, h⟩⟩⟩
    have hlt : h'.rows.length < h.rows.length ∧ h'.rows.length < h.cols.length := by
      have hun : u ∉ h'.rows := fun h0 => hu' ((hr1 u).1 h0).1
      have hn' : (u :: h'.rows).Nodup := List.nodup_cons.2 ⟨hun, ht'.rows_sorted.imp ne_of_lt⟩
      have hax : ∀ l, IsAxis du dof c l → h'.rows.length < l.length := by
        intro l hl
        have hsub : (u :: h'.rows) ⊆ l := by
          intro w hw'
          have hul : u ∈ l := by
            unfold IsAxis at hl
            rw [hL] at hl
            subst hl
            exact List.mem_filter.2 ⟨hu, by rw [vu]; rfl⟩
          rcases List.mem_cons.1 hw' with rfl | h0
          · exact hul
          · obtain ⟨g1, g2⟩ := (hr1 w).1 h0
            exact axis_mem hw hl g1 g2
        have := (List.subperm_of_subset hn' hsub).length_le
        simpa using this
      exact ⟨hax _ ht.rows, hax _ ht.cols⟩
    have hge : 2 ≤ h'.rows.length := by
      have : [x, y].Subperm h'.rows := List.subperm_of_subset (by simpa using hxy) (by
        intro w hw'
        simp only [List.mem_cons, List.not_mem_nil, or_false] at hw'
        rcases hw' with rfl | rfl
        · exact (hr1 _).2 ⟨hx, vx⟩
        · exact (hr1 _).2 ⟨hy, vy⟩)
      exact this.length_le
    obtain ⟨_, _, v, -, -, h1, -, -, -, -, h2⟩ := phik_unused hg (noise := noise) hw hwd (.inl (by rw [hL]; simp))
      ⟨x, x, m1⟩ ht ht' (by omega) (by omega)
    exact ⟨v, h2 (by omega) hexact, h1⟩

/-! ### the hypotheses can be met -/

theorem ideal_exact (f : ℝ → ℝ) (u v tol y : ℝ) (h : idealBrentq f u v tol = .ok y) : f y = 0 := by
  unfold idealBrentq at h
  split at h
  · cases h
  · split at h
    · next hr => cases h; exact hr.choose_spec.2
    · cases h

/-- A categorical column with four categories, of which three occur, and a missing value. -/
def catColumn : DColumn := ⟨"x", some [.str "p", .str "q", .str "r", .str "s"],
  [.str "q", .str "p", .nan, .str "r", .str "r", .str "p"]⟩

theorem catColumn_wf : DColumn.WF catColumn := by
  intro L hL
  cases hL
  refine ⟨by decide, by decide, by decide⟩

/-- Two identical columns with three categories and an unused one, with the true integrals. -/
example (noise : Bool) :
    IsPhikD ⟨gaussMvn, idealBrentq⟩ noise true true (plain catColumn) (plain { catColumn with name := "y" }) (some 1) ∧
      ∃ v : ℝ, v < 1 ∧ IsPhikD ⟨gaussMvn, idealBrentq⟩ noise true true catColumn { catColumn with name := "y" } (some v) :=
  phik_copy_unused Gauss.gaussian_numerics ideal_exact noise true true catColumn_wf rfl (x := .str "p") (y := .str "q")
    (z := .str "r") (u := .str "s") (by simp [catColumn]) (by simp [catColumn]) (by simp [catColumn]) (by simp) (by simp)
    (by simp) (by simp [view]) (by simp [view]) (by simp [view]) (by simp) (by simp [catColumn]) (by simp [view]) "y"

/-- A plain column next to it, with a record in common. -/
def plainColumn : DColumn := ⟨"n", none, [.num 1, .num 2, .num 1, .nan, .num 2, .num 1]⟩

theorem plainColumn_wf : DColumn.WF plainColumn := by intro L hL; cases hL

/-- The frame of the categorical column, a copy and the plain column has a phik matrix. -/
example (noise : Bool) : ∃ t, phikFromRebinnedD ⟨gaussMvn, idealBrentq⟩ none
    [catColumn, { catColumn with name := "y" }, plainColumn] noise true true = .ok t ∧ t.rows = ["x", "y", "n"] := by
  obtain ⟨t, h1, h2⟩ := phik_matrix_categorical Gauss.gaussian_numerics
    (f := [catColumn, { catColumn with name := "y" }, plainColumn]) (sched := none) (by decide)
    (by
      intro c hc
      simp only [List.mem_cons, List.not_mem_nil, or_false] at hc
      rcases hc with rfl | rfl | rfl
      exacts [catColumn_wf, catColumn_wf, plainColumn_wf])
    (fun _ h => by cases h) noise true true
    (by
      intro a ha b hb _ _
      left
      simp only [List.mem_cons, List.not_mem_nil, or_false] at ha hb
      rcases ha with rfl | rfl | rfl <;> rcases hb with rfl | rfl | rfl
      exacts [⟨.str "q", .str "q", by decide⟩, ⟨.str "q", .str "q", by decide⟩, ⟨.str "q", .num 1, by decide⟩,
        ⟨.str "q", .str "q", by decide⟩, ⟨.str "q", .str "q", by decide⟩, ⟨.str "q", .num 1, by decide⟩,
        ⟨.num 1, .str "q", by decide⟩, ⟨.num 1, .str "q", by decide⟩, ⟨.num 1, .num 1, by decide⟩])
  exact ⟨t, h1, h2.rows⟩

/-- Two columns of which never both have a value: the call raises although plain columns give NaN. -/
example (noise : Bool) : phikFromRebinnedD ⟨gaussMvn, idealBrentq⟩ none
    [⟨"x", some [.str "p", .str "q"], [.str "p", .str "q", .nan, .nan]⟩,
     ⟨"n", none, [.nan, .nan, .num 1, .num 2]⟩] noise true true = .error .value := by
  refine (phik_matrix_no_record _ (by decide) ?_ (fun _ h => by cases h) noise true true
    (a := ⟨"x", some [.str "p", .str "q"], [.str "p", .str "q", .nan, .nan]⟩)
    (b := ⟨"n", none, [.nan, .nan, .num 1, .num 2]⟩) (by simp) (by simp) (by simp) (by simp) ?_ ?_ ?_).2.1
    Gauss.gaussian_numerics
  · intro c hc
    simp only [List.mem_cons, List.not_mem_nil, or_false] at hc
    rcases hc with rfl | rfl
    · intro L hL; cases hL; refine ⟨by decide, by decide, by decide⟩
    · intro L hL; cases hL
  · rintro ⟨x, y, h⟩
    simp [recordsD, view] at h
  · intro h
    have := h [.str "p", .str "q"] (by simp [IsAxis, view])
    simp at this
  · intro h
    have := h [.num 1, .num 2] (by
      refine ⟨by decide, fun x => ?_⟩
      simp only [List.mem_cons, List.not_mem_nil, or_false]
      constructor
      · rintro (rfl | rfl)
        · exact ⟨.num 1, by simp, rfl⟩
        · exact ⟨.num 2, by simp, rfl⟩
      · rintro ⟨y, (rfl | rfl | rfl | rfl), hy⟩ <;> simp [view] at hy <;> simp [← hy])
    simp at this

/-- All categories occur. -/
example (nm : Numerics) (noise : Bool) (v : Option ℝ) :
    IsPhikD nm noise true true ⟨"x", some [.str "q", .str "p"], [.str "p", .str "q", .str "p"]⟩ plainColumn v ↔
      IsPhikD nm noise true true (plain ⟨"x", some [.str "q", .str "p"], [.str "p", .str "q", .str "p"]⟩)
        (plain plainColumn) v := by
  refine phik_all_used nm ?_ plainColumn_wf ⟨?_, ?_⟩ v
  · intro L hL; cases hL; refine ⟨by decide, by decide, by decide⟩
  · intro l hl x hx
    have : l = [.str "q", .str "p"] := by simpa [IsAxis, view] using hl
    subst this
    simp only [List.mem_cons, List.not_mem_nil, or_false] at hx
    rcases hx with rfl | rfl
    · exact ⟨.num 2, by decide⟩
    · exact ⟨.num 1, by decide⟩
  · intro l hl y hy
    obtain ⟨w, hw, hv⟩ := (hl.2 y).1 hy
    simp only [plainColumn, List.mem_cons, List.not_mem_nil, or_false] at hw
    rcases hw with rfl | rfl | rfl | rfl | rfl | rfl <;> simp [view] at hv <;> subst hv
    all_goals first
      | exact ⟨.str "p", by decide⟩
      | exact ⟨.str "q", by decide⟩

end Props

end Phik
