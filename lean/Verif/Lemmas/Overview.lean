import Verif.Spec.Matrix
import Verif.Props.Tasks

/-! # The overview table -/

namespace Phik

variable {α : Type} [Avg α]

theorem groupMean_const {l : List (Option α)} {v : Option α} (hne : l ≠ []) (h : ∀ x ∈ l, x = v) :
    groupMean l = v := by
  have hl : l = List.replicate l.length v := List.eq_replicate_iff.2 ⟨rfl, h⟩
  unfold groupMean
  have hpos : 0 < l.length := List.length_pos_iff.2 hne
  cases v with
  | none =>
    have : l.filterMap id = [] := List.filterMap_eq_nil_iff.2 (fun x hx => by rw [h x hx]; rfl)
    rw [this]; rfl
  | some x =>
    have : l.filterMap id = List.replicate l.length x := by
      conv_lhs => rw [hl]
      rw [List.filterMap_replicate]
      rfl
    obtain ⟨n, hn⟩ : ∃ n, l.length = n + 1 := ⟨l.length - 1, by omega⟩
    simp only [this, List.isEmpty_replicate, decide_eq_true_eq, hpos.ne', if_false]
    rw [hn, Avg.avg_const]

theorem groupMean_nil : groupMean ([] : List (Option α)) = none := rfl

/-- Entries of the re-indexed overview table. -/
theorem overview_reindex (vals : List (String × String × Option α)) (names : List String) (a b : String) :
    (((overview vals).reindexCols names).reindexRows names).v a b = (overview vals).v a b := by
  have key : ((overview vals).v a b).isSome → a ∈ (overview vals).rows ∧ b ∈ (overview vals).cols := by
    intro h
    have hne : ((vals.flatMap fun p => [(p.1, p.2.1, p.2.2), (p.2.1, p.1, p.2.2)]).filter
        fun p => p.1 == a && p.2.1 == b) ≠ [] := by
      intro he
      simp only [overview] at h
      rw [he] at h
      cases h
    obtain ⟨p, hp⟩ := List.exists_mem_of_ne_nil _ hne
    obtain ⟨hp1, hp2⟩ := List.mem_filter.1 hp
    simp only [Bool.and_eq_true, beq_iff_eq] at hp2
    obtain ⟨rfl, rfl⟩ := hp2
    simp only [overview, Finset.mem_sort, List.mem_toFinset, List.mem_map]
    exact ⟨⟨p, List.mem_filter.2 ⟨hp1, h⟩, rfl⟩, ⟨p, List.mem_filter.2 ⟨hp1, h⟩, rfl⟩⟩
  cases hv : (overview vals).v a b with
  | none =>
    simp only [LTab.reindexRows, LTab.reindexCols, hv]
    split <;> [split <;> rfl; rfl]
  | some x =>
    obtain ⟨h1, h2⟩ := key (by rw [hv]; rfl)
    simp only [LTab.reindexRows, LTab.reindexCols, hv]
    rw [if_pos (by simpa using h1), if_pos (by simpa using h2)]

theorem overview_value {vals : List (String × String × Option α)} {a b : String} {v : Option α}
    (h1 : (a, b, v) ∈ vals ∨ (b, a, v) ∈ vals)
    (h2 : ∀ p ∈ vals, (p.1 = a ∧ p.2.1 = b) ∨ (p.1 = b ∧ p.2.1 = a) → p.2.2 = v) :
    (overview vals).v a b = v := by
  simp only [overview]
  apply groupMean_const
  · intro he
    rw [List.map_eq_nil_iff, List.filter_eq_nil_iff] at he
    rcases h1 with h1 | h1
    · exact he (a, b, v) (List.mem_flatMap.2 ⟨_, h1, by simp⟩) (by simp)
    · exact he (a, b, v) (List.mem_flatMap.2 ⟨_, h1, by simp⟩) (by simp)
  · intro x hx
    obtain ⟨p, hp, rfl⟩ := List.mem_map.1 hx
    obtain ⟨hp1, hp2⟩ := List.mem_filter.1 hp
    simp only [Bool.and_eq_true, beq_iff_eq] at hp2
    obtain ⟨q, hq, hq2⟩ := List.mem_flatMap.1 hp1
    simp only [List.mem_cons, List.not_mem_nil, or_false] at hq2
    rcases hq2 with rfl | rfl
    · exact h2 q hq (.inl hp2)
    · exact h2 q hq (.inr ⟨hp2.2, hp2.1⟩)

theorem mem_cwr {β : Type} {l : List β} {a b : β} :
    (a, b) ∈ cwr l ↔ (a = b ∧ a ∈ l) ∨ [a, b].Sublist l := by
  induction l with
  | nil => simp [cwr]
  | cons x xs ih =>
    rw [cwr, List.mem_append, ih, List.sublist_cons_iff]
    simp only [List.mem_map, List.mem_cons, Prod.mk.injEq, exists_eq_right_right,
      List.cons.injEq]
    constructor
    · rintro (⟨h1 | h1, rfl⟩ | ⟨rfl, h⟩ | h)
      · exact .inl ⟨h1.symm, .inl rfl⟩
      · exact .inr (.inr ⟨[b], ⟨rfl, rfl⟩, by simpa using h1⟩)
      · exact .inl ⟨rfl, .inr h⟩
      · exact .inr (.inl h)
    · rintro (⟨rfl, h | h⟩ | h | ⟨r, ⟨rfl, rfl⟩, h⟩)
      · exact .inl ⟨.inl h, h.symm⟩
      · exact .inr (.inl ⟨rfl, h⟩)
      · exact .inr (.inr h)
      · exact .inl ⟨.inr (by simpa using h), rfl⟩

theorem mem_comb2 {β : Type} {l : List β} {a b : β} : (a, b) ∈ comb2 l ↔ [a, b].Sublist l := by
  induction l with
  | nil => simp [comb2]
  | cons x xs ih =>
    rw [comb2, List.mem_append, ih, List.sublist_cons_iff]
    simp only [List.mem_map, Prod.mk.injEq, exists_eq_right_right, List.cons.injEq]
    constructor
    · rintro (⟨h1, rfl⟩ | h)
      · exact .inr ⟨[b], ⟨rfl, rfl⟩, by simpa using h1⟩
      · exact .inl h
    · rintro (h | ⟨r, ⟨rfl, rfl⟩, h⟩)
      · exact .inr h
      · exact .inl ⟨by simpa using h, rfl⟩

theorem sublist_antisymm {β : Type} {l : List β} (hn : l.Nodup) {a b : β} (h1 : [a, b].Sublist l)
    (h2 : [b, a].Sublist l) : False := by
  induction l with
  | nil => simp at h1
  | cons x xs ih =>
    rw [List.nodup_cons] at hn
    rw [List.sublist_cons_iff] at h1 h2
    have hmem : ∀ {y z : β}, [y, z].Sublist xs → y ∈ xs ∧ z ∈ xs := fun h =>
      ⟨h.subset (by simp), h.subset (by simp)⟩
    rcases h1 with h1 | ⟨r, h1, h1'⟩
    · rcases h2 with h2 | ⟨r, h2, h2'⟩
      · exact ih hn.2 h1 h2
      · simp only [List.cons.injEq] at h2
        exact hn.1 (h2.1 ▸ (hmem h1).2)
    · simp only [List.cons.injEq] at h1
      rcases h2 with h2 | ⟨r', h2, h2'⟩
      · exact hn.1 (h1.1 ▸ (hmem h2).2)
      · simp only [List.cons.injEq] at h2
        obtain ⟨rfl, rfl⟩ := h1
        obtain ⟨rfl, rfl⟩ := h2
        exact hn.1 (List.singleton_sublist.1 h1')

theorem sublist_ne {β : Type} {l : List β} (hn : l.Nodup) {a b : β} (h1 : [a, b].Sublist l) : a ≠ b := by
  rintro rfl; exact sublist_antisymm hn h1 h1

/-- For two members of a duplicate-free list, one comes first. -/
theorem sublist_total {β : Type} {l : List β} {a b : β} (ha : a ∈ l) (hb : b ∈ l) (hab : a ≠ b) :
    [a, b].Sublist l ∨ [b, a].Sublist l := by
  induction l with
  | nil => simp at ha
  | cons x xs ih =>
    rcases List.mem_cons.1 ha with ha' | ha'
    · rcases List.mem_cons.1 hb with hb' | hb'
      · exact absurd (ha'.trans hb'.symm) hab
      · rw [ha']; exact .inl ((List.cons_sublist_cons).2 (List.singleton_sublist.2 hb'))
    · rcases List.mem_cons.1 hb with hb' | hb'
      · rw [hb']; exact .inr ((List.cons_sublist_cons).2 (List.singleton_sublist.2 ha'))
      · exact (ih ha' hb').imp (fun h => h.cons _) (fun h => h.cons _)

/-- The overview table of all pairs of a duplicate-free list of names. -/
theorem overview_pairs {names : List String} (hn : names.Nodup) (val : String → String → Option α) {a b : String} :
    (a ∈ names → (overview ((cwr names).map fun co => (co.1, co.2, val co.1 co.2))).v a a = val a a) ∧
    ([a, b].Sublist names →
      (overview ((cwr names).map fun co => (co.1, co.2, val co.1 co.2))).v a b = val a b ∧
      (overview ((cwr names).map fun co => (co.1, co.2, val co.1 co.2))).v b a = val a b) := by
  refine ⟨fun ha => ?_, fun hab => ⟨?_, ?_⟩⟩
  · apply overview_value
    · exact .inl (List.mem_map.2 ⟨(a, a), mem_cwr.2 (.inl ⟨rfl, ha⟩), rfl⟩)
    · intro p hp h
      obtain ⟨co, -, rfl⟩ := List.mem_map.1 hp
      simp only at h ⊢
      rcases h with ⟨h1, h2⟩ | ⟨h1, h2⟩ <;> rw [h1, h2]
  · apply overview_value
    · exact .inl (List.mem_map.2 ⟨(a, b), mem_cwr.2 (.inr hab), rfl⟩)
    · intro p hp h
      obtain ⟨co, hco, rfl⟩ := List.mem_map.1 hp
      simp only at h ⊢
      rcases h with ⟨h1, h2⟩ | ⟨h1, h2⟩
      · rw [h1, h2]
      · exfalso
        obtain ⟨x, y⟩ := co
        simp only at h1 h2
        subst h1 h2
        rcases mem_cwr.1 hco with ⟨h3, -⟩ | h3
        · exact sublist_ne hn hab h3.symm
        · exact sublist_antisymm hn hab h3
  · apply overview_value
    · exact .inr (List.mem_map.2 ⟨(a, b), mem_cwr.2 (.inr hab), rfl⟩)
    · intro p hp h
      obtain ⟨co, hco, rfl⟩ := List.mem_map.1 hp
      simp only at h ⊢
      rcases h with ⟨h1, h2⟩ | ⟨h1, h2⟩
      · exfalso
        obtain ⟨x, y⟩ := co
        simp only at h1 h2
        subst h1 h2
        rcases mem_cwr.1 hco with ⟨h3, -⟩ | h3
        · exact sublist_ne hn hab h3.symm
        · exact sublist_antisymm hn hab h3
      · rw [h1, h2]

theorem cwr_eq_nil {β : Type} {l : List β} (h : cwr l = []) : l = [] := by
  cases l with
  | nil => rfl
  | cons x xs => simp [cwr] at h

end Phik
