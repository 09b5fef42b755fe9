import Verif.Props.Rename

/-! # Properties C16 and C27 on the level of records: when phik of two columns is 0 or 1 -/

namespace Phik

open Spec Props

theorem count_expand (l : List (Option Cell × Option Cell)) (x : Option Cell) {rows : List Cell}
    (hn : rows.Nodup) (hr : ∀ a, (some a, x) ∈ l → a ∈ rows) :
    ∑ i : Fin rows.length, l.count (some rows[i], x) = l.countP fun p => p.1.isSome && p.2 == x := by
  induction l with
  | nil => simp
  | cons p ps ih =>
    simp only [List.count_cons, Finset.sum_add_distrib, List.countP_cons]
    rw [ih fun a h => hr a (List.mem_cons_of_mem _ h)]
    congr 1
    obtain ⟨y, z⟩ := p
    cases y with
    | none => simp
    | some a =>
      by_cases hz : z = x
      · subst hz
        obtain ⟨i, hi, rfl⟩ := List.getElem_of_mem (hr a List.mem_cons_self)
        rw [Finset.sum_eq_single ⟨i, hi⟩]
        · simp
        · intro k _ hk
          rw [if_neg]
          simp only [beq_iff_eq, Prod.mk.injEq, Option.some.injEq, not_and]
          intro he
          exfalso
          apply hk
          ext
          exact (hn.getElem_inj_iff.1 (by simpa using he.symm))
        · simp
      · simp [hz]

theorem table_colSum {recs : List (Option Cell × Option Cell)} {h : Hist} (ht : IsTable recs h)
    (j : Fin h.cols.length) :
    h.arr.colSum j = recs.countP fun p => p.1.isSome && p.2 == some h.cols[j] := by
  refine Eq.trans ?_ (count_expand recs (some h.cols[j]) (ht.rows_sorted.imp fun h => ne_of_lt h)
    fun a ha => (ht.rows_mem a).2 ⟨_, ha⟩)
  exact Finset.sum_congr rfl fun i _ => ht.counts i j

theorem isTable_swap {recs : List (Option Cell × Option Cell)} {h : Hist} (ht : IsTable recs h) :
    IsTable (recs.map Prod.swap) ⟨h.cols, h.rows, fun i j => h.v j i⟩ := by
  refine ⟨ht.cols_sorted, ht.rows_sorted, fun a => (ht.cols_mem a).trans ?_, fun a => (ht.rows_mem a).trans ?_,
    fun i j => ?_⟩
  · simp
  · simp
  · refine (ht.counts j i).trans ?_
    exact (List.count_map_of_injective recs _ Prod.swap_injective _).symm

theorem table_rowSum {recs : List (Option Cell × Option Cell)} {h : Hist} (ht : IsTable recs h)
    (i : Fin h.rows.length) :
    h.arr.rowSum i = recs.countP fun p => p.1 == some h.rows[i] && p.2.isSome := by
  have := table_colSum (isTable_swap ht) i
  rw [List.countP_map] at this
  refine this.trans (List.countP_congr fun p _ => ?_)
  simp [and_comm]

theorem values_sums (h : Hist) : (∀ i : Fin h.rows.length, h.values.rowSum i = (h.arr.rowSum i : ℝ)) ∧
    (∀ j : Fin h.cols.length, h.values.colSum j = (h.arr.colSum j : ℝ)) ∧ h.values.total = (h.arr.total : ℝ) := by
  refine ⟨fun i => ?_, fun j => ?_, ?_⟩
  · exact (Nat.cast_sum _ _).symm
  · exact (Nat.cast_sum _ _).symm
  · simp only [Arr2.total, Hist.values, Arr2.map]
    push_cast
    rfl

namespace Props

/-- **C27 (records).** phik of two columns is exactly 1 when, among the records that are kept, the first
entry determines the second or the second determines the first, both take at least two values, and one
of them takes at least three. -/
theorem isPhik_determined {nm : Numerics} (hg : GoodNumerics nm) {noise : Bool}
    {recs : List (Option Cell × Option Cell)} {v : Option ℝ} (h : IsPhik nm noise recs v)
    (hd : (∀ a b b', (some a, some b) ∈ recs → (some a, some b') ∈ recs → b = b') ∨
      (∀ a a' b, (some a, some b) ∈ recs → (some a', some b) ∈ recs → a = a'))
    (h2 : (∃ a b a' b', (some a, some b) ∈ recs ∧ (some a', some b') ∈ recs ∧ a ≠ a') ∧
      (∃ a b a' b', (some a, some b) ∈ recs ∧ (some a', some b') ∈ recs ∧ b ≠ b'))
    (h3 : (∃ a b a' b' a'' b'', (some a, some b) ∈ recs ∧ (some a', some b') ∈ recs ∧
        (some a'', some b'') ∈ recs ∧ a ≠ a' ∧ a ≠ a'' ∧ a' ≠ a'') ∨
      (∃ a b a' b' a'' b'', (some a, some b) ∈ recs ∧ (some a', some b') ∈ recs ∧
        (some a'', some b'') ∈ recs ∧ b ≠ b' ∧ b ≠ b'' ∧ b' ≠ b'')) :
    v = some 1 := by
  have hne : v ≠ none := by
    rw [Ne, isPhik_none_iff h, not_or]
    obtain ⟨⟨a, b, a', b', m1, m2, e⟩, ⟨c, d, c', d', n1, n2, e'⟩⟩ := h2
    exact ⟨fun H => e (H _ _ _ _ m1 m2), fun H => e' (H _ _ _ _ n1 n2)⟩
  obtain ⟨t, ht, ⟨-, h⟩ | ⟨hr, hc, x, hx, h⟩⟩ := h
  · exact absurd h hne
  have hpos : ∀ (i : Fin t.rows.length) (j : Fin t.cols.length), t.values.v i j ≠ 0 →
      (some t.rows[i], some t.cols[j]) ∈ recs := by
    intro i j hij
    have : (t.v i j : ℝ) ≠ 0 := hij
    have : 0 < t.v i j := Nat.pos_of_ne_zero (by exact_mod_cast this)
    rw [ht.counts i j] at this
    exact List.count_pos_iff.1 this
  have hrn : t.rows.Nodup := ht.rows_sorted.imp fun h => ne_of_lt h
  have hcn : t.cols.Nodup := ht.cols_sorted.imp fun h => ne_of_lt h
  have h22 : ¬ (t.rows.length = 2 ∧ t.cols.length = 2) := by
    rintro ⟨l1, l2⟩
    rcases h3 with ⟨a, b, a', b', a'', b'', m1, m2, m3, n1, n2, n3⟩ | ⟨a, b, a', b', a'', b'', m1, m2, m3, n1, n2, n3⟩
    · have := Finset.card_le_card (s := {a, a', a''}) (t := t.rows.toFinset) (by
        intro y hy
        simp only [Finset.mem_insert, Finset.mem_singleton] at hy
        rw [List.mem_toFinset, ht.rows_mem]
        rcases hy with rfl | rfl | rfl
        exacts [⟨_, m1⟩, ⟨_, m2⟩, ⟨_, m3⟩])
      rw [List.toFinset_card_of_nodup hrn, l1, Finset.card_eq_three.2 ⟨a, a', a'', n1, n2, n3, rfl⟩] at this
      omega
    · have := Finset.card_le_card (s := {b, b', b''}) (t := t.cols.toFinset) (by
        intro y hy
        simp only [Finset.mem_insert, Finset.mem_singleton] at hy
        rw [List.mem_toFinset, ht.cols_mem]
        rcases hy with rfl | rfl | rfl
        exacts [⟨_, m1⟩, ⟨_, m2⟩, ⟨_, m3⟩])
      rw [List.toFinset_card_of_nodup hcn, l2, Finset.card_eq_three.2 ⟨b, b', b'', n1, n2, n3, rfl⟩] at this
      omega
  have := phik_determined hg.mvn hg.brentq (table_data ht) hr hc h22 (by
    rcases hd with hd | hd
    · left
      intro i j j' hj hj'
      have := hd _ _ _ (hpos i j hj) (hpos i j' hj')
      exact Fin.ext (hcn.getElem_inj_iff.1 this)
    · right
      intro j i i' hi hi'
      have := hd _ _ _ (hpos i j hi) (hpos i' j hi')
      exact Fin.ext (hrn.getElem_inj_iff.1 this)) noise
  rw [this] at hx
  cases hx
  exact h

/-- **C16 (records).** phik of two columns is 0 (or NaN) when the records that are kept are independent:
the number of records of each pair of values is the product of the numbers of records of the two values
divided by the number of records. -/
theorem isPhik_independent {nm : Numerics} (hg : GoodNumerics nm) {noise : Bool}
    {recs : List (Option Cell × Option Cell)} {x : ℝ} (h : IsPhik nm noise recs (some x))
    (hi : ∀ a b, (∃ b', (some a, some b') ∈ recs) → (∃ a', (some a', some b) ∈ recs) →
      recs.count (some a, some b) * (recs.countP fun p => p.1.isSome && p.2.isSome) =
      (recs.countP fun p => p.1 == some a && p.2.isSome) * (recs.countP fun p => p.1.isSome && p.2 == some b)) :
    x = 0 := by
  obtain ⟨t, ht, ⟨-, h⟩ | ⟨hr, hc, y, hx, h⟩⟩ := h
  · cases h
  cases h
  have hdt := table_data ht
  have hcount := data_isCount hdt hr
  have hind : Independent t.values := by
    intro i j
    change Fin t.rows.length at i
    change Fin t.cols.length at j
    have h1 := hi t.rows[i] t.cols[j] ((ht.rows_mem _).1 (List.getElem_mem _))
      ((ht.cols_mem _).1 (List.getElem_mem _))
    rw [← ht.counts i j, ← (table_totals ht).2.2, ← table_rowSum ht i, ← table_colSum ht j] at h1
    obtain ⟨e1, e2, e3⟩ := values_sums t
    change _ = t.values.rowSum i * t.values.colSum j / t.values.total
    rw [eq_div_iff hcount.pos.ne', e1, e2, e3]
    change ((t.v i j : ℕ) : ℝ) * _ = _
    exact_mod_cast h1
  have h0 : getChi2 t.values "pearson" = .ok 0 := by
    by_cases h22 : nRows t.values = 2 ∧ nCols t.values = 2
    · rw [(pearson_zero_iff hcount).2 h22]
      intro i j
      rw [hind i j, sub_self, abs_zero]; norm_num
    · rwa [(pearson_zero_iff hcount).1 h22]
  obtain ⟨chi2, ped, mx, z, hchi, hped, -, -, -, hz, -, -, hzero, -⟩ := phik_of_data hg.mvn hg.brentq hdt hr hc noise
  rw [h0] at hchi
  cases hchi
  rw [hz] at hx
  cases hx
  apply hzero
  rw [hped]
  split
  · have : (0 : ℤ) ≤ ((t.values.r : ℤ) - 1) * ((t.values.c : ℤ) - 1) := by
      have h1 : 2 ≤ t.values.r := hr
      have h2 : 2 ≤ t.values.c := hc
      apply mul_nonneg <;> omega
    exact_mod_cast this
  · simp

end Props
end Phik
