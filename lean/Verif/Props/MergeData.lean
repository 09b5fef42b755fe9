import Verif.Props.Merge
import Verif.Props.Rename

/-! # Property C83 on records, columns and bin edges -/

namespace Phik.Props

open Spec

/-! ### records -/

theorem label_map {l l' : List Cell} {g : Cell → Cell} (hmem : ∀ a ∈ l, g a ∈ l') :
    ∃ ρ : Fin l.length → Fin l'.length, ∀ i, l'[ρ i] = g l[i] := by
  have h1 : ∀ i : Fin l.length, ∃ j : Fin l'.length, l'[j] = g l[i] := by
    intro i
    obtain ⟨j, hj, e⟩ := List.getElem_of_mem (hmem _ (List.getElem_mem i.2))
    exact ⟨⟨j, hj⟩, e⟩
  exact ⟨fun i => (h1 i).choose, fun i => (h1 i).choose_spec⟩

/-- The records with coarser values have the merged table. -/
theorem table_merge {recs : List (Option Cell × Option Cell)} {g k : Cell → Cell} {h h' : Hist} (ht : IsTable recs h)
    (ht' : IsTable (recs.map fun p => (p.1.map g, p.2.map k)) h') : Merged h.values h'.values := by
  have hmem : ∀ a b, (some a, some b) ∈ recs → (some (g a), some (k b)) ∈ recs.map fun p => (p.1.map g, p.2.map k) :=
    fun a b hab => List.mem_map.2 ⟨_, hab, rfl⟩
  obtain ⟨ρ, hρ⟩ := label_map (l := h.rows) (l' := h'.rows) (g := g) fun a ha => by
    obtain ⟨b, hb⟩ := (ht.rows_mem a).1 ha
    exact (ht'.rows_mem _).2 ⟨_, hmem a b hb⟩
  obtain ⟨τ, hτ⟩ := label_map (l := h.cols) (l' := h'.cols) (g := k) fun b hb => by
    obtain ⟨a, ha⟩ := (ht.cols_mem b).1 hb
    exact (ht'.cols_mem _).2 ⟨_, hmem a b ha⟩
  refine ⟨ρ, τ, fun m n => ?_⟩
  change Fin h'.rows.length at m
  change Fin h'.cols.length at n
  have hr : h.rows.Nodup := ht.rows_sorted.imp (fun h => ne_of_lt h)
  have hc : h.cols.Nodup := ht.cols_sorted.imp (fun h => ne_of_lt h)
  have hr' : h'.rows.Nodup := ht'.rows_sorted.imp (fun h => ne_of_lt h)
  have hc' : h'.cols.Nodup := ht'.cols_sorted.imp (fun h => ne_of_lt h)
  have key : ∀ L : List (Option Cell × Option Cell), (∀ p ∈ L, p ∈ recs) →
      (L.map fun p => (p.1.map g, p.2.map k)).count (some h'.rows[m], some h'.cols[n]) =
      ∑ i : Fin h.rows.length, ∑ j : Fin h.cols.length,
        if ρ i = m ∧ τ j = n then L.count (some h.rows[i], some h.cols[j]) else 0 := by
    intro L
    induction L with
    | nil => simp
    | cons p L ih =>
      intro hL
      have ih := ih fun q hq => hL q (List.mem_cons_of_mem _ hq)
      rw [List.map_cons, List.count_cons, ih]
      have e1 : ∀ i j, (if ρ i = m ∧ τ j = n then (p :: L).count (some h.rows[i], some h.cols[j]) else 0) =
          (if ρ i = m ∧ τ j = n then L.count (some h.rows[i], some h.cols[j]) else 0) +
          (if (ρ i = m ∧ τ j = n) ∧ p = (some h.rows[i], some h.cols[j]) then 1 else 0) := by
        intro i j
        rw [List.count_cons]
        by_cases h1 : ρ i = m ∧ τ j = n
        · by_cases h2 : p = (some h.rows[i], some h.cols[j]) <;> simp [h1, h2]
        · simp [h1]
      simp only [e1, Finset.sum_add_distrib]
      congr 1
      obtain ⟨x, y⟩ := p
      have hp := hL (x, y) List.mem_cons_self
      cases x with
      | none => simp
      | some x =>
        cases y with
        | none => simp
        | some y =>
          obtain ⟨i0, hi0, rfl⟩ := List.getElem_of_mem ((ht.rows_mem x).2 ⟨y, hp⟩)
          obtain ⟨j0, hj0, rfl⟩ := List.getElem_of_mem ((ht.cols_mem y).2 ⟨_, hp⟩)
          rw [Finset.sum_eq_single (⟨i0, hi0⟩ : Fin _), Finset.sum_eq_single (⟨j0, hj0⟩ : Fin _)]
          · have a1 : ρ ⟨i0, hi0⟩ = m ↔ g h.rows[i0] = h'.rows[m] := by
              rw [show g h.rows[i0] = h'.rows[ρ ⟨i0, hi0⟩] from (hρ ⟨i0, hi0⟩).symm]
              constructor
              · rintro rfl; rfl
              · intro e; exact Fin.ext (hr'.getElem_inj_iff.1 e)
            have a2 : τ ⟨j0, hj0⟩ = n ↔ k h.cols[j0] = h'.cols[n] := by
              rw [show k h.cols[j0] = h'.cols[τ ⟨j0, hj0⟩] from (hτ ⟨j0, hj0⟩).symm]
              constructor
              · rintro rfl; rfl
              · intro e; exact Fin.ext (hc'.getElem_inj_iff.1 e)
            simp only [a1, a2]
            simp
          · intro j _ hj
            rw [if_neg]
            rintro ⟨-, e⟩
            simp only [Prod.mk.injEq, Option.some.injEq] at e
            exact hj (Fin.ext (hc.getElem_inj_iff.1 e.2).symm)
          · simp
          · intro i _ hi
            refine Finset.sum_eq_zero fun j _ => ?_
            rw [if_neg]
            rintro ⟨-, e⟩
            simp only [Prod.mk.injEq, Option.some.injEq] at e
            exact hi (Fin.ext (hr.getElem_inj_iff.1 e.1).symm)
          · simp
  have hk := key recs fun p h => h
  change ((h'.v m n : ℕ) : ℝ) = ∑ i : Fin h.rows.length, ∑ j : Fin h.cols.length, if ρ i = m ∧ τ j = n then ((h.v i j : ℕ) : ℝ) else 0
  rw [ht'.counts m n, hk]
  push_cast
  refine Finset.sum_congr rfl fun i _ => Finset.sum_congr rfl fun j _ => ?_
  rw [ht.counts i j]

theorem isCount_of_chi2 {h : Hist} {name : String} {x : ℝ} (hx : getChi2 h.values name = .ok x) : IsCount h.values := by
  refine ⟨fun i j => Nat.cast_nonneg _, ?_⟩
  by_contra hn
  have h0 : h.values.total = 0 := le_antisymm (not_lt.1 hn)
    (Finset.sum_nonneg fun i _ => Finset.sum_nonneg fun j _ => Nat.cast_nonneg _)
  have hz : ∀ i j, h.values.v i j = 0 := by
    intro i j
    have h1 := (Finset.sum_eq_zero_iff_of_nonneg (fun i _ => Finset.sum_nonneg fun j _ => Nat.cast_nonneg _)).1 h0 i
      (Finset.mem_univ i)
    exact (Finset.sum_eq_zero_iff_of_nonneg (fun j _ => Nat.cast_nonneg _)).1 h1 j (Finset.mem_univ j)
  rw [get_chi2_rejects name (.inl hz)] at hx
  cases hx

/-- chi2 of records with coarser values. -/
theorem records_chi2 {recs : List (Option Cell × Option Cell)} {g k : Cell → Cell} {h h' : Hist} (ht : IsTable recs h)
    (ht' : IsTable (recs.map fun p => (p.1.map g, p.2.map k)) h') {name : String} {x : ℝ}
    (hx : getChi2 h.values name = .ok x) : ∃ y, getChi2 h'.values name = .ok y ∧ 0 ≤ y ∧ y ≤ x :=
  merge_chi2 (isCount_of_chi2 hx) (table_merge ht ht') hx

/-! ### columns -/

/-- The column `c'` holds the entries of `c`, taken together as far as the table is concerned. -/
def Collapses (dropna du dof : Bool) (c c' : List Cell) : Prop :=
  ∃ f g : Cell → Cell, c' = c.map f ∧ ∀ x ∈ c, view dropna du dof (f x) = (view dropna du dof x).map g

theorem Collapses.refl (dropna du dof : Bool) (c : List Cell) : Collapses dropna du dof c c :=
  ⟨id, id, by simp, fun x _ => by simp⟩

theorem collapses_chi2 {dropna du dof : Bool} {a b a' b' : List Cell} (ha : Collapses dropna du dof a a')
    (hb : Collapses dropna du dof b b') {h h' : Hist}
    (ht : IsTable ((a.zip b).map fun p => (view dropna du dof p.1, view dropna du dof p.2)) h)
    (ht' : IsTable ((a'.zip b').map fun p => (view dropna du dof p.1, view dropna du dof p.2)) h') {name : String} {x : ℝ}
    (hx : getChi2 h.values name = .ok x) : ∃ y, getChi2 h'.values name = .ok y ∧ 0 ≤ y ∧ y ≤ x := by
  obtain ⟨f, g, rfl, hf⟩ := ha
  obtain ⟨f', g', rfl, hf'⟩ := hb
  refine records_chi2 (g := g) (k := g') ht ?_ hx
  have e : ((a.map f).zip (b.map f')).map (fun p => (view dropna du dof p.1, view dropna du dof p.2)) =
      ((a.zip b).map fun p => (view dropna du dof p.1, view dropna du dof p.2)).map
        fun p => (p.1.map g, p.2.map g') := by
    rw [List.zip_map, List.map_map, List.map_map]
    apply List.map_congr_left
    rintro ⟨x, y⟩ hxy
    obtain ⟨hx, hy⟩ := List.of_mem_zip hxy
    simp only [Function.comp, Prod.map, hf x hx, hf' y hy]
  rwa [← e]

theorem coarsens_collapses {f : Cell → Cell} {c : List Cell} (h : Coarsens f c) (dropna du dof : Bool) :
    Collapses dropna du dof c (c.map f) := by
  refine ⟨f, renamed f, rfl, fun x hx => ?_⟩
  by_cases hn : x = .nan
  · rw [(h.nan x hx).2 hn, hn]
    cases dropna <;> simp [view, renamed]
  · have hn' : f x ≠ .nan := fun e => hn ((h.nan x hx).1 e)
    obtain ⟨a1, a2, a3⟩ := h.old x hx
    obtain ⟨b1, b2, -⟩ := h.new x hx
    rw [view_plain hn' b1 b2, view_plain hn a1 a2]
    simp [renamed, a3]

/-- **C83 (categories).** Two columns are counted, and counted again with categories of either taken together: no test
statistic of the table increases, whatever the treatment of missing values. -/
theorem coarser_categories {a b : Column} {nr : ℕ} {f g : Cell → Cell} (hf : Coarsens f a.cells) (hg : Coarsens g b.cells)
    (dropna du dof : Bool) {r r' : Ref} {w w' : World} (hr : w.heap[r]? = some ⟨nr, [a, b]⟩)
    (hr' : w'.heap[r']? = some ⟨nr, [{ a with cells := a.cells.map f }, { b with cells := b.cells.map g }]⟩) :
    ∃ h h' u u', (hist2dFromRebinned r dropna du dof).exec w = (.ok h, u) ∧
      (hist2dFromRebinned r' dropna du dof).exec w' = (.ok h', u') ∧
      ∀ name x, getChi2 h.values name = .ok x → ∃ y, getChi2 h'.values name = .ok y ∧ 0 ≤ y ∧ y ≤ x := by
  obtain ⟨h, u, e1, ht⟩ := hist2d_rebinned_table hr rfl dropna du dof
  obtain ⟨h', u', e2, ht'⟩ := hist2d_rebinned_table hr' rfl dropna du dof
  exact ⟨h, h', u, u', e1, e2, fun name x hx => collapses_chi2 (coarsens_collapses hf dropna du dof)
    (coarsens_collapses hg dropna du dof) ht ht' hx⟩

/-! ### bin edges -/

theorem searchGo_mono {e e' : List ℚ} (hc : CoarserEdges e e') {x : ℚ} {k : ℕ} (hk0 : 0 < k) (hk : k < e.length)
    (h1 : e.getD (k - 1) 0 < x) (h2 : x ≤ e.getD k 0) :
    searchGo e' x 0 e'.length = searchGo e' (e.getD k 0) 0 e'.length := by
  have hs' : e'.Pairwise (· ≤ ·) := hc.sorted.sublist hc.sub
  have mono : ∀ (l : List ℚ), l.Pairwise (· ≤ ·) → ∀ i j, i ≤ j → j < l.length → l.getD i 0 ≤ l.getD j 0 := by
    intro l hl i j hij hj
    rcases hij.eq_or_lt with rfl | hij
    · exact le_rfl
    · rw [getD_lt (hij.trans hj), getD_lt hj]
      exact List.pairwise_iff_getElem.1 hl i j _ _ hij
  obtain ⟨-, b, c, d⟩ := searchGo_spec e' x 0 e'.length (Nat.zero_le _)
  obtain ⟨-, b2, c2, d2⟩ := searchGo_spec e' (e.getD k 0) 0 e'.length (Nat.zero_le _)
  generalize searchGo e' x 0 e'.length = m at *
  generalize searchGo e' (e.getD k 0) 0 e'.length = m2 at *
  rcases lt_trichotomy m m2 with hlt | heq | hgt
  · exfalso
    have h3 := c2 (by omega)
    have h4 := d (by omega)
    have h5 := mono e' hs' m (m2 - 1) (by omega) (by omega)
    have h6 : e'.getD (m2 - 1) 0 ∈ e := by
      rw [getD_lt (by omega)]; exact hc.sub.subset (List.getElem_mem _)
    obtain ⟨n, hn, en⟩ := List.getElem_of_mem h6
    rw [← getD_lt (d := 0) hn] at en
    rw [← en] at h3 h5
    have hnk : n < k := by
      by_contra hge
      exact absurd (mono e hc.sorted k n (by omega) hn) (not_le.2 h3)
    have := mono e hc.sorted n (k - 1) (by omega) (by omega)
    linarith
  · exact heq
  · exfalso
    have h3 := c (by omega)
    have h4 := d2 (by omega)
    have h5 := mono e' hs' m2 (m - 1) (by omega) (by omega)
    linarith

/-- The coarser bin of a bin. -/
def coarseCell (e e' : List ℚ) : Cell → Cell
  | .num q => binCell e' (some (e.getD ⌊q⌋₊ 0))
  | c => c

theorem coarse_bin {e e' : List ℚ} (hc : CoarserEdges e e') (x : Option ℚ) :
    binCell e' x = coarseCell e e' (binCell e x) ∧
      ∀ dropna du dof, view dropna du dof (binCell e' x) = (view dropna du dof (binCell e x)).map (coarseCell e e') := by
  have hs' : e'.Pairwise (· ≤ ·) := hc.sorted.sublist hc.sub
  cases x with
  | none =>
    refine ⟨rfl, fun dropna du dof => ?_⟩
    cases dropna <;> simp [binCell, view, coarseCell]
  | some x =>
    rcases e.eq_nil_or_concat with rfl | ⟨e0, z, rfl⟩
    · obtain rfl : e' = [] := List.sublist_nil.1 hc.sub
      have : binCell [] (some x) = .str "UF" := by simp [binCell, searchGo]
      refine ⟨by rw [this]; rfl, fun dropna du dof => ?_⟩
      rw [this]
      cases du <;> simp [view, coarseCell]
    set e := e0.concat z with he
    have hne : e ≠ [] := by simp [he]
    have hne' : e' ≠ [] := by
      intro h0
      have := hc.last
      rw [h0] at this
      simp [he] at this
    have hfirst : e'.getD 0 0 = e.getD 0 0 := by
      have := hc.first
      rw [List.head?_eq_getElem?, List.head?_eq_getElem?] at this
      rw [List.getD_eq_getElem?_getD, List.getD_eq_getElem?_getD, this]
    have hlast : e'.getD (e'.length - 1) 0 = e.getD (e.length - 1) 0 := by
      have := hc.last
      rw [List.getLast?_eq_getElem?, List.getLast?_eq_getElem?] at this
      rw [List.getD_eq_getElem?_getD, List.getD_eq_getElem?_getD, this]
    have hl := List.length_pos_of_ne_nil hne
    have hl' := List.length_pos_of_ne_nil hne'
    by_cases hu : x ≤ e.getD 0 0
    · rw [(binCell_uf_iff x hc.sorted hne).2 hu, (binCell_uf_iff x hs' hne').2 (hfirst ▸ hu)]
      refine ⟨rfl, fun dropna du dof => ?_⟩
      cases du <;> simp [view, coarseCell]
    by_cases ho : e.getD (e.length - 1) 0 < x
    · rw [(binCell_of_iff x hc.sorted hne).2 ho, (binCell_of_iff x hs' hne').2 (hlast ▸ ho)]
      refine ⟨rfl, fun dropna du dof => ?_⟩
      cases dof <;> simp [view, coarseCell]
    push Not at hu ho
    have h2l : 2 ≤ e.length := by
      by_contra hlt
      have : e.length - 1 = 0 := by omega
      rw [this] at ho
      linarith
    have h2l' : 2 ≤ e'.length := by
      by_contra hlt
      have : e'.length - 1 = 0 := by omega
      rw [this, hfirst] at hlast
      rw [← hlast] at ho
      linarith
    obtain ⟨k, hk, hk1, hk2⟩ := binCell_regular h2l hu ho
    obtain ⟨k', hk', hk1', hk2'⟩ := binCell_regular h2l' (hfirst ▸ hu) (hlast ▸ ho)
    obtain ⟨m, em, hm0, hm, a1, a2⟩ := (binCell_num_iff x hc.sorted _).1 hk
    obtain rfl : k = m := by exact_mod_cast em
    have hse := searchGo_mono hc hm0 hm a1 a2
    have e1 : binCell e' (some x) = coarseCell e e' (binCell e (some x)) := by
      rw [hk]
      simp only [coarseCell, Nat.floor_natCast, binCell, hse]
    refine ⟨e1, fun dropna du dof => ?_⟩
    rw [hk, hk']
    simp only [view, Option.map_some]
    rw [← hk', e1, hk]

theorem edges_collapse {e e' : List ℚ} (hc : CoarserEdges e e') (arr : List (Option ℚ)) (dropna du dof : Bool) :
    Collapses dropna du dof (binArray arr e).1 (binArray arr e').1 := by
  refine ⟨coarseCell e e', coarseCell e e', ?_, ?_⟩
  · rw [binArray_fst, binArray_fst, List.map_map]
    exact List.map_congr_left fun x _ => (coarse_bin hc x).1
  · intro c hcm
    rw [binArray_fst] at hcm
    obtain ⟨x, -, rfl⟩ := List.mem_map.1 hcm
    rw [← (coarse_bin hc x).1]
    exact (coarse_bin hc x).2 dropna du dof

theorem binLoop_ok {fl : ℚ → ℚ} {pf : String → Option (Option ℚ)} {data : Frame} {bins : Bins} {quantile : Bool}
    (cols : List String) (he : ∀ name ∈ cols, ∃ l, bins.entry name = .edges l)
    (hf : ∀ name ∈ cols, ∃ arr, colFloats pf data name = .ok arr) (xb : Option (List ℚ)) (out : Frame)
    (dict : List (String × List (ℚ × ℚ))) : ∃ v, binLoop fl pf data bins quantile cols xb out dict = .ok v := by
  induction cols generalizing xb out dict with
  | nil => exact ⟨_, rfl⟩
  | cons name rest ih =>
    obtain ⟨l, hl⟩ := he name List.mem_cons_self
    obtain ⟨arr, harr⟩ := hf name List.mem_cons_self
    unfold binLoop selectEdges
    rw [hl]
    simp only [pure_bind, harr]
    exact ih (fun n hn => he n (List.mem_cons_of_mem _ hn)) (fun n hn => hf n (List.mem_cons_of_mem _ hn)) _ _ _

/-- **C83 (bins).** The columns to bin are counted with given edges, and again with some of the inner edges left out: if the
first call of `hist2d` returns, so does the second, and no test statistic of the table increases, whatever the treatment of
missing, underflow and overflow records. -/
theorem coarser_edges (fl : ℚ → ℚ) (pf : String → Option (Option ℚ)) {r : Ref} {w u : World} {data : Frame}
    (hr : w.heap[r]? = some data) {ic : Option (List String)} {bins bins' : Bins}
    (hb : ∀ name ∈ ic.getD (guessIntervalCols data), ∃ e e', EntryFor bins name (.edges e) ∧ EntryFor bins' name (.edges e') ∧
      CoarserEdges e e') {quantile quantile' dropna du dof : Bool} {h : Hist} {d : List (String × List (ℚ × ℚ))}
    (hok : (hist2d fl pf r ic bins quantile dropna du dof).exec w = (.ok (h, d), u)) :
    ∃ h' d' u', (hist2d fl pf r ic bins' quantile' dropna du dof).exec w = (.ok (h', d'), u') ∧
      ∀ name x, getChi2 h.values name = .ok x → ∃ y, getChi2 h'.values name = .ok y ∧ 0 ≤ y ∧ y ≤ x := by
  have h1 := hist2d_table fl pf hr (ic := ic) (bins := bins) (quantile := quantile) (dropna := dropna) (du := du) (dof := dof)
  rw [hok] at h1
  obtain ⟨-, hlen, b, w1, out, ca, cb, hbin, hout, hcols, ht⟩ := h1
  have h2 := hist2d_table fl pf hr (ic := ic) (bins := bins') (quantile := quantile') (dropna := dropna) (du := du)
    (dof := dof)
  generalize ic.getD (guessIntervalCols data) = cols at *
  have hex := hbin
  rw [binData_exec fl pf hr] at hex
  cases hc : binDataCore fl pf data cols bins quantile with
  | error e => rw [hc] at hex; simp at hex
  | ok v =>
  obtain ⟨out0, dict0⟩ := v
  obtain ⟨fb, hfb, -⟩ := binDataCore_spec (fun name hn => by
    obtain ⟨e, e', he, -⟩ := hb name hn
    exact ⟨_, he, by simp⟩) hc
  have hent' : ∀ name ∈ cols, ∃ l, bins'.entry name = .edges l := fun name hn => by
    obtain ⟨e, e', -, he', -⟩ := hb name hn
    exact ⟨e', entry_of he'⟩
  obtain ⟨v', hv'⟩ : ∃ v, binDataCore fl pf data cols bins' quantile' = .ok v := by
    have hchk : dictCheck cols bins' = .ok () := by
      cases bins' with
      | one s => rfl
      | dict dd =>
        unfold dictCheck
        simp only
        rw [if_pos]
        rw [List.all_eq_true]
        intro name hn
        obtain ⟨e, e', -, he', -⟩ := hb name hn
        cases he' with
        | dict _ _ _ hl => rw [hl]; rfl
    unfold binDataCore
    rw [hchk]
    exact binLoop_ok cols hent' (fun name hn => by
      obtain ⟨arr, -, -, g, -⟩ := hfb name hn
      exact ⟨arr, g⟩) _ _ _
  generalize hex2 : (hist2d fl pf r ic bins' quantile' dropna du dof).exec w = res at *
  obtain ⟨res, u'⟩ := res
  cases res with
  | error e =>
    exfalso
    simp only at h2
    rcases h2.2 with ⟨hl, -⟩ | he
    · exact hl hlen
    · rw [binData_exec fl pf hr, hv'] at he
      simp at he
  | ok res =>
  obtain ⟨h', d'⟩ := res
  obtain ⟨-, -, b2, w2, out2, ca2, cb2, hbin2, hout2, hcols2, ht2⟩ := h2
  refine ⟨h', d', u', rfl, fun name x hx => ?_⟩
  obtain ⟨-, -, o1, ho1, -, -, hcol1, -⟩ := bin_data_columns fl pf hr (fun name hn => by
    obtain ⟨e, e', he, -⟩ := hb name hn
    exact ⟨_, he, by simp⟩) hbin
  obtain ⟨-, -, o2, ho2, -, -, hcol2, -⟩ := bin_data_columns fl pf hr (fun name hn => by
    obtain ⟨e, e', -, he, -⟩ := hb name hn
    exact ⟨_, he, by simp⟩) hbin2
  rw [hout] at ho1
  cases ho1
  rw [hout2] at ho2
  cases ho2
  have key : ∀ (i : ℕ) (c c1 c2 : Column), data.cols[i]? = some c → out.cols[i]? = some c1 → out2.cols[i]? = some c2 →
      Collapses dropna du dof c1.cells c2.cells := by
    intro i c c1 c2 hi h1 h2
    obtain ⟨c1', e1, n1, y1⟩ := hcol1 i c hi
    obtain ⟨c2', e2, n2, y2⟩ := hcol2 i c hi
    rw [h1] at e1
    cases e1
    rw [h2] at e2
    cases e2
    by_cases hn : c.name ∈ cols
    · obtain ⟨-, -, arr, e, s, f1, g1, r1, k1, -⟩ := y1 hn
      obtain ⟨-, -, arr', e', s', f2, g2, r2, k2, -⟩ := y2 hn
      rw [f1] at f2
      cases f2
      obtain ⟨E, E', hE, hE', hcE⟩ := hb _ hn
      rw [← entry_of g1, entry_of hE] at r1
      rw [← entry_of g2, entry_of hE'] at r2
      cases r1
      cases r2
      rw [k1, k2]
      exact edges_collapse hcE arr dropna du dof
    · rw [n1 hn, n2 hn]
      exact Collapses.refl _ _ _ _
  obtain ⟨a0, b0, hab⟩ : ∃ a b, data.cols = [a, b] := by
    match hcol : data.cols, hlen with
    | [a, b], _ => exact ⟨a, b, rfl⟩
  refine collapses_chi2 (key 0 a0 ca ca2 (by simp [hab]) (by simp [hcols]) (by simp [hcols2]))
    (key 1 b0 cb cb2 (by simp [hab]) (by simp [hcols]) (by simp [hcols2])) ht ht2 hx

end Phik.Props
