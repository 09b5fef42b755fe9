import Verif.Props.OutlierCIFrame
import Verif.Props.Spark

/-! # Property C47: outlier matrices of all pairs -/

namespace Phik

open Spec Props Out

/-- The result of `outlier_significance_matrix_from_rebinned_df` depends on the frame only; the frame is changed in place and
no other frame is. -/
theorem outlierFromRebinned_local (N : OutNum) (fmt : ℚ → String) (dict : List (String × List (ℚ × ℚ))) (ci : String)
    (dropna du dof : Bool) {f : Frame} (hl : f.cols.length = 2) :
    ∃ res ws, ∀ (r : Ref) (w : World), w.heap[r]? = some f →
      (outlierFromRebinned N fmt r dict ci dropna du dof).exec w =
        (res, ⟨w.heap.set r (applyFlags dropna du dof f), w.warns ++ ws⟩) := by
  have hread : ∀ (r : Ref) (w : World), w.heap[r]? = some f →
      (w.heap.set r (applyFlags dropna du dof f))[r]? = some (applyFlags dropna du dof f) := by
    intro r w h
    rw [List.getElem?_set_self]; exact (List.getElem?_eq_some_iff.1 h).1
  match hf : f.cols, hl with
  | [a0, b0], _ =>
    obtain ⟨a, b, h1, -⟩ := hist_of_flags dropna du dof f hf
    have hstart : ∀ (r : Ref) (w : World), w.heap[r]? = some f →
        (hist2dFromRebinned r dropna du dof).exec w =
          (.ok (histOfPairs (a.cells.zip b.cells)), ⟨w.heap.set r (applyFlags dropna du dof f), w.warns⟩) := by
      intro r w h
      unfold hist2dFromRebinned
      rw [M.exec_bind, M.exec_read_of h]
      simp only [hf, List.length_cons, List.length_nil, ne_eq, Nat.reduceAdd, not_true_eq_false, if_false, h1,
        M.exec_bind, M.exec_pure, M.exec_write]
    set h := histOfPairs (a.cells.zip b.cells)
    by_cases hfew : (h.rows.length = 1 ∨ h.cols.length = 1) ∨ (h.rows.length = 0 ∨ h.cols.length = 0)
    · refine ⟨.ok none, [.tooFewOut a.name h.rows.length b.name h.cols.length], fun r w hr => ?_⟩
      unfold outlierFromRebinned
      rw [M.exec_bind, hstart r w hr]
      simp only
      rw [M.exec_bind, M.exec_read_of (w := ⟨_, _⟩) (hread r w hr)]
      simp only [h1, hfew, if_true]
      rfl
    · refine ⟨(do
        let rows ← relabel fmt dict a h.rows
        let cols ← relabel fmt dict b h.cols
        let t ← outlierFromHist2d N h.arr ci
        if hs : t.r = rows.length ∧ t.c = cols.length then
          pure (some ⟨rows, cols, fun i j => (t.v (i.cast hs.1.symm) (j.cast hs.2.symm)).2⟩)
        else throw .value), [], fun r w hr => ?_⟩
      unfold outlierFromRebinned
      rw [M.exec_bind, hstart r w hr]
      simp only
      rw [M.exec_bind, M.exec_read_of (w := ⟨_, _⟩) (hread r w hr)]
      simp only [h1, hfew, if_false, M.exec_bind, M.exec_ofExcept, List.append_nil]
      cases relabel fmt dict a h.rows with
      | error e => rfl
      | ok rows =>
        cases relabel fmt dict b h.cols with
        | error e => rfl
        | ok cols =>
          cases outlierFromHist2d N h.arr ci with
          | error e => rfl
          | ok t =>
            simp only [bind, Except.bind]
            split <;> rfl

/-- The result of the loop for one pair of columns of a binned frame. -/
noncomputable def pairResult (N : OutNum) (fmt : ℚ → String) (data : Frame) (dict : List (String × List (ℚ × ℚ)))
    (ci : String) (dropna du dof : Bool) (a b : Column) : Except Err (Option OutTab) :=
  ((outlierFromRebinned N fmt 0 dict ci dropna du dof).exec ⟨[⟨data.nrows, [a, b]⟩], []⟩).1

/-- The loop of `outlier_significance_matrices_from_rebinned_df`: the results of the pairs in order, or the first
exception. -/
theorem outlierLoop_exec (N : OutNum) (fmt : ℚ → String) {r : Ref} {data : Frame} (hn : data.names.Nodup)
    (dict : List (String × List (ℚ × ℚ))) (ci : String) (dropna du dof : Bool) (g : String → Column)
    (hg : ∀ c ∈ data.cols, g c.name = c) (co : List (String × String))
    (hco : ∀ p ∈ co, p.1 ∈ data.names ∧ p.2 ∈ data.names ∧ p.1 ≠ p.2) (w : World) (hr : w.heap[r]? = some data) :
    ((outlierLoop N fmt r dict ci dropna du dof co).exec w).1 =
      co.mapM fun p => (pairResult N fmt data dict ci dropna du dof (g p.1) (g p.2)).map fun t => (p.1, p.2, t) := by
  induction co generalizing w with
  | nil => rfl
  | cons p co ih =>
    obtain ⟨c0, c1⟩ := p
    obtain ⟨m0, m1, hne⟩ := hco _ List.mem_cons_self
    obtain ⟨a, ha, ea⟩ := List.mem_map.1 m0
    obtain ⟨b, hb, eb⟩ := List.mem_map.1 m1
    simp only at ea eb hne
    subst ea eb
    rw [List.mapM_cons]
    unfold outlierLoop
    simp only [M.exec_bind, M.exec_read_of hr, M.exec_ofExcept, getCol_of_mem hn ha, getCol_of_mem hn hb, hne, if_false,
      M.exec_alloc]
    obtain ⟨res, ws, hloc⟩ := outlierFromRebinned_local N fmt dict ci dropna du dof (f := ⟨data.nrows, [a, b]⟩) rfl
    have hp : pairResult N fmt data dict ci dropna du dof a b = res := by
      unfold pairResult
      rw [hloc 0 ⟨[⟨data.nrows, [a, b]⟩], []⟩ rfl]
    rw [hloc w.heap.length ⟨w.heap ++ [(⟨data.nrows, [a, b]⟩ : Frame)], w.warns⟩ (by simp)]
    rw [hg a ha, hg b hb, hp]
    have hk : ((w.heap ++ [(⟨data.nrows, [a, b]⟩ : Frame)]).set w.heap.length
        (applyFlags dropna du dof ⟨data.nrows, [a, b]⟩))[r]? = some data := by
      have hlt := (List.getElem?_eq_some_iff.1 hr).1
      rw [List.getElem?_set_ne (by omega), List.getElem?_append_left hlt, hr]
    cases res with
    | error e => rfl
    | ok t =>
      have ih' := ih (fun p hp => hco p (List.mem_cons_of_mem _ hp)) ⟨_, w.warns ++ ws⟩ hk
      simp only
      rw [← ih']
      rcases (outlierLoop N fmt r dict ci dropna du dof co).exec _ with ⟨res2, w2⟩
      cases res2 with
      | error e => rfl
      | ok l => rfl

theorem nodup_comb2 {α : Type} {l : List α} (h : l.Nodup) : (comb2 l).Nodup := by
  induction l with
  | nil => simp [comb2]
  | cons x xs ih =>
    obtain ⟨h1, h2⟩ := List.nodup_cons.1 h
    rw [comb2, List.nodup_append]
    refine ⟨?_, ih h2, ?_⟩
    · exact h2.map fun a b hab => (Prod.ext_iff.1 hab).2
    · rintro p hp q hq rfl
      obtain ⟨y, hy, rfl⟩ := List.mem_map.1 hp
      have := mem_comb2.1 hq
      exact h1 (this.subset (by simp))

/-! ### dictionaries -/

theorem dictSet_keys {α : Type} (d : List (String × α)) (k : String) (v : α) :
    (dictSet d k v).map Prod.fst = if k ∈ d.map Prod.fst then d.map Prod.fst else d.map Prod.fst ++ [k] := by
  unfold dictSet
  have h : (d.any fun p => p.1 == k) = true ↔ k ∈ d.map Prod.fst := by
    simp [List.any_eq_true]
  by_cases hk : k ∈ d.map Prod.fst
  · rw [if_pos (h.2 hk), if_pos hk, List.map_map]
    apply List.map_congr_left
    intro p _
    simp only [Function.comp]
    split
    · rename_i hp; simpa using (beq_iff_eq.1 hp).symm
    · rfl
  · rw [if_neg (fun hh => hk (h.1 hh)), if_neg hk]; simp

theorem mem_dictSet {α : Type} {d : List (String × α)} {k : String} {v : α} {p : String × α} :
    p ∈ dictSet d k v ↔ p = (k, v) ∨ p ∈ d ∧ p.1 ≠ k := by
  unfold dictSet
  split
  · rename_i h
    rw [List.mem_map]
    constructor
    · rintro ⟨q, hq, rfl⟩
      split
      · exact .inl rfl
      · rename_i hk; exact .inr ⟨hq, by simpa using hk⟩
    · rintro (rfl | ⟨hp, hk⟩)
      · obtain ⟨q, hq, hqk⟩ := List.any_eq_true.1 h
        exact ⟨q, hq, by rw [if_pos hqk]⟩
      · exact ⟨p, hp, by rw [if_neg (by simpa using hk)]⟩
  · rename_i h
    simp only [List.mem_append, List.mem_singleton]
    constructor
    · rintro (hp | rfl)
      · refine .inr ⟨hp, fun hk => h ?_⟩
        exact List.any_eq_true.2 ⟨p, hp, by simpa using hk⟩
      · exact .inl rfl
    · rintro (rfl | ⟨hp, -⟩)
      · exact .inr rfl
      · exact .inl hp

theorem joinDict_append {α : Type} (l : List (String × String × α)) (p : String × String × α) :
    joinDict (l ++ [p]) = dictSet (joinDict l) (p.1 ++ ":" ++ p.2.1) p.2.2 := by
  simp [joinDict, List.foldl_append]

/-- The keys of the dictionary are distinct; they are the joined names. -/
theorem joinDict_keys {α : Type} (l : List (String × String × α)) :
    ((joinDict l).map Prod.fst).Nodup ∧
      ∀ k, k ∈ (joinDict l).map Prod.fst ↔ ∃ p ∈ l, k = p.1 ++ ":" ++ p.2.1 := by
  induction l using List.reverseRecOn with
  | nil => simp [joinDict]
  | append_singleton l p ih =>
    rw [joinDict_append, dictSet_keys]
    obtain ⟨h1, h2⟩ := ih
    split
    · rename_i hk
      refine ⟨h1, fun k => ?_⟩
      rw [h2]
      constructor
      · rintro ⟨q, hq, rfl⟩; exact ⟨q, List.mem_append_left _ hq, rfl⟩
      · rintro ⟨q, hq, rfl⟩
        rcases List.mem_append.1 hq with hq | hq
        · exact ⟨q, hq, rfl⟩
        · rw [List.mem_singleton] at hq; subst hq; exact (h2 _).1 hk
    · rename_i hk
      refine ⟨?_, fun k => ?_⟩
      · rw [List.nodup_append]
        refine ⟨h1, by simp, ?_⟩
        rintro a ha b hb rfl
        rw [List.mem_singleton] at hb; subst hb; exact hk ha
      · rw [List.mem_append, h2, List.mem_singleton]
        constructor
        · rintro (⟨q, hq, rfl⟩ | rfl)
          · exact ⟨q, List.mem_append_left _ hq, rfl⟩
          · exact ⟨p, by simp, rfl⟩
        · rintro ⟨q, hq, rfl⟩
          rcases List.mem_append.1 hq with hq | hq
          · exact .inl ⟨q, hq, rfl⟩
          · rw [List.mem_singleton] at hq; subst hq; exact .inr rfl

/-- An entry of the dictionary is the last one of the list with its key. -/
theorem mem_joinDict {α : Type} (l : List (String × String × α)) (k : String) (v : α) :
    (k, v) ∈ joinDict l ↔ ∃ pre p post, l = pre ++ p :: post ∧ k = p.1 ++ ":" ++ p.2.1 ∧ v = p.2.2 ∧
      ∀ q ∈ post, q.1 ++ ":" ++ q.2.1 ≠ k := by
  induction l using List.reverseRecOn with
  | nil => simp [joinDict]
  | append_singleton l p ih =>
    rw [joinDict_append, mem_dictSet, ih]
    constructor
    · rintro (h | ⟨⟨pre, q, post, rfl, h2, h3, h4⟩, hk⟩)
      · obtain ⟨rfl, rfl⟩ := Prod.ext_iff.1 h
        exact ⟨l, p, [], rfl, rfl, rfl, by simp⟩
      · refine ⟨pre, q, post ++ [p], by simp, h2, h3, ?_⟩
        intro x hx
        rcases List.mem_append.1 hx with hx | hx
        · exact h4 x hx
        · rw [List.mem_singleton] at hx; subst hx; exact fun h => hk h.symm
    · rintro ⟨pre, q, post, h1, h2, h3, h4⟩
      rcases List.eq_nil_or_concat post with rfl | ⟨post', x, rfl⟩
      · obtain ⟨rfl, h⟩ := List.append_inj' h1 (by simp)
        cases h
        exact .inl (by rw [h2, h3])
      · rw [List.concat_eq_append] at h1 h4
        rw [← List.cons_append, ← List.append_assoc] at h1
        obtain ⟨rfl, h⟩ := List.append_inj' h1 (by simp)
        cases h
        refine .inr ⟨⟨pre, q, post', rfl, h2, h3, fun y hy => h4 y (List.mem_append_left _ hy)⟩, ?_⟩
        exact fun h => h4 p (by simp) h.symm

/-- Without equal keys the entries are kept, in order. -/
theorem joinDict_of_nodup {α : Type} (l : List (String × String × α))
    (h : (l.map fun p => p.1 ++ ":" ++ p.2.1).Nodup) : joinDict l = l.map fun p => (p.1 ++ ":" ++ p.2.1, p.2.2) := by
  induction l using List.reverseRecOn with
  | nil => rfl
  | append_singleton l p ih =>
    rw [List.map_append, List.nodup_append] at h
    obtain ⟨h1, -, h2⟩ := h
    rw [joinDict_append, ih h1, List.map_append]
    unfold dictSet
    rw [if_neg]
    · rfl
    · intro hh
      obtain ⟨q, hq, hk⟩ := List.any_eq_true.1 hh
      obtain ⟨x, hx, rfl⟩ := List.mem_map.1 hq
      exact h2 _ (List.mem_map_of_mem (f := fun p : String × String × α => p.1 ++ ":" ++ p.2.1) hx) _
        (by simp) (beq_iff_eq.1 hk)

/-- Collecting results: all, or the first exception. -/
theorem mapM_cases {α β : Type} (g : α → Except Err β) (l : List α) :
    (∃ vs, List.Forall₂ (fun p v => g p = .ok v) l vs ∧ l.mapM g = .ok vs) ∨
    ∃ pre p post e, l = pre ++ p :: post ∧ (∀ q ∈ pre, ∃ t, g q = .ok t) ∧ g p = .error e ∧ l.mapM g = .error e := by
  induction l with
  | nil => exact .inl ⟨[], .nil, rfl⟩
  | cons x xs ih =>
    rw [List.mapM_cons]
    cases hx : g x with
    | error e => exact .inr ⟨[], x, xs, e, rfl, by simp, hx, rfl⟩
    | ok t =>
      rcases ih with ⟨vs, h1, h2⟩ | ⟨pre, p, post, e, h1, h2, h3, h4⟩
      · left
        exact ⟨t :: vs, .cons hx h1, by rw [h2]; rfl⟩
      · right
        refine ⟨x :: pre, p, post, e, by rw [h1]; rfl, ?_, h3, by rw [h4]; rfl⟩
        intro q hq
        rcases List.mem_cons.1 hq with rfl | hq
        · exact ⟨t, hx⟩
        · exact h2 q hq

theorem forall2_pairs {f : String → String → Except Err (Option OutTab)} {pairs : List (String × String)}
    {vs : List (String × String × Option OutTab)}
    (h : List.Forall₂ (fun p v => v.1 = p.1 ∧ v.2.1 = p.2 ∧ f p.1 p.2 = .ok v.2.2) pairs vs) :
    (vs.map fun p => p.1 ++ ":" ++ p.2.1) = (pairs.map fun p => p.1 ++ ":" ++ p.2) ∧
      (∀ p ∈ pairs, ∃ v ∈ vs, v.1 = p.1 ∧ v.2.1 = p.2) ∧
      (∀ v ∈ vs, (v.1, v.2.1) ∈ pairs ∧ f v.1 v.2.1 = .ok v.2.2) := by
  induction h with
  | nil => simp
  | @cons p v ps vs h _ ih =>
    obtain ⟨i1, i2, i3⟩ := ih
    obtain ⟨h1, h2, h3⟩ := h
    refine ⟨by simp only [List.map_cons, h1, h2, i1], ?_, ?_⟩
    · intro q hq
      rcases List.mem_cons.1 hq with rfl | hq
      · exact ⟨v, List.mem_cons_self, h1, h2⟩
      · obtain ⟨u, hu, e⟩ := i2 q hq
        exact ⟨u, List.mem_cons_of_mem _ hu, e⟩
    · intro u hu
      rcases List.mem_cons.1 hu with rfl | hu
      · rw [h1, h2]; exact ⟨List.mem_cons_self, h3⟩
      · exact ⟨List.mem_cons_of_mem _ (i3 u hu).1, (i3 u hu).2⟩

namespace Props

open scoped Classical in
/-- **C47 (and C46 for every pair).** `outlier_significance_matrices`, for every frame with distinct column names, bins given as
ascending edges or as a number, and combinations of different columns that pass the quality check.  The pairs are the given
combinations, or without any all unordered pairs of columns that pass the quality check, in column order.  Unless the binning
raises an exception, there is for each pair the outcome `f` of the outlier matrix of its two columns; the first exception is
raised again; otherwise the result has the key `c0:c1` for each pair and no other keys, and if no name contains a colon, then
`f` of the pair is stored there and every pair has its own entry, in order. -/
theorem outlier_matrices_result (N : OutNum) (fmt : ℚ → String) {fl : ℚ → ℚ} (hfl : fl = (fun x => x) ∨ fl = rne53)
    (pf : String → Option (Option ℚ)) {r : Ref} {w : World} {data : Frame} (hr : w.heap[r]? = some data)
    (hn : data.names.Nodup) (ic : Option (List String)) (ci : String) (bins : Bins)
    (comb : List (String × String)) (quantile dropna du dof : Bool)
    (hent : ∀ name ∈ ic.getD (guessIntervalCols data), ∃ s, EntryFor bins name s)
    (hspec : ∀ name ∈ ic.getD (guessIntervalCols data), ∀ s, EntryFor bins name s → SortedSpec s)
    (hrep : ∀ c ∈ data.cols, c.name ∈ ic.getD (guessIntervalCols data) →
      ∀ x ∈ c.cells, ∀ q, toFloat pf x = .ok (some q) → fl q = q)
    {kept : Frame} (hk0 : kept.nrows = data.nrows)
    (hk : kept.cols = data.cols.filter fun c => decide (Kept (ic.getD (guessIntervalCols data)) dropna c))
    (hcomb : ∀ p ∈ comb, p.1 ∈ kept.names ∧ p.2 ∈ kept.names ∧ p.1 ≠ p.2) :
    let ics := ic.getD (guessIntervalCols data)
    let res := ((outlierMatrices N fmt fl pf r ic ci bins quantile comb dropna du dof).exec w).1
    ∃ pairs : List (String × String),
      (comb ≠ [] → pairs = comb) ∧
      (comb = [] → pairs.Nodup ∧ ∀ a b, (a, b) ∈ pairs ↔ [a, b].Sublist kept.names) ∧
      ((∃ e, res = .error e ∧
        binDataCore fl pf kept (ics.filter fun n => decide (n ∈ kept.names)) bins quantile = .error e) ∨
      ∃ f : String → String → Except Err (Option OutTab),
        (∀ a ∈ kept.cols, ∀ b ∈ kept.cols, ∃ ea eb ra rb n,
          EdgesFor fl pf quantile bins ics a ea ∧ EdgesFor fl pf quantile bins ics b eb ∧
          Counts pf dropna du dof ea eb a b ra rb n ∧ IsOutlierMatrix N fmt ci ra rb n (f a.name b.name)) ∧
        ((∃ pre p post e, pairs = pre ++ p :: post ∧ (∀ q ∈ pre, ∃ t, f q.1 q.2 = .ok t) ∧ f p.1 p.2 = .error e ∧
            res = .error e) ∨
          ∃ d dict, res = .ok (d, dict) ∧ (d.map Prod.fst).Nodup ∧
            (∀ k, k ∈ d.map Prod.fst ↔ ∃ p ∈ pairs, k = p.1 ++ ":" ++ p.2) ∧
            ((∀ name ∈ kept.names, ':' ∉ name.toList) →
              (∀ p ∈ pairs, ∃ t, f p.1 p.2 = .ok t ∧ (p.1 ++ ":" ++ p.2, t) ∈ d) ∧
              (pairs.Nodup → d.map Prod.fst = pairs.map fun p => p.1 ++ ":" ++ p.2)))) := by
  intro ics res
  obtain ⟨icc, w1, clean, ws, h1, h2, hnr, g4, g5, -⟩ := dq_check hr hn ics dropna
  have hclean : w1.heap[w.heap.length]? = some clean := by rw [h2]; simp
  have hcl : clean = kept := by
    cases clean; cases kept
    simp only at hk hk0 hnr g4
    rw [hk, hk0, ← hnr, ← g4]
  subst hcl
  have hkn : clean.names.Nodup := by
    unfold Frame.names at hn ⊢
    rw [hk]
    exact hn.sublist (List.filter_sublist.map _)
  refine ⟨if comb.isEmpty then comb2 clean.names else comb, ?_, ?_, ?_⟩
  · intro hc
    rw [if_neg (by simpa using hc)]
  · rintro rfl
    simp only [List.isEmpty_nil, if_true]
    exact ⟨nodup_comb2 hkn, fun a b => mem_comb2⟩
  set pairs := if comb.isEmpty then comb2 clean.names else comb with hpairs
  have hstart : (outlierMatrices N fmt fl pf r ic ci bins quantile comb dropna du dof).exec w =
      match (binData fl pf w.heap.length icc bins quantile).exec w1 with
      | (.error e, w2) => (.error e, w2)
      | (.ok (r2, dict), w2) => match (outlierMatricesFromRebinned N fmt r2 dict ci comb dropna du dof).exec w2 with
        | (.error e, w3) => (.error e, w3)
        | (.ok l, w3) => (.ok (joinDict l, dict), w3) := by
    unfold outlierMatrices
    rw [M.exec_bind, M.exec_read_of hr]
    simp only [M.exec_bind]
    rw [show (dqCheck r (ic.getD (guessIntervalCols data)) dropna).exec w = _ from h1]
    simp only
    rcases (binData fl pf w.heap.length icc bins quantile).exec w1 with ⟨res, w2⟩
    cases res with
    | error e => rfl
    | ok p =>
      obtain ⟨r2, dict⟩ := p
      simp only
      rcases (outlierMatricesFromRebinned N fmt r2 dict ci comb dropna du dof).exec w2 with ⟨res, w3⟩
      cases res <;> rfl
  simp only [res]
  rw [hstart, binData_exec fl pf hclean]
  cases hc : binDataCore fl pf clean icc bins quantile with
  | error e => exact .inl ⟨e, rfl, g5 ▸ hc⟩
  | ok v =>
    right
    obtain ⟨out, dict⟩ := v
    have hicc : ∀ name ∈ icc, name ∈ ics := by
      intro name hnm
      rw [g5] at hnm; exact (List.mem_filter.1 hnm).1
    have hmem : ∀ c ∈ clean.cols, (c.name ∈ icc ↔ c.name ∈ ics) := by
      intro c hc
      rw [g5, List.mem_filter]
      simp only [decide_eq_true_eq, and_iff_left_iff_imp]
      intro _
      exact List.mem_map_of_mem hc
    obtain ⟨ed, bc, k1, k2⟩ := binned_cols hkn (fun name hnm => by
      obtain ⟨s, hs⟩ := hent name (hicc name hnm)
      refine ⟨s, hs, ?_⟩
      rintro rfl
      exact hspec name (hicc name hnm) _ hs) hc
    have hE : ∀ c ∈ clean.cols, EdgesFor fl pf quantile bins ics c (ed c) := by
      intro c hcm
      have := (k2 c hcm).1
      cases hed : ed c with
      | none => rw [hed] at this; exact fun h => this ((hmem c hcm).2 h)
      | some e => rw [hed] at this; exact ⟨(hmem c hcm).1 this.1, this.2⟩
    have hsub : ∀ c ∈ clean.cols, c ∈ data.cols := by
      intro c hcm; rw [hk] at hcm; exact (List.mem_filter.1 hcm).1
    have hG : ∀ c ∈ clean.cols, GoodEdges (ed c) := fun c hcm =>
      goodEdges_of_spec hfl (fun h => hspec _ h) (hrep c (hsub c hcm)) (hE c hcm)
    have hon : out.names = clean.names := (binDataCore_names hc).1
    have honn : out.names.Nodup := hon ▸ hkn
    -- columns by name
    have hgex : ∀ name : String, ∃ c : Column, ∀ d ∈ out.cols, d.name = name → c = d := by
      intro name
      by_cases h : ∃ d ∈ out.cols, d.name = name
      · obtain ⟨d, hd, rfl⟩ := h
        refine ⟨d, fun d' hd' he => ?_⟩
        have e1 := getCol_of_mem honn hd
        have e2 := getCol_of_mem honn hd'
        rw [he, e1] at e2
        injection e2
      · exact ⟨⟨"", false, []⟩, fun d hd he => absurd ⟨d, hd, he⟩ h⟩
    choose g hg using hgex
    have hloop := fun co hco => outlierLoop_exec N fmt (r := w1.heap.length) honn dict ci dropna du dof g
      (fun c hc => hg c.name c hc rfl) co hco ⟨w1.heap ++ [out], w1.warns⟩ (by simp)
    have hpn : ∀ p ∈ pairs, p.1 ∈ clean.names ∧ p.2 ∈ clean.names ∧ p.1 ≠ p.2 := by
      intro p hp
      rw [hpairs] at hp
      split at hp
      · obtain ⟨a, b⟩ := p
        have hs := mem_comb2.1 hp
        refine ⟨hs.subset (by simp), hs.subset (by simp), ?_⟩
        have := hkn.sublist hs
        simpa using this
      · exact hcomb p hp
    have hexec : ((outlierMatricesFromRebinned N fmt w1.heap.length dict ci comb dropna du dof).exec
        ⟨w1.heap ++ [out], w1.warns⟩).1 = pairs.mapM fun p =>
          (pairResult N fmt out dict ci dropna du dof (g p.1) (g p.2)).map fun t => (p.1, p.2, t) := by
      unfold outlierMatricesFromRebinned
      rw [M.exec_bind, M.exec_read_of (w := ⟨w1.heap ++ [out], w1.warns⟩) (f := out) (by simp)]
      simp only
      rw [hon, ← hpairs]
      exact hloop pairs (by rw [hon]; exact hpn)
    refine ⟨fun c0 c1 => pairResult N fmt out dict ci dropna du dof (g c0) (g c1), ?_, ?_⟩
    · intro a ha b hb
      have hga : ∀ c ∈ clean.cols, g c.name = bc c := by
        intro c hcm
        refine hg c.name (bc c) ?_ (k2 c hcm).2.name
        rw [k1]; exact List.mem_map_of_mem hcm
      obtain ⟨ra, rb, n, rs, w', e1, e2, e3, -⟩ := outlierFromRebinned_exec N fmt (r := 0)
        (w := ⟨[⟨out.nrows, [bc a, bc b]⟩], []⟩) rfl rfl (k2 a ha).2 (k2 b hb).2 (hG a ha) (hG b hb) ci dropna du dof
      refine ⟨ed a, ed b, ra, rb, n, hE a ha, hE b hb, e2, ?_⟩
      simp only
      rw [hga a ha, hga b hb]
      unfold pairResult
      rw [e1]
      exact e3
    · simp only
      rcases hx : (outlierMatricesFromRebinned N fmt w1.heap.length dict ci comb dropna du dof).exec
        ⟨w1.heap ++ [out], w1.warns⟩ with ⟨rs, w3⟩
      rw [hx] at hexec
      simp only at hexec
      rcases mapM_cases (fun p => (pairResult N fmt out dict ci dropna du dof (g p.1) (g p.2)).map fun t =>
        (p.1, p.2, t)) pairs with ⟨vs, m1, m2⟩ | ⟨pre, p, post, e, m1, m2, m3, m4⟩
      · right
        rw [m2] at hexec
        subst hexec
        have m1' : List.Forall₂ (fun p v => v.1 = p.1 ∧ v.2.1 = p.2 ∧
            pairResult N fmt out dict ci dropna du dof (g p.1) (g p.2) = .ok v.2.2) pairs vs := by
          refine m1.imp fun p v hpv => ?_
          cases hq : pairResult N fmt out dict ci dropna du dof (g p.1) (g p.2) with
          | error e => rw [hq] at hpv; cases hpv
          | ok t => rw [hq] at hpv; cases hpv; exact ⟨rfl, rfl, rfl⟩
        obtain ⟨q1, q2, q3⟩ := forall2_pairs (f := fun c0 c1 => pairResult N fmt out dict ci dropna du dof (g c0) (g c1)) m1'
        obtain ⟨j1, j2⟩ := joinDict_keys vs
        have hkeys : ∀ k, k ∈ (joinDict vs).map Prod.fst ↔ ∃ p ∈ pairs, k = p.1 ++ ":" ++ p.2 := by
          intro k
          rw [j2]
          constructor
          · rintro ⟨v, hv, rfl⟩; exact ⟨_, (q3 v hv).1, rfl⟩
          · rintro ⟨p, hp, rfl⟩
            obtain ⟨v, hv, e1, e2⟩ := q2 p hp
            exact ⟨v, hv, by rw [e1, e2]⟩
        refine ⟨joinDict vs, dict, rfl, j1, hkeys, fun hcolon => ?_⟩
        have hinj : ∀ p ∈ pairs, ∀ q ∈ pairs, p.1 ++ ":" ++ p.2 = q.1 ++ ":" ++ q.2 → p = q := by
          intro p hp q hq h
          obtain ⟨a1, a2, -⟩ := hpn p hp
          obtain ⟨b1, b2, -⟩ := hpn q hq
          obtain ⟨e1, e2⟩ := spark_key_inj (hcolon _ a1) (hcolon _ a2) (hcolon _ b1) (hcolon _ b2) (by
            unfold pairKey; simpa using congrArg String.toList h)
          exact Prod.ext e1 e2
        constructor
        · intro p hp
          have hm := (hkeys (p.1 ++ ":" ++ p.2)).2 ⟨p, hp, rfl⟩
          obtain ⟨⟨k, t⟩, hkt, hk'⟩ := List.mem_map.1 hm
          simp only at hk'
          subst hk'
          obtain ⟨pre, v, post, e1, e2, e3, -⟩ := (mem_joinDict vs _ _).1 hkt
          have hv : v ∈ vs := by rw [e1]; simp
          have hpv := hinj p hp _ (q3 v hv).1 e2
          refine ⟨t, ?_, hkt⟩
          rw [hpv, e3]
          exact (q3 v hv).2
        · intro hpd
          have hnd : (vs.map fun p => p.1 ++ ":" ++ p.2.1).Nodup := by
            rw [q1]
            exact hpd.map_on fun p hp q hq h => hinj p hp q hq h
          rw [joinDict_of_nodup vs hnd, List.map_map, ← q1]
          rfl
      · left
        rw [m4] at hexec
        subst hexec
        refine ⟨pre, p, post, e, m1, ?_, ?_, rfl⟩
        · intro q hq
          obtain ⟨t, ht⟩ := m2 q hq
          cases hpq : pairResult N fmt out dict ci dropna du dof (g q.1) (g q.2) with
          | error e => rw [hpq] at ht; cases ht
          | ok t => exact ⟨t, rfl⟩
        · cases hpq : pairResult N fmt out dict ci dropna du dof (g p.1) (g p.2) with
          | error e' => rw [hpq] at m3; cases m3; rfl
          | ok t => rw [hpq] at m3; cases m3

open scoped Classical in
/-- **C47 (violated).** If two of the pairs have equal joined names, which takes a colon in a name, a result is lost: the
dictionary has fewer entries than there are pairs. -/
theorem outlier_matrices_collision (N : OutNum) (fmt : ℚ → String) {fl : ℚ → ℚ} (hfl : fl = (fun x => x) ∨ fl = rne53)
    (pf : String → Option (Option ℚ)) {r : Ref} {w : World} {data : Frame} (hr : w.heap[r]? = some data)
    (hn : data.names.Nodup) (ic : Option (List String)) (ci : String) (bins : Bins) (quantile dropna du dof : Bool)
    (hent : ∀ name ∈ ic.getD (guessIntervalCols data), ∃ s, EntryFor bins name s)
    (hspec : ∀ name ∈ ic.getD (guessIntervalCols data), ∀ s, EntryFor bins name s → SortedSpec s)
    (hrep : ∀ c ∈ data.cols, c.name ∈ ic.getD (guessIntervalCols data) →
      ∀ x ∈ c.cells, ∀ q, toFloat pf x = .ok (some q) → fl q = q)
    (hk : ∀ c ∈ data.cols, Kept (ic.getD (guessIntervalCols data)) dropna c)
    {a b c d : String} (hab : [a, b].Sublist data.names) (hcd : [c, d].Sublist data.names) (hne : (a, b) ≠ (c, d))
    (heq : a ++ ":" ++ b = c ++ ":" ++ d) {m : List (String × Option OutTab)} {dict : List (String × List (ℚ × ℚ))}
    (hres : ((outlierMatrices N fmt fl pf r ic ci bins quantile [] dropna du dof).exec w).1 = .ok (m, dict)) :
    m.length < (comb2 data.names).length := by
  have hkf : data.cols.filter (fun c => decide (Kept (ic.getD (guessIntervalCols data)) dropna c)) = data.cols :=
    List.filter_eq_self.2 fun c hc => by simpa using hk c hc
  obtain ⟨pairs, -, hp, h⟩ := outlier_matrices_result N fmt hfl pf hr hn ic ci bins [] quantile dropna du dof hent hspec hrep
    (kept := data) rfl hkf.symm (by simp)
  obtain ⟨hpn, hpm⟩ := hp rfl
  rcases h with ⟨e, h, -⟩ | ⟨f, -, h⟩
  · rw [hres] at h; cases h
  rcases h with ⟨-, -, -, e, -, -, -, h⟩ | ⟨m', dict', h, h1, h2, -⟩
  · rw [hres] at h; cases h
  rw [hres] at h
  cases h
  have hperm : (comb2 data.names).Perm pairs :=
    (List.perm_ext_iff_of_nodup (nodup_comb2 hn) hpn).2 fun ⟨x, y⟩ => by rw [mem_comb2, hpm]
  rw [hperm.length_eq]
  -- all keys are those of the pairs without (a, b)
  have hsub : m.map Prod.fst ⊆ (pairs.erase (a, b)).map fun p => p.1 ++ ":" ++ p.2 := by
    intro k hkm
    obtain ⟨p, hp, rfl⟩ := (h2 k).1 hkm
    by_cases hpa : p = (a, b)
    · subst hpa
      refine List.mem_map.2 ⟨(c, d), ?_, heq.symm⟩
      exact (hpn.mem_erase_iff).2 ⟨fun h => hne h.symm, (hpm c d).2 hcd⟩
    · exact List.mem_map.2 ⟨p, (hpn.mem_erase_iff).2 ⟨hpa, hp⟩, rfl⟩
  have h3 := (h1.subperm hsub).length_le
  rw [List.length_map, List.length_map, List.length_erase_of_mem ((hpm a b).2 hab)] at h3
  have : 0 < pairs.length := List.length_pos_of_mem ((hpm a b).2 hab)
  omega

/-- Four columns whose names collide; the values are in different records. -/
def colonFrame : Frame := ⟨8, [
  ⟨"a", false, [.str "x", .str "y", .nan, .nan, .nan, .nan, .nan, .nan]⟩,
  ⟨"b:c", false, [.nan, .nan, .str "x", .str "y", .nan, .nan, .nan, .nan]⟩,
  ⟨"a:b", false, [.nan, .nan, .nan, .nan, .str "x", .str "y", .nan, .nan]⟩,
  ⟨"c", false, [.nan, .nan, .nan, .nan, .nan, .nan, .str "x", .str "y"]⟩]⟩

open scoped Classical in
example (N : OutNum) (fmt : ℚ → String) (pf : String → Option (Option ℚ)) :
    ∃ m dict, ((outlierMatrices N fmt (fun x => x) pf 0 none "poisson" (.one (.num 10)) false [] true true true).exec
      ⟨[colonFrame], []⟩).1 = .ok (m, dict) ∧ m.length < 6 := by
  have hg : guessIntervalCols colonFrame = [] := by decide
  have hkept : ∀ c ∈ colonFrame.cols, Kept ((none : Option (List String)).getD (guessIntervalCols colonFrame)) true c := by
    intro c hc
    unfold Kept
    rw [← nunique_eq, Option.getD_none, hg]
    revert c
    decide
  have hkf : colonFrame.cols.filter (fun c =>
      decide (Kept ((none : Option (List String)).getD (guessIntervalCols colonFrame)) true c)) = colonFrame.cols :=
    List.filter_eq_self.2 fun c hc => by simpa using hkept c hc
  obtain ⟨pairs, -, hp, h⟩ := outlier_matrices_result N fmt (.inl rfl) pf (r := 0) (w := ⟨[colonFrame], []⟩)
    (data := colonFrame) rfl (by decide) none "poisson" (.one (.num 10)) [] false true true true
    (by rw [Option.getD_none, hg]; simp) (by rw [Option.getD_none, hg]; simp) (by intros; rfl) (kept := colonFrame) rfl hkf.symm
    (by simp)
  obtain ⟨hpn, hpm⟩ := hp rfl
  have hnone : ∀ a ∈ colonFrame.cols, ∀ b ∈ colonFrame.cols, a.name ≠ b.name →
      ∀ p ∈ a.cells.zip b.cells, p.1 = .nan ∨ p.2 = .nan := by decide
  rcases h with ⟨e, -, h⟩ | ⟨f, hf, h⟩
  · exfalso
    rw [Option.getD_none, hg] at h
    cases h
  · have hfn : ∀ p ∈ pairs, f p.1 p.2 = .ok none := by
      rintro ⟨x, y⟩ hxy
      have hs := (hpm x y).1 hxy
      obtain ⟨a, ha, rfl⟩ := List.mem_map.1 (hs.subset (by simp : x ∈ [x, y]))
      obtain ⟨b, hb, rfl⟩ := List.mem_map.1 (hs.subset (by simp : y ∈ [a.name, y]))
      have hne : a.name ≠ b.name := by
        have : colonFrame.names.Nodup := by decide
        simpa using this.sublist hs
      obtain ⟨ea, eb, ra, rb, n, h1, h2, h3, h4⟩ := hf a ha b hb
      have hea : ea = none := by
        cases ea with
        | none => rfl
        | some e => rw [Option.getD_none, hg] at h1; exact absurd h1.1 (by simp)
      have heb : eb = none := by
        cases eb with
        | none => rfl
        | some e => rw [Option.getD_none, hg] at h2; exact absurd h2.1 (by simp)
      subst hea heb
      have nob : ∀ c, ¬ Belongs pf true true true none .nan c := by
        intro c h
        cases h with
        | value h => simp [view] at h
      have hra : ra = [] := by
        rw [List.eq_nil_iff_forall_not_mem]
        intro c hc
        obtain ⟨p, hp, k1, d, k2⟩ := (h3.rows_mem c).1 hc
        rcases hnone a ha b hb hne p hp with h | h
        · rw [h] at k1; exact nob _ k1
        · rw [h] at k2; exact nob _ k2
      subst hra
      simp only
      cases hres : f a.name b.name with
      | error e => rw [hres] at h4; exact absurd h4.1 (by simp)
      | ok t =>
        cases t with
        | none => rfl
        | some t => rw [hres] at h4; exact absurd h4.1 (by simp)
    rcases h with ⟨pre, p, post, e, h1, -, h2, -⟩ | ⟨m, dict, h, -⟩
    · rw [hfn p (by rw [h1]; simp)] at h2; cases h2
    · refine ⟨m, dict, h, ?_⟩
      exact outlier_matrices_collision N fmt (.inl rfl) pf (r := 0) (w := ⟨[colonFrame], []⟩)
        (data := colonFrame) rfl (by decide) none "poisson" (.one (.num 10)) false true true true
        (by rw [Option.getD_none, hg]; simp) (by rw [Option.getD_none, hg]; simp) (by intros; rfl) hkept
        (a := "a") (b := "b:c") (c := "a:b") (d := "c") (by decide) (by decide) (by decide) (by decide) h

/-- **C34.** Neither does `outlier_significance_matrices`: no entry of its result is a matrix. -/
theorem ci_unknown_matrices (N : OutNum) (fmt : ℚ → String) (fl : ℚ → ℚ) (pf : String → Option (Option ℚ)) (r : Ref)
    (ic : Option (List String)) {ci : String} (h1 : ci ≠ "poisson") (h2 : ci ≠ "exact_poisson") (bins : Bins)
    (quantile : Bool) (comb : List (String × String)) (dropna du dof : Bool) {w w' : World}
    {m : List (String × Option OutTab)} {dict : List (String × List (ℚ × ℚ))}
    (h : (outlierMatrices N fmt fl pf r ic ci bins quantile comb dropna du dof).exec w = (.ok (m, dict), w')) :
    ∀ p ∈ m, p.2 = none := by
  have hloop : ∀ (co : List (String × String)) (r : Ref) (dict : List (String × List (ℚ × ℚ))) (w w' : World)
      (l : List (String × String × Option OutTab)),
      (outlierLoop N fmt r dict ci dropna du dof co).exec w = (.ok l, w') → ∀ p ∈ l, p.2.2 = none := by
    intro co
    induction co with
    | nil => intro r dict w w' l h; cases h; simp
    | cons p co ih =>
      intro r dict w w' l h
      obtain ⟨c0, c1⟩ := p
      unfold outlierLoop at h
      obtain ⟨data, wa, -, ha⟩ := M.exec_bind_ok h
      obtain ⟨a, wb, -, hb⟩ := M.exec_bind_ok ha
      obtain ⟨b, wc, -, hc⟩ := M.exec_bind_ok hb
      split at hc
      · cases hc
      · obtain ⟨s, wd, -, hd⟩ := M.exec_bind_ok hc
        obtain ⟨t, we, ht, he⟩ := M.exec_bind_ok hd
        obtain ⟨l', wf, hl, hf⟩ := M.exec_bind_ok he
        cases hf
        intro p hp
        rcases List.mem_cons.1 hp with rfl | hp
        · cases t with
          | none => rfl
          | some t => exact absurd (congrArg Prod.fst ht) (ci_unknown_rebinned N fmt _ _ h1 h2 _ _ _ _ _)
        · exact ih _ _ _ _ _ hl p hp
  unfold outlierMatrices at h
  obtain ⟨df, wa, -, ha⟩ := M.exec_bind_ok h
  obtain ⟨p1, wb, -, hb⟩ := M.exec_bind_ok ha
  obtain ⟨p2, wc, -, hc⟩ := M.exec_bind_ok hb
  obtain ⟨l, wd, hl, hd⟩ := M.exec_bind_ok hc
  cases hd
  unfold outlierMatricesFromRebinned at hl
  obtain ⟨df', we, -, he⟩ := M.exec_bind_ok hl
  rintro ⟨k, v⟩ hp
  obtain ⟨pre, q, post, e1, -, e3, -⟩ := (mem_joinDict l k v).1 hp
  rw [e3]
  exact hloop _ _ _ _ _ _ he q (by rw [e1]; simp)

end Props

end Phik
