import Verif.Props.Tasks
import Verif.Props.Matrix

/-! # Property C28: the keys of the histogram dictionary -/

namespace Phik

open Spec Props

theorem splitColon_ne_nil (l : List Char) : splitColon l ≠ [] := by
  cases l with
  | nil => simp [splitColon]
  | cons c cs =>
    unfold splitColon
    split
    · simp
    · split <;> simp

theorem splitColon_plain {a : List Char} (h : ':' ∉ a) : splitColon a = [a] := by
  induction a with
  | nil => rfl
  | cons c cs ih =>
    simp only [List.mem_cons, not_or] at h
    unfold splitColon
    rw [if_neg (Ne.symm h.1), ih h.2]

theorem splitColon_append {a : List Char} (h : ':' ∉ a) (b : List Char) :
    splitColon (a ++ ':' :: b) = a :: splitColon b := by
  induction a with
  | nil => simp [splitColon]
  | cons c cs ih =>
    simp only [List.mem_cons, not_or] at h
    rw [List.cons_append, splitColon, if_neg (Ne.symm h.1), ih h.2]

theorem cwr_mem {α : Type} {l : List α} {a b : α} (h : (a, b) ∈ cwr l) : a ∈ l ∧ b ∈ l := by
  rcases mem_cwr.1 h with ⟨rfl, h'⟩ | h
  · exact ⟨h', h'⟩
  · exact ⟨h.subset (by simp), h.subset (by simp)⟩

theorem overview_sorted (vals : List (String × String × Option ℝ)) :
    (overview vals).rows.Pairwise (· < ·) ∧ (overview vals).cols.Pairwise (· < ·) := by
  constructor
  · simp only [overview]; exact (Finset.sortedLT_sort (α := String) _).pairwise
  · simp only [overview]; exact (Finset.sortedLT_sort (α := String) _).pairwise

/-- The labels of the overview table. -/
theorem overview_rows (vals : List (String × String × Option ℝ)) (a : String) :
    a ∈ (overview vals).rows ↔ ∃ b v, ((a, b, v) ∈ vals ∨ (b, a, v) ∈ vals) ∧ ((overview vals).v a b).isSome := by
  simp only [overview, Finset.mem_sort, List.mem_toFinset, List.mem_map, List.mem_filter, List.mem_flatMap,
    List.mem_cons, List.not_mem_nil, or_false]
  constructor
  · rintro ⟨p, ⟨⟨q, hq, rfl | rfl⟩, h⟩, rfl⟩
    · exact ⟨q.2.1, q.2.2, .inl hq, h⟩
    · exact ⟨q.1, q.2.2, .inr hq, h⟩
  · rintro ⟨b, v, h | h, hs⟩
    · exact ⟨(a, b, v), ⟨⟨_, h, .inl rfl⟩, hs⟩, rfl⟩
    · exact ⟨(a, b, v), ⟨⟨_, h, .inr rfl⟩, hs⟩, rfl⟩

theorem overview_cols (vals : List (String × String × Option ℝ)) (a : String) :
    a ∈ (overview vals).cols ↔ ∃ b v, ((a, b, v) ∈ vals ∨ (b, a, v) ∈ vals) ∧ ((overview vals).v b a).isSome := by
  simp only [overview, Finset.mem_sort, List.mem_toFinset, List.mem_map, List.mem_filter, List.mem_flatMap,
    List.mem_cons, List.not_mem_nil, or_false]
  constructor
  · rintro ⟨p, ⟨⟨q, hq, rfl | rfl⟩, h⟩, rfl⟩
    · exact ⟨q.1, q.2.2, .inr hq, h⟩
    · exact ⟨q.2.1, q.2.2, .inl hq, h⟩
  · rintro ⟨b, v, h | h, hs⟩
    · exact ⟨(b, a, v), ⟨⟨_, h, .inr rfl⟩, hs⟩, rfl⟩
    · exact ⟨(b, a, v), ⟨⟨_, h, .inl rfl⟩, hs⟩, rfl⟩

namespace Props

/-- The key of a pair of names. -/
def pairKey (a b : String) : List Char := a.toList ++ ':' :: b.toList

/-- **C28 (rows).** Names without a colon: the histogram under 'a:b' gives the value for the pair (a, b),
which is 1 when a and b are the same name and phik of the table (with noise correction) otherwise; what
the computation of phik raises is raised, except for TypeError. -/
theorem spark_row (nm : Numerics) {a b : String} (ha : ':' ∉ a.toList) (hb : ':' ∉ b.toList)
    (g : Option (Arr2 ℝ)) :
    (a = b → phikFromRow nm (pairKey a b) g = .ok (a.toList, b.toList, some 1)) ∧
    (∀ x, a ≠ b → (∃ t, g = some t ∧ phikFromHist2d nm.mvn nm.brentq t true = .ok x) →
      phikFromRow nm (pairKey a b) g = .ok (a.toList, b.toList, some x)) ∧
    (∀ e, a ≠ b → e ≠ .type → (∃ t, g = some t ∧ phikFromHist2d nm.mvn nm.brentq t true = .error e) →
      phikFromRow nm (pairKey a b) g = .error e) ∧
    (a ≠ b → g = none → phikFromRow nm (pairKey a b) g = .ok (a.toList, b.toList, none)) := by
  have hsplit : splitColon (pairKey a b) = [a.toList, b.toList] := by
    unfold pairKey
    rw [splitColon_append ha, splitColon_plain hb]
  have hinj : a ≠ b → a.toList ≠ b.toList := fun h e => h (String.toList_injective e)
  refine ⟨?_, ?_, ?_, ?_⟩
  · rintro rfl
    unfold phikFromRow
    simp only [hsplit, bind, Except.bind, pure, Except.pure]
    rw [if_pos ⟨rfl, rfl⟩]; rfl
  · rintro x hab ⟨t, rfl, ht⟩
    unfold phikFromRow
    simp only [hsplit, bind, Except.bind, pure, Except.pure, ht]
    rw [if_neg (by simpa using hinj hab)]
  · rintro e hab he ⟨t, rfl, ht⟩
    unfold phikFromRow
    simp only [hsplit, bind, Except.bind, pure, Except.pure, ht]
    rw [if_neg (by simpa using hinj hab)]
    cases e <;> simp_all <;> rfl
  · rintro hab rfl
    unfold phikFromRow
    simp only [hsplit, bind, Except.bind, pure, Except.pure]
    rw [if_neg (by simpa using hinj hab)]

/-- **C28 (no colon).** A key without a colon never gives a value: IndexError, or what the computation of
phik raises. -/
theorem spark_no_colon (nm : Numerics) {key : List Char} (h : ':' ∉ key) (g : Option (Arr2 ℝ)) :
    phikFromRow nm key g = .error .index ∨
    ∃ t e, g = some t ∧ phikFromHist2d nm.mvn nm.brentq t true = .error e ∧ phikFromRow nm key g = .error e := by
  have hsplit := splitColon_plain h
  unfold phikFromRow
  simp only [hsplit, bind, Except.bind, pure, Except.pure]
  rw [if_neg (by simp)]
  cases g with
  | none => left; rfl
  | some t =>
    simp only
    cases ht : phikFromHist2d nm.mvn nm.brentq t true with
    | ok x => left; rfl
    | error e =>
      by_cases he : e = .type
      · subst he; left; rfl
      · right
        refine ⟨t, e, rfl, ht, ?_⟩
        cases e <;> simp_all <;> rfl

/-- **C28 (more than one colon).** Everything after the second colon of the key is ignored, and equal
names are not recognised: the table is evaluated. -/
theorem spark_truncated (nm : Numerics) {a b : String} (ha : ':' ∉ a.toList) (hb : ':' ∉ b.toList)
    (rest : List Char) {t : Arr2 ℝ} {x : ℝ} (ht : phikFromHist2d nm.mvn nm.brentq t true = .ok x) :
    phikFromRow nm (pairKey a b ++ ':' :: rest) (some t) = .ok (a.toList, b.toList, some x) := by
  have hsplit : splitColon (pairKey a b ++ ':' :: rest) = a.toList :: b.toList :: splitColon rest := by
    unfold pairKey
    rw [List.append_assoc, List.cons_append, splitColon_append ha, splitColon_append hb]
  have := splitColon_ne_nil rest
  unfold phikFromRow
  simp only [hsplit, bind, Except.bind, pure, Except.pure, ht]
  rw [if_neg]
  rintro ⟨h, -⟩
  simp only [List.length_cons] at h
  exact this (List.length_eq_zero_iff.1 (by omega))

/-- **C28 (colons are ambiguous).** Different pairs of names can have the same key. -/
theorem spark_key_clash : ∃ a b c d : String, (a, b) ≠ (c, d) ∧ pairKey a b = pairKey c d :=
  ⟨"a", "b:c", "a:b", "c", by decide, by decide⟩

/-- Without colons they cannot. -/
theorem spark_key_inj {a b c d : String} (ha : ':' ∉ a.toList) (hb : ':' ∉ b.toList) (hc : ':' ∉ c.toList)
    (hd : ':' ∉ d.toList) (h : pairKey a b = pairKey c d) : a = c ∧ b = d := by
  have h1 : splitColon (pairKey a b) = [a.toList, b.toList] := by
    unfold pairKey; rw [splitColon_append ha, splitColon_plain hb]
  have h2 : splitColon (pairKey c d) = [c.toList, d.toList] := by
    unfold pairKey; rw [splitColon_append hc, splitColon_plain hd]
  rw [h, h2] at h1
  simp only [List.cons.injEq, and_true] at h1
  exact ⟨String.toList_injective h1.1.symm, String.toList_injective h1.2.symm⟩

/-- **C28 (matrix).** For a dictionary with one table for every unordered pair of names without colons
(also the pairs of a name with itself), each with a phik value, and every execution order: the matrix is
symmetric, its labels are the names in sorted order, the diagonal is 1 and the entry of two names is phik
of their table. -/
theorem spark_matrix (nm : Numerics) {sched : Option (List ℕ)} {names : List String} (hn : names.Nodup)
    (hcolon : ∀ a ∈ names, ':' ∉ a.toList) (g : String → String → Arr2 ℝ) (val : String → String → ℝ)
    (hval : ∀ a b, [a, b].Sublist names → phikFromHist2d nm.mvn nm.brentq (g a b) true = .ok (val a b))
    (hs : ValidSched (cwr names).length sched) :
    ∃ t, sparkPhikMatrix nm sched ((cwr names).map fun p => (pairKey p.1 p.2, some (g p.1 p.2))) = .ok t ∧
      t.rows.Pairwise (· < ·) ∧ (∀ a, a ∈ t.rows ↔ a ∈ names) ∧ t.cols = t.rows ∧
      (∀ a ∈ names, t.v a a = some 1) ∧
      (∀ a b, [a, b].Sublist names → t.v a b = some (val a b) ∧ t.v b a = some (val a b)) := by
  set f : String → String → Option ℝ := fun a b => if a = b then some 1 else some (val a b) with hf
  have hrows : ((cwr names).map fun p => (pairKey p.1 p.2, some (g p.1 p.2))).map
      (fun p => phikFromRow nm p.1 p.2) =
      ((cwr names).map fun p => (p.1.toList, p.2.toList, f p.1 p.2)).map .ok := by
    rw [List.map_map, List.map_map]
    apply List.map_congr_left
    rintro ⟨a, b⟩ hab
    rw [mem_cwr] at hab
    simp only [Function.comp]
    rcases hab with ⟨rfl, ha⟩ | hab
    · rw [(spark_row nm (hcolon a ha) (hcolon a ha) _).1 rfl]; simp [hf]
    · have ha := hcolon a (hab.subset (by simp))
      have hb := hcolon b (hab.subset (by simp))
      have hne := sublist_ne hn hab
      rw [(spark_row nm ha hb _).2.1 (val a b) hne ⟨_, rfl, hval a b hab⟩]
      simp [hf, hne]
  have hkeep : ∀ a b, (a, b) ∈ cwr names → ((overview ((cwr names).map fun p => (p.1, p.2, f p.1 p.2))).v a b).isSome ∧
      ((overview ((cwr names).map fun p => (p.1, p.2, f p.1 p.2))).v b a).isSome := by
    intro a b hab
    rcases mem_cwr.1 hab with ⟨rfl, ha⟩ | hab
    · have h1 := (overview_pairs hn f (a := a) (b := a)).1 ha
      rw [h1]; simp [hf]
    · obtain ⟨h1, h2⟩ := (overview_pairs hn f (a := a) (b := b)).2 hab
      rw [h1, h2]; simp [hf]; split <;> simp
  have hmem : ∀ a, a ∈ (overview ((cwr names).map fun p => (p.1, p.2, f p.1 p.2))).rows ↔ a ∈ names := by
    intro a
    rw [overview_rows]
    constructor
    · rintro ⟨b, v, h, -⟩
      simp only [List.mem_map, Prod.mk.injEq, Prod.exists] at h
      rcases h with ⟨x, y, hxy, rfl, rfl, -⟩ | ⟨x, y, hxy, rfl, rfl, -⟩
      · exact (cwr_mem hxy).1
      · exact (cwr_mem hxy).2
    · intro ha
      exact ⟨a, _, .inl (List.mem_map.2 ⟨(a, a), mem_cwr.2 (.inl ⟨rfl, ha⟩), rfl⟩),
        (hkeep a a (mem_cwr.2 (.inl ⟨rfl, ha⟩))).1⟩
  have hmemc : ∀ a, a ∈ (overview ((cwr names).map fun p => (p.1, p.2, f p.1 p.2))).cols ↔ a ∈ names := by
    intro a
    rw [overview_cols]
    constructor
    · rintro ⟨b, v, h, -⟩
      simp only [List.mem_map, Prod.mk.injEq, Prod.exists] at h
      rcases h with ⟨x, y, hxy, rfl, rfl, -⟩ | ⟨x, y, hxy, rfl, rfl, -⟩
      · exact (cwr_mem hxy).1
      · exact (cwr_mem hxy).2
    · intro ha
      exact ⟨a, _, .inl (List.mem_map.2 ⟨(a, a), mem_cwr.2 (.inl ⟨rfl, ha⟩), rfl⟩),
        (hkeep a a (mem_cwr.2 (.inl ⟨rfl, ha⟩))).1⟩
  refine ⟨overview ((cwr names).map fun p => (p.1, p.2, f p.1 p.2)), ?_, ?_, ?_, ?_, ?_, ?_⟩
  · unfold sparkPhikMatrix
    rw [if_neg (by simp)]
    rw [hrows]
    have hrun : runTasks sched (((cwr names).map fun p => (p.1.toList, p.2.toList, f p.1 p.2)).map .ok) =
        .ok ((cwr names).map fun p => (p.1.toList, p.2.toList, f p.1 p.2)) := by
      rw [runTasks_ok_iff (by simpa using hs)]
    rw [hrun]
    simp only [bind, Except.bind, pure, Except.pure, List.map_map, Function.comp_def, String.ofList_toList]
  · exact (overview_sorted _).1
  · exact hmem
  · have h1 := (overview_sorted ((cwr names).map fun p => (p.1, p.2, f p.1 p.2))).1
    have h2 := (overview_sorted ((cwr names).map fun p => (p.1, p.2, f p.1 p.2))).2
    have hp : (overview ((cwr names).map fun p => (p.1, p.2, f p.1 p.2))).cols.Perm
        (overview ((cwr names).map fun p => (p.1, p.2, f p.1 p.2))).rows :=
      (List.perm_ext_iff_of_nodup (h2.imp ne_of_lt) (h1.imp ne_of_lt)).2 fun a => (hmemc a).trans (hmem a).symm
    exact hp.eq_of_pairwise (fun a b _ _ hab hba => absurd hba (not_lt_of_gt hab)) h2 h1
  · intro a ha
    rw [(overview_pairs hn f).1 ha]; simp [hf]
    exact a
  · intro a b hab
    obtain ⟨h1, h2⟩ := (overview_pairs hn f (a := a) (b := b)).2 hab
    rw [h1, h2]
    simp [hf, sublist_ne hn hab]

/-- **C28 (type check).** A value of the dictionary that is not an array raises TypeError. -/
theorem spark_type_error (nm : Numerics) (sched : Option (List ℕ)) {hists : List (List Char × Option (Arr2 ℝ))}
    {k : List Char} (h : (k, none) ∈ hists) : sparkPhikMatrix nm sched hists = .error .type := by
  unfold sparkPhikMatrix
  rw [if_pos (List.any_eq_true.2 ⟨_, h, rfl⟩)]
  rfl

/-- A dictionary for two variables: the table of two identical columns with three categories for the
mixed pair. -/
example : ∃ t, sparkPhikMatrix ⟨toyMvn, idealBrentq⟩ none
    [("x:x".toList, some exDiag), ("x:y".toList, some exDiag), ("y:y".toList, some exDiag)] = .ok t ∧
    t.rows = ["x", "y"] ∧ t.v "y" "x" = some 1 := by
  obtain ⟨t, h1, h2, h3, -, -, h4⟩ := spark_matrix ⟨toyMvn, idealBrentq⟩ (sched := none) (names := ["x", "y"])
    (by decide) (by decide) (fun _ _ => exDiag) (fun _ _ => 1)
    (fun _ _ _ => phik_determined toyMvn_spec idealBrentq_spec exDiag_data.1 (by simp [exDiag]) (by simp [exDiag])
      (by simp [exDiag]) (.inl exDiag_data.2) true) (fun _ h => by cases h)
  refine ⟨t, h1, ?_, (h4 "x" "y" (List.Sublist.refl _)).2⟩
  have hp : t.rows.Perm ["x", "y"] := (List.perm_ext_iff_of_nodup (h2.imp ne_of_lt) (by decide)).2 h3
  exact hp.eq_of_pairwise (fun a b _ _ hab hba => absurd hba (not_lt_of_gt hab)) h2 (by decide)

end Props
end Phik
