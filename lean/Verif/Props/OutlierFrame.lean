import Verif.Props.OutlierTable
import Verif.Props.SigMatrix
import Verif.Lemmas.OutlierFrame
import Verif.Props.Edges

/-! # Properties C46, C34: outlier significance matrices of frames -/

namespace Phik

open Spec Props Out

/-- `c'` is the column `c` after binning with the edges `ed`, with its entry in the dictionary. -/
def BinnedCol (pf : String → Option (Option ℚ)) (dict : List (String × List (ℚ × ℚ))) (c c' : Column) :
    Option (List ℚ) → Prop
  | none => c' = c ∧ dict.lookup c.name = none
  | some e => c'.name = c.name ∧ ∃ arr, c.cells.mapM (toFloat pf) = .ok arr ∧ c'.cells = (binArray arr e).1 ∧
      dict.lookup c.name = some (binArray arr e).2

/-- Edges in ascending order, at least one. -/
def GoodEdges : Option (List ℚ) → Prop
  | none => True
  | some e => e ≠ [] ∧ e.Pairwise (· ≤ ·)

/-- The category of a label of the binned column. -/
def catFn : Option (List ℚ) → Cell → Category
  | none => .value
  | some e => binCat e

theorem BinnedCol.name {pf : String → Option (Option ℚ)} {dict : List (String × List (ℚ × ℚ))} {c c' : Column}
    {ed : Option (List ℚ)} (h : BinnedCol pf dict c c' ed) : c'.name = c.name := by
  cases ed with
  | none => rw [h.1]
  | some e => exact h.1

theorem BinnedCol.axis {pf : String → Option (Option ℚ)} {dict : List (String × List (ℚ × ℚ))} {c c' : Column}
    {ed : Option (List ℚ)} (h : BinnedCol pf dict c c' ed) (hg : GoodEdges ed) (dropna du dof : Bool) :
    Axis pf dropna du dof ed c.cells c'.cells (catFn ed) := by
  cases ed with
  | none => rw [h.1]; exact axis_plain pf dropna du dof _
  | some e =>
    obtain ⟨-, arr, h1, h2, -⟩ := h
    rw [h2]
    exact axis_binned dropna du dof hg.2 hg.1 h1

theorem BinnedCol.relabel {pf : String → Option (Option ℚ)} {dict : List (String × List (ℚ × ℚ))} {c c' : Column}
    {ed : Option (List ℚ)} (h : BinnedCol pf dict c c' ed) (fmt : ℚ → String) {dropna du dof : Bool} {g : Cell → Cell}
    (hg : ∀ c, (g c).opt = view dropna du dof c) {labels : List Cell} (hl : labels.Pairwise (· < ·))
    (hlab : ∀ v ∈ labels, v ≠ .nan ∧ ∃ y ∈ c'.cells, view dropna du dof y = some v) :
    Phik.relabel fmt dict { c' with cells := c'.cells.map g } labels =
      .ok ((labels.map (catFn ed)).map (Category.name fmt)) := by
  unfold Phik.relabel
  rw [List.map_map]
  cases ed with
  | none =>
    obtain ⟨rfl, h2⟩ := h
    simp only [h2]
    congr 1
    conv_lhs => rw [← List.map_id labels]
    rfl
  | some e =>
    obtain ⟨h0, arr, h1, h2, h3⟩ := h
    simp only [h0, h3, h2]
    rw [relabel_binned fmt hg arr e hl]
    · congr 1
      apply List.map_congr_left
      intro v hv
      exact (binCat_name fmt e (hlab v hv).1).symm
    · intro v hv
      obtain ⟨-, y, hy, he⟩ := hlab v hv
      rw [h2, binArray_fst] at hy
      obtain ⟨x, hx, rfl⟩ := List.mem_map.1 hy
      exact ⟨x, hx, he⟩

theorem arr2_cast {α : Type} {r c r' c' : ℕ} (f : Fin r → Fin c → α) (hr : r' = r) (hc : c' = c) :
    (⟨r', c', fun i j => f (i.cast hr) (j.cast hc)⟩ : Arr2 α) = ⟨r, c, f⟩ := by
  subst hr hc; rfl

theorem outlierFromHist2d_shape {N : OutNum} {t : Arr2 ℕ} {ci : String} {z : Arr2 (Option ℝ × FVal)}
    (h : outlierFromHist2d N t ci = .ok z) : ∃ g, z = ⟨t.r, t.c, g⟩ := by
  unfold outlierFromHist2d at h
  split at h
  · cases h
  · obtain ⟨g, hg, -⟩ := cells2_inv h
    exact ⟨g, hg⟩

theorem view_ne_nan {dropna du dof : Bool} {y v : Cell} (h : view dropna du dof y = some v) : v ≠ .nan := by
  cases y with
  | nan => simp only [view] at h; split at h <;> cases h; simp
  | num q => simp only [view] at h; cases h; simp
  | str s =>
    simp only [view] at h
    split at h
    · cases h
    split at h <;> cases h
    simp

/-- `outlier_significance_matrix_from_rebinned_df` on two binned columns. -/
theorem outlierFromRebinned_exec (N : OutNum) (fmt : ℚ → String) {pf : String → Option (Option ℚ)} {r : Ref} {w : World}
    {f : Frame} (hr : w.heap[r]? = some f) {dict : List (String × List (ℚ × ℚ))} {a b a' b' : Column}
    (hc : f.cols = [a', b']) {ea eb : Option (List ℚ)} (HA : BinnedCol pf dict a a' ea)
    (HB : BinnedCol pf dict b b' eb) (ga : GoodEdges ea) (gb : GoodEdges eb) (ci : String) (dropna du dof : Bool) :
    ∃ ra rb n res w', (outlierFromRebinned N fmt r dict ci dropna du dof).exec w = (res, w') ∧
      Counts pf dropna du dof ea eb a b ra rb n ∧ IsOutlierMatrix N fmt ci ra rb n res ∧
      w'.heap = w.heap.set r (applyFlags dropna du dof f) ∧
      w'.warns = w.warns ++ (if ra.length < 2 ∨ rb.length < 2 then [.tooFewOut a.name ra.length b.name rb.length] else []) := by
  obtain ⟨h, e1, ht⟩ := hist2dFromRebinned_exec hr hc dropna du dof
  obtain ⟨g, hg1, hg2⟩ := applyFlags_cols dropna du dof f
  have hcols : (applyFlags dropna du dof f).cols =
      [{ a' with cells := a'.cells.map g }, { b' with cells := b'.cells.map g }] := by
    rw [hg1, Frame.mapCells, hc]; rfl
  have hread : (w.heap.set r (applyFlags dropna du dof f))[r]? = some (applyFlags dropna du dof f) := by
    rw [List.getElem?_set_self]
    exact (List.getElem?_eq_some_iff.1 hr).1
  have C := counts_of_axes (HA.axis ga dropna du dof) (HB.axis gb dropna du dof) ht
  refine ⟨h.rows.map (catFn ea), h.cols.map (catFn eb), fun i j => h.v (i.cast (by simp)) (j.cast (by simp)), ?_⟩
  unfold outlierFromRebinned
  rw [M.exec_bind, e1]
  simp only
  rw [M.exec_bind, M.exec_read_of hread]
  simp only [hcols]
  by_cases hf : (h.rows.length = 1 ∨ h.cols.length = 1) ∨ (h.rows.length = 0 ∨ h.cols.length = 0)
  · rw [if_pos hf, M.exec_bind, M.exec_warn]
    refine ⟨_, _, rfl, C, ?_, rfl, ?_⟩
    · change List.length _ < 2 ∨ List.length _ < 2
      simp only [List.length_map]; omega
    · rw [if_pos (by simp only [List.length_map]; omega)]
      simp only [List.length_map, HA.name, HB.name]
  · rw [if_neg hf]
    have hlr : ∀ v ∈ h.rows, v ≠ .nan ∧ ∃ y ∈ a'.cells, view dropna du dof y = some v := by
      intro v hv
      obtain ⟨u, hu⟩ := (ht.rows_mem v).1 hv
      obtain ⟨p, hp, he⟩ := List.mem_map.1 hu
      simp only [Prod.mk.injEq] at he
      exact ⟨view_ne_nan he.1, _, (List.of_mem_zip hp).1, he.1⟩
    have hlc : ∀ v ∈ h.cols, v ≠ .nan ∧ ∃ y ∈ b'.cells, view dropna du dof y = some v := by
      intro v hv
      obtain ⟨u, hu⟩ := (ht.cols_mem v).1 hv
      obtain ⟨p, hp, he⟩ := List.mem_map.1 hu
      simp only [Prod.mk.injEq] at he
      exact ⟨view_ne_nan he.2, _, (List.of_mem_zip hp).2, he.2⟩
    rw [HA.relabel fmt hg2 ht.rows_sorted hlr, HB.relabel fmt hg2 ht.cols_sorted hlc]
    simp only [M.exec_bind, M.exec_ofExcept]
    have harr : h.arr = ⟨h.rows.length, h.cols.length, h.v⟩ := rfl
    have hcast : ∀ z, outlierFromHist2d N ⟨(h.rows.map (catFn ea)).length, (h.cols.map (catFn eb)).length,
        fun i j => h.v (i.cast (by simp)) (j.cast (by simp))⟩ ci = z ↔ outlierFromHist2d N h.arr ci = z := by
      intro z
      rw [harr]
      have : (⟨(h.rows.map (catFn ea)).length, (h.cols.map (catFn eb)).length,
        fun i j => h.v (i.cast (by simp)) (j.cast (by simp))⟩ : Arr2 ℕ) = ⟨h.rows.length, h.cols.length, h.v⟩ :=
        arr2_cast h.v _ _
      rw [this]
    have l1 : 2 ≤ (h.rows.map (catFn ea)).length := by simp only [List.length_map]; omega
    have l2 : 2 ≤ (h.cols.map (catFn eb)).length := by simp only [List.length_map]; omega
    cases hz : outlierFromHist2d N h.arr ci with
    | error e =>
      refine ⟨_, _, rfl, C, ⟨l1, l2, ?_⟩, rfl, by rw [if_neg (by omega)]; simp⟩
      rw [hcast, hz]
    | ok z =>
      obtain ⟨zv, hzv⟩ := outlierFromHist2d_shape hz
      have hzr : z.r = h.rows.length := by rw [hzv]; rfl
      have hzc : z.c = h.cols.length := by rw [hzv]; rfl
      simp only
      rw [dif_pos ⟨by rw [hzr]; simp, by rw [hzc]; simp⟩]
      refine ⟨_, _, rfl, C, ⟨l1, l2, rfl, rfl, fun i j => z.v (i.cast (by rw [hzr]; simp)) (j.cast (by rw [hzc]; simp)),
        ?_, ?_⟩, rfl, by rw [if_neg (by omega)]; simp⟩
      · rw [hcast, hz]
        congr 1
        exact (arr2_cast z.v (by rw [hzr]; simp) (by rw [hzc]; simp)).symm
      · intro i j i' j' hi hj
        simp only
        congr 2
        · ext; simp [hi]
        · ext; simp [hj]

/-- The columns of a binned frame. -/
theorem binned_cols {fl : ℚ → ℚ} {pf : String → Option (Option ℚ)} {data : Frame} (hn : data.names.Nodup)
    {bins : Bins} {quantile : Bool} {ic : List String} {out : Frame} {dict : List (String × List (ℚ × ℚ))}
    (hent : ∀ name ∈ ic, ∃ s, EntryFor bins name s ∧ s ≠ .other)
    (h : binDataCore fl pf data ic bins quantile = .ok (out, dict)) :
    ∃ (ed : Column → Option (List ℚ)) (bc : Column → Column), out.cols = data.cols.map bc ∧
      ∀ c ∈ data.cols, EdgesFor fl pf quantile bins ic c (ed c) ∧ BinnedCol pf dict c (bc c) (ed c) := by
  classical
  obtain ⟨f, h1, h2, h3, h4⟩ := binDataCore_spec hent h
  have hch : ∀ name : String, ∃ e : List ℚ, name ∈ ic → ∃ arr s, colFloats pf data name = .ok arr ∧
      EntryFor bins name s ∧ Requested fl quantile arr s e ∧ f name = binArray arr e := by
    intro name
    by_cases hi : name ∈ ic
    · obtain ⟨arr, e, s, g⟩ := h1 name hi
      exact ⟨e, fun _ => ⟨arr, s, g⟩⟩
    · exact ⟨[], fun h => absurd h hi⟩
  choose e he using hch
  refine ⟨fun c => if c.name ∈ ic then some (e c.name) else none, _, h3, fun c hc => ?_⟩
  by_cases hi : c.name ∈ ic
  · simp only [hi, if_true]
    obtain ⟨arr, s, g1, g2, g3, g4⟩ := he c.name hi
    have g1' : c.cells.mapM (toFloat pf) = .ok arr := by
      unfold colFloats at g1
      rw [getCol_of_mem hn hc] at g1
      exact g1
    refine ⟨⟨hi, arr, s, g1', g2, g3⟩, rfl, arr, g1', ?_, ?_⟩
    · rw [g4]
    · rw [h4, if_pos hi, g4]
  · simp only [hi, if_false]
    exact ⟨hi, rfl, by rw [h4, if_neg hi]⟩

theorem binEdges_ne_nil {fl : ℚ → ℚ} {arr : List ℚ} {n : ℤ} (hn : 1 ≤ n) {quantile : Bool} {edges : List ℚ}
    (h : binEdges fl arr n quantile = .ok edges) : edges ≠ [] := by
  cases quantile with
  | true =>
    unfold binEdges at h
    simp only [if_true] at h
    obtain ⟨qs, -, h⟩ := except_bind_ok h
    split at h
    · cases h
    · have h' : ∀ l : List ℚ, (match l with
        | [] => (throw Err.index : Except Err (List ℚ))
        | x :: xs => pure (fl (x - fl (1 / 10 ^ 14)) :: xs)) = .ok edges → edges ≠ [] := by
        intro l hl
        cases l with
        | nil => cases hl
        | cons x xs => cases hl; simp
      exact h' _ h
  | false =>
    unfold binEdges at h
    cases hlo : arr.min? with
    | none => simp only [hlo] at h; cases h
    | some lo =>
      cases hhi : arr.max? with
      | none => simp only [hlo, hhi] at h; cases h
      | some hi =>
        simp only [hlo, hhi, Bool.false_eq_true, if_false] at h
        unfold linspace at h
        rw [if_neg (by omega)] at h
        cases h
        intro h
        have := congrArg List.length h
        simp at this
        omega

theorem forall2_mem {pf : String → Option (Option ℚ)} {xs : List Cell} {arr : List (Option ℚ)}
    (h : List.Forall₂ (fun x a => toFloat pf x = .ok a) xs arr) {a : Option ℚ} (ha : a ∈ arr) :
    ∃ x ∈ xs, toFloat pf x = .ok a := by
  induction h with
  | nil => simp at ha
  | cons h1 h2 ih =>
    rcases List.mem_cons.1 ha with rfl | ha
    · exact ⟨_, List.mem_cons_self, h1⟩
    · obtain ⟨x, hx, he⟩ := ih ha
      exact ⟨x, List.mem_cons_of_mem _ hx, he⟩

theorem goodEdges_of_spec {fl : ℚ → ℚ} (hfl : fl = (fun x => x) ∨ fl = rne53) {pf : String → Option (Option ℚ)}
    {quantile : Bool} {bins : Bins} {ic : List String} {c : Column}
    (hspec : c.name ∈ ic → ∀ s, EntryFor bins c.name s → SortedSpec s)
    (hrep : c.name ∈ ic → ∀ x ∈ c.cells, ∀ q, toFloat pf x = .ok (some q) → fl q = q) {e : Option (List ℚ)}
    (h : EdgesFor fl pf quantile bins ic c e) : GoodEdges e := by
  cases e with
  | none => trivial
  | some e =>
    obtain ⟨h1, arr, s, h2, h3, h4⟩ := h
    have hs := hspec h1 s h3
    cases h4 with
    | edges => exact hs
    | num q _ h =>
      have hq : 1 ≤ truncQ q ∧ truncQ q ≤ 2 ^ 48 := by
        have h0 : 0 ≤ q := le_trans zero_le_one hs.1
        unfold truncQ
        rw [if_pos h0]
        refine ⟨Int.le_floor.2 (by exact_mod_cast hs.1), ?_⟩
        have := le_trans (Int.floor_le q) hs.2
        exact_mod_cast this
      obtain ⟨n, hn⟩ : ∃ n : ℕ, truncQ q = n := ⟨(truncQ q).toNat, by omega⟩
      rw [hn] at h hq
      refine ⟨binEdges_ne_nil hq.1 h, auto_edges_sorted hfl (fun x hx => ?_) (by exact_mod_cast hq.1)
        (by exact_mod_cast hq.2) h⟩
      have hx' : some x ∈ arr := by simpa using hx
      obtain ⟨y, hy, hyx⟩ := forall2_mem (Out.mapM_toFloat h2) hx'
      exact hrep h1 y hy x hyx

namespace Props

open scoped Classical in
/-- **C46.** `outlier_significance_matrix`, for every frame with distinct column names and supported bin specifications:
* with other than two columns it raises ValueError;
* if the quality check drops a column it raises ValueError, or the exception that binning the other column raises;
* otherwise it raises the exception that `bin_data` of the frame raises, or every column has the edges its entry in
  `bins` asks for and, if these are sorted, the result is the outlier matrix of the table of counts: each row and column is
  labelled with the name of the category whose records it counts. -/
theorem outlier_matrix_result (N : OutNum) (fmt : ℚ → String) (fl : ℚ → ℚ) (pf : String → Option (Option ℚ)) {r : Ref}
    {w : World} {data : Frame} (hr : w.heap[r]? = some data) (hn : data.names.Nodup) (ic : Option (List String))
    (ci : String) (bins : Bins) (quantile dropna du dof : Bool)
    (hent : ∀ name ∈ ic.getD (guessIntervalCols data), ∃ s, EntryFor bins name s ∧ s ≠ .other) :
    let ics := ic.getD (guessIntervalCols data)
    let res := ((outlierMatrix N fmt fl pf r ic ci bins quantile dropna du dof).exec w).1
    (data.cols.length ≠ 2 → res = .error .value) ∧
    ∀ a b, data.cols = [a, b] →
      (¬ (Kept ics dropna a ∧ Kept ics dropna b) → ∃ e, res = .error e ∧ (e = .value ∨
        ∃ rest : Frame, rest.nrows = data.nrows ∧ rest.cols = data.cols.filter (fun c => decide (Kept ics dropna c)) ∧
          binDataCore fl pf rest (ics.filter fun n => decide (n ∈ rest.names)) bins quantile = .error e)) ∧
      (Kept ics dropna a ∧ Kept ics dropna b →
        (∃ e, res = .error e ∧
          ((binData fl pf r (ics.filter fun n => decide (n ∈ data.names)) bins quantile).exec w).1 = .error e) ∨
        ∃ ea eb, EdgesFor fl pf quantile bins ics a ea ∧ EdgesFor fl pf quantile bins ics b eb ∧
          (GoodEdges ea → GoodEdges eb → ∃ ra rb n, Counts pf dropna du dof ea eb a b ra rb n ∧
            IsOutlierMatrix N fmt ci ra rb n (res.map Prod.fst))) := by
  intro ics res
  obtain ⟨icc, w1, clean, ws, h1, h2, hnr, g4, g5, -⟩ := dq_check hr hn ics dropna
  have hclean : w1.heap[w.heap.length]? = some clean := by rw [h2]; simp
  have hstart : (outlierMatrix N fmt fl pf r ic ci bins quantile dropna du dof).exec w =
      if data.cols.length ≠ 2 then (.error .value, w) else
      match (binData fl pf w.heap.length icc bins quantile).exec w1 with
      | (.error e, w2) => (.error e, w2)
      | (.ok (r2, dict), w2) => match (outlierFromRebinned N fmt r2 dict ci dropna du dof).exec w2 with
        | (.error e, w3) => (.error e, w3)
        | (.ok t, w3) => (.ok (t, dict), w3) := by
    unfold outlierMatrix
    rw [M.exec_bind, M.exec_read_of hr]
    by_cases hl : data.cols.length ≠ 2
    · simp only [hl, ne_eq, not_false_eq_true, if_true]
      rfl
    · simp only [hl, if_false, M.exec_bind]
      rw [show (dqCheck r (ic.getD (guessIntervalCols data)) dropna).exec w = _ from h1]
      simp only
      rcases (binData fl pf w.heap.length icc bins quantile).exec w1 with ⟨res, w2⟩
      cases res with
      | error e => rfl
      | ok p =>
        obtain ⟨r2, dict⟩ := p
        simp only
        rcases (outlierFromRebinned N fmt r2 dict ci dropna du dof).exec w2 with ⟨res, w3⟩
        cases res <;> rfl
  refine ⟨fun hl => ?_, fun a b hab => ⟨fun hk => ?_, fun hk => ?_⟩⟩
  · simp only [res]
    rw [hstart, if_pos hl]
  · simp only [res]
    rw [hstart, if_neg (by rw [hab]; simp), binData_exec fl pf hclean]
    cases hc : binDataCore fl pf clean icc bins quantile with
    | error e => exact ⟨e, rfl, .inr ⟨clean, hnr, g4, g5 ▸ hc⟩⟩
    | ok v =>
      obtain ⟨out, dict⟩ := v
      have hlen : out.cols.length ≠ 2 := by
        have h5 : out.cols.length = clean.cols.length := by
          simpa [Frame.names] using congrArg List.length (binDataCore_names hc).1
        rw [h5, g4, hab]
        by_cases ka : Kept ics dropna a
        · have kb : ¬ Kept ics dropna b := fun kb => hk ⟨ka, kb⟩
          simp [ka, kb]
        · by_cases kb : Kept ics dropna b <;> simp [ka, kb]
      have hout : (w1.heap ++ [out])[w1.heap.length]? = some out := by simp
      refine ⟨.value, ?_, .inl rfl⟩
      simp only
      unfold outlierFromRebinned hist2dFromRebinned
      simp only [M.exec_bind, M.exec_read_of (w := ⟨w1.heap ++ [out], w1.warns⟩) hout, hlen, ne_eq, not_false_eq_true,
        if_true]
      rfl
  · have hcl : clean = data := by
      have : clean.cols = data.cols := by rw [g4, hab]; simp [hk.1, hk.2]
      cases clean; cases data; simp only at this hnr; rw [this, hnr]
    subst hcl
    have hicc : icc = ics.filter fun n => decide (n ∈ clean.names) := g5
    have hmem : ∀ c ∈ clean.cols, (c.name ∈ icc ↔ c.name ∈ ics) := by
      intro c hc
      rw [hicc, List.mem_filter]
      simp only [decide_eq_true_eq, and_iff_left_iff_imp]
      intro _
      exact List.mem_map_of_mem hc
    rw [← hicc]
    simp only [res]
    rw [hstart, if_neg (by rw [hab]; simp), binData_exec fl pf hclean, binData_exec fl pf hr]
    cases hc : binDataCore fl pf clean icc bins quantile with
    | error e => exact .inl ⟨e, rfl, rfl⟩
    | ok v =>
      obtain ⟨out, dict⟩ := v
      right
      obtain ⟨ed, bc, k1, k2⟩ := binned_cols hn (fun name hnm => hent name (by
        rw [hicc] at hnm; exact (List.mem_filter.1 hnm).1)) hc
      have hE : ∀ c ∈ clean.cols, EdgesFor fl pf quantile bins ics c (ed c) := by
        intro c hcm
        have := (k2 c hcm).1
        cases hed : ed c with
        | none => rw [hed] at this; exact fun h => this ((hmem c hcm).2 h)
        | some e => rw [hed] at this; exact ⟨(hmem c hcm).1 this.1, this.2⟩
      have ha : a ∈ clean.cols := by rw [hab]; simp
      have hb : b ∈ clean.cols := by rw [hab]; simp
      refine ⟨ed a, ed b, hE a ha, hE b hb, fun ga gb => ?_⟩
      have hout : (w1.heap ++ [out])[w1.heap.length]? = some out := by simp
      obtain ⟨ra, rb, n, rs, w', e1, e2, e3, -⟩ := outlierFromRebinned_exec N fmt
        (w := ⟨w1.heap ++ [out], w1.warns⟩) hout (by rw [k1, hab]; rfl) (k2 a ha).2 (k2 b hb).2 ga gb ci dropna du dof
      refine ⟨ra, rb, n, e2, ?_⟩
      simp only
      rw [e1]
      cases rs with
      | error e => exact e3
      | ok t => exact e3

/-- The categories of a table and their order are determined by the data. -/
theorem categories_unique {pf : String → Option (Option ℚ)} {dropna du dof : Bool} {e : Option (List ℚ)} {xs : List Cell}
    {ra ra' : List Category} (h1 : ra.Pairwise Category.Before) (h1' : ra'.Pairwise Category.Before)
    (hm : ∀ c, c ∈ ra ↔ c ∈ ra') (hb : ∀ c ∈ ra, ∃ x ∈ xs, Belongs pf dropna du dof e x c) : ra = ra' := by
  have asym : ∀ c ∈ ra, ∀ d ∈ ra, c.Before d → d.Before c → False := by
    intro c hc d hd
    have pos : ∀ c ∈ ra, ∀ lo hi, c = .interval lo hi → lo < hi := by
      rintro c hc lo hi rfl
      obtain ⟨x, -, hx⟩ := hb _ hc
      cases hx with
      | interval hx hk h1 h2 => exact lt_of_lt_of_le h1 h2
    cases c <;> cases d <;> simp only [Category.Before, false_imp_iff, imp_false, not_true_eq_false]
    · exact fun h h' => lt_asymm h h'
    · intro h h'
      have := pos _ hc _ _ rfl
      have := pos _ hd _ _ rfl
      linarith
    · exact fun _ h => h
    · exact fun h => h
    · exact fun h h' => lt_asymm h h'
  have nd : ∀ l : List Category, (∀ c ∈ l, c ∈ ra) → l.Pairwise Category.Before → l.Nodup := by
    intro l hl h
    refine List.Pairwise.imp_of_mem ?_ h
    rintro c d hc hd hcd rfl
    exact asym c (hl c hc) c (hl c hc) hcd hcd
  have hp : ra.Perm ra' := (List.perm_ext_iff_of_nodup (nd ra (fun _ h => h) h1)
    (nd ra' (fun c h => (hm c).2 h) h1')).2 hm
  exact hp.eq_of_pairwise (fun c d hc hd h h' => (asym c hc d ((hm d).2 hd) h h').elim) h1 h1'

open scoped Classical in
/-- **C46.** The labels of the outlier matrix, for every two-column frame with distinct names that pass the quality check, bins
given as ascending edges or as a number, values representable in the arithmetic (exact or binary64) and all flags: unless
`bin_data` raises an exception for this frame, the rows are the categories of the first and the columns those of the second
variable that occur together with one of the other variable, in order, each labelled with its own name: `lo_hi` for the records
above `lo` and up to `hi`, where these are neighbouring edges, 'UF', 'OF', 'NaN', or the value itself for a column that is not
binned. -/
theorem outlier_matrix_labels (N : OutNum) (fmt : ℚ → String) {fl : ℚ → ℚ} (hfl : fl = (fun x => x) ∨ fl = rne53)
    (pf : String → Option (Option ℚ)) {r : Ref} {w : World} {data : Frame} (hr : w.heap[r]? = some data)
    {a b : Column} (hab : data.cols = [a, b]) (hn : a.name ≠ b.name) (ic : Option (List String))
    (ci : String) (bins : Bins) (quantile dropna du dof : Bool)
    (hent : ∀ name ∈ ic.getD (guessIntervalCols data), ∃ s, EntryFor bins name s)
    (hspec : ∀ name ∈ ic.getD (guessIntervalCols data), ∀ s, EntryFor bins name s → SortedSpec s)
    (hrep : ∀ c ∈ data.cols, c.name ∈ ic.getD (guessIntervalCols data) →
      ∀ x ∈ c.cells, ∀ q, toFloat pf x = .ok (some q) → fl q = q)
    (ka : Kept (ic.getD (guessIntervalCols data)) dropna a) (kb : Kept (ic.getD (guessIntervalCols data)) dropna b) :
    let ics := ic.getD (guessIntervalCols data)
    let res := ((outlierMatrix N fmt fl pf r ic ci bins quantile dropna du dof).exec w).1
    (∃ e, res = .error e ∧
      ((binData fl pf r (ics.filter fun n => decide (n ∈ data.names)) bins quantile).exec w).1 = .error e) ∨
    ∃ ea eb ra rb n, EdgesFor fl pf quantile bins ics a ea ∧ EdgesFor fl pf quantile bins ics b eb ∧
      Counts pf dropna du dof ea eb a b ra rb n ∧ IsOutlierMatrix N fmt ci ra rb n (res.map Prod.fst) := by
  intro ics res
  have hn' : data.names.Nodup := by
    unfold Frame.names; rw [hab]; simpa using hn
  have hent' : ∀ name ∈ ics, ∃ s, EntryFor bins name s ∧ s ≠ .other := by
    intro name hnm
    obtain ⟨s, hs⟩ := hent name hnm
    refine ⟨s, hs, ?_⟩
    rintro rfl
    exact hspec name hnm _ hs
  rcases ((outlier_matrix_result N fmt fl pf hr hn' ic ci bins quantile dropna du dof hent').2 a b hab).2 ⟨ka, kb⟩ with h | h
  · exact .inl h
  · right
    obtain ⟨ea, eb, h1, h2, h3⟩ := h
    obtain ⟨ra, rb, n, h4, h5⟩ := h3
      (goodEdges_of_spec hfl (fun h => hspec _ h) (hrep a (by rw [hab]; simp)) h1)
      (goodEdges_of_spec hfl (fun h => hspec _ h) (hrep b (by rw [hab]; simp)) h2)
    exact ⟨ea, eb, ra, rb, n, h1, h2, h4, h5⟩

/-- A frame with an empty bin between populated ones. -/
def gapFrame : Frame := ⟨4, [⟨"x", true, [.num 1, .num 3, .num 7, .num 7]⟩,
  ⟨"y", false, [.str "a", .str "b", .str "a", .str "b"]⟩]⟩

open scoped Classical in
example (N : OutNum) (fmt : ℚ → String) (pf : String → Option (Option ℚ)) :
    let res := ((outlierMatrix N fmt (fun x => x) pf 0 (some ["x"]) "poisson" (.dict [("x", .edges [0, 2, 4, 6, 8])]) false
      true true true).exec ⟨[gapFrame], []⟩).1
    ∃ n, IsOutlierMatrix N fmt "poisson" [.interval 0 2, .interval 2 4, .interval 6 8] [.value (.str "a"), .value (.str "b")] n
      (res.map Prod.fst) := by
  intro res
  have hx : ∀ s, EntryFor (.dict [("x", .edges [0, 2, 4, 6, 8])]) "x" s → s = .edges [0, 2, 4, 6, 8] := by
    intro s h
    cases h with
    | dict _ _ _ h => simpa using h.symm
  rcases outlier_matrix_labels N fmt (.inl rfl) pf (r := 0) (w := ⟨[gapFrame], []⟩) (data := gapFrame) rfl rfl (by decide)
    (some ["x"]) "poisson" (.dict [("x", .edges [0, 2, 4, 6, 8])]) false true true true
    (by intro name h; simp at h; subst h; exact ⟨_, .dict _ _ _ rfl⟩)
    (by
      intro name h s hs; simp at h; subst h
      rw [hx s hs]
      exact ⟨by simp, by norm_num⟩)
    (by intros; rfl) (by unfold Kept; rw [← nunique_eq]; decide) (by unfold Kept; rw [← nunique_eq]; decide) with h | h
  · exfalso
    obtain ⟨e, -, he⟩ := h
    rw [binData_exec (fun x => x) pf (r := 0) (w := ⟨[gapFrame], []⟩) (data := gapFrame) rfl] at he
    have : ∃ v, binDataCore (fun x => x) pf gapFrame (["x"].filter fun n => decide (n ∈ gapFrame.names))
        (.dict [("x", .edges [0, 2, 4, 6, 8])]) false = .ok v := ⟨_, rfl⟩
    obtain ⟨v, hv⟩ := this
    simp only [Option.getD_some, hv] at he
    cases he
  · obtain ⟨ea, eb, ra, rb, n, h1, h2, h3, h4⟩ := h
    have hea : ea = some [0, 2, 4, 6, 8] := by
      cases ea with
      | none => exact absurd (by simp) h1
      | some e =>
        obtain ⟨-, arr, s, -, hs, hq⟩ := h1
        rw [hx s hs] at hq
        cases hq; rfl
    have heb : eb = none := by
      cases eb with
      | none => rfl
      | some e => exact absurd h2.1 (by decide)
    subst hea heb
    have bx : ∀ (q : ℚ) (k : ℕ) c, binCell [0, 2, 4, 6, 8] (some q) = .num k →
        (Belongs pf true true true (some [0, 2, 4, 6, 8]) (.num q) c ↔ c = binCat [0, 2, 4, 6, 8] (.num k)) := by
      intro q k c h
      rw [belongs_bin true true true (by norm_num) (by simp) (a := some q) rfl, h]
      simp [view, eq_comm]
    have e1 : binCell [0, 2, 4, 6, 8] (some 1) = .num (1 : ℕ) := by
      rw [binCell_num_iff _ (by norm_num)]; exact ⟨_, rfl, by norm_num⟩
    have e3 : binCell [0, 2, 4, 6, 8] (some 3) = .num (2 : ℕ) := by
      rw [binCell_num_iff _ (by norm_num)]; exact ⟨_, rfl, by norm_num⟩
    have e7 : binCell [0, 2, 4, 6, 8] (some 7) = .num (4 : ℕ) := by
      rw [binCell_num_iff _ (by norm_num)]; exact ⟨_, rfl, by norm_num⟩
    have c1 : binCat [0, 2, 4, 6, 8] (.num (1 : ℕ)) = .interval 0 2 := by simp [binCat, edgePair]
    have c3 : binCat [0, 2, 4, 6, 8] (.num (2 : ℕ)) = .interval 2 4 := by simp [binCat, edgePair]
    have c7 : binCat [0, 2, 4, 6, 8] (.num (4 : ℕ)) = .interval 6 8 := by simp [binCat, edgePair]
    have by' : ∀ s c, s = "a" ∨ s = "b" → (Belongs pf true true true none (.str s) c ↔ c = .value (.str s)) := by
      intro s c hs
      have hv : view true true true (.str s) = some (.str s) := by
        rcases hs with rfl | rfl <;> rfl
      constructor
      · intro h; cases h with
        | value h => rw [hv] at h; cases h; rfl
      · rintro rfl; exact .value hv
    have hra : ra = [.interval 0 2, .interval 2 4, .interval 6 8] := by
      refine categories_unique (pf := pf) (dropna := true) (du := true) (dof := true) (e := some [0, 2, 4, 6, 8])
        (xs := [.num 1, .num 3, .num 7, .num 7]) h3.rows_order ?_ ?_ ?_
      · simp [Category.Before]; norm_num
      · intro c
        rw [h3.rows_mem]
        have b1 := bx 1 1 c e1
        have b3 := bx 3 2 c e3
        have b7 := bx 7 4 c e7
        rw [c1] at b1; rw [c3] at b3; rw [c7] at b7
        simp [b1, b3, b7, by' "a" _ (.inl rfl), by' "b" _ (.inr rfl)]
      · intro c hc
        obtain ⟨p, hp, hb, -⟩ := (h3.rows_mem c).1 hc
        exact ⟨p.1, (List.of_mem_zip hp).1, hb⟩
    have hrb : rb = [.value (.str "a"), .value (.str "b")] := by
      refine categories_unique (pf := pf) (dropna := true) (du := true) (dof := true) (e := none)
        (xs := [.str "a", .str "b", .str "a", .str "b"]) h3.cols_order ?_ ?_ ?_
      · simp [Category.Before]; decide
      · intro c
        rw [h3.cols_mem]
        have b1 := fun c => bx 1 1 c e1
        have b3 := fun c => bx 3 2 c e3
        have b7 := fun c => bx 7 4 c e7
        simp [b1, b3, b7, by' "a" _ (.inl rfl), by' "b" _ (.inr rfl)]
        tauto
      · intro c hc
        obtain ⟨p, hp, -, hb⟩ := (h3.cols_mem c).1 hc
        exact ⟨p.2, (List.of_mem_zip hp).2, hb⟩
    subst hra hrb
    exact ⟨n, h4⟩

end Props

end Phik
