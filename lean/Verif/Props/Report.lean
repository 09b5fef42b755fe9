import Verif.Lemmas.Report

/-! # Properties C52 and C63: `correlation_report` -/

namespace Phik

open Spec Props

theorem reportSkip_iff (sigThr corrThr : ℝ) (z : Option EReal) (p : Option ℝ) :
    (!reportSkip sigThr corrThr z p) = true ↔ Selected sigThr corrThr z p := by
  have hn : ∀ x : EReal, ((sigThr : EReal) ≤ -x) ↔ x ≤ ((-sigThr : ℝ) : EReal) := fun x => by
    rw [EReal.coe_neg, EReal.le_neg]
  unfold reportSkip Selected
  cases z <;> cases p <;>
    simp only [Bool.not_or, Bool.and_eq_true, Bool.not_eq_true', decide_eq_false_iff_not, not_lt, le_max_iff, hn,
      Option.some.injEq, forall_eq', reduceCtorEq, false_imp_iff, implies_true, Bool.not_false, and_true, true_and, or_comm]

/-! ### dictionaries -/

/-- A dictionary built by assigning the values in order. -/
def dictOf {α : Type} (l : List (String × α)) : List (String × α) := l.foldl (fun d p => dictSet d p.1 p.2) []

theorem dictOf_append {α : Type} (l : List (String × α)) (p : String × α) :
    dictOf (l ++ [p]) = dictSet (dictOf l) p.1 p.2 := by
  simp [dictOf, List.foldl_append]

theorem dictOf_keys {α : Type} (l : List (String × α)) :
    ((dictOf l).map Prod.fst).Nodup ∧ ∀ k, k ∈ (dictOf l).map Prod.fst ↔ ∃ p ∈ l, k = p.1 := by
  induction l using List.reverseRecOn with
  | nil => simp [dictOf]
  | append_singleton l p ih =>
    rw [dictOf_append, dictSet_keys]
    obtain ⟨h1, h2⟩ := ih
    split
    · rename_i hk
      refine ⟨h1, fun k => ?_⟩
      rw [h2]
      constructor
      · rintro ⟨q, hq, rfl⟩; exact ⟨q, List.mem_append_left _ hq, rfl⟩
      · rintro ⟨q, hq, rfl⟩
        rcases List.mem_append.1 hq with hq | hq
        · exact ⟨q, hq, rfl⟩
        · rw [List.mem_singleton] at hq; subst hq; exact (h2 _).1 hk
    · rename_i hk
      refine ⟨?_, fun k => ?_⟩
      · rw [List.nodup_append]
        refine ⟨h1, by simp, ?_⟩
        rintro a ha b hb rfl
        rw [List.mem_singleton] at hb; subst hb; exact hk ha
      · rw [List.mem_append, h2, List.mem_singleton]
        constructor
        · rintro (⟨q, hq, rfl⟩ | rfl)
          · exact ⟨q, List.mem_append_left _ hq, rfl⟩
          · exact ⟨p, by simp, rfl⟩
        · rintro ⟨q, hq, rfl⟩
          rcases List.mem_append.1 hq with hq | hq
          · exact .inl ⟨q, hq, rfl⟩
          · rw [List.mem_singleton] at hq; subst hq; exact .inr rfl

/-- An entry of the dictionary is the last one of the list with its key. -/
theorem mem_dictOf {α : Type} (l : List (String × α)) (k : String) (v : α) :
    (k, v) ∈ dictOf l ↔ ∃ pre post, l = pre ++ (k, v) :: post ∧ ∀ q ∈ post, q.1 ≠ k := by
  induction l using List.reverseRecOn with
  | nil => simp [dictOf]
  | append_singleton l p ih =>
    rw [dictOf_append, mem_dictSet, ih]
    constructor
    · rintro (h | ⟨⟨pre, post, rfl, h4⟩, hk⟩)
      · exact ⟨l, [], by rw [h], by simp⟩
      · refine ⟨pre, post ++ [p], by simp, ?_⟩
        intro x hx
        rcases List.mem_append.1 hx with hx | hx
        · exact h4 x hx
        · rw [List.mem_singleton] at hx; subst hx; exact fun h => hk h.symm
    · rintro ⟨pre, post, h1, h4⟩
      rcases List.eq_nil_or_concat post with rfl | ⟨post', x, rfl⟩
      · obtain ⟨rfl, h⟩ := List.append_inj' h1 (by simp)
        cases h
        exact .inl rfl
      · rw [List.concat_eq_append] at h1 h4
        rw [← List.cons_append, ← List.append_assoc] at h1
        obtain ⟨rfl, h⟩ := List.append_inj' h1 (by simp)
        cases h
        refine .inr ⟨⟨pre, post', rfl, fun y hy => h4 y (List.mem_append_left _ hy)⟩, ?_⟩
        exact fun h => h4 p (by simp) h.symm

/-! ### the loop -/

/-- The files listed for the pairs. -/
def pullFiles (folder : Option String) (sel : List (String × String)) : List (String × String) :=
  match folder with
  | some d => sel.map fun p => (reportKey p.1 p.2, d ++ "pulls_" ++ reportKey p.1 p.2 ++ ".pdf")
  | none => []

theorem reportStep_ok {fmt0 : ℚ → String} {fmt2 : EReal → String} {folder : Option String}
    {pr : String → String → Except Err (Option OutTab)} {st : LoopState} {p : String × String} {t : OutTab} {fig : Figure}
    (hp : pr p.1 p.2 = .ok (some t))
    (hfig : plotCorrelation fmt0 fmt2 ⟨t.rows.length, t.cols.length, t.v⟩ t.cols t.rows (-5) 5 20 none true false = .ok fig) :
    reportStep fmt0 fmt2 folder pr st p = .ok ⟨dictSet st.outliers (reportKey p.1 p.2) t,
      (pullFiles folder [p]).foldl (fun d p => dictSet d p.1 p.2) st.files, st.figures ++ [fig]⟩ := by
  simp only [reportStep, hp, hfig]
  cases folder <;> rfl

/-- The loop of the report as a whole. -/
theorem foldlM_step (fmt0 : ℚ → String) (fmt2 : EReal → String) (folder : Option String)
    (pr : String → String → Except Err (Option OutTab))
    (hpr : ∀ a b t, pr a b = .ok (some t) → 2 ≤ t.rows.length ∧ 2 ≤ t.cols.length)
    (sel : List (String × String)) (st : LoopState) :
    (∃ (tabs : List OutTab) (figs : List Figure), List.Forall₂ (fun p t => pr p.1 p.2 = .ok (some t)) sel tabs ∧
      List.Forall₂ (fun t fig => plotCorrelation fmt0 fmt2 ⟨t.rows.length, t.cols.length, t.v⟩ t.cols t.rows (-5) 5 20
        none true false = .ok fig) tabs figs ∧
      sel.foldlM (reportStep fmt0 fmt2 folder pr) st =
        .ok ⟨((sel.zip tabs).map fun p => (reportKey p.1.1 p.1.2, p.2)).foldl (fun d p => dictSet d p.1 p.2) st.outliers,
          (pullFiles folder sel).foldl (fun d p => dictSet d p.1 p.2) st.files, st.figures ++ figs⟩) ∨
    ∃ e, sel.foldlM (reportStep fmt0 fmt2 folder pr) st = .error e ∧ ∃ p ∈ sel,
      pr p.1 p.2 = .error e ∨ pr p.1 p.2 = .ok none ∧ e = .attribute := by
  induction sel generalizing st with
  | nil =>
    left
    refine ⟨[], [], .nil, .nil, ?_⟩
    cases folder <;> simp [pure, Except.pure, pullFiles]
  | cons p sel ih =>
    rw [List.foldlM_cons]
    match hp : pr p.1 p.2 with
    | .error e =>
      right
      refine ⟨e, ?_, p, List.mem_cons_self, .inl hp⟩
      have : reportStep fmt0 fmt2 folder pr st p = .error e := by simp only [reportStep, hp]
      rw [this]; rfl
    | .ok none =>
      right
      refine ⟨.attribute, ?_, p, List.mem_cons_self, .inr ⟨hp, rfl⟩⟩
      have : reportStep fmt0 fmt2 folder pr st p = .error .attribute := by simp only [reportStep, hp]
      rw [this]; rfl
    | .ok (some t) =>
      obtain ⟨h1, h2⟩ := hpr _ _ _ hp
      obtain ⟨fig, hfig⟩ := plot_returns fmt0 fmt2 t.v t.cols t.rows (-5) 5 20 none true false (by omega) (.inl rfl)
        (.inl rfl) (by omega) (by omega)
      simp only [Option.map_none] at hfig
      rw [reportStep_ok hp hfig]
      rcases ih ⟨dictSet st.outliers (reportKey p.1 p.2) t,
        (pullFiles folder [p]).foldl (fun d p => dictSet d p.1 p.2) st.files, st.figures ++ [fig]⟩ with ⟨tabs, figs, f1, f2, f3⟩ | ⟨e, f1, q, hq, f2⟩
      · left
        refine ⟨t :: tabs, fig :: figs, .cons hp f1, .cons hfig f2, ?_⟩
        refine f3.trans ?_
        cases folder <;> simp [pullFiles]
      · right
        exact ⟨e, f1, q, List.mem_cons_of_mem _ hq, f2⟩

/-! ### the parts of the report -/

/-- The column of a name. -/
def colOf (f : Frame) (name : String) : Column := (f.col? name).getD ⟨"", false, []⟩

theorem colOf_name {f : Frame} (hn : f.names.Nodup) {c : Column} (hc : c ∈ f.cols) : colOf f c.name = c := by
  unfold colOf; rw [col?_of_mem hn hc]; rfl

theorem phikOfFrame_labels {nm : Numerics} {sched : Option (List ℕ)} {g : Frame} {noise : Bool} {t : LTable}
    (h : phikOfFrame nm sched g noise = .ok t) : t.rows = g.names ∧ t.cols = g.names := by
  unfold phikOfFrame at h
  obtain ⟨l, -, h⟩ := except_bind_ok h
  split at h <;> cases h <;> exact ⟨rfl, rfl⟩

theorem outlierMatrices_pair (N : OutNum) (fmt : ℚ → String) (fl : ℚ → ℚ) (pf : String → Option (Option ℚ)) {r : Ref}
    {w w1 : World} {data clean : Frame} (hr : w.heap[r]? = some data) {ic : Option (List String)} {icc : List String}
    (h1 : (dqCheck r (ic.getD (guessIntervalCols data)) true).exec w = (.ok (w.heap.length, icc), w1))
    (h2 : w1.heap = w.heap ++ [clean]) (hcn : clean.names.Nodup) (ci : String) (bins : Bins) (quantile : Bool)
    {a b : String} (ha : a ∈ clean.names) (hb : b ∈ clean.names) (hab : a ≠ b) :
    ((outlierMatrices N fmt fl pf r ic ci bins quantile [(a, b)] true true true).exec w).1 =
      match binDataCore fl pf clean icc bins quantile with
      | .error e => .error e
      | .ok (out, dict) => (pairResult N fmt (applyFlags true true true out) dict ci true true true
          (colOf (applyFlags true true true out) a) (colOf (applyFlags true true true out) b)).map
            fun t => ([(a ++ ":" ++ b, t)], dict) := by
  unfold outlierMatrices
  rw [M.exec_bind, M.exec_read_of hr]
  simp only [M.exec_bind, h1]
  rw [binData_exec fl pf (data := clean) (by rw [h2]; simp)]
  cases hbd : binDataCore fl pf clean icc bins quantile with
  | error e => rfl
  | ok v =>
    obtain ⟨out, dict⟩ := v
    obtain ⟨ho, -⟩ := binDataCore_names hbd
    have hon : out.names.Nodup := by rw [ho]; exact hcn
    simp only
    unfold outlierMatricesFromRebinned
    rw [M.exec_bind, M.exec_read_of (w := ⟨_, _⟩) (f := out) (by simp)]
    simp only [List.isEmpty_cons, Bool.false_eq_true, if_false]
    have hl := outlierLoop_exec N fmt (r := w1.heap.length) hon dict ci true true true (colOf out)
      (fun c hc => colOf_name hon hc) [(a, b)]
      (by intro p hp; rw [List.mem_singleton] at hp; subst hp; exact ⟨by rw [ho]; exact ha, by rw [ho]; exact hb, hab⟩)
      ⟨w1.heap ++ [out], w1.warns⟩ (by simp)
    obtain ⟨ca, hca, rfl⟩ := List.mem_map.1 (show a ∈ out.names by rw [ho]; exact ha)
    obtain ⟨cb, hcb, rfl⟩ := List.mem_map.1 (show b ∈ out.names by rw [ho]; exact hb)
    have hgn : (applyFlags true true true out).names.Nodup := by rw [applyFlags_names]; exact hon
    have hcol : ∀ c ∈ out.cols, colOf (applyFlags true true true out) c.name =
        { c with cells := c.cells.map (flagCell true true true) } := by
      intro c hc
      refine colOf_name (c := { c with cells := c.cells.map (flagCell true true true) }) hgn ?_
      rw [applyFlags_eq]
      exact List.mem_map_of_mem (f := fun c : Column => { c with cells := c.cells.map (flagCell true true true) }) hc
    have hpr : pairResult N fmt (applyFlags true true true out) dict ci true true true
        (colOf (applyFlags true true true out) ca.name) (colOf (applyFlags true true true out) cb.name) =
        pairResult N fmt out dict ci true true true ca cb := by
      unfold pairResult
      apply pairResult_congr
      rw [hcol _ hca, hcol _ hcb]
      rw [← applyFlags_idem true true ⟨out.nrows, [ca, cb]⟩]
      congr 1
      rw [applyFlags_eq, applyFlags_eq]
      rfl
    rw [hpr]
    simp only [List.mapM_cons, List.mapM_nil] at hl
    rw [colOf_name hon hca, colOf_name hon hcb] at hl
    generalize (outlierLoop N fmt w1.heap.length dict ci true true true [(ca.name, cb.name)]).exec
      ⟨w1.heap ++ [out], w1.warns⟩ = x at hl ⊢
    obtain ⟨res, w2⟩ := x
    change res = _ at hl
    rw [hl]
    cases pairResult N fmt out dict ci true true true ca cb with
    | error e => rfl
    | ok t => rfl

section
variable {F : Type} (nm : Numerics) (sched : Option (List ℕ)) (S : SigNum) (R : ℕ → SimRun F)
    (N : OutNum) (fmt fmt0 : ℚ → String) (fmt2 : EReal → String) (fl : ℚ → ℚ)
    (pf : String → Option (Option ℚ)) (gnan : LTable → Except Err (List GVal))

open scoped Classical in
/-- The outcomes of the public functions and of the report, for one frame. -/
theorem report_parts {r : Ref} {w : World} {data : Frame} (hr : w.heap[r]? = some data) (hn : data.names.Nodup)
    (ic : Option (List String)) (bins : Bins) (quantile doOutliers : Bool) (pdf : String)
    (sigThr corrThr : ℝ) (noise storeEach : Bool) (sigMethod ci : String) :
    let rep := ((correlationReport nm sched S R N fmt fmt0 fmt2 fl pf gnan r ic bins quantile doOutliers pdf sigThr corrThr
      noise storeEach sigMethod ci).exec w).1
    let ph := ((phikMatrix nm sched fl pf r ic bins quantile noise true true true).exec w).1
    let sg := ((significancesOf S R fl pf r ic bins quantile sigMethod).exec w).1
    let out := fun a b => ((outlierMatrices N fmt fl pf r ic ci bins quantile [(a, b)] true true true).exec w).1
    (∃ e, rep = .error e ∧ ph = .error e) ∨
    ∃ (g : Frame) (dict : List (String × List (ℚ × ℚ))) (pr : String → String → Except Err (Option OutTab)),
      g.names.Nodup ∧
      g.names = (data.cols.filter fun c => decide (Kept (ic.getD (guessIntervalCols data)) true c)).map (·.name) ∧
      ph = phikOfFrame nm sched g noise ∧ (∀ t, sg = .ok t → t.rows = g.names ∧ t.cols = g.names) ∧
      (∀ a b, [a, b].Sublist g.names → out a b = (pr a b).map fun t => ([(a ++ ":" ++ b, t)], dict)) ∧
      (∀ a b t, pr a b = .ok (some t) → 2 ≤ t.rows.length ∧ 2 ≤ t.cols.length) ∧
      rep = reportOf nm sched fmt0 fmt2 gnan g sg pr doOutliers pdf sigThr corrThr noise storeEach ∧
      applyFlags true true true g = g ∧ sg = ((sigFromRebinned S R 0 sigMethod true true true).exec ⟨[g], []⟩).1 ∧
      pr = fun a b => pairResult N fmt g dict ci true true true (colOf g a) (colOf g b) := by
  intro rep ph sg out
  obtain ⟨icc, w1, clean, h1, h2, hcn, hrep⟩ := report_exec nm sched S R N fmt fmt0 fmt2 fl pf gnan hr hn ic bins quantile
    doOutliers pdf sigThr corrThr noise storeEach sigMethod ci
  have hrep := hrep colOf fun f hf c hc => colOf_name hf hc
  have hph : ph = match binDataCore fl pf clean icc bins quantile with
      | .error e => .error e
      | .ok (out, _) => phikOfFrame nm sched (applyFlags true true true out) noise := by
    obtain ⟨icc', w1', clean', k1, k2, k3⟩ := phikMatrix_exec nm sched fl pf hr hn ic bins quantile noise true true true
    rw [k1] at h1
    cases h1
    rw [k2] at h2
    obtain ⟨-, h⟩ := List.append_inj' h2 rfl
    cases h
    simp only [ph, k3]
    cases binDataCore fl pf clean icc bins quantile with
    | error e => rfl
    | ok v => rfl
  have hnames : clean.names = (data.cols.filter fun c => decide (Kept (ic.getD (guessIntervalCols data)) true c)).map (·.name) := by
    obtain ⟨icc', w1', clean', ws, k1, k2, -, k4, -⟩ := dq_check hr hn (ic.getD (guessIntervalCols data)) true
    rw [k1] at h1
    cases h1
    rw [k2] at h2
    obtain ⟨-, h⟩ := List.append_inj' h2 rfl
    cases h
    unfold Frame.names; rw [k4]
  have hout : ∀ a b, [a, b].Sublist clean.names → out a b = _ := fun a b hab =>
    outlierMatrices_pair N fmt fl pf hr h1 h2 hcn ci bins quantile (hab.subset (by simp)) (hab.subset (by simp)) (by
      rintro rfl
      have := hcn.sublist hab
      simp at this)
  have hsg : sg = match binDataCore fl pf clean icc bins quantile with
      | .error e => .error e
      | .ok (out, _) => ((sigFromRebinned S R 0 sigMethod true true true).exec ⟨[applyFlags true true true out], []⟩).1 := by
    simp only [sg]
    unfold significancesOf
    rw [M.exec_bind, M.exec_read_of hr]
    simp only [M.exec_bind, h1]
    rw [binData_exec fl pf (data := clean) (by rw [h2]; simp)]
    cases binDataCore fl pf clean icc bins quantile with
    | error e => rfl
    | ok v =>
      obtain ⟨out, dict⟩ := v
      obtain ⟨res, ws', hsig⟩ := sigFromRebinned_local S R sigMethod (applyFlags true true true out)
      simp only
      rw [hsig w1.heap.length ⟨w1.heap ++ [out], w1.warns⟩ out true true true (by simp) rfl,
        hsig 0 ⟨[applyFlags true true true out], []⟩ _ true true true (by simp) (applyFlags_idem _ _ _)]
  cases hb : binDataCore fl pf clean icc bins quantile with
  | error e =>
    left
    refine ⟨e, ?_, ?_⟩
    · simp only [rep, hrep, hb]
    · simp only [hph, hb]
  | ok v =>
    obtain ⟨o, dict⟩ := v
    right
    have hon : o.names = clean.names := (binDataCore_names hb).1
    have hgn : (applyFlags true true true o).names = clean.names := by rw [applyFlags_names, hon]
    rw [hb] at hph hsg hrep
    simp only at hph hsg hrep
    refine ⟨applyFlags true true true o, dict, fun a b => pairResult N fmt (applyFlags true true true o) dict ci true true true
      (colOf (applyFlags true true true o) a) (colOf (applyFlags true true true o) b), by rw [hgn]; exact hcn,
      by rw [hgn, hnames], hph, ?_, ?_, ?_, ?_, applyFlags_idem _ _ _, hsg, rfl⟩
    · intro t ht
      rw [hsg] at ht
      rcases significance_of_frame S R sigMethod (r := 0) (w := ⟨[applyFlags true true true o], []⟩)
        (f := applyFlags true true true o) rfl (by rw [hgn]; exact hcn) true true true with ⟨t', w', k1, k2, -⟩ | ⟨e, w', k1, -⟩
      · rw [k1] at ht; cases ht; exact ⟨k2.rows, k2.cols⟩
      · rw [k1] at ht; cases ht
    · intro a b hab
      rw [hout a b (by rw [← hgn]; exact hab), hb]
    · intro a b t ht
      exact pairResult_size ht
    · simp only [rep, hrep, hsg]

end

/-! ### names of pairs -/

theorem reportKey_eq (a b : String) : reportKey a b = pairLabel a b := by
  apply String.toList_injective
  unfold reportKey pairLabel
  rw [String.toList_map]
  simp

theorem colon_mem_pairLabel (a b : String) : ':' ∈ (pairLabel a b).toList := by
  simp [pairLabel]

theorem pairLabel_plain {a b : String} (ha : ' ' ∉ a.toList) (hb : ' ' ∉ b.toList) : pairLabel a b = a ++ ":" ++ b := by
  apply String.toList_injective
  have : ∀ l : List Char, ' ' ∉ l → (l.map fun c => if c = ' ' then '_' else c) = l := by
    intro l hl
    refine (List.map_congr_left fun c hc => ?_).trans (List.map_id l)
    rw [if_neg]; rfl
    rintro rfl; exact hl hc
  simp [pairLabel, this _ ha, this _ hb]

theorem lastOfEachKey_dictOf {α : Type} (l : List (String × α)) : LastOfEachKey l (dictOf l) := by
  refine ⟨(dictOf_keys l).1, fun k v => ?_⟩
  rw [mem_dictOf]
  constructor
  · rintro ⟨pre, post, rfl, h⟩
    refine ⟨pre.length, by simp, fun j v' hj hjv => ?_⟩
    rw [List.getElem?_append_right (by omega), List.getElem?_cons] at hjv
    rw [if_neg (by omega)] at hjv
    exact h _ (List.mem_of_getElem? hjv) rfl
  · rintro ⟨i, hi, h⟩
    obtain ⟨hlt, hi⟩ := List.getElem?_eq_some_iff.1 hi
    refine ⟨l.take i, l.drop (i + 1), ?_, ?_⟩
    · rw [← hi, List.getElem_cons_drop, List.take_append_drop]
    · rintro ⟨k', v'⟩ hq rfl
      obtain ⟨j, hj⟩ := List.getElem?_of_mem hq
      rw [List.getElem?_drop] at hj
      exact h (i + 1 + j) v' (by omega) hj

theorem dictOf_of_nodup {α : Type} (l : List (String × α)) (h : (l.map Prod.fst).Nodup) : dictOf l = l := by
  induction l using List.reverseRecOn with
  | nil => rfl
  | append_singleton l p ih =>
    rw [List.map_append, List.nodup_append] at h
    obtain ⟨h1, -, h2⟩ := h
    rw [dictOf_append, ih h1]
    unfold dictSet
    rw [if_neg]
    intro hh
    obtain ⟨q, hq, hk⟩ := List.any_eq_true.1 hh
    exact h2 _ (List.mem_map_of_mem (f := Prod.fst) hq) _ (by simp) (beq_iff_eq.1 hk)

/-- The files, when every plot is stored. -/
theorem eachFile (d : String) (sel : List (String × String)) :
    EachFile d sel ((pullFiles (some d) sel).foldl (fun d p => dictSet d p.1 p.2) (reportFiles (some d))) := by
  have h0 : reportFiles (some d) = dictOf (reportFiles (some d)) := by
    rw [dictOf_of_nodup]
    simp [reportFiles, matrixFile]
  have h1 : (pullFiles (some d) sel).foldl (fun d p => dictSet d p.1 p.2) (reportFiles (some d)) =
      dictOf (reportFiles (some d) ++ pullFiles (some d) sel) := by
    unfold dictOf
    rw [List.foldl_append]
    change _ = List.foldl _ (dictOf (reportFiles (some d))) _
    rw [← h0]
  rw [h1]
  refine ⟨(dictOf_keys _).1, fun k f => ?_⟩
  have hval : ∀ p ∈ pullFiles (some d) sel, ∀ q ∈ reportFiles (some d) ++ pullFiles (some d) sel, p.1 = q.1 → p.2 = q.2 := by
    intro p hp q hq hpq
    obtain ⟨u, hu, rfl⟩ := List.mem_map.1 hp
    rcases List.mem_append.1 hq with hq | hq
    · exfalso
      have hc := colon_mem_pairLabel u.1 u.2
      rw [← reportKey_eq] at hc
      simp only at hpq
      rw [hpq] at hc
      simp only [reportFiles, matrixFile, List.cons_append, List.nil_append, List.mem_cons, List.not_mem_nil, or_false] at hq
      rcases hq with rfl | rfl | rfl <;> simp only at hc <;> revert hc <;> decide
    · obtain ⟨v, hv, rfl⟩ := List.mem_map.1 hq
      simp only at hpq ⊢
      rw [hpq]
  have hmem : (k, f) ∈ dictOf (reportFiles (some d) ++ pullFiles (some d) sel) ↔
      (k, f) ∈ reportFiles (some d) ++ pullFiles (some d) sel := by
    constructor
    · intro h
      obtain ⟨pre, post, h, -⟩ := (mem_dictOf _ _ _).1 h
      rw [h]; simp
    · intro h
      have hk : k ∈ (dictOf (reportFiles (some d) ++ pullFiles (some d) sel)).map Prod.fst :=
        ((dictOf_keys _).2 k).2 ⟨_, h, rfl⟩
      obtain ⟨⟨k', f'⟩, hq, rfl⟩ := List.mem_map.1 hk
      have hq' : (k', f') ∈ reportFiles (some d) ++ pullFiles (some d) sel := by
        obtain ⟨pre, post, h, -⟩ := (mem_dictOf _ _ _).1 hq
        rw [h]; simp
      have : f' = f := by
        rcases List.mem_append.1 h with h1 | h1
        · rcases List.mem_append.1 hq' with h2 | h2
          · have hnd : ((reportFiles (some d)).map Prod.fst).Nodup := by simp [reportFiles, matrixFile]
            have := List.inj_on_of_nodup_map hnd h2 h1 rfl
            exact (Prod.ext_iff.1 this).2
          · exact hval _ h2 _ h rfl
        · exact (hval _ h1 _ hq' rfl).symm
      rw [← this]; exact hq
  rw [hmem, List.mem_append]
  refine or_congr ?_ ?_
  · simp only [reportFiles, matrixFile, List.cons_append, List.nil_append, List.mem_cons, List.not_mem_nil, or_false,
      Prod.mk.injEq, exists_eq_or_imp, exists_eq_left]
  · simp only [pullFiles, List.mem_map, Prod.mk.injEq, reportKey_eq]
    constructor
    · rintro ⟨p, hp, rfl, rfl⟩; exact ⟨p, hp, rfl, rfl⟩
    · rintro ⟨p, hp, rfl, rfl⟩; exact ⟨p, hp, rfl, rfl⟩

/-! ### the report and the public functions -/

theorem globalOf_length {t : LTable} {gl : List GVal} (h : globalOf t = .ok gl) : gl.length = t.rows.length := by
  unfold globalOf at h
  simp only at h
  split at h
  · cases h
  · split at h
    · cases h
    · cases h; simp

theorem plot_matrix_returns (fmt0 : ℚ → String) (fmt2 : EReal → String) {α : Type} (t : LTab α) (h : α → EReal)
    (f : Option α → FVal) (vmin vmax : ℝ) (hne : t.rows ≠ []) :
    ∃ fig, plotCorrelation fmt0 fmt2 (t.values.map f) (t.cols.map .str) (t.rows.map .str) vmin vmax 20 none true true =
      .ok fig := by
  have hlen : ∀ l : List String, (l.map Cell.str).length = 1 → ∃ s, l.map Cell.str = [.str s] := by
    intro l hl
    match l, hl with
    | [a], _ => exact ⟨a, rfl⟩
  obtain ⟨fig, hfig⟩ := plot_returns fmt0 fmt2 (r := t.rows.length) (c := t.cols.length)
    (fun i j => f (t.v t.rows[i] t.cols[j])) (t.cols.map .str) (t.rows.map .str) vmin vmax 20 none true true
    (by cases hr : t.rows with
      | nil => exact absurd hr hne
      | cons a l => simp) (.inl (by simp)) (.inl (by simp)) (hlen _) (hlen _)
  exact ⟨fig, hfig⟩

section
variable {nm : Numerics} {sched : Option (List ℕ)} {fmt0 : ℚ → String} {fmt2 : EReal → String}
    {gnan : LTable → Except Err (List GVal)}

/-- A report that is returned. -/
theorem reportOf_ok {g : Frame} {sg : Except Err (LTab EReal)} {pr : String → String → Except Err (Option OutTab)}
    {doOutliers : Bool} {pdf : String} {sigThr corrThr : ℝ} {noise storeEach : Bool} {rep : Report}
    (hpr : ∀ a b t, pr a b = .ok (some t) → 2 ≤ t.rows.length ∧ 2 ≤ t.cols.length)
    (h : reportOf nm sched fmt0 fmt2 gnan g sg pr doOutliers pdf sigThr corrThr noise storeEach = .ok rep) :
    phikOfFrame nm sched g noise = .ok rep.phik ∧ globalOrNan gnan rep.phik = .ok rep.globalPhik ∧
    sg = .ok rep.significance ∧
    ∃ (tabs : List OutTab) (fig1 fig2 fig3 : Figure) (figs : List Figure),
      let sel := if doOutliers then (comb2 g.names).filter fun p =>
        !reportSkip sigThr corrThr (rep.significance.v p.1 p.2) (rep.phik.v p.1 p.2) else []
      List.Forall₂ (fun p t => pr p.1 p.2 = .ok (some t)) sel tabs ∧
      rep.outliers = dictOf ((sel.zip tabs).map fun p => (reportKey p.1.1 p.1.2, p.2)) ∧
      rep.files = (if storeEach then (pullFiles (some (reportFolder pdf)) sel).foldl (fun d p => dictSet d p.1 p.2)
          (reportFiles (some (reportFolder pdf)))
        else if pdf = "" then [] else [("all", pdf)]) ∧
      rep.figures = fig1 :: fig2 :: fig3 :: figs ∧
      plotCorrelation fmt0 fmt2 (rep.phik.values.map fvalOfReal) (rep.phik.cols.map .str) (rep.phik.rows.map .str) 0 1 20
        none true true = .ok fig1 ∧
      plotCorrelation fmt0 fmt2 ⟨rep.globalPhik.length, 1, fun i _ => fvalOfG rep.globalPhik[i]⟩ [.str ""]
        (rep.phik.rows.map .str) 0 1 20 none true true = .ok fig2 ∧
      plotCorrelation fmt0 fmt2 (rep.significance.values.map fun z => some (z.getD 0)) (rep.significance.cols.map .str)
        (rep.significance.rows.map .str) (-5) 5 20 none true true = .ok fig3 ∧
      List.Forall₂ (fun t fig => plotCorrelation fmt0 fmt2 ⟨t.rows.length, t.cols.length, t.v⟩ t.cols t.rows (-5) 5 20
        none true false = .ok fig) tabs figs := by
  unfold reportOf at h
  obtain ⟨phik, h1, h⟩ := except_bind_ok h
  obtain ⟨fig1, h2, h⟩ := except_bind_ok h
  obtain ⟨gl, h3, h⟩ := except_bind_ok h
  obtain ⟨fig2, h4, h⟩ := except_bind_ok h
  obtain ⟨sig, h5, h⟩ := except_bind_ok h
  obtain ⟨fig3, h6, h⟩ := except_bind_ok h
  have h : ∃ st, (if doOutliers then (comb2 g.names).filter fun p =>
        !reportSkip sigThr corrThr (sig.v p.1 p.2) (phik.v p.1 p.2) else []).foldlM
        (reportStep fmt0 fmt2 (if storeEach = true then some (reportFolder pdf) else none) pr)
      ⟨[], reportFiles (if storeEach = true then some (reportFolder pdf) else none), [fig1, fig2, fig3]⟩ = .ok st ∧
      rep = ⟨phik, gl, sig, st.outliers, if (if storeEach = true then "" else pdf) ≠ "" then
          dictSet st.files "all" (if storeEach = true then "" else pdf) else st.files, st.figures⟩ := by
    cases doOutliers with
    | true =>
      simp only [if_true] at h ⊢
      obtain ⟨st, h7, h⟩ := except_bind_ok h
      cases h
      exact ⟨st, h7, rfl⟩
    | false =>
      cases h
      exact ⟨_, rfl, rfl⟩
  obtain ⟨st, h7', rfl⟩ := h
  refine ⟨h1, h3, h5, ?_⟩
  simp only
  set sel := if doOutliers then (comb2 g.names).filter fun p =>
        !reportSkip sigThr corrThr (sig.v p.1 p.2) (phik.v p.1 p.2) else [] with hsel
  rcases foldlM_step fmt0 fmt2 (if storeEach = true then some (reportFolder pdf) else none) pr hpr sel
    ⟨[], reportFiles (if storeEach = true then some (reportFolder pdf) else none), [fig1, fig2, fig3]⟩ with
    ⟨tabs, figs, f1, f2, f3⟩ | ⟨e, f1, -⟩
  · rw [f3] at h7'
    cases h7'
    refine ⟨tabs, fig1, fig2, fig3, figs, f1, rfl, ?_, rfl, h2, h4, h6, f2⟩
    cases storeEach with
    | true => simp
    | false =>
      simp only [Bool.false_eq_true, if_false, pullFiles, List.foldl_nil, reportFiles, matrixFile, List.append_nil]
      by_cases hp : pdf = "" <;> simp [hp, dictSet]
  · rw [f1] at h7'
    cases h7'

/-- A report that raises an exception. -/
theorem reportOf_error {g : Frame} {sg : Except Err (LTab EReal)} {pr : String → String → Except Err (Option OutTab)}
    {doOutliers : Bool} {pdf : String} {sigThr corrThr : ℝ} {noise storeEach : Bool} {e : Err}
    (hsg : ∀ t, sg = .ok t → t.rows = g.names ∧ t.cols = g.names)
    (hgn : ∀ t gl, phikOfFrame nm sched g noise = .ok t → globalOf t = .error .nonfinite → gnan t = .ok gl →
      gl.length = t.rows.length)
    (hpr : ∀ a b t, pr a b = .ok (some t) → 2 ≤ t.rows.length ∧ 2 ≤ t.cols.length)
    (h : reportOf nm sched fmt0 fmt2 gnan g sg pr doOutliers pdf sigThr corrThr noise storeEach = .error e) :
    phikOfFrame nm sched g noise = .error e ∨ ∃ t, phikOfFrame nm sched g noise = .ok t ∧
      (g.names = [] ∧ e = .value ∨ globalOrNan gnan t = .error e ∨ sg = .error e ∨
        doOutliers = true ∧ ∃ s, sg = .ok s ∧ ∃ a b, [a, b].Sublist g.names ∧ Selected sigThr corrThr (s.v a b) (t.v a b) ∧
          (pr a b = .error e ∨ pr a b = .ok none ∧ e = .attribute)) := by
  unfold reportOf at h
  have eb : ∀ {α β : Type} (x : α) (k : α → Except Err β), (Except.ok x >>= k) = k x := fun _ _ => rfl
  cases hph : phikOfFrame nm sched g noise with
  | error e' => rw [hph] at h; cases h; exact .inl rfl
  | ok t =>
    right
    refine ⟨t, rfl, ?_⟩
    obtain ⟨l1, l2⟩ := phikOfFrame_labels hph
    rw [hph] at h
    simp only [eb] at h
    by_cases hne : g.names = []
    · left
      refine ⟨hne, ?_⟩
      have : plotCorrelation fmt0 fmt2 (t.values.map fvalOfReal) (t.cols.map .str) (t.rows.map .str) 0 1 20 none true true =
          .error .value := by
        have hr : (t.values.map fvalOfReal).r = 0 := by
          change t.rows.length = 0
          rw [l1, hne]; rfl
        have hc : (t.values.map fvalOfReal).c = 0 := by
          change t.cols.length = 0
          rw [l2, hne]; rfl
        unfold plotCorrelation
        simp [hr, hc, l1, l2, hne]
        rfl
      rw [this] at h
      cases h
      rfl
    · right
      obtain ⟨fig1, hf1⟩ := plot_matrix_returns fmt0 fmt2 t (fun x => (x : EReal)) fvalOfReal 0 1 (by rw [l1]; exact hne)
      rw [hf1] at h
      simp only [eb] at h
      cases hg : globalOrNan gnan t with
      | error e' => rw [hg] at h; cases h; exact .inl rfl
      | ok gl =>
        right
        have hlen : gl.length = t.rows.length := by
          unfold globalOrNan at hg
          split at hg
          · rename_i hx; exact hgn _ _ hph hx hg
          · exact globalOf_length hg
        rw [hg] at h
        simp only [eb] at h
        obtain ⟨fig2, hf2⟩ := plot_returns fmt0 fmt2 (r := gl.length) (c := 1) (fun i _ => fvalOfG gl[i]) [.str ""]
          (t.rows.map .str) 0 1 20 none true true
          (by rw [hlen, l1]; exact List.length_pos_iff.2 hne) (.inl rfl) (.inl (by simp [hlen]))
          (fun _ => ⟨_, rfl⟩) (fun hl => by
            match hrr : t.rows, hl with
            | [a], _ => exact ⟨a, rfl⟩)
        simp only [Option.map_none] at hf2
        rw [hf2] at h
        simp only [eb] at h
        cases sg with
        | error e' => cases h; exact .inl rfl
        | ok s =>
          right
          obtain ⟨s1, s2⟩ := hsg s rfl
          obtain ⟨fig3, hf3⟩ := plot_matrix_returns fmt0 fmt2 s (fun x => x) (fun z => some (z.getD 0)) (-5) 5
            (by rw [s1]; exact hne)
          simp only [eb] at h
          rw [hf3] at h
          simp only [eb] at h
          cases doOutliers with
          | false => cases h
          | true =>
            simp only [if_true] at h
            refine ⟨rfl, s, rfl, ?_⟩
            rcases foldlM_step fmt0 fmt2 (if storeEach = true then some (reportFolder pdf) else none) pr hpr
              ((comb2 g.names).filter fun p => !reportSkip sigThr corrThr (s.v p.1 p.2) (t.v p.1 p.2))
              ⟨[], reportFiles (if storeEach = true then some (reportFolder pdf) else none), [fig1, fig2, fig3]⟩ with
              ⟨tabs, figs, f1, f2, f3⟩ | ⟨e', f1, ⟨a, b⟩, hp, f2⟩
            · rw [f3] at h; cases h
            · rw [f1] at h
              cases h
              obtain ⟨m1, m2⟩ := List.mem_filter.1 hp
              exact ⟨a, b, mem_comb2.1 m1, (reportSkip_iff _ _ _ _).1 m2, f2⟩

end

namespace Props

section
variable {F : Type} (nm : Numerics) (sched : Option (List ℕ)) (S : SigNum) (R : ℕ → SimRun F)
    (N : OutNum) (fmt fmt0 : ℚ → String) (fmt2 : EReal → String) (fl : ℚ → ℚ)
    (pf : String → Option (Option ℚ)) (gnan : LTable → Except Err (List GVal))

/-- **C63 and C52.** Everything in a report that is returned is what the single functions return for the same arguments:
the phik matrix, the global correlations, the significances (of `significance_matrix`, unless quantile bins are asked for), and
for every selected pair the outlier matrix, which is stored under the name of the pair; of pairs with the same name the last
one is kept.  The selected pairs are those whose significance and correlation reach the thresholds.  The files are those of the
matrices and of the selected pairs, or the single file; the figures show the returned matrices. -/
theorem report_agrees {r : Ref} {w : World} {data : Frame} (hr : w.heap[r]? = some data) (hn : data.names.Nodup)
    (ic : Option (List String)) (bins : Bins) (quantile doOutliers : Bool) (pdf : String)
    (sigThr corrThr : ℝ) (noise storeEach : Bool) (sigMethod ci : String) {rep : Report}
    (h : ((correlationReport nm sched S R N fmt fmt0 fmt2 fl pf gnan r ic bins quantile doOutliers pdf sigThr corrThr
      noise storeEach sigMethod ci).exec w).1 = .ok rep) :
    ((phikMatrix nm sched fl pf r ic bins quantile noise true true true).exec w).1 = .ok rep.phik ∧
    ((∀ a ∈ rep.phik.rows, ∀ b ∈ rep.phik.rows, rep.phik.v a b ≠ none) →
      ((globalPhikArray nm sched fl pf r ic bins quantile noise true true true).exec w).1 =
        .ok (rep.globalPhik, rep.phik.rows)) ∧
    ((∃ a ∈ rep.phik.rows, ∃ b ∈ rep.phik.rows, rep.phik.v a b = none) → gnan rep.phik = .ok rep.globalPhik) ∧
    ((significancesOf S R fl pf r ic bins quantile sigMethod).exec w).1 = .ok rep.significance ∧
    (quantile = false →
      ((significanceMatrix S R fl pf r ic bins sigMethod true true true).exec w).1 = .ok rep.significance) ∧
    ∃ (sel : List (String × String)) (tabs : List OutTab) (fig1 fig2 fig3 : Figure) (figs : List Figure),
      sel.Sublist (comb2 rep.phik.rows) ∧
      (∀ a b, (a, b) ∈ sel ↔ doOutliers = true ∧ [a, b].Sublist rep.phik.rows ∧
        Selected sigThr corrThr (rep.significance.v a b) (rep.phik.v a b)) ∧
      List.Forall₂ (fun p t => ∃ dict,
        ((outlierMatrices N fmt fl pf r ic ci bins quantile [p] true true true).exec w).1 =
          .ok ([(p.1 ++ ":" ++ p.2, some t)], dict)) sel tabs ∧
      LastOfEachKey ((sel.zip tabs).map fun p => (pairLabel p.1.1 p.1.2, p.2)) rep.outliers ∧
      ((∀ name ∈ rep.phik.rows, ' ' ∉ name.toList ∧ ':' ∉ name.toList) →
        rep.outliers = (sel.zip tabs).map fun p => (p.1.1 ++ ":" ++ p.1.2, p.2)) ∧
      (storeEach = false → rep.files = if pdf = "" then [] else [("all", pdf)]) ∧
      (storeEach = true → EachFile (reportFolder pdf) sel rep.files) ∧
      rep.figures = fig1 :: fig2 :: fig3 :: figs ∧
      plotCorrelation fmt0 fmt2 (rep.phik.values.map fvalOfReal) (rep.phik.cols.map .str) (rep.phik.rows.map .str) 0 1 20
        none true true = .ok fig1 ∧
      plotCorrelation fmt0 fmt2 ⟨rep.globalPhik.length, 1, fun i _ => fvalOfG rep.globalPhik[i]⟩ [.str ""]
        (rep.phik.rows.map .str) 0 1 20 none true true = .ok fig2 ∧
      plotCorrelation fmt0 fmt2 (rep.significance.values.map fun z => some (z.getD 0)) (rep.significance.cols.map .str)
        (rep.significance.rows.map .str) (-5) 5 20 none true true = .ok fig3 ∧
      List.Forall₂ (fun t fig => plotCorrelation fmt0 fmt2 ⟨t.rows.length, t.cols.length, t.v⟩ t.cols t.rows (-5) 5 20
        none true false = .ok fig) tabs figs := by
  rcases report_parts nm sched S R N fmt fmt0 fmt2 fl pf gnan hr hn ic bins quantile doOutliers pdf sigThr corrThr noise
    storeEach sigMethod ci with ⟨e, he, -⟩ | ⟨g, dict, pr, hgn, -, p1, p2, p3, p4, p5, -⟩
  · rw [h] at he; cases he
  rw [p5] at h
  obtain ⟨k1, k2, k3, tabs, fig1, fig2, fig3, figs, k4, k5, k6, k7, k8, k9, k10, k11⟩ := reportOf_ok p4 h
  obtain ⟨l1, l2⟩ := phikOfFrame_labels k1
  have hph := p1.trans k1
  set sel := if doOutliers then (comb2 g.names).filter fun p =>
        !reportSkip sigThr corrThr (rep.significance.v p.1 p.2) (rep.phik.v p.1 p.2) else [] with hsel
  have hsub : sel.Sublist (comb2 g.names) := by
    rw [hsel]; split
    · exact List.filter_sublist
    · exact List.nil_sublist _
  have hmem : ∀ a b, (a, b) ∈ sel ↔ doOutliers = true ∧ [a, b].Sublist g.names ∧
      Selected sigThr corrThr (rep.significance.v a b) (rep.phik.v a b) := by
    intro a b
    rw [hsel]
    cases doOutliers with
    | false => simp
    | true =>
      simp only [if_true, true_and]
      rw [List.mem_filter, mem_comb2, reportSkip_iff]
  refine ⟨hph, ?_, ?_, k3, ?_, sel, tabs, fig1, fig2, fig3, figs, by rw [l1]; exact hsub, by rw [l1]; exact hmem, ?_, ?_, ?_,
    ?_, ?_, k7, k8, k9, k10, k11⟩
  · intro hnan
    rw [global_phik_array_result, hph]
    simp only
    unfold globalOrNan at k2
    have : globalOf rep.phik ≠ .error .nonfinite := by
      unfold globalOf
      simp only
      rw [if_neg (by rintro ⟨a, ha, b, hb, hab⟩; exact hnan a ha b hb hab)]
      split <;> simp
    split at k2
    · rename_i hx; exact absurd hx this
    · rw [k2]; rfl
  · rintro hnan
    unfold globalOrNan at k2
    have : globalOf rep.phik = .error .nonfinite := by
      unfold globalOf
      simp only
      rw [if_pos hnan]
    rw [this] at k2
    exact k2
  · rintro rfl
    rw [← significancesOf_uniform]
    exact k3
  · have hall : ∀ p ∈ sel, [p.1, p.2].Sublist g.names := fun p hp => ((hmem p.1 p.2).1 hp).2.1
    refine List.Forall₂.imp ?_ (List.forall₂_iff_zip.2 ⟨k4.length_eq, fun {a b} hz => ?_⟩ :
      List.Forall₂ (fun p t => p ∈ sel ∧ pr p.1 p.2 = .ok (some t)) sel tabs)
    · rintro ⟨a, b⟩ t ⟨hp, ht⟩
      refine ⟨dict, ?_⟩
      refine (p3 a b (hall _ hp)).trans ?_
      rw [ht]
      rfl
    · exact ⟨(List.of_mem_zip hz).1, List.forall₂_zip k4 hz⟩
  · rw [k5]
    simp only [← reportKey_eq]
    exact lastOfEachKey_dictOf _
  · intro hplain
    rw [l1] at hplain
    have hlab : ∀ p ∈ sel, reportKey p.1 p.2 = p.1 ++ ":" ++ p.2 := by
      intro p hp
      have := ((hmem p.1 p.2).1 hp).2.1
      rw [reportKey_eq, pairLabel_plain (hplain _ (this.subset (by simp))).1 (hplain _ (this.subset (by simp))).1]
    have hmap : ((sel.zip tabs).map fun p => (reportKey p.1.1 p.1.2, p.2)) =
        (sel.zip tabs).map fun p => (p.1.1 ++ ":" ++ p.1.2, p.2) := by
      apply List.map_congr_left
      rintro ⟨p, t⟩ hp
      simp only
      rw [hlab p (List.of_mem_zip hp).1]
    rw [k5, hmap, dictOf_of_nodup]
    rw [List.map_map]
    have : ((fun p : (String × String) × OutTab => p.1.1 ++ ":" ++ p.1.2)) = (fun p : String × String => p.1 ++ ":" ++ p.2) ∘ Prod.fst :=
      rfl
    change (List.map (fun p : (String × String) × OutTab => p.1.1 ++ ":" ++ p.1.2) (sel.zip tabs)).Nodup
    rw [this, ← List.map_map, List.map_fst_zip (by rw [k4.length_eq])]
    refine List.Nodup.map_on ?_ ((nodup_comb2 hgn).sublist hsub)
    rintro ⟨a, b⟩ hp ⟨c, d⟩ hq hk
    have s1 := ((hmem _ _).1 hp).2.1
    have s2 := ((hmem _ _).1 hq).2.1
    have hc : ∀ x ∈ g.names, ':' ∉ x.toList := fun x hx => (hplain x hx).2
    obtain ⟨e1, e2⟩ := spark_key_inj (hc a (s1.subset (by simp))) (hc b (s1.subset (by simp)))
      (hc c (s2.subset (by simp))) (hc d (s2.subset (by simp))) (by
        unfold pairKey; simpa using congrArg String.toList hk)
    exact Prod.ext e1 e2
  · rintro rfl
    rw [k6]; rfl
  · rintro rfl
    rw [k6]
    exact eachFile _ _

/-- **C63.** An exception of the report is one of a single function for the same arguments: of `phik_matrix`, of the global
correlations, of the significances or of the outlier matrix of a selected pair; or it is a ValueError because no column passes
the quality check, or an AttributeError because the outlier matrix of a selected pair is NaN. -/
theorem report_raises {r : Ref} {w : World} {data : Frame} (hr : w.heap[r]? = some data) (hn : data.names.Nodup)
    (hgn : ∀ t gl, gnan t = .ok gl → gl.length = t.rows.length)
    (ic : Option (List String)) (bins : Bins) (quantile doOutliers : Bool) (pdf : String)
    (sigThr corrThr : ℝ) (noise storeEach : Bool) (sigMethod ci : String) {e : Err}
    (h : ((correlationReport nm sched S R N fmt fmt0 fmt2 fl pf gnan r ic bins quantile doOutliers pdf sigThr corrThr
      noise storeEach sigMethod ci).exec w).1 = .error e) :
    ((phikMatrix nm sched fl pf r ic bins quantile noise true true true).exec w).1 = .error e ∨
    ∃ t, ((phikMatrix nm sched fl pf r ic bins quantile noise true true true).exec w).1 = .ok t ∧
      ((∀ c ∈ data.cols, ¬ Kept (ic.getD (guessIntervalCols data)) true c) ∧ e = .value ∨
        (if ∃ a ∈ t.rows, ∃ b ∈ t.rows, t.v a b = none then gnan t = .error e
          else ((globalPhikArray nm sched fl pf r ic bins quantile noise true true true).exec w).1 = .error e) ∨
        ((significancesOf S R fl pf r ic bins quantile sigMethod).exec w).1 = .error e ∨
        doOutliers = true ∧ ∃ s, ((significancesOf S R fl pf r ic bins quantile sigMethod).exec w).1 = .ok s ∧
          ∃ a b, [a, b].Sublist t.rows ∧ Selected sigThr corrThr (s.v a b) (t.v a b) ∧
          (((outlierMatrices N fmt fl pf r ic ci bins quantile [(a, b)] true true true).exec w).1 = .error e ∨
            (∃ dict, ((outlierMatrices N fmt fl pf r ic ci bins quantile [(a, b)] true true true).exec w).1 =
              .ok ([(a ++ ":" ++ b, none)], dict)) ∧ e = .attribute)) := by
  rcases report_parts nm sched S R N fmt fmt0 fmt2 fl pf gnan hr hn ic bins quantile doOutliers pdf sigThr corrThr noise
    storeEach sigMethod ci with ⟨e', he, he'⟩ | ⟨g, dict, pr, hgn', hnames, p1, p2, p3, p4, p5, -⟩
  · rw [h] at he; cases he; exact .inl he'
  rw [p5] at h
  rw [p1]
  rcases reportOf_error p2 (fun t gl _ _ => hgn t gl) p4 h with h | ⟨t, ht, h⟩
  · exact .inl h
  right
  obtain ⟨l1, l2⟩ := phikOfFrame_labels ht
  refine ⟨t, ht, ?_⟩
  rcases h with ⟨hx, rfl⟩ | h | h | ⟨hd, s, hs, a, b, hab, hsel, h⟩
  · left
    refine ⟨fun c hc hk => ?_, rfl⟩
    have : c.name ∈ g.names := by
      rw [hnames]
      exact List.mem_map_of_mem (List.mem_filter.2 ⟨hc, by simpa using hk⟩)
    rw [hx] at this
    cases this
  · right; left
    unfold globalOrNan at h
    split
    · rename_i hnan
      have : globalOf t = .error .nonfinite := by
        unfold globalOf
        simp only
        rw [if_pos hnan]
      rw [this] at h
      exact h
    · rename_i hnan
      have : globalOf t ≠ .error .nonfinite := by
        unfold globalOf
        simp only
        rw [if_neg hnan]
        split <;> simp
      split at h
      · rename_i hx; exact absurd hx this
      · rw [global_phik_array_result, p1, ht]
        simp only [h]
        rfl
  · exact .inr (.inr (.inl h))
  · refine .inr (.inr (.inr ⟨hd, s, hs, a, b, by rw [l1]; exact hab, hsel, ?_⟩))
    have hpo := p3 a b hab
    simp only at hpo
    rw [hpo]
    rcases h with h | ⟨hx, rfl⟩
    · left; rw [h]; rfl
    · right; refine ⟨⟨dict, ?_⟩, rfl⟩; rw [hx]; rfl

end

end Props

end Phik
