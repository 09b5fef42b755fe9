import Verif.Props.HybridWitness
import Verif.Props.MatrixPipeline

/-! # Properties C11, C33: significance matrices -/

namespace Phik

open Spec Props

variable {F : Type}

theorem cwr_nodup {β : Type} {l : List β} (h : l.Nodup) : (cwr l).Nodup := by
  induction l with
  | nil => simp [cwr]
  | cons x xs ih =>
    rw [List.nodup_cons] at h
    rw [cwr, List.nodup_append]
    refine ⟨?_, ih h.2, ?_⟩
    · refine List.Nodup.map (fun a b h => (Prod.mk.inj h).2) (List.nodup_cons.2 h)
    · rintro ⟨a, b⟩ h1 ⟨c, d⟩ h2 heq
      cases heq
      obtain ⟨y, -, e⟩ := List.mem_map.1 h1
      cases e
      rcases mem_cwr.1 h2 with ⟨-, h3⟩ | h3
      · exact h.1 h3
      · exact h.1 (h3.subset (by simp))

/-- The contingency table of two columns of a frame. -/
def pairHist (f : Frame) (co : String × String) : Hist :=
  match f.getCol co.1, f.getCol co.2 with
  | .ok a, .ok b => histOfPairs (a.cells.zip b.cells)
  | _, _ => histOfPairs []

open scoped Classical in
/-- The entry for a pair. -/
noncomputable def pairSig (S : SigNum) (R : ℕ → SimRun F) (method : String) (f : Frame) (k : ℕ)
    (co : String × String) : Option EReal :=
  if Few (pairHist f co) then none else
    match sigFromHist2d S (R k) (pairHist f co).values method with
    | .ok pz => pz.2
    | .error _ => none

def pairWarn (f : Frame) (co : String × String) : Warning :=
  .tooFewSig co.1 (pairHist f co).rows.length co.2 (pairHist f co).cols.length

instance (h : Hist) : Decidable (Few h) := by unfold Few; infer_instance

theorem sigLoop_exec (S : SigNum) (R : ℕ → SimRun F) (method : String) (f : Frame)
    (pairs : List (String × String)) (hcol : ∀ co ∈ pairs, ∃ a b, f.getCol co.1 = .ok a ∧ f.getCol co.2 = .ok b)
    (k : ℕ) (w : World) :
    ((sigLoop S R method f k pairs).exec w =
        (.ok ((pairs.zipIdx k).map fun p => (p.1.1, p.1.2, pairSig S R method f p.2 p.1)),
          { w with warns := w.warns ++ (pairs.filter fun co => decide (Few (pairHist f co))).map (pairWarn f) }) ∧
      ∀ i co, pairs[i]? = some co → ¬ Few (pairHist f co) →
        ∃ p, sigFromHist2d S (R (k + i)) (pairHist f co).values method =
          .ok (p, pairSig S R method f (k + i) co)) ∨
    ∃ e w', (sigLoop S R method f k pairs).exec w = (.error e, w') ∧ w'.heap = w.heap ∧
      ∃ i co, pairs[i]? = some co ∧ ¬ Few (pairHist f co) ∧
        sigFromHist2d S (R (k + i)) (pairHist f co).values method = .error e := by
  induction pairs generalizing k w with
  | nil =>
    left
    refine ⟨?_, by simp⟩
    simp [sigLoop]
  | cons co rest ih =>
    obtain ⟨c0, c1⟩ := co
    obtain ⟨a, b, ha, hb⟩ := hcol (c0, c1) List.mem_cons_self
    have hh : pairHist f (c0, c1) = histOfPairs (a.cells.zip b.cells) := by
      simp only [pairHist] at ha hb ⊢; rw [ha, hb]
    simp only at ha hb
    have ih := fun k w => ih (fun co hco => hcol co (List.mem_cons_of_mem _ hco)) k w
    by_cases hf : Few (pairHist f (c0, c1))
    · have hf' : (((histOfPairs (a.cells.zip b.cells)).rows.length = 1 ∨
          (histOfPairs (a.cells.zip b.cells)).cols.length = 1) ∨
          ((histOfPairs (a.cells.zip b.cells)).rows.length = 0 ∨
          (histOfPairs (a.cells.zip b.cells)).cols.length = 0)) := by
        rw [hh] at hf; unfold Few at hf; omega
      have hrun : (sigLoop S R method f k ((c0, c1) :: rest)).exec w =
          match (sigLoop S R method f (k + 1) rest).exec
            { w with warns := w.warns ++ [pairWarn f (c0, c1)] } with
          | (.ok l, w') => (.ok ((c0, c1, none) :: l), w')
          | (.error e, w') => (.error e, w') := by
        rw [sigLoop]
        simp only [M.exec_bind, M.exec_ofExcept, ha, hb, hf', if_true, M.exec_warn, M.exec_pure, pairWarn, hh]
        rcases (sigLoop S R method f (k + 1) rest).exec _ with ⟨res, w'⟩
        cases res <;> rfl
      rw [hrun]
      rcases ih (k + 1) { w with warns := w.warns ++ [pairWarn f (c0, c1)] } with ⟨h1, h2⟩ | ⟨e, w', h1, h2, i, co, h3, h4, h5⟩
      · left
        rw [h1]
        refine ⟨?_, ?_⟩
        · simp [hf, pairSig, List.zipIdx_cons]
        · intro i co hi hnf
          cases i with
          | zero => cases hi; exact absurd hf hnf
          | succ i =>
            have := h2 i co (by simpa using hi) hnf
            rwa [Nat.add_assoc, Nat.add_comm 1 i] at this
      · right
        rw [h1]
        refine ⟨e, w', rfl, h2, i + 1, co, by simpa using h3, h4, ?_⟩
        rwa [Nat.add_assoc, Nat.add_comm 1 i] at h5
    · have hf' : ¬ (((histOfPairs (a.cells.zip b.cells)).rows.length = 1 ∨
          (histOfPairs (a.cells.zip b.cells)).cols.length = 1) ∨
          ((histOfPairs (a.cells.zip b.cells)).rows.length = 0 ∨
          (histOfPairs (a.cells.zip b.cells)).cols.length = 0)) := by
        rw [hh] at hf; unfold Few at hf; omega
      have hrun : (sigLoop S R method f k ((c0, c1) :: rest)).exec w =
          match sigFromHist2d S (R k) (pairHist f (c0, c1)).values method with
          | .error e => (.error e, w)
          | .ok pz => match (sigLoop S R method f (k + 1) rest).exec w with
            | (.ok l, w') => (.ok ((c0, c1, pz.2) :: l), w')
            | (.error e, w') => (.error e, w') := by
        rw [sigLoop]
        simp only [M.exec_bind, M.exec_ofExcept, ha, hb, hf', if_false, hh]
        cases sigFromHist2d S (R k) (histOfPairs (a.cells.zip b.cells)).values method with
        | error e => rfl
        | ok pz =>
          simp only [M.exec_bind, M.exec_pure]
          rcases (sigLoop S R method f (k + 1) rest).exec w with ⟨res, w'⟩
          cases res <;> rfl
      rw [hrun]
      cases hs : sigFromHist2d S (R k) (pairHist f (c0, c1)).values method with
      | error e =>
        right
        exact ⟨e, w, rfl, rfl, 0, (c0, c1), rfl, hf, hs⟩
      | ok pz =>
        have hp : pairSig S R method f k (c0, c1) = pz.2 := by
          unfold pairSig; rw [if_neg hf, hs]
        rcases ih (k + 1) w with ⟨h1, h2⟩ | ⟨e, w', h1, h2, i, co, h3, h4, h5⟩
        · left
          simp only
          rw [h1]
          refine ⟨?_, ?_⟩
          · simp [hf, hp, List.zipIdx_cons]
          · intro i co hi hnf
            cases i with
            | zero => cases hi; exact ⟨pz.1, by rw [Nat.add_zero, hs, hp]⟩
            | succ i =>
              have := h2 i co (by simpa using hi) hnf
              rwa [Nat.add_assoc, Nat.add_comm 1 i] at this
        · right
          simp only
          rw [h1]
          refine ⟨e, w', rfl, h2, i + 1, co, by simpa using h3, h4, ?_⟩
          rwa [Nat.add_assoc, Nat.add_comm 1 i] at h5

theorem pairHist_table {dropna du dof : Bool} {f : Frame} (hn : f.names.Nodup) {a b : Column}
    (ha : a ∈ f.cols) (hb : b ∈ f.cols) :
    IsTable (records dropna du dof a b) (pairHist (applyFlags dropna du dof f) (a.name, b.name)) ∧
    ∃ a' b', (applyFlags dropna du dof f).getCol a.name = .ok a' ∧
      (applyFlags dropna du dof f).getCol b.name = .ok b' := by
  obtain ⟨a', b', e1, e2, ht⟩ := flags_table (dropna := dropna) (du := du) (dof := dof) hn ha hb
  refine ⟨?_, a', b', e1, e2⟩
  unfold pairHist
  simp only [e1, e2]
  exact ht

theorem mem_cwr_cols {f : Frame} {co : String × String} (h : co ∈ cwr f.names) :
    ∃ ca ∈ f.cols, ∃ cb ∈ f.cols, co = (ca.name, cb.name) := by
  obtain ⟨a, b⟩ := co
  rcases mem_cwr.1 h with ⟨rfl, h'⟩ | h
  · obtain ⟨ca, ha, rfl⟩ := mem_names_cols h'
    exact ⟨ca, ha, ca, ha, rfl⟩
  · obtain ⟨ca, ha, rfl⟩ := mem_names_cols (h.subset (by simp) : a ∈ f.names)
    obtain ⟨cb, hb, rfl⟩ := mem_names_cols (h.subset (by simp) : b ∈ f.names)
    exact ⟨ca, ha, cb, hb, rfl⟩

namespace Props

/-- **C33 for `significance_from_rebinned_df`.** For every frame with distinct column names: if the call
returns, the result is the significance matrix of the frame and one warning is issued for each pair whose
table has fewer than two rows or columns; if it raises, the exception is that of
`significance_from_hist2d` for the table of some pair with at least two rows and columns.  In both cases
only the given frame is changed. -/
theorem significance_of_frame (S : SigNum) (R : ℕ → SimRun F) (method : String) {r : Ref} {w : World}
    {f : Frame} (hr : w.heap[r]? = some f) (hn : f.names.Nodup) (dropna du dof : Bool) :
    (∃ t w', (sigFromRebinned S R r method dropna du dof).exec w = (.ok t, w') ∧
      IsSigMatrix S R method dropna du dof f t ∧ w'.heap = w.heap.set r (applyFlags dropna du dof f) ∧
      ∃ ws, w'.warns = w.warns ++ ws ∧ SigWarnings dropna du dof f ws) ∨
    (∃ e w', (sigFromRebinned S R r method dropna du dof).exec w = (.error e, w') ∧
      w'.heap = w.heap.set r (applyFlags dropna du dof f) ∧
      ∃ k, ∃ ca ∈ f.cols, ∃ cb ∈ f.cols, (cwr f.names)[k]? = some (ca.name, cb.name) ∧
        ∃ h, IsTable (records dropna du dof ca cb) h ∧ 2 ≤ h.rows.length ∧ 2 ≤ h.cols.length ∧
          sigFromHist2d S (R k) h.values method = .error e) := by
  set g := applyFlags dropna du dof f with hg
  have hgn : g.names = f.names := applyFlags_names ..
  have hcol : ∀ co ∈ cwr f.names, ∃ a b, g.getCol co.1 = .ok a ∧ g.getCol co.2 = .ok b := by
    intro co hco
    obtain ⟨ca, ha, cb, hb, rfl⟩ := mem_cwr_cols hco
    exact (pairHist_table hn ha hb).2
  have hexec : (sigFromRebinned S R r method dropna du dof).exec w =
      match (sigLoop S R method g 0 (cwr f.names)).exec ⟨w.heap.set r g, w.warns⟩ with
      | (.error e, w') => (.error e, w')
      | (.ok l, w') => (.ok (if l.length = 0 then ⟨f.names, f.names, fun _ _ => none⟩
          else (((overview l).reindexCols f.names).reindexRows f.names)), w') := by
    unfold sigFromRebinned
    rw [M.exec_bind, M.exec_read_of hr]
    simp only [M.exec_bind, M.exec_write, ← hg, hgn]
    rcases (sigLoop S R method g 0 (cwr f.names)).exec ⟨w.heap.set r g, w.warns⟩ with ⟨res, w'⟩
    cases res with
    | error e => rfl
    | ok l =>
      simp only
      split <;> rfl
  rw [hexec]
  rcases sigLoop_exec S R method g (cwr f.names) hcol 0 ⟨w.heap.set r g, w.warns⟩ with
    ⟨h1, h2⟩ | ⟨e, w', h1, h2, i, co, h3, h4, h5⟩
  · left
    rw [h1]
    refine ⟨_, _, rfl, ?_, rfl, _, rfl, ?_⟩
    · have hnd := cwr_nodup hn
      set val : String → String → Option EReal := fun a b =>
        pairSig S R method g ((cwr f.names).idxOf (a, b)) (a, b) with hval
      have hl : ((cwr f.names).zipIdx 0).map (fun p => (p.1.1, p.1.2, pairSig S R method g p.2 p.1)) =
          (cwr f.names).map fun co => (co.1, co.2, val co.1 co.2) := by
        apply List.ext_getElem
        · simp
        · intro n hn1 hn2
          simp only [List.getElem_map, List.getElem_zipIdx, hval, Prod.mk.eta, Nat.zero_add]
          rw [hnd.idxOf_getElem]
      rw [hl]
      have hv : ∀ (k : ℕ) a b, (cwr f.names)[k]? = some (a, b) → val a b = pairSig S R method g k (a, b) := by
        intro k a b hk
        obtain ⟨hk1, hk2⟩ := List.getElem?_eq_some_iff.1 hk
        simp only [hval]
        rw [← hk2, hnd.idxOf_getElem]
      by_cases hnil : f.names = []
      · have : cwr f.names = [] := by rw [hnil]; rfl
        rw [this]
        refine ⟨rfl, rfl, by simp [hnil], by simp [this]⟩
      have hne : ¬ ((cwr f.names).map fun co => (co.1, co.2, val co.1 co.2)).length = 0 := by
        intro h0
        apply hnil
        apply cwr_eq_nil
        simpa using h0
      rw [if_neg hne]
      have hov : ∀ a b, (((overview ((cwr f.names).map fun co => (co.1, co.2, val co.1 co.2))).reindexCols
          f.names).reindexRows f.names).v a b =
          (overview ((cwr f.names).map fun co => (co.1, co.2, val co.1 co.2))).v a b := by
        intro a b; rw [overview_reindex]
      have hent : ∀ (k : ℕ) a b, (cwr f.names)[k]? = some (a, b) →
          (overview ((cwr f.names).map fun co => (co.1, co.2, val co.1 co.2))).v a b = val a b := by
        intro k a b hk
        rcases mem_cwr.1 (List.mem_of_getElem? hk) with ⟨rfl, h⟩ | h
        · exact (overview_pairs hn val (b := a)).1 h
        · exact ((overview_pairs hn val).2 h).1
      refine ⟨rfl, rfl, fun a ha b hb => ?_, fun k a b hk => ?_⟩
      · by_cases hab : a = b
        · rw [hab]
        · rw [hov, hov]
          rcases sublist_total ha hb hab with h | h
          · obtain ⟨e1, e2⟩ := (overview_pairs hn val).2 h
            rw [e1, e2]
          · obtain ⟨e1, e2⟩ := (overview_pairs hn val).2 h
            rw [e1, e2]
      · obtain ⟨ca, ha, cb, hb, e⟩ := mem_cwr_cols (List.mem_of_getElem? hk)
        cases e
        refine ⟨ca, ha, cb, hb, rfl, rfl, ?_⟩
        rw [hov, hent k _ _ hk, hv k _ _ hk]
        refine ⟨pairHist g (ca.name, cb.name), (pairHist_table hn ha hb).1, ?_⟩
        by_cases hf : Few (pairHist g (ca.name, cb.name))
        · exact .inl ⟨hf, by unfold pairSig; rw [if_pos hf]⟩
        · refine .inr ⟨hf, ?_⟩
          have := h2 k _ hk hf
          rwa [Nat.zero_add] at this
    · refine ⟨fun co => ((pairHist g co).rows.length, (pairHist g co).cols.length), ?_, ?_⟩
      · intro ca ha cb hb
        exact ⟨_, (pairHist_table hn ha hb).1, rfl⟩
      · rfl
  · right
    rw [h1]
    refine ⟨e, w', rfl, h2, i, ?_⟩
    obtain ⟨ca, ha, cb, hb, rfl⟩ := mem_cwr_cols (List.mem_of_getElem? h3)
    refine ⟨ca, ha, cb, hb, h3, _, (pairHist_table hn ha hb).1, ?_, ?_, ?_⟩
    · rw [← hg]; unfold Few at h4; omega
    · rw [← hg]; unfold Few at h4; omega
    · rwa [Nat.zero_add] at h5

open scoped Classical in
/-- **C33 for `significance_matrix`.** If it returns, the quality check kept the columns that satisfy
`Kept`, `bin_data` (uniform binning) of these columns returned a frame, and the result is the significance
matrix of that frame, labelled with the kept columns in the order of the input; one warning per pair with
too few categories is added to those of the quality check.  If it raises, `bin_data` raised, or the
significance of some pair's table. -/
theorem significance_matrix_result (S : SigNum) (R : ℕ → SimRun F) (method : String)
    (fl : ℚ → ℚ) (pf : String → Option (Option ℚ)) {r : Ref} {w : World} {data : Frame}
    (hr : w.heap[r]? = some data) (hn : data.names.Nodup) (ic : Option (List String)) (bins : Bins)
    (dropna du dof : Bool) :
    ∃ icc w1 clean, (dqCheck r (ic.getD (guessIntervalCols data)) dropna).exec w =
        (.ok (w.heap.length, icc), w1) ∧ w1.heap[w.heap.length]? = some clean ∧
      clean.cols = data.cols.filter (fun c => decide (Kept (ic.getD (guessIntervalCols data)) dropna c)) ∧
      ((∃ t w' r2 dict w2 binned ws,
          (significanceMatrix S R fl pf r ic bins method dropna du dof).exec w = (.ok t, w') ∧
          (binData fl pf w.heap.length icc bins false).exec w1 = (.ok (r2, dict), w2) ∧
          w2.heap[r2]? = some binned ∧ IsSigMatrix S R method dropna du dof binned t ∧
          t.rows = (data.cols.filter
            (fun c => decide (Kept (ic.getD (guessIntervalCols data)) dropna c))).map (·.name) ∧
          w'.warns = w1.warns ++ ws ∧ SigWarnings dropna du dof binned ws) ∨
       (∃ e w', (significanceMatrix S R fl pf r ic bins method dropna du dof).exec w = (.error e, w') ∧
          (((binData fl pf w.heap.length icc bins false).exec w1).1 = .error e ∨
           ∃ (k : ℕ) (recs : List (Option Cell × Option Cell)) (h : Hist), IsTable recs h ∧
            2 ≤ h.rows.length ∧ 2 ≤ h.cols.length ∧
            sigFromHist2d S (R k) h.values method = .error e))) := by
  obtain ⟨icc, w1, clean, ws, h1, h2, -, g4, -⟩ := dq_check hr hn (ic.getD (guessIntervalCols data)) dropna
  have hclean : w1.heap[w.heap.length]? = some clean := by rw [h2]; simp
  refine ⟨icc, w1, clean, h1, hclean, g4, ?_⟩
  have hexec : (significanceMatrix S R fl pf r ic bins method dropna du dof).exec w =
      match (binData fl pf w.heap.length icc bins false).exec w1 with
      | (.error e, w2) => (.error e, w2)
      | (.ok (r2, _), w2) => (sigFromRebinned S R r2 method dropna du dof).exec w2 := by
    unfold significanceMatrix
    rw [M.exec_bind, M.exec_read_of hr]
    simp only [M.exec_bind, h1]
    rcases (binData fl pf w.heap.length icc bins false).exec w1 with ⟨res, w2⟩
    cases res <;> rfl
  rw [hexec, binData_exec fl pf hclean]
  cases hc : binDataCore fl pf clean icc bins false with
  | error e =>
    right
    exact ⟨e, _, rfl, .inl rfl⟩
  | ok v =>
    obtain ⟨out, dict⟩ := v
    have hnames : out.names = clean.names := (binDataCore_names hc).1
    have hsub : clean.names.Sublist data.names := by
      unfold Frame.names; rw [g4]; exact List.filter_sublist.map _
    have hn' : out.names.Nodup := by rw [hnames]; exact hn.sublist hsub
    simp only
    have hout : (w1.heap ++ [out])[w1.heap.length]? = some out := by simp
    rcases significance_of_frame S R method (w := ⟨w1.heap ++ [out], w1.warns⟩) hout hn' dropna du dof with
      ⟨t, w', e1, e2, -, ws, e3, e4⟩ | ⟨e, w', e1, -, k, ca, ha, cb, hb, -, h, e2, e3, e4, e5⟩
    · left
      refine ⟨t, w', _, dict, _, out, ws, e1, rfl, hout, e2, ?_, e3, e4⟩
      rw [e2.rows, hnames]; unfold Frame.names; rw [g4]
    · right
      exact ⟨e, w', e1, .inr ⟨k, _, h, e2, e3, e4, e5⟩⟩

end Props

namespace M

theorem Has.sigLoop {H : List Frame} (S : SigNum) (R : ℕ → SimRun F) (method : String) (f : Frame)
    (pairs : List (String × String)) (k : ℕ) :
    Tr (Has H) (Phik.sigLoop S R method f k pairs) (fun _ w => Has H w) (Has H) := by
  induction pairs generalizing k with
  | nil => exact Tr.pure fun _ h => h
  | cons co rest ih =>
    obtain ⟨c0, c1⟩ := co
    rw [Phik.sigLoop]
    refine Tr.bind (Has.ofExcept _) fun a => Tr.bind (Has.ofExcept _) fun b => ?_
    simp only
    split
    · exact Tr.bind (Has.warn _) fun _ => Tr.bind (ih _) fun l => Tr.pure fun _ h => h
    · exact Tr.bind (Has.ofExcept _) fun pz => Tr.bind (ih _) fun l => Tr.pure fun _ h => h

theorem Has.sigFromRebinned {H : List Frame} (S : SigNum) (R : ℕ → SimRun F) (method : String) {r : Ref}
    (hr : H.length ≤ r) (dropna du dof : Bool) :
    Tr (Has H) (Phik.sigFromRebinned S R r method dropna du dof) (fun _ w => Has H w) (Has H) := by
  refine Tr.bind (Has.read r) fun _ => Tr.bind (Has.write hr _) fun _ =>
    Tr.bind (Has.sigLoop S R method _ _ _) fun l => ?_
  split <;> exact Tr.pure fun _ h => h

end M

namespace Props

open M in
theorem has_significance_matrix (S : SigNum) (R : ℕ → SimRun F) (method : String) (fl : ℚ → ℚ)
    (pf : String → Option (Option ℚ)) {H : List Frame} (r : Ref) (ic : Option (List String)) (bins : Bins)
    (dropna du dof : Bool) :
    Tr (Has H) (significanceMatrix S R fl pf r ic bins method dropna du dof) (fun _ w => Has H w) (Has H) := by
  refine Tr.bind (Has.read r) fun df => Tr.bind (Has.dqCheck r _ dropna) ?_
  rintro ⟨clean, icc⟩
  refine Tr.of_and fun _ => Tr.bind (Has.binData fl pf clean icc bins false) ?_
  rintro ⟨binned, dict⟩
  exact Tr.of_and fun hc => Has.sigFromRebinned S R method hc _ _ _

/-- **C11 for `significance_matrix`.** Whether it returns or raises, every frame that existed is unchanged. -/
theorem significance_matrix_keeps_frames (S : SigNum) (R : ℕ → SimRun F) (method : String) (fl : ℚ → ℚ)
    (pf : String → Option (Option ℚ)) (r : Ref) (w : World) (ic : Option (List String)) (bins : Bins)
    (dropna du dof : Bool) :
    w.heap <+: ((significanceMatrix S R fl pf r ic bins method dropna du dof).exec w).2.heap :=
  (has_significance_matrix S R method fl pf r ic bins dropna du dof).final (fun _ _ h => h) rfl

end Props
end Phik
