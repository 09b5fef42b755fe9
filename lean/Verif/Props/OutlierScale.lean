import Verif.Props.Monotone
import Verif.Props.OutlierLocality

/-! # Property C68 for outliers: the scale of an interval variable does not matter -/

namespace Phik

open Spec Props Out

theorem bind_run {α β : Type} {m : M α} {k : α → M β} {w w' : World} {x : β} (h : (m >>= k).exec w = (.ok x, w')) :
    ∃ a w1, m.exec w = (.ok a, w1) ∧ (k a).exec w1 = (.ok x, w') := by
  rw [M.exec_bind] at h
  rcases hm : m.exec w with ⟨e | a, w1⟩
  · rw [hm] at h; cases h
  · rw [hm] at h; exact ⟨a, w1, rfl, h⟩

/-- Two results of an outlier function agree up to the labels: both NaN, or matrices of the same size with the same values. -/
def Spec.SameZ : Option OutTab → Option OutTab → Prop
  | none, none => True
  | some t, some u => t.rows.length = u.rows.length ∧ t.cols.length = u.cols.length ∧
      ∀ i j i' j', i'.val = i.val → j'.val = j.val → u.v i' j' = t.v i j
  | _, _ => False

/-- The result of `outlier_significance_matrix_from_rebinned_df` depends on the binning dictionary for the labels only. -/
theorem outlierFromRebinned_dict (N : OutNum) (fmt : ℚ → String) (ci : String)
    (dropna du dof : Bool) {f : Frame} (hl : f.cols.length = 2) :
    ∃ (res : List (String × List (ℚ × ℚ)) → Except Err (Option OutTab)) (ws : List Warning),
      (∀ dict (r : Ref) (w : World), w.heap[r]? = some f →
        (outlierFromRebinned N fmt r dict ci dropna du dof).exec w =
          (res dict, ⟨w.heap.set r (applyFlags dropna du dof f), w.warns ++ ws⟩)) ∧
      ∀ dict dict' t u, res dict = .ok t → res dict' = .ok u → SameZ t u := by
  have hread : ∀ (r : Ref) (w : World), w.heap[r]? = some f →
      (w.heap.set r (applyFlags dropna du dof f))[r]? = some (applyFlags dropna du dof f) := by
    intro r w h
    rw [List.getElem?_set_self]; exact (List.getElem?_eq_some_iff.1 h).1
  match hf : f.cols, hl with
  | [a0, b0], _ =>
    obtain ⟨a, b, h1, -⟩ := hist_of_flags dropna du dof f hf
    have hstart : ∀ (r : Ref) (w : World), w.heap[r]? = some f →
        (hist2dFromRebinned r dropna du dof).exec w =
          (.ok (histOfPairs (a.cells.zip b.cells)), ⟨w.heap.set r (applyFlags dropna du dof f), w.warns⟩) := by
      intro r w h
      unfold hist2dFromRebinned
      rw [M.exec_bind, M.exec_read_of h]
      simp only [hf, List.length_cons, List.length_nil, ne_eq, Nat.reduceAdd, not_true_eq_false, if_false, h1,
        M.exec_bind, M.exec_pure, M.exec_write]
    set h := histOfPairs (a.cells.zip b.cells)
    by_cases hfew : (h.rows.length = 1 ∨ h.cols.length = 1) ∨ (h.rows.length = 0 ∨ h.cols.length = 0)
    · refine ⟨fun _ => .ok none, [.tooFewOut a.name h.rows.length b.name h.cols.length], fun dict r w hr => ?_, ?_⟩
      · unfold outlierFromRebinned
        rw [M.exec_bind, hstart r w hr]
        simp only
        rw [M.exec_bind, M.exec_read_of (w := ⟨_, _⟩) (hread r w hr)]
        simp only [h1, hfew, if_true]
        rfl
      · intro _ _ t u ht hu
        cases ht; cases hu
        trivial
    · refine ⟨fun dict => (do
        let rows ← relabel fmt dict a h.rows
        let cols ← relabel fmt dict b h.cols
        let t ← outlierFromHist2d N h.arr ci
        if hs : t.r = rows.length ∧ t.c = cols.length then
          pure (some ⟨rows, cols, fun i j => (t.v (i.cast hs.1.symm) (j.cast hs.2.symm)).2⟩)
        else throw .value), [], fun dict r w hr => ?_, ?_⟩
      · unfold outlierFromRebinned
        rw [M.exec_bind, hstart r w hr]
        simp only
        rw [M.exec_bind, M.exec_read_of (w := ⟨_, _⟩) (hread r w hr)]
        simp only [h1, hfew, if_false, M.exec_bind, M.exec_ofExcept, List.append_nil]
        cases relabel fmt dict a h.rows with
        | error e => rfl
        | ok rows =>
          cases relabel fmt dict b h.cols with
          | error e => rfl
          | ok cols =>
            cases outlierFromHist2d N h.arr ci with
            | error e => rfl
            | ok t =>
              simp only [bind, Except.bind]
              split <;> rfl
      · have key : ∀ dict t, (do
            let rows ← relabel fmt dict a h.rows
            let cols ← relabel fmt dict b h.cols
            let t ← outlierFromHist2d N h.arr ci
            if hs : t.r = rows.length ∧ t.c = cols.length then
              pure (some ⟨rows, cols, fun i j => (t.v (i.cast hs.1.symm) (j.cast hs.2.symm)).2⟩)
            else throw .value : Except Err (Option OutTab)) = .ok t →
            ∃ z m, outlierFromHist2d N h.arr ci = .ok z ∧ t = some m ∧ m.rows.length = z.r ∧ m.cols.length = z.c ∧
              ∀ i j i' j', i'.val = i.val → j'.val = j.val → m.v i j = (z.v i' j').2 := by
          intro dict t ht
          cases h1 : relabel fmt dict a h.rows with
          | error e => rw [h1] at ht; cases ht
          | ok rows =>
            cases h2 : relabel fmt dict b h.cols with
            | error e => rw [h1, h2] at ht; cases ht
            | ok cols =>
              cases h3 : outlierFromHist2d N h.arr ci with
              | error e => rw [h1, h2, h3] at ht; cases ht
              | ok z =>
                simp only [h1, h2, h3, bind, Except.bind] at ht
                split at ht
                · rename_i hs
                  cases ht
                  refine ⟨z, _, rfl, rfl, hs.1.symm, hs.2.symm, fun i j i' j' e1 e2 => ?_⟩
                  have : i' = i.cast hs.1.symm := Fin.ext e1
                  have : j' = j.cast hs.2.symm := Fin.ext e2
                  subst i' j'
                  rfl
                · cases ht
        intro dict dict' t u ht hu
        obtain ⟨z, m, z1, rfl, z3, z4, z5⟩ := key dict t ht
        obtain ⟨z', m', y1, rfl, y3, y4, y5⟩ := key dict' u hu
        rw [z1] at y1
        obtain rfl : z = z' := by simpa using y1
        refine ⟨z3.trans y3.symm, z4.trans y4.symm, fun i j i' j' e1 e2 => ?_⟩
        have li : i.val < z.r := i.2.trans_eq z3
        have lj : j.val < z.c := j.2.trans_eq z4
        rw [z5 i j ⟨i, li⟩ ⟨j, lj⟩ rfl rfl, y5 i' j' ⟨i, li⟩ ⟨j, lj⟩ e1.symm e2.symm]

/-- A frame that does not have two columns gives an exception. -/
theorem outlierFromRebinned_two {N : OutNum} {fmt : ℚ → String} {dict : List (String × List (ℚ × ℚ))} {ci : String}
    {dropna du dof : Bool} {f : Frame} {r : Ref} {w w' : World} {t : Option OutTab} (hr : w.heap[r]? = some f)
    (h : (outlierFromRebinned N fmt r dict ci dropna du dof).exec w = (.ok t, w')) : f.cols.length = 2 := by
  by_contra hne
  unfold outlierFromRebinned hist2dFromRebinned at h
  simp only [M.exec_bind, M.exec_read_of hr, hne, ne_eq, not_false_eq_true, if_true, M.exec_throw] at h
  cases h

/-- The loop over the pairs. -/
theorem outlierLoop_dict {N : OutNum} {fmt : ℚ → String} {r r' : Ref} {dict dict' : List (String × List (ℚ × ℚ))} {ci : String}
    {dropna du dof : Bool} {data : Frame} (co : List (String × String)) {w w' v v' : World} (hr : w.heap[r]? = some data)
    (hr' : w'.heap[r']? = some data) (hw : w.warns = w'.warns) {l l' : List (String × String × Option OutTab)}
    (h : (outlierLoop N fmt r dict ci dropna du dof co).exec w = (.ok l, v))
    (h' : (outlierLoop N fmt r' dict' ci dropna du dof co).exec w' = (.ok l', v')) :
    List.Forall₂ (fun p q => p.1 = q.1 ∧ p.2.1 = q.2.1 ∧ SameZ p.2.2 q.2.2) l l' ∧ v.warns = v'.warns := by
  induction co generalizing w w' l l' with
  | nil =>
    cases h; cases h'
    exact ⟨.nil, hw⟩
  | cons p co ih =>
    obtain ⟨c0, c1⟩ := p
    unfold outlierLoop at h h'
    simp only [M.exec_bind, M.exec_read_of hr, M.exec_read_of hr', M.exec_ofExcept] at h h'
    cases ha : data.getCol c0 with
    | error e => rw [ha] at h; cases h
    | ok a =>
      cases hb : data.getCol c1 with
      | error e => rw [ha, hb] at h; cases h
      | ok b =>
        simp only [ha, hb] at h h'
        by_cases hne : c0 = c1
        · simp only [hne, if_true, M.exec_throw] at h; cases h
        · simp only [hne, if_false, M.exec_bind, M.exec_pure, M.exec_alloc] at h h'
          obtain ⟨res, ws, hex, hsame⟩ := outlierFromRebinned_dict N fmt ci dropna du dof (f := ⟨data.nrows, [a, b]⟩) rfl
          rw [hex dict w.heap.length ⟨w.heap ++ [(⟨data.nrows, [a, b]⟩ : Frame)], w.warns⟩ (by simp)] at h
          rw [hex dict' w'.heap.length ⟨w'.heap ++ [(⟨data.nrows, [a, b]⟩ : Frame)], w'.warns⟩ (by simp)] at h'
          have hk : ∀ {u : World} {s : Ref}, u.heap[s]? = some data → ((u.heap ++ [(⟨data.nrows, [a, b]⟩ : Frame)]).set u.heap.length
              (applyFlags dropna du dof ⟨data.nrows, [a, b]⟩))[s]? = some data := by
            intro u s hs
            have hlt := (List.getElem?_eq_some_iff.1 hs).1
            rw [List.getElem?_set_ne (by omega), List.getElem?_append_left hlt, hs]
          cases ht : res dict with
          | error e => rw [ht] at h; cases h
          | ok t =>
            cases ht' : res dict' with
            | error e => rw [ht'] at h'; cases h'
            | ok t' =>
              simp only [ht] at h
              simp only [ht'] at h'
              rcases hl : (outlierLoop N fmt r dict ci dropna du dof co).exec
                ⟨(w.heap ++ [(⟨data.nrows, [a, b]⟩ : Frame)]).set w.heap.length
                  (applyFlags dropna du dof ⟨data.nrows, [a, b]⟩), w.warns ++ ws⟩ with ⟨e | m, v1⟩
              · rw [hl] at h; cases h
              · rcases hl' : (outlierLoop N fmt r' dict' ci dropna du dof co).exec
                  ⟨(w'.heap ++ [(⟨data.nrows, [a, b]⟩ : Frame)]).set w'.heap.length
                    (applyFlags dropna du dof ⟨data.nrows, [a, b]⟩), w'.warns ++ ws⟩ with ⟨e | m', v1'⟩
                · rw [hl'] at h'; cases h'
                · rw [hl] at h
                  rw [hl'] at h'
                  obtain ⟨e1, e2⟩ := ih (w := ⟨_, _⟩) (w' := ⟨_, _⟩) (hk hr) (hk hr') (by simp [hw]) (hl.trans (by cases h; rfl))
                    (hl'.trans (by cases h'; rfl))
                  cases h; cases h'
                  exact ⟨.cons ⟨rfl, rfl, hsame _ _ _ _ ht ht'⟩ e1, e2⟩

theorem dictSet_related {α β : Type} {R : α → β → Prop} {d : List (String × α)} {e : List (String × β)}
    (h : List.Forall₂ (fun p q => p.1 = q.1 ∧ R p.2 q.2) d e) (k : String) {x : α} {y : β} (hxy : R x y) :
    List.Forall₂ (fun p q => p.1 = q.1 ∧ R p.2 q.2) (dictSet d k x) (dictSet e k y) := by
  unfold dictSet
  have hany : (d.any fun p => p.1 == k) = e.any fun p => p.1 == k := by
    induction h with
    | nil => rfl
    | cons h _ ih => simp only [List.any_cons, h.1, ih]
  rw [hany]
  split
  · rw [List.forall₂_map_left_iff, List.forall₂_map_right_iff]
    refine h.imp fun p q hpq => ?_
    rw [hpq.1]
    split
    · exact ⟨rfl, hxy⟩
    · exact hpq
  · exact List.rel_append h (.cons ⟨rfl, hxy⟩ .nil)

theorem joinDict_related {α β : Type} {R : α → β → Prop} {l : List (String × String × α)} {m : List (String × String × β)}
    (h : List.Forall₂ (fun p q => p.1 = q.1 ∧ p.2.1 = q.2.1 ∧ R p.2.2 q.2.2) l m) :
    List.Forall₂ (fun p q => p.1 = q.1 ∧ R p.2 q.2) (joinDict l) (joinDict m) := by
  unfold joinDict
  have : ∀ (d : List (String × α)) (e : List (String × β)), List.Forall₂ (fun p q => p.1 = q.1 ∧ R p.2 q.2) d e →
      List.Forall₂ (fun p q => p.1 = q.1 ∧ R p.2 q.2) (l.foldl (fun d p => dictSet d (p.1 ++ ":" ++ p.2.1) p.2.2) d)
        (m.foldl (fun d p => dictSet d (p.1 ++ ":" ++ p.2.1) p.2.2) e) := by
    induction h with
    | nil => exact fun d e h => h
    | cons hpq _ ih =>
      intro d e hde
      simp only [List.foldl_cons]
      apply ih
      rw [hpq.1, hpq.2.1]
      exact dictSet_related hde _ hpq.2.2
  exact this [] [] .nil

/-- The quality check and the binning of data on two scales lead to the same binned frame. -/
theorem pipeline_frames {fl : ℚ → ℚ} {pf : String → Option (Option ℚ)} {quantile : Bool} {bins bins' : Bins} {f g : Frame}
    {ic : List String} (h : BinAlike fl pf quantile ic bins bins' f g) {r r' : Ref} {w w' : World} (hf : w.heap[r]? = some f)
    (hg : w'.heap[r']? = some g) (hw : w.warns = w'.warns) {dropna : Bool} {c c' b b' : Ref} {icc icc' : List String}
    {d d' : List (String × List (ℚ × ℚ))} {w1 w1' w2 w2' : World}
    (h1 : (dqCheck r ic dropna).exec w = (.ok (c, icc), w1)) (h2 : (binData fl pf c icc bins quantile).exec w1 = (.ok (b, d), w2))
    (k1 : (dqCheck r' ic dropna).exec w' = (.ok (c', icc'), w1'))
    (k2 : (binData fl pf c' icc' bins' quantile).exec w1' = (.ok (b', d'), w2')) :
    w2.heap[b]? = w2'.heap[b']? ∧ w2.warns = w2'.warns := by
  have := pipeline_alike h hf hg hw dropna (k := M.read) fun _ _ => Local.read
  simp only [M.exec_bind, h1, h2, k1, k2, M.exec_read] at this
  obtain ⟨e1, e2⟩ := this
  cases hb : w2.heap[b]? <;> cases hb' : w2'.heap[b']? <;> simp_all

namespace Props

/-- **C68 for outliers.** If interval columns are shifted (equal-width bins), transformed by any increasing function (quantile
bins), or transformed together with their explicit bin edges, then the results of `outlier_significance_matrix` agree cell by cell
(or both are NaN), and the warnings are the same. -/
theorem scale_free_outlier (N : OutNum) (fmt : ℚ → String) (fl : ℚ → ℚ) (pf : String → Option (Option ℚ)) {r r' : Ref} {w w' v v' : World}
    {f g : Frame} (hf : w.heap[r]? = some f) (hg : w'.heap[r']? = some g) (hw : w.warns = w'.warns) (ic : Option (List String))
    {bins bins' : Bins} {quantile : Bool} (h : SameFrames fl quantile (ic.getD (guessIntervalCols f)) bins bins' f g)
    (ci : String) (dropna du dof : Bool) {t t' : Option OutTab} {d d' : List (String × List (ℚ × ℚ))}
    (h1 : (outlierMatrix N fmt fl pf r ic ci bins quantile dropna du dof).exec w = (.ok (t, d), v))
    (h2 : (outlierMatrix N fmt fl pf r' ic ci bins' quantile dropna du dof).exec w' = (.ok (t', d'), v')) :
    SameZ t t' ∧ v.warns = v'.warns := by
  have hal := h.alike pf
  have hguess : ic.getD (guessIntervalCols g) = ic.getD (guessIntervalCols f) := by rw [hal.guess]
  have inv : ∀ {r : Ref} {f : Frame} {bins : Bins} {w v : World} {t : Option OutTab} {d : List (String × List (ℚ × ℚ))},
      w.heap[r]? = some f → (outlierMatrix N fmt fl pf r ic ci bins quantile dropna du dof).exec w = (.ok (t, d), v) →
      ∃ c icc w1 b w2, (dqCheck r (ic.getD (guessIntervalCols f)) dropna).exec w = (.ok (c, icc), w1) ∧
        (binData fl pf c icc bins quantile).exec w1 = (.ok (b, d), w2) ∧
        (outlierFromRebinned N fmt b d ci dropna du dof).exec w2 = (.ok t, v) := by
    intro r f bins w v t d hf h1
    unfold outlierMatrix at h1
    obtain ⟨df, w0, e0, h1⟩ := bind_run h1
    rw [M.exec_read_of hf] at e0
    cases e0
    by_cases hl : f.cols.length = 2
    swap
    · simp only [ne_eq, hl, not_false_eq_true, if_true] at h1
      obtain ⟨_, _, e0, -⟩ := bind_run h1
      cases e0
    simp only [ne_eq, hl, not_true_eq_false, if_false] at h1
    obtain ⟨⟨c, icc⟩, w1, e1, h1⟩ := bind_run h1
    obtain ⟨⟨b, d'⟩, w2, e2, h1⟩ := bind_run h1
    obtain ⟨t', w3, e3, h1⟩ := bind_run h1
    cases h1
    exact ⟨c, icc, w1, b, w2, e1, e2, e3⟩
  obtain ⟨c, icc, w1, b, w2, p1, p2, p3⟩ := inv hf h1
  obtain ⟨c', icc', w1', b', w2', q1, q2, q3⟩ := inv hg h2
  rw [hguess] at q1
  obtain ⟨e1, e2⟩ := pipeline_frames hal hf hg hw p1 p2 q1 q2
  cases hb : w2.heap[b]? with
  | none =>
    exfalso
    unfold outlierFromRebinned hist2dFromRebinned at p3
    simp only [M.exec_bind, M.exec_read, hb] at p3
    cases p3
  | some out =>
    have hb' : w2'.heap[b']? = some out := by rw [← e1, hb]
    obtain ⟨res, ws, hex, hsame⟩ := outlierFromRebinned_dict N fmt ci dropna du dof (outlierFromRebinned_two hb p3)
    rw [hex d b w2 hb] at p3
    rw [hex d' b' w2' hb'] at q3
    obtain ⟨x1, x2⟩ := Prod.ext_iff.1 p3
    obtain ⟨y1, y2⟩ := Prod.ext_iff.1 q3
    refine ⟨hsame d d' t t' x1 y1, ?_⟩
    simp only at x2 y2
    rw [← x2, ← y2]
    simp only [e2]

/-- **C68 for outliers.** The same for `outlier_significance_matrices`: the two results have the same keys in the same order, and
their entries agree cell by cell. -/
theorem scale_free_outliers (N : OutNum) (fmt : ℚ → String) (fl : ℚ → ℚ) (pf : String → Option (Option ℚ)) {r r' : Ref} {w w' v v' : World}
    {f g : Frame} (hf : w.heap[r]? = some f) (hg : w'.heap[r']? = some g) (hw : w.warns = w'.warns) (ic : Option (List String))
    {bins bins' : Bins} {quantile : Bool} (h : SameFrames fl quantile (ic.getD (guessIntervalCols f)) bins bins' f g)
    (ci : String) (comb : List (String × String)) (dropna du dof : Bool) {t t' : List (String × Option OutTab)}
    {d d' : List (String × List (ℚ × ℚ))}
    (h1 : (outlierMatrices N fmt fl pf r ic ci bins quantile comb dropna du dof).exec w = (.ok (t, d), v))
    (h2 : (outlierMatrices N fmt fl pf r' ic ci bins' quantile comb dropna du dof).exec w' = (.ok (t', d'), v')) :
    List.Forall₂ (fun p q => p.1 = q.1 ∧ SameZ p.2 q.2) t t' ∧ v.warns = v'.warns := by
  have hal := h.alike pf
  have hguess : ic.getD (guessIntervalCols g) = ic.getD (guessIntervalCols f) := by rw [hal.guess]
  have inv : ∀ {r : Ref} {f : Frame} {bins : Bins} {w v : World} {t : List (String × Option OutTab)} {d : List (String × List (ℚ × ℚ))},
      w.heap[r]? = some f → (outlierMatrices N fmt fl pf r ic ci bins quantile comb dropna du dof).exec w = (.ok (t, d), v) →
      ∃ c icc w1 b w2 out l, (dqCheck r (ic.getD (guessIntervalCols f)) dropna).exec w = (.ok (c, icc), w1) ∧
        (binData fl pf c icc bins quantile).exec w1 = (.ok (b, d), w2) ∧ w2.heap[b]? = some out ∧
        (outlierLoop N fmt b d ci dropna du dof (if comb.isEmpty then comb2 out.names else comb)).exec w2 = (.ok l, v) ∧
        t = joinDict l := by
    intro r f bins w v t d hf h1
    unfold outlierMatrices at h1
    obtain ⟨df, w0, e0, h1⟩ := bind_run h1
    rw [M.exec_read_of hf] at e0
    cases e0
    obtain ⟨⟨c, icc⟩, w1, e1, h1⟩ := bind_run h1
    obtain ⟨⟨b, d'⟩, w2, e2, h1⟩ := bind_run h1
    obtain ⟨l, w3, e3, h1⟩ := bind_run h1
    cases h1
    unfold outlierMatricesFromRebinned at e3
    obtain ⟨out, w4, e4, e3⟩ := bind_run e3
    cases hb : w2.heap[b]? with
    | none => rw [M.exec_read, hb] at e4; cases e4
    | some out' =>
      rw [M.exec_read_of hb] at e4
      cases e4
      exact ⟨c, icc, w1, b, w2, out, l, e1, e2, hb, e3, rfl⟩
  obtain ⟨c, icc, w1, b, w2, out, l, p1, p2, p3, p4, rfl⟩ := inv hf h1
  obtain ⟨c', icc', w1', b', w2', out', l', q1, q2, q3, q4, rfl⟩ := inv hg h2
  rw [hguess] at q1
  obtain ⟨e1, e2⟩ := pipeline_frames hal hf hg hw p1 p2 q1 q2
  obtain rfl : out = out' := by
    rw [p3, q3] at e1
    exact Option.some.inj e1
  obtain ⟨k1, k2⟩ := outlierLoop_dict _ p3 q3 e2 p4 q4
  exact ⟨joinDict_related k1, k2⟩

/-- Non-vacuity: values in metres and in centimetres, with edges in the same unit; both calls return, with the same values. -/
example {N : OutNum} (hN : OutExact N) (fmt : ℚ → String) (pf : String → Option (Option ℚ)) :
    let a : Column := ⟨"a", true, [.num 1, .nan, .num 5]⟩
    let b : Column := ⟨"b", false, [.str "x", .str "y", .str "y"]⟩
    ∃ t t' d d' v v',
      (outlierMatrices N fmt (fun x => x) pf 0 (some ["a"]) "poisson" (.one (.edges [0, 2, 6])) false [] true false false).exec
        ⟨[⟨3, [a, b]⟩], []⟩ = (.ok (t, d), v) ∧
      (outlierMatrices N fmt (fun x => x) pf 0 (some ["a"]) "poisson" (.one (.edges [0, 200, 600])) false [] true false false).exec
        ⟨[⟨3, [⟨"a", true, [.num 100, .nan, .num 500]⟩, b]⟩], []⟩ = (.ok (t', d'), v') ∧
      t.length = 1 ∧ List.Forall₂ (fun p q => p.1 = q.1 ∧ SameZ p.2 q.2) t t' := by
  intro a b
  have args : ∀ (l : List ℚ) (f : Frame), f.names.Nodup → l ≠ [] ∧ l.Pairwise (· ≤ ·) →
      OutlierArgs (fun x => x) pf (.one (.edges l)) ["a"] f := fun l f hf hl =>
    ⟨hf, fun n _ => ⟨_, .one _ _⟩, fun n _ s h => by cases h; exact hl, by intros; rfl⟩
  obtain ⟨t, d, v, h1, m1⟩ := outlier_matrices_returns hN (ci := "poisson") (.inl rfl) fmt (fl := fun x => x) (.inl rfl) pf
    (.one (.edges [0, 2, 6])) false true false false (r := 0) (w := ⟨[⟨3, [a, b]⟩], []⟩) (f := ⟨3, [a, b]⟩) rfl (ic := some ["a"])
    (args _ _ (by decide) ⟨by simp, by norm_num⟩) (by
      intro c hc hn s
      simp only [List.mem_cons, List.not_mem_nil, or_false, Option.getD_some] at hc hn
      rcases hc with rfl | rfl <;> simp_all [a, b])
  obtain ⟨t', d', v', h2, m2⟩ := outlier_matrices_returns hN (ci := "poisson") (.inl rfl) fmt (fl := fun x => x) (.inl rfl) pf
    (.one (.edges [0, 200, 600])) false true false false (r := 0) (w := ⟨[⟨3, [⟨"a", true, [.num 100, .nan, .num 500]⟩, b]⟩], []⟩)
    (f := ⟨3, [⟨"a", true, [.num 100, .nan, .num 500]⟩, b]⟩) rfl (ic := some ["a"])
    (args _ _ (by decide) ⟨by simp, by norm_num⟩) (by
      intro c hc hn s
      simp only [List.mem_cons, List.not_mem_nil, or_false, Option.getD_some] at hc hn
      rcases hc with rfl | rfl <;> simp_all [b])
  refine ⟨t, t', d, d', v, v', h1, h2, ?_, ?_⟩
  · classical
    have ka : Kept ["a"] true a := by unfold Kept; rw [← nunique_eq]; decide
    have kb : Kept ["a"] true b := by unfold Kept; rw [← nunique_eq]; decide
    obtain ⟨pairs, -, hp, hres⟩ := outlier_matrices_result N fmt (fl := fun x => x) (.inl rfl) pf (r := 0) (w := ⟨[⟨3, [a, b]⟩], []⟩)
      (data := ⟨3, [a, b]⟩) rfl (by decide) (some ["a"]) "poisson" (.one (.edges [0, 2, 6])) [] false true false false
      (args _ _ (by decide) ⟨by simp, by norm_num⟩ : OutlierArgs (fun x => x) pf (.one (.edges [0, 2, 6])) ["a"] ⟨3, [a, b]⟩).entries
      (args _ _ (by decide) ⟨by simp, by norm_num⟩ : OutlierArgs (fun x => x) pf (.one (.edges [0, 2, 6])) ["a"] ⟨3, [a, b]⟩).sorted
      (by intros; rfl) (kept := ⟨3, [a, b]⟩) rfl (by
        simp only [Option.getD_some, List.filter_cons, ka, kb, decide_true, if_true, List.filter_nil]) (by simp)
    obtain ⟨hpn, hpm⟩ := hp rfl
    rw [h1] at hres
    rcases hres with ⟨e, he, -⟩ | ⟨fn, -, hres⟩
    · cases he
    rcases hres with ⟨_, _, _, _, -, -, -, he⟩ | ⟨t2, d2, he, hnd, hkeys, -⟩
    · cases he
    · cases he
      have hk : ∀ k, k ∈ t.map Prod.fst ↔ k = "a:b" := by
        intro k
        rw [hkeys]
        constructor
        · rintro ⟨⟨x, y⟩, hp, rfl⟩
          have := (hpm x y).1 hp
          have hs : [x, y] = ["a", "b"] := this.eq_of_length rfl
          cases hs
          rfl
        · rintro rfl
          exact ⟨("a", "b"), (hpm _ _).2 (List.Sublist.refl _), rfl⟩
      have : t.map Prod.fst = ["a:b"] := by
        refine List.perm_singleton.1 ?_
        rw [List.perm_ext_iff_of_nodup hnd (by simp)]
        intro k
        rw [hk, List.mem_singleton]
      have hl := congrArg List.length this
      simpa using hl
  · refine (scale_free_outliers N fmt (fun x => x) pf (r := 0) (r' := 0) (w := ⟨[⟨3, [a, b]⟩], []⟩)
      (w' := ⟨[⟨3, [⟨"a", true, [.num 100, .nan, .num 500]⟩, b]⟩], []⟩) (f := ⟨3, [a, b]⟩) (g := ⟨3, [⟨"a", true, [.num 100, .nan, .num 500]⟩, b]⟩) rfl rfl rfl (some ["a"]) (quantile := false) ⟨rfl, ?_⟩ "poisson" [] true
      false false h1 h2).1
    refine .cons ?_ (.cons ?_ .nil)
    · simp only [Option.getD_some, a, List.mem_singleton, if_true]
      refine ⟨_, _, .one _ _, .one _ _, ?_⟩
      have := SameData.edges (fl := fun x => x) (quantile := false) [0, 2, 6] a (fun x => 100 * x)
        (by intro x hx t; simp [a] at hx; rcases hx with rfl | rfl | rfl <;> simp)
        (by intro x _ y _ h; simpa using h)
      have e1 : rescale (fun x => 100 * x) a = ⟨"a", true, [.num 100, .nan, .num 500]⟩ := by
        simp only [rescale, a, onNum, List.map_cons, List.map_nil]; norm_num
      have e2 : ([0, 2, 6] : List ℚ).map (fun x => 100 * x) = [0, 200, 600] := by norm_num
      rw [e1, e2] at this
      exact this
    · simp [b]

end Props

end Phik
