import Verif.Props.OutlierLocality
import Verif.Lemmas.RecordOrder

/-! # Property C98: incomplete records do not matter for a pair of variables

With `dropna=True` (the default) the entry of two variables in a matrix depends on the *set of complete records* of these two
variables only: records in which one of the two values is missing may be added, removed or changed in all other respects, and the
records may come in any order. Automatic bins are the exception: they are computed from all present values of a variable. -/

namespace Phik

open Spec Props Out

namespace Spec

/-- The values of a column that are not missing. -/
def present (c : Column) : List Cell := c.cells.filter fun x => decide (x ≠ .nan)

/-- The records of two columns in which neither value is missing. -/
def completeRecords (a b : Column) : List (Cell × Cell) :=
  (a.cells.zip b.cells).filter fun p => decide (p.1 ≠ .nan ∧ p.2 ≠ .nan)

/-- The two versions of a column get the same bins: it is not an interval column, or its entry of `bins` gives the edges, or the
values that are present are the same ones. -/
def SameBins (bins : Bins) (ic : List String) (c c' : Column) : Prop :=
  c.name ∈ ic → (∃ e, EntryFor bins c.name (.edges e)) ∨ (present c).Perm (present c')

end Spec

namespace Props

theorem table_congr {recs recs' : List (Option Cell × Option Cell)}
    (hc : ∀ x y, recs.count (some x, some y) = recs'.count (some x, some y)) {h : Hist} (ht : IsTable recs h) : IsTable recs' h := by
  have hm : ∀ x y, (some x, some y) ∈ recs ↔ (some x, some y) ∈ recs' := fun x y => by
    rw [← List.count_pos_iff, hc, List.count_pos_iff]
  refine ⟨ht.rows_sorted, ht.cols_sorted, fun a => ?_, fun b => ?_, fun i j => ?_⟩
  · rw [ht.rows_mem]; exact exists_congr fun b => hm a b
  · rw [ht.cols_mem]; exact exists_congr fun a => hm a b
  · rw [ht.counts, hc]

/-- What the bins of a column are computed from. -/
theorem requested_same {fl : ℚ → ℚ} {pf : String → Option (Option ℚ)} {quantile : Bool} {bins : Bins} {c c' : Column}
    (hn : c'.name = c.name) (hs : (∃ e, EntryFor bins c.name (.edges e)) ∨ (present c).Perm (present c'))
    {arr arr' : List (Option ℚ)} {s s' : BinSpec} {e e' : List ℚ} (h1 : c.cells.mapM (toFloat pf) = .ok arr)
    (h1' : c'.cells.mapM (toFloat pf) = .ok arr') (h2 : EntryFor bins c.name s) (h2' : EntryFor bins c'.name s')
    (h3 : Requested fl quantile arr s e) (h3' : Requested fl quantile arr' s' e') : e = e' := by
  classical
  rw [hn] at h2'
  obtain rfl := entryFor_unique h2 h2'
  rcases hs with ⟨e0, hs⟩ | hs
  · obtain rfl := entryFor_unique h2 hs
    cases h3
    cases h3'
    rfl
  · cases h3 with
    | edges => cases h3'; rfl
    | num q l h =>
      cases h3' with
      | num _ _ h' =>
        have key : ∀ (c : Column) arr, c.cells.mapM (toFloat pf) = .ok arr →
            arr.filterMap id = (present c).filterMap fun x => (toFloat pf x).toOption.getD none := by
          intro c arr hc
          rw [mapM_toFloat_eq] at hc
          split_ifs at hc
          cases hc
          unfold present
          rw [List.filterMap_map, List.filterMap_filter]
          refine List.filterMap_congr fun x _ => ?_
          by_cases hx : x = .nan
          · subst hx; rfl
          · simp [hx]
        have hp : (arr.filterMap id).Perm (arr'.filterMap id) := by
          rw [key c arr h1, key c' arr' h1']
          exact hs.filterMap _
        rw [binEdges_perm fl hp, h'] at h
        exact (Except.ok.inj h).symm

/-- The binning turns both versions of a column into cells in the same way, missing values into missing values. -/
theorem binned_alike {fl : ℚ → ℚ} {pf : String → Option (Option ℚ)} {quantile : Bool} {bins : Bins} {ic ic' : List String}
    {c c' d d' : Column} (hn : c'.name = c.name) (hi : c.name ∈ ic ↔ c.name ∈ ic') (hs : SameBins bins ic c c')
    (h : BinnedAs fl pf bins quantile (c.name ∈ ic) c d) (h' : BinnedAs fl pf bins quantile (c'.name ∈ ic') c' d') :
    ∃ t : Cell → Cell, t .nan = .nan ∧ d.cells = c.cells.map t ∧ d'.cells = c'.cells.map t := by
  classical
  by_cases hp : c.name ∈ ic
  · obtain ⟨arr, e, s, h1, h2, h3, h4⟩ := h.2.2 hp
    obtain ⟨arr', e', s', h1', h2', h3', h4'⟩ := h'.2.2 (by rw [hn]; exact hi.1 hp)
    obtain rfl := requested_same hn (hs hp) h1 h1' h2 h2' h3 h3'
    refine ⟨fun x => binCell e ((toFloat pf x).toOption.getD none), rfl, ?_, ?_⟩
    · rw [h4, binArray_fst]
      rw [mapM_toFloat_eq] at h1
      split_ifs at h1
      cases h1
      rw [List.map_map]; rfl
    · rw [h4', binArray_fst]
      rw [mapM_toFloat_eq] at h1'
      split_ifs at h1'
      cases h1'
      rw [List.map_map]; rfl
  · exact ⟨id, rfl, by rw [h.2.1 hp, List.map_id], by rw [h'.2.1 (by rw [hn]; exact fun k => hp (hi.2 k)), List.map_id]⟩

/-- Only complete records enter the contingency table. -/
theorem count_complete {du dof : Bool} {a b a1 b1 : Column} {t u : Cell → Cell} (ht : t .nan = .nan) (hu : u .nan = .nan)
    (ha : a1.cells = a.cells.map t) (hb : b1.cells = b.cells.map u) (x y : Cell) :
    (records true du dof a1 b1).count (some x, some y) =
      ((completeRecords a b).map fun p => (view true du dof (t p.1), view true du dof (u p.2))).count (some x, some y) := by
  unfold records completeRecords
  rw [ha, hb, List.zip_map, List.map_map, List.count_eq_countP, List.count_eq_countP, List.countP_map, List.countP_map, List.countP_filter]
  refine List.countP_congr fun p _ => ?_
  simp only [Function.comp_apply, beq_iff_eq, Prod.map_fst, Prod.map_snd, Prod.mk.injEq, Bool.and_eq_true, decide_eq_true_eq]
  constructor
  · intro h
    refine ⟨h, fun h1 => ?_, fun h2 => ?_⟩
    · rw [h1, ht] at h; simp [view] at h
    · rw [h2, hu] at h; simp [view] at h
  · exact fun h => h.1

theorem count_alike {du dof : Bool} {a b a' b' a1 b1 a2 b2 : Column} {t u : Cell → Cell} (ht : t .nan = .nan) (hu : u .nan = .nan)
    (ha : a1.cells = a.cells.map t) (hb : b1.cells = b.cells.map u) (ha' : a2.cells = a'.cells.map t)
    (hb' : b2.cells = b'.cells.map u) (h : (completeRecords a b).Perm (completeRecords a' b')) (x y : Cell) :
    (records true du dof a1 b1).count (some x, some y) = (records true du dof a2 b2).count (some x, some y) := by
  rw [count_complete ht hu ha hb, count_complete ht hu ha' hb']
  exact (h.map _).count_eq _

open scoped Classical in
/-- **C98 for `phik_matrix`.** Two calls with `dropna=True` on frames `f` and `g` that have the columns `a`, `b` and `a'`, `b'` of the
same names, with the same complete records (in any order): the pair has the same correlation in both results that list it. -/
theorem phik_matrix_incomplete {nm : Numerics} (hg : GoodNumerics nm) (fl : ℚ → ℚ) (pf : String → Option (Option ℚ))
    (bins : Bins) (quantile noise du dof : Bool)
    {r s : Ref} {w w' x x' : World} {f g : Frame} (hf : w.heap[r]? = some f) (hgr : x.heap[s]? = some g)
    (hnf : f.names.Nodup) (hng : g.names.Nodup) {icf icg : Option (List String)} {sf sg : Option (List ℕ)}
    (hsf : ValidSched (cwr ((f.cols.filter
      (fun c => decide (Kept (icf.getD (guessIntervalCols f)) true c))).map (·.name))).length sf)
    (hsg : ValidSched (cwr ((g.cols.filter
      (fun c => decide (Kept (icg.getD (guessIntervalCols g)) true c))).map (·.name))).length sg)
    (hbf : ∀ c ∈ f.cols, c.name ∈ icf.getD (guessIntervalCols f) → ∃ e, EntryFor bins c.name e ∧ e ≠ .other)
    (hbg : ∀ c ∈ g.cols, c.name ∈ icg.getD (guessIntervalCols g) → ∃ e, EntryFor bins c.name e ∧ e ≠ .other)
    {t u : LTable} (ht : (phikMatrix nm sf fl pf r icf bins quantile noise true du dof).exec w = (.ok t, w'))
    (hu : (phikMatrix nm sg fl pf s icg bins quantile noise true du dof).exec x = (.ok u, x'))
    {a b a' b' : Column} (haf : a ∈ f.cols) (hbf' : b ∈ f.cols) (hag : a' ∈ g.cols) (hbg' : b' ∈ g.cols)
    (hna : a'.name = a.name) (hnb : b'.name = b.name)
    (hia : a.name ∈ icf.getD (guessIntervalCols f) ↔ a.name ∈ icg.getD (guessIntervalCols g))
    (hib : b.name ∈ icf.getD (guessIntervalCols f) ↔ b.name ∈ icg.getD (guessIntervalCols g))
    (hsa : SameBins bins (icf.getD (guessIntervalCols f)) a a') (hsb : SameBins bins (icf.getD (guessIntervalCols f)) b b')
    (hrec : (completeRecords a b).Perm (completeRecords a' b'))
    (hat : a.name ∈ t.rows) (hbt : b.name ∈ t.rows) (hau : a.name ∈ u.rows) (hbu : b.name ∈ u.rows) :
    t.v a.name b.name = u.v a.name b.name := by
  obtain ⟨_, _, _, -, -, -, h4⟩ := phik_matrix_result hg fl pf hf hnf icf bins quantile noise true du dof hsf
  obtain ⟨_, _, _, -, -, -, k4⟩ := phik_matrix_result hg fl pf hgr hng icg bins quantile noise true du dof hsg
  rw [ht] at h4
  rw [hu] at k4
  obtain ⟨_, _, _, _, -, -, h5, h6, -⟩ := h4
  obtain ⟨_, _, _, _, -, -, k5, k6, -⟩ := k4
  by_cases hab : a.name = b.name
  · have d1 := h5.diag a.name (by rw [← h5.rows]; exact hat)
    have d2 := k5.diag a.name (by rw [← k5.rows]; exact hau)
    rw [← hab, d1, d2]
  · have hka : Kept (icf.getD (guessIntervalCols f)) true a := by rwa [h6, mem_kept hnf haf] at hat
    have hkb : Kept (icf.getD (guessIntervalCols f)) true b := by rwa [h6, mem_kept hnf hbf'] at hbt
    have hka' : Kept (icg.getD (guessIntervalCols g)) true a' := by rwa [← hna, k6, mem_kept hng hag] at hau
    have hkb' : Kept (icg.getD (guessIntervalCols g)) true b' := by rwa [← hnb, k6, mem_kept hng hbg'] at hbu
    obtain ⟨a1, b1, p1, p2, p3⟩ := phik_entry hg hf hnf hsf hbf ht haf hbf' hka hkb hab
    obtain ⟨a2, b2, q1, q2, q3⟩ := phik_entry hg hgr hng hsg hbg hu hag hbg' hka' hkb' (by rw [hna, hnb]; exact hab)
    obtain ⟨ta, z1, z2, z3⟩ := binned_alike hna hia hsa p1 q1
    obtain ⟨tb, y1, y2, y3⟩ := binned_alike hnb hib hsb p2 q2
    have hc := count_alike (du := du) (dof := dof) z1 y1 z2 y2 z3 y3 hrec
    rw [hna, hnb] at q3
    obtain ⟨h, i1, i2⟩ := p3
    exact isPhik_unique ⟨h, table_congr hc i1, i2⟩ q3

open scoped Classical in
/-- **C98 for `significance_matrix`.** The same for the significances, with the asymptotic method, and with every method if the two
columns come in the same order and meet the same simulations. -/
theorem significance_matrix_incomplete {F : Type} (S : SigNum) (R R' : ℕ → SimRun F) (fl : ℚ → ℚ) (pf : String → Option (Option ℚ))
    (bins : Bins) (method : String) (du dof : Bool)
    {r s : Ref} {w w' x x' : World} {f g : Frame} (hf : w.heap[r]? = some f) (hgr : x.heap[s]? = some g)
    (hnf : f.names.Nodup) (hng : g.names.Nodup) {icf icg : Option (List String)}
    (hbf : ∀ c ∈ f.cols, c.name ∈ icf.getD (guessIntervalCols f) → ∃ e, EntryFor bins c.name e ∧ e ≠ .other)
    (hbg : ∀ c ∈ g.cols, c.name ∈ icg.getD (guessIntervalCols g) → ∃ e, EntryFor bins c.name e ∧ e ≠ .other)
    {t u : LTab EReal} (ht : (significanceMatrix S R fl pf r icf bins method true du dof).exec w = (.ok t, w'))
    (hu : (significanceMatrix S R' fl pf s icg bins method true du dof).exec x = (.ok u, x'))
    {a b a' b' : Column} (haf : a ∈ f.cols) (hbf' : b ∈ f.cols) (hag : a' ∈ g.cols) (hbg' : b' ∈ g.cols)
    (hna : a'.name = a.name) (hnb : b'.name = b.name)
    (hia : a.name ∈ icf.getD (guessIntervalCols f) ↔ a.name ∈ icg.getD (guessIntervalCols g))
    (hib : b.name ∈ icf.getD (guessIntervalCols f) ↔ b.name ∈ icg.getD (guessIntervalCols g))
    (hsa : SameBins bins (icf.getD (guessIntervalCols f)) a a') (hsb : SameBins bins (icf.getD (guessIntervalCols f)) b b')
    (hrec : (completeRecords a b).Perm (completeRecords a' b'))
    (hat : a.name ∈ t.rows) (hbt : b.name ∈ t.rows) (hau : a.name ∈ u.rows) (hbu : b.name ∈ u.rows) :
    (∀ k l, (cwr t.rows)[k]? = some (a.name, b.name) → (cwr u.rows)[l]? = some (a.name, b.name) → R k = R' l →
        t.v a.name b.name = u.v a.name b.name) ∧
      (method = "asymptotic" → ∀ lam, (∀ k, (R k).lambda = lam ∧ (R' k).lambda = lam) →
        t.v a.name b.name = u.v a.name b.name) := by
  have hrows : t.rows = (f.cols.filter (fun c => decide (Kept (icf.getD (guessIntervalCols f)) true c))).map (·.name) := by
    obtain ⟨_, _, _, -, -, -, h | ⟨_, _, h, -⟩⟩ := significance_matrix_result S R method fl pf hf hnf icf bins true du dof
    · obtain ⟨t', _, _, _, _, _, _, h, -, -, -, h8, -⟩ := h
      rw [ht] at h; cases h; exact h8
    · rw [ht] at h; cases h
  have hrows' : u.rows = (g.cols.filter (fun c => decide (Kept (icg.getD (guessIntervalCols g)) true c))).map (·.name) := by
    obtain ⟨_, _, _, -, -, -, h | ⟨_, _, h, -⟩⟩ := significance_matrix_result S R' method fl pf hgr hng icg bins true du dof
    · obtain ⟨t', _, _, _, _, _, _, h, -, -, -, h8, -⟩ := h
      rw [hu] at h; cases h; exact h8
    · rw [hu] at h; cases h
  have hka : Kept (icf.getD (guessIntervalCols f)) true a := by
    have := hat; rwa [hrows, mem_kept hnf haf] at this
  have hkb : Kept (icf.getD (guessIntervalCols f)) true b := by
    have := hbt; rwa [hrows, mem_kept hnf hbf'] at this
  have hka' : Kept (icg.getD (guessIntervalCols g)) true a' := by
    have := hau; rwa [← hna, hrows', mem_kept hng hag] at this
  have hkb' : Kept (icg.getD (guessIntervalCols g)) true b' := by
    have := hbu; rwa [← hnb, hrows', mem_kept hng hbg'] at this
  obtain ⟨-, a1, b1, p1, p2, p3, p4, p5⟩ := sig_entry S R method hf hnf hbf ht haf hbf' hka hkb
  obtain ⟨-, a2, b2, q1, q2, q3, q4, q5⟩ := sig_entry S R' method hgr hng hbg hu hag hbg' hka' hkb'
  obtain ⟨ta, z1, z2, z3⟩ := binned_alike hna hia hsa p1 q1
  obtain ⟨tb, y1, y2, y3⟩ := binned_alike hnb hib hsb p2 q2
  have hc := count_alike (du := du) (dof := dof) z1 y1 z2 y2 z3 y3 hrec
  rw [hna, hnb] at q3 q4 q5
  have move : ∀ (Q : SimRun F) v, IsSig S Q method (records true du dof a1 b1) v → IsSig S Q method (records true du dof a2 b2) v := by
    rintro Q v ⟨h, i1, i2⟩
    exact ⟨h, table_congr hc i1, i2⟩
  constructor
  · intro k l hk hl hR
    have i1 := move _ _ (p4 k hk)
    rw [hR] at i1
    exact isSig_unique i1 (q4 l hl)
  · rintro rfl lam hR
    have g1 : ∃ k, IsSig S (R k) "asymptotic" (records true du dof a1 b1) (t.v a.name b.name) := by
      obtain ⟨k, hk | hk⟩ := pair_index hat hbt
      · exact ⟨k, p4 k hk⟩
      · refine ⟨k, ?_⟩
        rw [p3, ← records_swap]
        exact isSig_swap (p5 k hk)
    have g2 : ∃ k, IsSig S (R' k) "asymptotic" (records true du dof a2 b2) (u.v a.name b.name) := by
      obtain ⟨k, hk | hk⟩ := pair_index hau hbu
      · exact ⟨k, q4 k hk⟩
      · refine ⟨k, ?_⟩
        rw [q3, ← records_swap]
        exact isSig_swap (q5 k hk)
    obtain ⟨k, g1⟩ := g1
    obtain ⟨l, g2⟩ := g2
    exact isSig_unique (isSig_asymptotic ((hR k).1.trans (hR l).2.symm) (move _ _ g1)) g2

theorem belongs_present {pf : String → Option (Option ℚ)} {du dof : Bool} {e : Option (List ℚ)} {c : Cell} {k : Category}
    (h : Belongs pf true du dof e c k) : c ≠ .nan := by
  rintro rfl
  cases h with
  | value h => simp [view] at h
  | interval hx => cases hx
  | under hx => cases hx
  | «over» hx => cases hx
  | missing _ hd => cases hd

theorem mem_complete {a b : Column} {p : Cell × Cell} :
    p ∈ completeRecords a b ↔ p ∈ a.cells.zip b.cells ∧ p.1 ≠ .nan ∧ p.2 ≠ .nan := by
  unfold completeRecords
  simp [List.mem_filter]

theorem edgesFor_same {fl : ℚ → ℚ} {pf : String → Option (Option ℚ)} {quantile : Bool} {bins : Bins} {ic ic' : List String}
    {c c' : Column} (hn : c'.name = c.name) (hi : c.name ∈ ic ↔ c.name ∈ ic') (hs : SameBins bins ic c c')
    {e e' : Option (List ℚ)} (h : EdgesFor fl pf quantile bins ic c e) (h' : EdgesFor fl pf quantile bins ic' c' e') : e = e' := by
  cases e with
  | none =>
    cases e' with
    | none => rfl
    | some _ => exact absurd (hi.2 (hn ▸ h'.1)) h
  | some _ =>
    cases e' with
    | none => exact absurd (hi.1 h.1) (hn ▸ h')
    | some _ =>
      obtain ⟨hp, arr, s, h1, h2, h3⟩ := h
      obtain ⟨-, arr', s', h1', h2', h3'⟩ := h'
      rw [requested_same hn (hs hp) h1 h1' h2 h2' h3 h3']

/-- Edges and complete records determine the outlier matrix. -/
theorem outlier_complete {N : OutNum} {fmt : ℚ → String} {ci : String} {fl : ℚ → ℚ} {pf : String → Option (Option ℚ)}
    {quantile du dof : Bool} {bins : Bins} {ic ic' : List String} {a b a' b' : Column}
    (hna : a'.name = a.name) (hnb : b'.name = b.name)
    (hia : a.name ∈ ic ↔ a.name ∈ ic') (hib : b.name ∈ ic ↔ b.name ∈ ic') (hsa : SameBins bins ic a a') (hsb : SameBins bins ic b b')
    (hrec : (completeRecords a b).Perm (completeRecords a' b')) {x y : Except Err (Option OutTab)}
    (hx : ∃ ea eb ra rb n, EdgesFor fl pf quantile bins ic a ea ∧ EdgesFor fl pf quantile bins ic b eb ∧
      Counts pf true du dof ea eb a b ra rb n ∧ IsOutlierMatrix N fmt ci ra rb n x)
    (hy : ∃ ea eb ra rb n, EdgesFor fl pf quantile bins ic' a' ea ∧ EdgesFor fl pf quantile bins ic' b' eb ∧
      Counts pf true du dof ea eb a' b' ra rb n ∧ IsOutlierMatrix N fmt ci ra rb n y) : x = y := by
  classical
  obtain ⟨ea, eb, ra, rb, n, h1, h2, h3, h4⟩ := hx
  obtain ⟨ea', eb', ra', rb', n', k1, k2, k3, k4⟩ := hy
  obtain rfl := edgesFor_same hna hia hsa h1 k1
  obtain rfl := edgesFor_same hnb hib hsb h2 k2
  have hm : ∀ p : Cell × Cell, p.1 ≠ .nan → p.2 ≠ .nan → (p ∈ a.cells.zip b.cells ↔ p ∈ a'.cells.zip b'.cells) := by
    intro p hp1 hp2
    have := hrec.mem_iff (a := p)
    rw [mem_complete, mem_complete] at this
    simpa [hp1, hp2] using this
  have hex : ∀ P Q : Cell → Prop, (∀ c, P c → c ≠ .nan) → (∀ c, Q c → c ≠ .nan) →
      ((∃ p ∈ a.cells.zip b.cells, P p.1 ∧ Q p.2) ↔ ∃ p ∈ a'.cells.zip b'.cells, P p.1 ∧ Q p.2) := by
    intro P Q hP hQ
    constructor
    · rintro ⟨p, hp, h, h'⟩; exact ⟨p, (hm p (hP _ h) (hQ _ h')).1 hp, h, h'⟩
    · rintro ⟨p, hp, h, h'⟩; exact ⟨p, (hm p (hP _ h) (hQ _ h')).2 hp, h, h'⟩
  have hct : ∀ (P Q : Cell → Prop), (∀ c, P c → c ≠ .nan) → (∀ c, Q c → c ≠ .nan) → ∀ a b : Column,
      ((a.cells.zip b.cells).countP fun p => decide (P p.1 ∧ Q p.2)) =
        (completeRecords a b).countP fun p => decide (P p.1 ∧ Q p.2) := by
    intro P Q hP hQ a b
    unfold completeRecords
    rw [List.countP_filter]
    refine List.countP_congr fun p _ => ?_
    simp only [Bool.and_eq_true, decide_eq_true_eq]
    exact ⟨fun h => ⟨h, hP _ h.1, hQ _ h.2⟩, fun h => h.1⟩
  obtain rfl : ra = ra' := by
    refine categories_unique (pf := pf) (dropna := true) (du := du) (dof := dof) (e := ea) (xs := a.cells) h3.rows_order
      k3.rows_order (fun c => ?_) fun c hc => ?_
    · rw [h3.rows_mem, k3.rows_mem]
      exact hex (fun z => Belongs pf true du dof ea z c) (fun z => ∃ d, Belongs pf true du dof eb z d)
        (fun _ => belongs_present) fun _ ⟨_, h⟩ => belongs_present h
    · obtain ⟨p, hp, hb, -⟩ := (h3.rows_mem c).1 hc
      exact ⟨p.1, (List.of_mem_zip hp).1, hb⟩
  obtain rfl : rb = rb' := by
    refine categories_unique (pf := pf) (dropna := true) (du := du) (dof := dof) (e := eb) (xs := b.cells) h3.cols_order
      k3.cols_order (fun c => ?_) fun c hc => ?_
    · rw [h3.cols_mem, k3.cols_mem]
      exact hex (fun z => ∃ d, Belongs pf true du dof ea z d) (fun z => Belongs pf true du dof eb z c)
        (fun _ ⟨_, h⟩ => belongs_present h) fun _ => belongs_present
    · obtain ⟨p, hp, -, hb⟩ := (h3.cols_mem c).1 hc
      exact ⟨p.2, (List.of_mem_zip hp).2, hb⟩
  obtain rfl : n = n' := by
    funext i j
    rw [h3.counts, k3.counts]
    have e := hct (fun z => Belongs pf true du dof ea z ra[i]) (fun z => Belongs pf true du dof eb z rb[j])
      (fun _ => belongs_present) (fun _ => belongs_present)
    refine (e a b).trans (Eq.trans ?_ (e a' b').symm)
    exact hrec.countP_eq _
  exact isOutlierMatrix_unique h4 k4

open scoped Classical in
/-- **C98 for `outlier_significance_matrices`.** Two calls with `dropna=True`: a pair of variables with the same complete records has
the same outlier matrix, labels included, in both results that contain one. -/
theorem outlier_matrices_incomplete (N : OutNum) (fmt : ℚ → String) {fl : ℚ → ℚ} (hfl : fl = (fun x => x) ∨ fl = rne53)
    (pf : String → Option (Option ℚ)) (bins : Bins) (ci : String) (quantile du dof : Bool)
    {r s : Ref} {w w' x x' : World} {f g : Frame} (hf : w.heap[r]? = some f) (hg : x.heap[s]? = some g)
    {icf icg : Option (List String)}
    (cf : OutlierArgs fl pf bins (icf.getD (guessIntervalCols f)) f) (cg : OutlierArgs fl pf bins (icg.getD (guessIntervalCols g)) g)
    (colf : ∀ n ∈ f.names, ':' ∉ n.toList) (colg : ∀ n ∈ g.names, ':' ∉ n.toList) {combf combg : List (String × String)}
    (hcf : ∀ p ∈ combf, p.1 ≠ p.2 ∧ ∀ n ∈ [p.1, p.2], ∃ c ∈ f.cols, c.name = n ∧ Kept (icf.getD (guessIntervalCols f)) true c)
    (hcg : ∀ p ∈ combg, p.1 ≠ p.2 ∧ ∀ n ∈ [p.1, p.2], ∃ c ∈ g.cols, c.name = n ∧ Kept (icg.getD (guessIntervalCols g)) true c)
    {d e : List (String × Option OutTab)} {dd ee : List (String × List (ℚ × ℚ))}
    (h1 : (outlierMatrices N fmt fl pf r icf ci bins quantile combf true du dof).exec w = (.ok (d, dd), w'))
    (h2 : (outlierMatrices N fmt fl pf s icg ci bins quantile combg true du dof).exec x = (.ok (e, ee), x'))
    {a b a' b' : Column} (haf : a ∈ f.cols) (hbf : b ∈ f.cols) (hag : a' ∈ g.cols) (hbg : b' ∈ g.cols)
    (hna : a'.name = a.name) (hnb : b'.name = b.name)
    (hia : a.name ∈ icf.getD (guessIntervalCols f) ↔ a.name ∈ icg.getD (guessIntervalCols g))
    (hib : b.name ∈ icf.getD (guessIntervalCols f) ↔ b.name ∈ icg.getD (guessIntervalCols g))
    (hsa : SameBins bins (icf.getD (guessIntervalCols f)) a a') (hsb : SameBins bins (icf.getD (guessIntervalCols f)) b b')
    (hrec : (completeRecords a b).Perm (completeRecords a' b'))
    {t u : Option OutTab} (ht : (a.name ++ ":" ++ b.name, t) ∈ d) (hu : (a.name ++ ":" ++ b.name, u) ∈ e) : t = u :=
  Except.ok.inj (outlier_complete hna hnb hia hib hsa hsb hrec (outlier_entry N fmt hfl hf cf colf hcf h1 haf hbf ht)
    (outlier_entry N fmt hfl hg cg colg hcg h2 hag hbg (by rw [hna, hnb]; exact hu)))

theorem binned_two {fl : ℚ → ℚ} {pf : String → Option (Option ℚ)} {r r' : Ref} {w w' : World} {f o : Frame}
    (hr : w.heap[r]? = some f) {a b a1 b1 : Column} (hf : f.cols = [a, b]) (hab : a.name ≠ b.name) {ic : List String} {bins : Bins}
    {quantile : Bool} (hent : ∀ n ∈ ic, ∃ e, EntryFor bins n e ∧ e ≠ .other) {dict : List (String × List (ℚ × ℚ))}
    (h : (binData fl pf r ic bins quantile).exec w = (.ok (r', dict), w')) (ho : w'.heap[r']? = some o) (hoc : o.cols = [a1, b1]) :
    BinnedAs fl pf bins quantile (a.name ∈ ic) a a1 ∧ BinnedAs fl pf bins quantile (b.name ∈ ic) b b1 := by
  obtain ⟨-, -, out, k1, -, k3, k4, -⟩ := bin_data_columns fl pf hr hent h
  rw [ho] at k1
  obtain rfl : o = out := Option.some.inj k1
  have hn : f.names.Nodup := by unfold Frame.names; rw [hf]; simpa using hab
  have key : ∀ (i : ℕ) (c c1 : Column), f.cols[i]? = some c → o.cols[i]? = some c1 →
      BinnedAs fl pf bins quantile (c.name ∈ ic) c c1 := by
    intro i c c1 hc hc1
    obtain ⟨c', e1, e2, e3⟩ := k4 i c hc
    rw [hc1] at e1
    obtain rfl : c1 = c' := Option.some.inj e1
    by_cases hin : c.name ∈ ic
    · obtain ⟨e4, -, arr, e, s, e5, e6, e7, e8, -⟩ := e3 hin
      refine ⟨e4, fun h => absurd hin h, fun _ => ⟨arr, e, s, ?_, e6, e7, e8⟩⟩
      unfold colFloats at e5
      rw [getCol_of_mem hn (List.mem_of_getElem? hc)] at e5
      exact e5
    · have e4 := e2 hin
      subst e4
      exact ⟨rfl, fun _ => rfl, fun h => absurd h hin⟩
  exact ⟨key 0 a a1 (by rw [hf]; rfl) (by rw [hoc]; rfl), key 1 b b1 (by rw [hf]; rfl) (by rw [hoc]; rfl)⟩

/-- **C98 for `hist2d`.** The contingency tables of two frames of two columns with the same names and complete records are the
same. -/
theorem hist2d_incomplete (fl : ℚ → ℚ) (pf : String → Option (Option ℚ)) (bins : Bins) (quantile du dof : Bool)
    {r s : Ref} {w w' x x' : World} {f g : Frame} (hf : w.heap[r]? = some f) (hg : x.heap[s]? = some g)
    {a b a' b' : Column} (hfc : f.cols = [a, b]) (hgc : g.cols = [a', b']) (hab : a.name ≠ b.name)
    (hna : a'.name = a.name) (hnb : b'.name = b.name) {icf icg : Option (List String)}
    (hbf : ∀ n ∈ icf.getD (guessIntervalCols f), ∃ e, EntryFor bins n e ∧ e ≠ .other)
    (hbg : ∀ n ∈ icg.getD (guessIntervalCols g), ∃ e, EntryFor bins n e ∧ e ≠ .other)
    (hia : a.name ∈ icf.getD (guessIntervalCols f) ↔ a.name ∈ icg.getD (guessIntervalCols g))
    (hib : b.name ∈ icf.getD (guessIntervalCols f) ↔ b.name ∈ icg.getD (guessIntervalCols g))
    (hsa : SameBins bins (icf.getD (guessIntervalCols f)) a a') (hsb : SameBins bins (icf.getD (guessIntervalCols f)) b b')
    (hrec : (completeRecords a b).Perm (completeRecords a' b'))
    {t u : Hist} {dt du' : List (String × List (ℚ × ℚ))}
    (ht : (hist2d fl pf r icf bins quantile true du dof).exec w = (.ok (t, dt), w'))
    (hu : (hist2d fl pf s icg bins quantile true du dof).exec x = (.ok (u, du'), x')) : t = u := by
  have h1 := hist2d_table fl pf hf (ic := icf) (bins := bins) (quantile := quantile) (dropna := true) (du := du) (dof := dof)
  have h2 := hist2d_table fl pf hg (ic := icg) (bins := bins) (quantile := quantile) (dropna := true) (du := du) (dof := dof)
  rw [ht] at h1
  rw [hu] at h2
  obtain ⟨-, -, r1, w1, o1, a1, b1, i1, i2, i3, i4⟩ := h1
  obtain ⟨-, -, r2, w2, o2, a2, b2, j1, j2, j3, j4⟩ := h2
  obtain ⟨p1, p2⟩ := binned_two hf hfc hab hbf i1 i2 i3
  obtain ⟨q1, q2⟩ := binned_two hg hgc (by rw [hna, hnb]; exact hab) hbg j1 j2 j3
  obtain ⟨ta, z1, z2, z3⟩ := binned_alike hna hia hsa p1 q1
  obtain ⟨tb, y1, y2, y3⟩ := binned_alike hnb hib hsb p2 q2
  have hc := count_alike (du := du) (dof := dof) z1 y1 z2 y2 z3 y3 hrec
  exact table_unique (table_congr hc i4) j4

theorem two_distinct {c : Column} {x y : Cell} (hx : x ∈ c.cells) (hy : y ∈ c.cells) (hx0 : x ≠ .nan) (hy0 : y ≠ .nan)
    (hxy : x ≠ y) (ic : List String) (dropna : Bool) : Kept ic dropna c := by
  have h : 2 ≤ distinct c := by
    unfold distinct
    have hf : {x | x ∈ c.cells ∧ x ≠ Cell.nan}.Finite := (List.finite_toSet c.cells).subset fun z hz => hz.1
    have := (Set.one_lt_ncard_iff hf).2 ⟨x, y, ⟨hx, hx0⟩, ⟨hy, hy0⟩, hxy⟩
    omega
  unfold Kept
  split_ifs <;> omega

/-- A frame with two incomplete records, and one with its complete records only, in another order. -/
def incF : Frame := ⟨4, [⟨"a", true, [.num 1, .num 5, .nan, .num 7]⟩, ⟨"b", false, [.str "x", .str "y", .str "y", .nan]⟩]⟩
def incG : Frame := ⟨2, [⟨"a", true, [.num 5, .num 1]⟩, ⟨"b", false, [.str "y", .str "x"]⟩]⟩

/-- Non-vacuity: both calls return and list both variables, and the correlation is the same. -/
example {nm : Numerics} (hg : GoodNumerics nm) (fl : ℚ → ℚ) (pf : String → Option (Option ℚ)) :
    ∃ t u : LTable, ∃ w' x', (phikMatrix nm none fl pf 0 none (.one (.edges [0, 2, 8])) false true true true true).exec ⟨[incF], []⟩ =
        (.ok t, w') ∧
      (phikMatrix nm none fl pf 0 none (.one (.edges [0, 2, 8])) false true true true true).exec ⟨[incG], []⟩ = (.ok u, x') ∧
      "a" ∈ t.rows ∧ "b" ∈ t.rows ∧ t.v "a" "b" = u.v "a" "b" := by
  classical
  have hs : ∀ n, ValidSched n none := fun n o h => by cases h
  have hbins : ∀ n ∈ ["a"], ∃ s, EntryFor (.one (.edges [0, 2, 8])) n s ∧ GoodEntry s := fun n _ => ⟨_, .one _ _, by simp [GoodEntry]⟩
  obtain ⟨t, w', ht⟩ := phik_matrix_returns hg fl pf (r := 0) (w := ⟨[incF], []⟩) (data := incF) rfl (by decide) none
    (.one (.edges [0, 2, 8])) false true true true true (hs _) (by
      intro c hc hn s
      simp only [incF, List.mem_cons, List.not_mem_nil, or_false] at hc
      rcases hc with rfl | rfl
      · simp
      · simp [incF, guessIntervalCols] at hn) hbins
  obtain ⟨u, x', hu⟩ := phik_matrix_returns hg fl pf (r := 0) (w := ⟨[incG], []⟩) (data := incG) rfl (by decide) none
    (.one (.edges [0, 2, 8])) false true true true true (hs _) (by
      intro c hc hn s
      simp only [incG, List.mem_cons, List.not_mem_nil, or_false] at hc
      rcases hc with rfl | rfl
      · simp
      · simp [incG, guessIntervalCols] at hn) hbins
  have hb : ∀ c : Column, ∃ e, EntryFor (.one (.edges [0, 2, 8])) c.name e ∧ e ≠ .other := fun c => ⟨_, .one _ _, by simp⟩
  obtain ⟨_, _, _, -, -, -, h4⟩ := phik_matrix_result hg fl pf (r := 0) (w := ⟨[incF], []⟩) (data := incF) rfl (by decide) none
    (.one (.edges [0, 2, 8])) false true true true true (hs _)
  obtain ⟨_, _, _, -, -, -, k4⟩ := phik_matrix_result hg fl pf (r := 0) (w := ⟨[incG], []⟩) (data := incG) rfl (by decide) none
    (.one (.edges [0, 2, 8])) false true true true true (hs _)
  rw [ht] at h4
  rw [hu] at k4
  obtain ⟨_, _, _, _, -, -, -, h6, -⟩ := h4
  obtain ⟨_, _, _, _, -, -, -, k6, -⟩ := k4
  set ca : Column := ⟨"a", true, [.num 1, .num 5, .nan, .num 7]⟩ with hca
  set cb : Column := ⟨"b", false, [.str "x", .str "y", .str "y", .nan]⟩ with hcb
  set da : Column := ⟨"a", true, [.num 5, .num 1]⟩ with hda
  set db : Column := ⟨"b", false, [.str "y", .str "x"]⟩ with hdb
  have nf : incF.names.Nodup := by decide
  have ng : incG.names.Nodup := by decide
  have i1 : ca.name ∈ t.rows := by
    rw [h6, mem_kept nf (by simp [incF, hca])]
    exact two_distinct (x := .num 1) (y := .num 5) (by simp [hca]) (by simp [hca]) (by simp) (by simp) (by norm_num) _ _
  have i2 : cb.name ∈ t.rows := by
    rw [h6, mem_kept nf (by simp [incF, hcb])]
    exact two_distinct (x := .str "x") (y := .str "y") (by simp [hcb]) (by simp [hcb]) (by simp) (by simp) (by simp) _ _
  have i3 : da.name ∈ u.rows := by
    rw [k6, mem_kept ng (by simp [incG, hda])]
    exact two_distinct (x := .num 1) (y := .num 5) (by simp [hda]) (by simp [hda]) (by simp) (by simp) (by norm_num) _ _
  have i4 : db.name ∈ u.rows := by
    rw [k6, mem_kept ng (by simp [incG, hdb])]
    exact two_distinct (x := .str "x") (y := .str "y") (by simp [hdb]) (by simp [hdb]) (by simp) (by simp) (by simp) _ _
  refine ⟨t, u, w', x', ht, hu, i1, i2, phik_matrix_incomplete hg fl pf _ false true true true (f := incF) (g := incG) rfl rfl nf ng
    (hs _) (hs _) (fun c _ _ => hb c) (fun c _ _ => hb c) ht hu (a := ca) (b := cb) (a' := da) (b' := db)
    (by simp [incF, hca]) (by simp [incF, hcb]) (by simp [incG, hda]) (by simp [incG, hdb]) rfl rfl
    (by decide) (by decide) (fun _ => .inl ⟨_, .one _ _⟩) (fun _ => .inl ⟨_, .one _ _⟩) ?_ i1 i2 i3 i4⟩
  have e1 : completeRecords ca cb = [(.num 1, .str "x"), (.num 5, .str "y")] := by simp [completeRecords, hca, hcb]
  have e2 : completeRecords da db = [(.num 5, .str "y"), (.num 1, .str "x")] := by simp [completeRecords, hda, hdb]
  rw [e1, e2]
  exact List.Perm.swap _ _ _

theorem rows_card {recs : List (Option Cell × Option Cell)} {t : Hist} (h : IsTable recs t) (s : Finset Cell)
    (hs : ∀ a, (∃ b, (some a, some b) ∈ recs) ↔ a ∈ s) : t.rows.length = s.card := by
  have hn : t.rows.Nodup := h.rows_sorted.imp fun hab => ne_of_lt hab
  rw [← List.toFinset_card_of_nodup hn]
  congr 1
  ext a
  rw [List.mem_toFinset, h.rows_mem, hs]

theorem hist_one_interval (pf : String → Option (Option ℚ)) (n : ℕ) {xs : List Cell} {arr : List (Option ℚ)}
    (hx : xs.mapM (toFloat pf) = .ok arr) (ys : List Cell) {e : List ℚ} (he : binEdges id (arr.filterMap id) 2 false = .ok e) :
    ∃ t d w', (hist2d id pf 0 none (.one (.num 2)) false true true true).exec ⟨[⟨n, [⟨"a", true, xs⟩, ⟨"b", false, ys⟩]⟩], []⟩ =
      (.ok (t, d), w') ∧
      IsTable (((binArray arr e).1.zip ys).map fun p => (view true true true p.1, view true true true p.2)) t := by
  set f : Frame := ⟨n, [⟨"a", true, xs⟩, ⟨"b", false, ys⟩]⟩ with hf
  have hr : (⟨[f], []⟩ : World).heap[0]? = some f := rfl
  have hc : colFloats pf f "a" = .ok arr := by rw [← hx]; rfl
  have h2 : truncQ 2 = 2 := by norm_num [truncQ]
  have hb : binDataCore id pf f ((none : Option (List String)).getD (guessIntervalCols f)) (.one (.num 2)) false =
      .ok (⟨n, [⟨"a", false, (binArray arr e).1⟩, ⟨"b", false, ys⟩]⟩, [("a", (binArray arr e).2)]) := by
    have hg : (none : Option (List String)).getD (guessIntervalCols f) = ["a"] := rfl
    have hsel : selectEdges id pf f (.one (.num 2)) false "a" none = .ok (some e) := by
      unfold selectEdges Bins.entry
      simp only [hc, h2, bind, Except.bind]
      rw [he]
      rfl
    rw [hg]
    unfold binDataCore
    simp only [dictCheck, bind, Except.bind]
    unfold binLoop
    rw [hsel]
    simp only [bind, Except.bind, hc]
    rfl
  have h := hist2d_table id pf hr (ic := none) (bins := .one (.num 2)) (quantile := false) (dropna := true) (du := true) (dof := true)
  rw [binData_exec id pf hr, hb] at h
  revert h
  rcases (hist2d id pf 0 none (.one (.num 2)) false true true true).exec ⟨[f], []⟩ with ⟨_ | ⟨hist, dict⟩, w'⟩
  · rintro ⟨-, ⟨h, -⟩ | h⟩
    · exact absurd rfl h
    · cases h
  · rintro ⟨-, -, r', w1, out, a, b, k1, k2, k3, k4⟩
    simp only [Prod.mk.injEq, Except.ok.injEq] at k1
    obtain ⟨⟨rfl, rfl⟩, rfl⟩ := k1
    refine ⟨hist, _, w', rfl, ?_⟩
    simp at k2
    subst k2
    simp only [List.cons.injEq, and_true] at k3
    obtain ⟨rfl, rfl⟩ := k3
    exact k4

/-- A frame whose last record is incomplete. -/
def incH : Frame := ⟨3, [⟨"a", true, [.num 0, .num 1, .num 100]⟩, ⟨"b", false, [.str "x", .str "y", .nan]⟩]⟩
def incK : Frame := ⟨2, [⟨"a", true, [.num 0, .num 1]⟩, ⟨"b", false, [.str "x", .str "y"]⟩]⟩

/-- **C98 violated for automatic bins.** The record (100, missing) does not enter the table, but it stretches the bins: with two
equal-width bins the table of the three records has one row, the table of the two complete records has two. -/
theorem incomplete_record_matters (pf : String → Option (Option ℚ)) :
    completeRecords ⟨"a", true, [.num 0, .num 1, .num 100]⟩ ⟨"b", false, [.str "x", .str "y", .nan]⟩ =
      completeRecords ⟨"a", true, [.num 0, .num 1]⟩ ⟨"b", false, [.str "x", .str "y"]⟩ ∧
    (∃ t d w', (hist2d id pf 0 none (.one (.num 2)) false true true true).exec ⟨[incH], []⟩ = (.ok (t, d), w') ∧ t.rows.length = 1) ∧
    ∃ t d w', (hist2d id pf 0 none (.one (.num 2)) false true true true).exec ⟨[incK], []⟩ = (.ok (t, d), w') ∧ t.rows.length = 2 := by
  refine ⟨by simp [completeRecords], ?_, ?_⟩
  · have he : binEdges id (([some 0, some 1, some 100] : List (Option ℚ)).filterMap id) 2 false =
        .ok [-1 / 10 ^ 14, 50 - 1 / (2 * 10 ^ 14), 100] := by
      simp [binEdges, linspace, List.range_succ]
      norm_num
    have hb : (binArray [some 0, some 1, some 100] [-1 / 10 ^ 14, 50 - 1 / (2 * 10 ^ 14), 100]).1 = [.num 1, .num 1, .num 2] := by
      simp [binArray, searchsorted, searchGo]
      norm_num
    obtain ⟨t, d, w', h1, h2⟩ := hist_one_interval pf 3 (xs := [.num 0, .num 1, .num 100]) (arr := [some 0, some 1, some 100]) rfl
      [.str "x", .str "y", .nan] he
    rw [hb] at h2
    refine ⟨t, d, w', h1, ?_⟩
    rw [rows_card h2 {.num 1} (fun a => by simp [view]; aesop)]
    rfl
  · have he : binEdges id (([some 0, some 1] : List (Option ℚ)).filterMap id) 2 false =
        .ok [-1 / 10 ^ 14, 1 / 2 - 1 / (2 * 10 ^ 14), 1] := by
      simp [binEdges, linspace, List.range_succ]
      norm_num
    have hb : (binArray [some 0, some 1] [-1 / 10 ^ 14, 1 / 2 - 1 / (2 * 10 ^ 14), 1]).1 = [.num 1, .num 2] := by
      simp [binArray, searchsorted, searchGo]
      norm_num
    obtain ⟨t, d, w', h1, h2⟩ := hist_one_interval pf 2 (xs := [.num 0, .num 1]) (arr := [some 0, some 1]) rfl
      [.str "x", .str "y"] he
    rw [hb] at h2
    refine ⟨t, d, w', h1, ?_⟩
    rw [rows_card h2 {.num 1, .num 2} (fun a => by simp [view]; aesop)]
    rfl

end Props

end Phik
