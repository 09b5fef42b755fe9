import Verif.Props.QuantileWitness
import Verif.Props.OutlierNull
import Verif.Props.Monotone

/-! # Properties C94 and C95 with automatic bins -/

namespace Phik.Props

open Spec Out MeasureTheory ProbabilityTheory Topology
open Filter (Tendsto atTop Eventually)

variable {r c : ℕ} {N : OutNum}

/-- Calls of `outlier_significance_matrix` for a frame with two columns, which are not binned or binned as specified: `res` is the result.  Neither column is
constant, and the bin specification of every interval column is a list of ascending edges or a number of bins. -/
inductive AutoCall (N : OutNum) (ci : String) (fmt : ℚ → String) (fl : ℚ → ℚ) (pf : String → Option (Option ℚ)) (quantile dropna du dof : Bool) (oa ob : Option BinSpec)
    (A B : List Cell) : Except Err (Option OutTab) → Prop
  | mk {ref : Ref} {w w' : World} {f : Frame} {a b : Column} {ic : Option (List String)} {bins : Bins}
      {res : Except Err (Option OutTab × List (String × List (ℚ × ℚ)))} (hf : w.heap[ref]? = some f) (hcols : f.cols = [a, b])
      (hne : a.name ≠ b.name) (ha : a.cells = A) (hb : b.cells = B)
      (ba : BinsAs (ic.getD (guessIntervalCols f)) bins a.name oa) (bb : BinsAs (ic.getD (guessIntervalCols f)) bins b.name ob)
      (hent : ∀ name ∈ ic.getD (guessIntervalCols f), ∃ s, EntryFor bins name s)
      (hspec : ∀ name ∈ ic.getD (guessIntervalCols f), ∀ s, EntryFor bins name s → SortedSpec s)
      (ka : Kept (ic.getD (guessIntervalCols f)) dropna a) (kb : Kept (ic.getD (guessIntervalCols f)) dropna b)
      (hexec : (outlierMatrix N fmt fl pf ref ic ci bins quantile dropna du dof).exec w = (res, w')) :
      AutoCall N ci fmt fl pf quantile dropna du dof oa ob A B (res.map Prod.fst)

theorem goodEntry_of_sorted {s : BinSpec} (h : SortedSpec s) : GoodEntry s := by
  cases s with
  | edges l => exact .inl ⟨l, rfl⟩
  | num q => exact .inr ⟨q, rfl, le_trans zero_le_one h.1⟩
  | other => exact h.elim

/-- `bin_data` returns when the columns to be binned contain numbers and no texts. -/
theorem binData_returns (fl : ℚ → ℚ) (pf : String → Option (Option ℚ)) {ref : Ref} {w : World} {f : Frame} (hf : w.heap[ref]? = some f) {cols : List String}
    {bins : Bins} (quantile : Bool)
    (h : ∀ name ∈ cols, (∃ s, EntryFor bins name s ∧ GoodEntry s) ∧ ∃ c, f.getCol name = .ok c ∧ (∀ s, Cell.str s ∉ c.cells) ∧ ∃ x ∈ c.cells, x ≠ .nan) :
    ∃ x, ((binData fl pf ref cols bins quantile).exec w).1 = .ok x := by
  rw [binData_exec fl pf hf]
  have hd : dictCheck cols bins = .ok () := dictCheck_ok fun n hn => (h n hn).1.imp fun _ h => h.1
  have hloop := binLoop_ok fl pf f bins quantile cols (fun name hname => by
    obtain ⟨⟨s, h1, h2⟩, c, h3, h4, h5⟩ := h name hname
    obtain ⟨arr, h6, h7⟩ := mapM_toFloat pf h4
    refine ⟨entry_of h1 ▸ h2, arr, ?_, h7 h5⟩
    unfold colFloats
    simp only [h3, bind, Except.bind, h6])
  obtain ⟨v, hcore⟩ : ∃ v, binDataCore fl pf f cols bins quantile = .ok v := by
    unfold binDataCore
    simp only [hd, bind, Except.bind]
    exact hloop _ _ _
  rw [hcore]
  exact ⟨_, rfl⟩

section
variable {α : Type} [BEq α] [LawfulBEq α] {raw : α → ℝ} {S : Finset α} {var : α → Cell}

/-- The edges of a column of almost every sequence of records are those of the distribution, from some point on. -/
theorem edges_limit {R : ℕ → α} (h : Typical raw R) (hpos : ∀ z, 0 ≤ raw z) (hS : ∀ x, raw x ≠ 0 → x ∈ S) {fl : ℚ → ℚ} (hfl : RelRounding fl)
    {u : ℚ} (hu : ∀ x, |fl x - x| ≤ u * |x|) (hrep : ∀ z y, raw z ≠ 0 → var z = .num y → fl y = y) {quantile : Bool} {o : Option BinSpec}
    {e : Option (List ℚ)} (ho : LimitEdges S raw var fl u quantile o e) (hnum : o ≠ none → ∀ z s, raw z ≠ 0 → var z ≠ .str s) :
    ∀ᶠ n in atTop, ∀ (pf : String → Option (Option ℚ)) (ic : List String) (bins : Bins) (c : Column),
      c.cells = ((List.range n).map fun k => var (R k)) → BinsAs ic bins c.name o → ∀ e', EdgesFor fl pf quantile bins ic c e' → e' = e := by
  cases o with
  | none =>
    cases e with
    | some e => exact ho.elim
    | none =>
      refine .of_forall fun n pf ic bins c hc hb e' he' => ?_
      cases e' with
      | none => rfl
      | some e' => exact absurd he'.1 hb
  | some s =>
    cases e with
    | none => exact ho.elim
    | some e =>
      filter_upwards [h.edges hpos hS hfl hu hrep ho] with n hn pf ic bins c hc hb e' he'
      cases e' with
      | none => exact absurd hb.1 he'
      | some e' =>
        obtain ⟨-, arr, s', h1, h2, h3⟩ := he'
        obtain rfl := entryFor_unique hb.2 h2
        have hstr : ∀ s, Cell.str s ∉ c.cells := by
          intro s hs
          rw [hc] at hs
          obtain ⟨k, -, hk⟩ := List.mem_map.1 hs
          exact hnum (by simp) _ s (h.1 k) hk
        obtain rfl := numbers_of_floats hstr h1
        rw [(hn _ (numberList_eq hc)).2 e' h3]

end

theorem exists_of_kept {ic : List String} {dropna : Bool} {c : Column} (h : Kept ic dropna c) : ∃ x ∈ c.cells, x ≠ .nan := by
  have h1 : 1 ≤ distinct c := by
    unfold Kept at h
    split at h
    · exact le_trans one_le_two h
    · exact h
  by_contra hn
  push Not at hn
  have : {x | x ∈ c.cells ∧ x ≠ Cell.nan} = ∅ := by
    ext x
    simp only [Set.mem_ofPred_eq, Set.mem_empty_iff_false, iff_false, not_and, not_not]
    exact hn x
  unfold distinct at h1
  rw [this, Set.ncard_empty] at h1
  omega

/-- With automatic bins, a call for a large sample is a call with the edges of the distribution. -/
theorem auto_calls {ci : String} {raw : Cell × Cell → ℝ} {S : Finset (Cell × Cell)} {R : ℕ → Cell × Cell} (h : Typical raw R) (hpos : ∀ z, 0 ≤ raw z)
    (hS : ∀ x, raw x ≠ 0 → x ∈ S) {fl : ℚ → ℚ} (hfl : fl = (fun x => x) ∨ fl = rne53) {e : ℚ} (he : ∀ x, |fl x - x| ≤ e * |x|) {quantile : Bool}
    {oa ob : Option BinSpec} {ea eb : Option (List ℚ)} (hA : LimitEdges S raw Prod.fst fl e quantile oa ea) (hB : LimitEdges S raw Prod.snd fl e quantile ob eb)
    (repA : ∀ z y, raw z ≠ 0 → z.1 = .num y → fl y = y) (repB : ∀ z y, raw z ≠ 0 → z.2 = .num y → fl y = y)
    (numA : oa ≠ none → ∀ z s, raw z ≠ 0 → z.1 ≠ .str s) (numB : ob ≠ none → ∀ z s, raw z ≠ 0 → z.2 ≠ .str s) (fmt : ℚ → String)
    (pf : String → Option (Option ℚ)) (dropna du dof : Bool) :
    ∀ᶠ n in atTop, ∀ res, AutoCall N ci fmt fl pf quantile dropna du dof oa ob ((List.range n).map fun k => (R k).1) ((List.range n).map fun k => (R k).2) res →
      OutlierCall N ci fmt pf dropna du dof ea eb ((List.range n).map fun k => (R k).1) ((List.range n).map fun k => (R k).2) res := by
  have hrel : RelRounding fl := by
    rcases hfl with rfl | rfl
    · exact RelRounding_id
    · exact RelRounding_rne53
  have la := edges_limit (var := Prod.fst) h hpos hS hrel he repA hA numA
  have lb := edges_limit (var := Prod.snd) h hpos hS hrel he repB hB numB
  filter_upwards [la, lb] with n ha hb res hres
  cases hres with
  | mk hf hcols hne ea' eb' ba bb hent hspec ka kb hexec =>
    rename_i ref w w' f a b ic bins res
    have strA : a.name ∈ ic.getD (guessIntervalCols f) → ∀ s, Cell.str s ∉ a.cells := by
      intro hm s hs
      have ho : oa ≠ none := by rintro rfl; exact ba hm
      rw [ea'] at hs
      obtain ⟨k, -, hk⟩ := List.mem_map.1 hs
      exact numA ho _ s (h.1 k) hk
    have strB : b.name ∈ ic.getD (guessIntervalCols f) → ∀ s, Cell.str s ∉ b.cells := by
      intro hm s hs
      have ho : ob ≠ none := by rintro rfl; exact bb hm
      rw [eb'] at hs
      obtain ⟨k, -, hk⟩ := List.mem_map.1 hs
      exact numB ho _ s (h.1 k) hk
    have hnames : f.names = [a.name, b.name] := by simp [Frame.names, hcols]
    have hga : f.getCol a.name = .ok a := by simp [Frame.getCol, Frame.col?, hcols]
    have hgb : f.getCol b.name = .ok b := by simp [Frame.getCol, Frame.col?, hcols, hne]
    refine .matrix hfl hf hcols hne ea' eb' hent hspec ?_ ka kb (ha pf _ _ a ea' ba) (hb pf _ _ b eb' bb) ?_ hexec
    · intro c hc hm x hx q hq
      rw [hcols] at hc
      simp only [List.mem_cons, List.not_mem_nil, or_false] at hc
      rcases hc with rfl | rfl
      · cases x with
        | nan => cases hq
        | str s => exact absurd hx (strA hm s)
        | num y =>
          cases hq
          rw [ea'] at hx
          obtain ⟨k, -, hk⟩ := List.mem_map.1 hx
          exact repA _ _ (h.1 k) hk
      · cases x with
        | nan => cases hq
        | str s => exact absurd hx (strB hm s)
        | num y =>
          cases hq
          rw [eb'] at hx
          obtain ⟨k, -, hk⟩ := List.mem_map.1 hx
          exact repB _ _ (h.1 k) hk
    · refine binData_returns fl pf hf quantile fun name hname => ?_
      obtain ⟨hm, hn⟩ := List.mem_filter.1 hname
      obtain ⟨s, hs⟩ := hent name hm
      refine ⟨⟨s, hs, goodEntry_of_sorted (hspec name hm s hs)⟩, ?_⟩
      simp only [hnames, List.mem_cons, List.not_mem_nil, or_false, decide_eq_true_eq] at hn
      rcases hn with rfl | rfl
      · exact ⟨a, hga, strA hm, exists_of_kept ka⟩
      · exact ⟨b, hgb, strB hm, exists_of_kept kb⟩

/-! ### the theorems with automatic bins -/

section
variable {p : Fin r → Fin c → ℝ} {raw : Cell × Cell → ℝ} {S : Finset (Cell × Cell)} {q : ℝ} {u : Fin r → Category} {v : Fin c → Category}
  {Ω : Type} [MeasurableSpace Ω] {μ : Measure Ω} {A B : ℕ → Ω → Cell} {pf : String → Option (Option ℚ)} {dropna du dof : Bool} {ea eb : Option (List ℚ)}
  {ka kb : Cell → Option Category} {fl : ℚ → ℚ} {e : ℚ} {quantile : Bool} {oa ob : Option BinSpec}

/-- **C94 (automatic bins).** Records drawn from a distribution with finitely many values, of which each column is not binned, binned with given edges, in equal bins
between its smallest and its largest value, or in bins between its quantiles: a combination of two of the categories of the distribution that is more frequent
among the complete records than for independent variables gets an outlier significance above every bound, almost surely when the sample is large enough. -/
theorem outlier_auto_detected (h : OutExact N) {ci : String} (hci : GoodCI N ci) (fmt : ℚ → String) (hr : 2 ≤ r) (hc : 2 ≤ c) (hp : IsJoint p) (hS : ∀ x, raw x ≠ 0 → x ∈ S)
    (hfl : fl = (fun x => x) ∨ fl = rne53) (he : ∀ x, |fl x - x| ≤ e * |x|) (hA : LimitEdges S raw Prod.fst fl e quantile oa ea)
    (hB : LimitEdges S raw Prod.snd fl e quantile ob eb) (repA : ∀ z y, raw z ≠ 0 → z.1 = .num y → fl y = y)
    (repB : ∀ z y, raw z ≠ 0 → z.2 = .num y → fl y = y) (numA : oa ≠ none → ∀ z s, raw z ≠ 0 → z.1 ≠ .str s)
    (numB : ob ≠ none → ∀ z s, raw z ≠ 0 → z.2 ≠ .str s) (hka : ∀ cell x, ka cell = some x ↔ Belongs pf dropna du dof ea cell x)
    (hkb : ∀ cell x, kb cell = some x ↔ Belongs pf dropna du dof eb cell x) (hl : CompleteLaw (pushLaw S raw fun z => (ka z.1, kb z.2)) q p u v)
    (hR : IIDRecords μ (fun k ω => (A k ω, B k ω)) raw) {i : Fin r} {j : Fin c}
    (hmore : (∑ l, p i l) * ∑ k, p k j < p i j) (hother : (∃ l, l ≠ j ∧ 0 < p i l) ∨ ∃ k, k ≠ i ∧ 0 < p k j) :
    ∀ᵐ ω ∂μ, ∀ M : ℝ, ∀ᶠ n in atTop, ∀ res,
      AutoCall N ci fmt fl pf quantile dropna du dof oa ob ((List.range n).map (A · ω)) ((List.range n).map (B · ω)) res →
      ∃ (o : OutTab) (x : Fin o.rows.length) (y : Fin o.cols.length) (z : ℝ), res = .ok (some o) ∧
        o.rows[x] = (u i).name fmt ∧ o.cols[y] = (v j).name fmt ∧ o.v x y = some (z : EReal) ∧ M < z := by
  have hm := hR.map hS fun z => (ka z.1, kb z.2)
  filter_upwards [outlier_detected h hci fmt hr hc hp hl hm (A := A) (B := B) (fun ω k => ⟨hka _, hkb _⟩) hmore hother, hR.typical] with ω h1 h2 M
  filter_upwards [h1 M, auto_calls (N := N) h2 hR.nonneg hS hfl he hA hB repA repB numA numB fmt pf dropna du dof] with n hn hcall res hres
  exact hn res (hcall res hres)

/-- **C94 (automatic bins).** A combination that is less frequent than for independent variables gets an outlier significance below every bound. -/
theorem outlier_auto_lack_detected (h : OutExact N) {ci : String} (hci : GoodCI N ci) (fmt : ℚ → String) (hr : 2 ≤ r) (hc : 2 ≤ c) (hp : IsJoint p) (hS : ∀ x, raw x ≠ 0 → x ∈ S)
    (hfl : fl = (fun x => x) ∨ fl = rne53) (he : ∀ x, |fl x - x| ≤ e * |x|) (hA : LimitEdges S raw Prod.fst fl e quantile oa ea)
    (hB : LimitEdges S raw Prod.snd fl e quantile ob eb) (repA : ∀ z y, raw z ≠ 0 → z.1 = .num y → fl y = y)
    (repB : ∀ z y, raw z ≠ 0 → z.2 = .num y → fl y = y) (numA : oa ≠ none → ∀ z s, raw z ≠ 0 → z.1 ≠ .str s)
    (numB : ob ≠ none → ∀ z s, raw z ≠ 0 → z.2 ≠ .str s) (hka : ∀ cell x, ka cell = some x ↔ Belongs pf dropna du dof ea cell x)
    (hkb : ∀ cell x, kb cell = some x ↔ Belongs pf dropna du dof eb cell x) (hl : CompleteLaw (pushLaw S raw fun z => (ka z.1, kb z.2)) q p u v)
    (hR : IIDRecords μ (fun k ω => (A k ω, B k ω)) raw) {i : Fin r} {j : Fin c}
    (hless : p i j < (∑ l, p i l) * ∑ k, p k j) (hrest : ∃ k l, k ≠ i ∧ l ≠ j ∧ 0 < p k l) :
    ∀ᵐ ω ∂μ, ∀ M : ℝ, ∀ᶠ n in atTop, ∀ res,
      AutoCall N ci fmt fl pf quantile dropna du dof oa ob ((List.range n).map (A · ω)) ((List.range n).map (B · ω)) res →
      ∃ (o : OutTab) (x : Fin o.rows.length) (y : Fin o.cols.length) (z : ℝ), res = .ok (some o) ∧
        o.rows[x] = (u i).name fmt ∧ o.cols[y] = (v j).name fmt ∧ o.v x y = some (z : EReal) ∧ z < M := by
  have hm := hR.map hS fun z => (ka z.1, kb z.2)
  filter_upwards [outlier_lack_detected h hci fmt hr hc hp hl hm (A := A) (B := B) (fun ω k => ⟨hka _, hkb _⟩) hless hrest, hR.typical] with ω h1 h2 M
  filter_upwards [h1 M, auto_calls (N := N) h2 hR.nonneg hS hfl he hA hB repA repB numA numB fmt pf dropna du dof] with n hn hcall res hres
  exact hn res (hcall res hres)

/-- **C95 (automatic bins).** A combination that is as frequent as for independent variables gets an outlier significance that exceeds `z0` with a probability that tends
to that of a standard normal variable. -/
theorem outlier_auto_null (h : OutExact N) {ci : String} (hci : GoodCI N ci) (fmt : ℚ → String) (hr : 2 ≤ r) (hc : 2 ≤ c) (hp : IsJoint p) (hS : ∀ x, raw x ≠ 0 → x ∈ S)
    (hfl : fl = (fun x => x) ∨ fl = rne53) (he : ∀ x, |fl x - x| ≤ e * |x|) (hA : LimitEdges S raw Prod.fst fl e quantile oa ea)
    (hB : LimitEdges S raw Prod.snd fl e quantile ob eb) (repA : ∀ z y, raw z ≠ 0 → z.1 = .num y → fl y = y)
    (repB : ∀ z y, raw z ≠ 0 → z.2 = .num y → fl y = y) (numA : oa ≠ none → ∀ z s, raw z ≠ 0 → z.1 ≠ .str s)
    (numB : ob ≠ none → ∀ z s, raw z ≠ 0 → z.2 ≠ .str s) (hka : ∀ cell x, ka cell = some x ↔ Belongs pf dropna du dof ea cell x)
    (hkb : ∀ cell x, kb cell = some x ↔ Belongs pf dropna du dof eb cell x) (hl : CompleteLaw (pushLaw S raw fun z => (ka z.1, kb z.2)) q p u v)
    (hR : IndepRecords μ (fun k ω => (A k ω, B k ω)) raw) :
    ∃ Z : ℕ → Ω → Fin r → Fin c → ℝ, ∀ i j, p i j = (∑ l, p i l) * ∑ k, p k j →
      (∀ᵐ ω ∂μ, ∀ᶠ n in atTop, ∀ res,
        AutoCall N ci fmt fl pf quantile dropna du dof oa ob ((List.range n).map (A · ω)) ((List.range n).map (B · ω)) res →
        ∃ (o : OutTab) (x : Fin o.rows.length) (y : Fin o.cols.length), res = .ok (some o) ∧
          o.rows[x] = (u i).name fmt ∧ o.cols[y] = (v j).name fmt ∧ o.v x y = some (Z n ω i j : EReal)) ∧
      ∀ z0 : ℝ, Tendsto (fun n => μ {ω | z0 < Z n ω i j}) atTop (𝓝 (gaussianReal 0 1 (Set.Ioi z0))) := by
  have hm := hR.map hS fun z => (ka z.1, kb z.2)
  obtain ⟨Z, hZ⟩ := outlier_null h hci fmt hr hc hp hl hm (A := A) (B := B) (fun ω k => ⟨hka _, hkb _⟩)
  refine ⟨Z, fun i j hij => ⟨?_, (hZ i j hij).2⟩⟩
  filter_upwards [(hZ i j hij).1, hR.iid.typical] with ω h1 h2
  filter_upwards [h1, auto_calls (N := N) h2 hR.nonneg hS hfl he hA hB repA repB numA numB fmt pf dropna du dof] with n hn hcall res hres
  exact hn res (hcall res hres)

end

/-! ### a case -/

/-- The category of an entry of a column. -/
def categoryOf (pf : String → Option (Option ℚ)) (dropna du dof : Bool) : Option (List ℚ) → Cell → Option Category
  | none, x => (view dropna du dof x).map .value
  | some e, x => match toFloat pf x with
    | .ok a => (view dropna du dof (binCell e a)).map (binCat e)
    | .error _ => none

theorem categoryOf_iff (pf : String → Option (Option ℚ)) (dropna du dof : Bool) {e : Option (List ℚ)} (he : GoodEdges e) (x : Cell) (cat : Category) :
    categoryOf pf dropna du dof e x = some cat ↔ Belongs pf dropna du dof e x cat := by
  cases e with
  | none =>
    simp only [categoryOf, Option.map_eq_some_iff]
    constructor
    · rintro ⟨v, h, rfl⟩; exact .value h
    · intro h
      cases h with
      | value h => exact ⟨_, h, rfl⟩
  | some e =>
    unfold categoryOf
    cases hx : toFloat pf x with
    | ok a => simp only [hx, Option.map_eq_some_iff]; exact (belongs_bin dropna du dof he.2 he.1 hx cat).symm
    | error err =>
      simp only [hx, reduceCtorEq, false_iff]
      intro h
      cases h <;> simp_all

/-- A record of one of the numbers 1, 2, 3 and one of the texts a, b, c, or two missing values. -/
def mixed (o : Option (Fin 3 × Fin 3)) : Cell × Cell := match o with
  | none => (.nan, .nan)
  | some z => (.num ((z.1 : ℕ) + 1 : ℕ), ![.str "a", .str "b", .str "c"] z.2)

theorem mixed_inj : Function.Injective mixed := by
  rintro (_ | ⟨i, j⟩) (_ | ⟨i', j'⟩) h <;> simp [mixed] at h
  · rfl
  · have h2 : j = j' := by
      revert h
      fin_cases j <;> fin_cases j' <;> simp
    rw [Fin.ext h.1, h2]

/-- The quartiles of the numbers of the records. -/
theorem mixed_quartiles {p : Fin 3 → Fin 3 → ℝ} (hrow : ∀ i, ∑ j, p i j = 1 / 3) {q : ℝ} (hq : 0 < q) {raw : Cell × Cell → ℝ} {S : Finset (Cell × Cell)}
    (hS : ∀ x, raw x ≠ 0 → x ∈ S ∧ x ∈ Set.range mixed) (hraw : ∀ z, raw (mixed (some z)) = q * p z.1 z.2) :
    SettlesOn S raw Prod.fst (fun x => x) 0 true (.num 4) quartileEdges := by
  have hprob : ∀ P : ℚ → Prop, probOf S raw (fun z => ∃ y, z.1 = .num y ∧ P y) = ∑ i : Fin 3, open Classical in if P ((i : ℕ) + 1 : ℕ) then q / 3 else 0 := by
    intro P
    rw [probOf_range mixed_inj hS, Fintype.sum_option, Fintype.sum_prod_type]
    have e0 : ¬ ∃ y, (mixed none).1 = .num y ∧ P y := by rintro ⟨y, h, -⟩; cases h
    have e1 : ∀ i j : Fin 3, (∃ y, (mixed (some (i, j))).1 = .num y ∧ P y) ↔ P ((i : ℕ) + 1 : ℕ) := by
      intro i j
      simp [mixed]
    rw [if_neg e0, zero_add]
    refine Finset.sum_congr rfl fun i _ => ?_
    by_cases hP : P ((i : ℕ) + 1 : ℕ)
    · rw [if_pos hP, Finset.sum_congr rfl fun j _ => if_pos ((e1 i j).2 hP)]
      simp only [hraw]
      rw [← Finset.mul_sum, hrow]
      ring
    · rw [if_neg hP]
      exact Finset.sum_eq_zero fun j _ => if_neg fun h => hP ((e1 i j).1 h)
  have hall : probOf S raw (fun z => ∃ y, z.1 = .num y) = q := by
    have := hprob fun _ => True
    simp only [and_true, if_true, Fin.sum_univ_three] at this
    rw [this]; ring
  have hle : ∀ z y, raw z ≠ 0 → z.1 = .num y → 1 ≤ y ∧ y ≤ 3 := by
    intro z y hz h
    obtain ⟨-, (_ | ⟨i, j⟩), rfl⟩ := hS z hz
    · cases h
    · cases h
      fin_cases i <;> norm_num
  have hoc : ∀ i : Fin 3, ∃ z, raw z ≠ 0 ∧ z.1 = .num ((i : ℕ) + 1 : ℕ) := by
    intro i
    obtain ⟨j, -, hj⟩ := Finset.exists_ne_zero_of_sum_ne_zero (s := Finset.univ) (f := fun j => p i j) (by rw [hrow]; norm_num)
    exact ⟨mixed (some (i, j)), by rw [hraw]; exact mul_ne_zero hq.ne' hj, rfl⟩
  have o1 : ∃ z, raw z ≠ 0 ∧ z.1 = .num 1 := hoc 0
  have o2 : ∃ z, raw z ≠ 0 ∧ z.1 = .num 2 := hoc 1
  have o3 : ∃ z, raw z ≠ 0 ∧ z.1 = .num 3 := hoc 2
  refine .quantile (q := 4) (qs := [0, 1 / 4, 1 / 2, 3 / 4, 1]) ?_ ?_
  · have : truncQ 4 + 1 = 5 := by norm_num [truncQ]
    rw [this]; exact quarters_eq
  · refine .cons ⟨o1, .inl fun z y hz h => (hle z y hz h).1, .inr ?_⟩ (.cons ⟨o1, .inl fun z y hz h => (hle z y hz h).1, .inr ?_⟩
      (.cons ⟨o2, .inr ?_, .inr ?_⟩ (.cons ⟨o3, .inr ?_, .inl fun z y hz h => (hle z y hz h).2⟩
      (.cons ⟨o3, .inr ?_, .inl fun z y hz h => (hle z y hz h).2⟩ .nil))))
    all_goals
      rw [hall, hprob]
      simp only [Fin.sum_univ_three]
      norm_num
      try linarith

/-- The intervals between the quartiles. -/
def quartileCats : Fin 3 → Category := ![.interval (1 - 1 / 10 ^ 14) 1, .interval 1 2, .interval 2 3]

def textCats : Fin 3 → Category := ![.value (.str "a"), .value (.str "b"), .value (.str "c")]

theorem mixed_categories (pf : String → Option (Option ℚ)) (o : Option (Fin 3 × Fin 3)) :
    (categoryOf pf true true true (some quartileEdges) (mixed o).1, categoryOf pf true true true none (mixed o).2) =
      (o.map fun z => quartileCats z.1, o.map fun z => textCats z.2) := by
  rcases o with _ | ⟨i, j⟩
  · rfl
  · have hb : binCell quartileEdges (some (((i : ℕ) + 1 : ℕ) : ℚ)) = .num ((i : ℕ) + 1 : ℕ) := by
      rw [binCell_num_iff _ (by norm_num [quartileEdges, List.pairwise_cons])]
      fin_cases i <;> exact ⟨_, rfl, by norm_num [quartileEdges]⟩
    refine Prod.ext ?_ ?_
    · change (view true true true (binCell quartileEdges (some (((i : ℕ) + 1 : ℕ) : ℚ)))).map (binCat quartileEdges) = some (quartileCats i)
      rw [hb]
      fin_cases i <;> simp [view, binCat, edgePair, quartileCats, quartileEdges]
    · fin_cases j <;> rfl

theorem quartileEdges_good : GoodEdges (some quartileEdges) := ⟨by simp [quartileEdges], by norm_num [quartileEdges, List.pairwise_cons]⟩

theorem mixed_no_text {raw : Cell × Cell → ℝ} {S : Finset (Cell × Cell)} (hS : ∀ x, raw x ≠ 0 → x ∈ S ∧ x ∈ Set.range mixed) (z : Cell × Cell) (s : String)
    (hz : raw z ≠ 0) : z.1 ≠ .str s := by
  obtain ⟨-, (_ | ⟨i, j⟩), rfl⟩ := hS z hz <;> simp [mixed]

/-- A column of the numbers 1, 2, 3, binned at its quartiles, a column of the texts "a", "b", "c", a quarter of the records incomplete: the combination of the interval
from 1 to 2 with "b" is found in every outlier matrix of a large sample, and that of the same interval with "a" is found missing. -/
example {ci : String} (hci : ci = "poisson" ∨ ci = "exact_poisson") (fmt : ℚ → String) (pf : String → Option (Option ℚ)) : ∃ (Ω : Type) (_ : MeasurableSpace Ω) (μ : Measure Ω) (_ : IsProbabilityMeasure μ) (A B : ℕ → Ω → Cell),
    ∀ᵐ ω ∂μ, ∀ M : ℝ, ∀ᶠ n in atTop, ∀ res,
      AutoCall trueOut ci fmt (fun x => x) pf true true true true (some (.num 4)) none ((List.range n).map (A · ω)) ((List.range n).map (B · ω)) res →
      (∃ (o : OutTab) (x : Fin o.rows.length) (y : Fin o.cols.length) (z : ℝ), res = .ok (some o) ∧
        o.rows[x] = .str (fmt 1 ++ "_" ++ fmt 2) ∧ o.cols[y] = .str "b" ∧ o.v x y = some (z : EReal) ∧ M < z) ∧
      ∃ (o : OutTab) (x : Fin o.rows.length) (y : Fin o.cols.length) (z : ℝ), res = .ok (some o) ∧
        o.rows[x] = .str (fmt 1 ++ "_" ++ fmt 2) ∧ o.cols[y] = .str "a" ∧ o.v x y = some (z : EReal) ∧ z < M := by
  obtain ⟨Ω, _, μ, D, raw, S, hR, hS, hraw, hl⟩ := raw_draws_exist agreeLaw_joint (q := 3 / 4) (by norm_num) (by norm_num) mixed_inj
    (φ := fun x => (categoryOf pf true true true (some quartileEdges) x.1, categoryOf pf true true true none x.2)) (u := quartileCats) (v := textCats)
    (by decide +kernel) (by decide) (mixed_categories pf)
  have hq := mixed_quartiles (p := agreeLaw) (fun i => by fin_cases i <;> simp [agreeLaw, Fin.sum_univ_three] <;> norm_num) (by norm_num) hS hraw
  refine ⟨Ω, _, μ, hR.prob, fun k ω => (mixed (D k ω)).1, fun k ω => (mixed (D k ω)).2, ?_⟩
  have s1 : ∀ i, ∑ l, agreeLaw i l = 1 / 3 := fun i => by fin_cases i <;> simp [agreeLaw, Fin.sum_univ_three] <;> norm_num
  have s2 : ∀ i, ∑ l, agreeLaw l i = 1 / 3 := fun i => by fin_cases i <;> simp [agreeLaw, Fin.sum_univ_three] <;> norm_num
  have m1 : (∑ l, agreeLaw 1 l) * ∑ k, agreeLaw k 1 < agreeLaw 1 1 := by
    rw [s1, s2, agreeLaw, if_pos rfl]; norm_num
  have m2 : agreeLaw 1 0 < (∑ l, agreeLaw 1 l) * ∑ k, agreeLaw k 0 := by
    rw [s1, s2, agreeLaw, if_neg (by decide)]; norm_num
  filter_upwards [outlier_auto_detected (ea := some quartileEdges) (eb := none) (oa := some (.num 4)) (ob := none) trueOut_exact (goodCI_true hci) fmt (by norm_num) (by norm_num)
      agreeLaw_joint (fun x hx => (hS x hx).1) (.inl rfl) (e := 0) (by simp) hq trivial (fun _ _ _ _ => rfl) (fun _ _ _ _ => rfl)
      (fun _ z s => mixed_no_text hS z s) (fun h => absurd rfl h) (categoryOf_iff pf true true true quartileEdges_good) (categoryOf_iff pf true true true trivial)
      hl hR.iid m1 (.inl ⟨0, by decide, by simp [agreeLaw]⟩),
    outlier_auto_lack_detected (ea := some quartileEdges) (eb := none) (oa := some (.num 4)) (ob := none) trueOut_exact (goodCI_true hci) fmt (by norm_num) (by norm_num)
      agreeLaw_joint (fun x hx => (hS x hx).1) (.inl rfl) (e := 0) (by simp) hq trivial (fun _ _ _ _ => rfl) (fun _ _ _ _ => rfl)
      (fun _ z s => mixed_no_text hS z s) (fun h => absurd rfl h) (categoryOf_iff pf true true true quartileEdges_good) (categoryOf_iff pf true true true trivial)
      hl hR.iid m2 ⟨0, 1, by decide, by decide, by simp [agreeLaw]⟩] with ω h1 h2 M
  filter_upwards [h1 M, h2 M] with n h1 h2 res hres
  exact ⟨h1 res hres, h2 res hres⟩

/-- The same columns, independent: the outlier significance of the interval from 1 to 2 with "b" is asymptotically standard normal. -/
example {ci : String} (hci : ci = "poisson" ∨ ci = "exact_poisson") (fmt : ℚ → String) (pf : String → Option (Option ℚ)) : ∃ (Ω : Type) (_ : MeasurableSpace Ω) (μ : Measure Ω) (A B : ℕ → Ω → Cell) (Z : ℕ → Ω → ℝ),
    (∀ᵐ ω ∂μ, ∀ᶠ n in atTop, ∀ res,
      AutoCall trueOut ci fmt (fun x => x) pf true true true true (some (.num 4)) none ((List.range n).map (A · ω)) ((List.range n).map (B · ω)) res →
      ∃ (o : OutTab) (x : Fin o.rows.length) (y : Fin o.cols.length), res = .ok (some o) ∧
        o.rows[x] = .str (fmt 1 ++ "_" ++ fmt 2) ∧ o.cols[y] = .str "b" ∧ o.v x y = some (Z n ω : EReal)) ∧
    ∀ z0 : ℝ, Tendsto (fun n => μ {ω | z0 < Z n ω}) atTop (𝓝 (gaussianReal 0 1 (Set.Ioi z0))) := by
  obtain ⟨Ω, _, μ, D, raw, S, hR, hS, hraw, hl⟩ := raw_draws_exist evenLaw_joint (q := 3 / 4) (by norm_num) (by norm_num) mixed_inj
    (φ := fun x => (categoryOf pf true true true (some quartileEdges) x.1, categoryOf pf true true true none x.2)) (u := quartileCats) (v := textCats)
    (by decide +kernel) (by decide) (mixed_categories pf)
  have hq := mixed_quartiles (p := evenLaw) (fun i => by norm_num [evenLaw]) (by norm_num) hS hraw
  obtain ⟨Z, hZ⟩ := outlier_auto_null (ea := some quartileEdges) (eb := none) (oa := some (.num 4)) (ob := none) trueOut_exact (goodCI_true hci) fmt (by norm_num) (by norm_num)
      evenLaw_joint (fun x hx => (hS x hx).1) (.inl rfl) (e := 0) (by simp) hq trivial (fun _ _ _ _ => rfl) (fun _ _ _ _ => rfl)
      (fun _ z s => mixed_no_text hS z s) (fun h => absurd rfl h) (categoryOf_iff pf true true true quartileEdges_good) (categoryOf_iff pf true true true trivial)
      hl (A := fun k ω => (mixed (D k ω)).1) (B := fun k ω => (mixed (D k ω)).2) hR
  exact ⟨Ω, _, μ, _, _, fun n ω => Z n ω 1 1, hZ 1 1 (by norm_num [evenLaw])⟩

/-- Calls exist: for a frame with a column to be binned at its quartiles and a column of texts. -/
example (ci : String) (fmt : ℚ → String) (pf : String → Option (Option ℚ)) :
    ∃ res, AutoCall trueOut ci fmt (fun x => x) pf true true true true (some (.num 4)) none [.num 1, .num 3, .num 7, .num 7] [.str "a", .str "b", .str "a", .str "b"] res := by
  refine ⟨_, .mk (ref := 0) (w := ⟨[gapFrame], []⟩) (f := gapFrame) (ic := some ["x"]) (bins := .one (.num 4)) rfl rfl (by decide) rfl rfl
    ⟨by decide, .one _ _⟩ (by decide : "y" ∉ ["x"]) ?_ ?_ ?_ ?_ rfl⟩
  · intro name h; exact ⟨_, .one _ _⟩
  · intro name h s hs
    cases hs
    exact ⟨by norm_num, by norm_num⟩
  · unfold Kept; rw [← nunique_eq]; decide
  · unfold Kept; rw [← nunique_eq]; decide

end Phik.Props
