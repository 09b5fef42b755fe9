import Verif.Props.OutlierLocality
import Verif.Props.Rename

/-! # Property C96: neither the order nor the names of the categories nor the order of the variables matter for outliers -/

namespace Phik

open Spec Props Out

/-! ### tables -/

theorem estimateCell_perm (N : OutNum) (ci : String) {t t' : Arr2 ℕ} (σ : Fin t'.r ≃ Fin t.r) (τ : Fin t'.c ≃ Fin t.c)
    (hv : ∀ i j, t'.v i j = t.v (σ i) (τ j)) (i : Fin t'.r) (j : Fin t'.c) :
    estimateCell N t' ci i j = estimateCell N t ci (σ i) (τ j) := by
  have h1 : t'.rowSum i = t.rowSum (σ i) := by
    unfold Arr2.rowSum
    simp only [hv]
    exact Equiv.sum_comp τ fun l => t.v (σ i) l
  have h2 : t'.colSum j = t.colSum (τ j) := by
    unfold Arr2.colSum
    simp only [hv]
    exact Equiv.sum_comp σ fun k => t.v k (τ j)
  have h3 : t'.total = t.total := by
    unfold Arr2.total
    simp only [hv]
    rw [Equiv.sum_comp σ fun k => ∑ l, t.v k (τ l)]
    exact Finset.sum_congr rfl fun k _ => Equiv.sum_comp τ fun l => t.v k l
  unfold estimateCell
  rw [h1, h2, h3, hv]

theorem estimateCell_transpose (N : OutNum) (ci : String) {t t' : Arr2 ℕ} (σ : Fin t'.r ≃ Fin t.c) (τ : Fin t'.c ≃ Fin t.r)
    (hv : ∀ i j, t'.v i j = t.v (τ j) (σ i)) (i : Fin t'.r) (j : Fin t'.c) :
    estimateCell N t' ci i j = estimateCell N t ci (τ j) (σ i) := by
  have h1 : t'.rowSum i = t.colSum (σ i) := by
    unfold Arr2.rowSum Arr2.colSum
    simp only [hv]
    exact Equiv.sum_comp τ fun l => t.v l (σ i)
  have h2 : t'.colSum j = t.rowSum (τ j) := by
    unfold Arr2.rowSum Arr2.colSum
    simp only [hv]
    exact Equiv.sum_comp σ fun k => t.v (τ j) k
  have h3 : t'.total = t.total := by
    unfold Arr2.total
    simp only [hv]
    rw [Equiv.sum_comp σ fun k => ∑ l, t.v (τ l) k, Finset.sum_comm]
    exact Equiv.sum_comp τ fun k => ∑ l, t.v k l
  have hsq : ∀ a b c : ℝ, a + b + c = b + a + c := fun a b c => by ring
  unfold estimateCell
  rw [h1, h2, h3, hv]
  simp only
  generalize ((t.v (τ j) (σ i) : ℕ) : ℝ) = A
  generalize (t.rowSum (τ j) : ℝ) - A = B
  generalize (t.colSum (σ i) : ℝ) - A = C
  rw [show (t.total : ℝ) - C - B - A = t.total - B - C - A by ring]
  split
  · rcases hB : getUncertainty N B ci with e | sB <;> rcases hC : getUncertainty N C ci with e' | sC <;>
      simp only [bind, Except.bind]
    · unfold getUncertainty at hB hC
      split_ifs at hB hC
      rw [← Except.error.inj hB, ← Except.error.inj hC]
    · cases getUncertainty N (t.total - B - C - A) ci with
      | error e => rfl
      | ok sD => simp only [mul_comm C B, hsq ((sC * B / _) ^ 2)]
  · rfl

/-- The values of the outlier matrix of a table, or the exceptions, come from its cells. -/
theorem outlierFromHist2d_ok_iff {N : OutNum} {ci : String} {t : Arr2 ℕ} {g : Fin t.r → Fin t.c → Option ℝ × FVal} :
    outlierFromHist2d N t ci = .ok ⟨t.r, t.c, g⟩ ↔
      ∀ i j, ∃ e s z, estimateCell N t ci i j = .ok (e, s) ∧ poissonObsMidZ N (t.v i j) e s = .ok z ∧
        g i j = (poissonObsMidP N (t.v i j) e s, z) := by
  unfold outlierFromHist2d
  constructor
  · intro h i j
    split at h
    · cases h
    · obtain ⟨g', hg, hcell⟩ := cells2_inv h
      obtain rfl : g = g' := by simpa using hg
      have := hcell i j
      rcases he : estimateCell N t ci i j with e | ⟨e, s⟩
      · rw [he] at this; cases this
      · rw [he] at this
        rcases hz : poissonObsMidZ N (t.v i j) e s with e' | z
        · simp only [bind, Except.bind, hz] at this; cases this
        · simp only [bind, Except.bind, hz] at this
          exact ⟨e, s, z, rfl, hz, (Except.ok.inj this).symm⟩
  · intro h
    choose e s z h1 h2 h3 using h
    rw [cells2_ok (g := fun i j => (e i j, s i j)) h1]
    refine cells2_ok fun i j => ?_
    simp only [h1, h2, h3, bind, Except.bind]
    rfl

namespace Props

/-- **C96 (order of the categories).** If a table `t'` comes from `t` by putting the rows and the columns in another order, then
its outlier p-values and Z-values are those of `t` in that order. -/
theorem outlier_order (N : OutNum) (ci : String) {t t' : Arr2 ℕ} (σ : Fin t'.r ≃ Fin t.r) (τ : Fin t'.c ≃ Fin t.c)
    (hv : ∀ i j, t'.v i j = t.v (σ i) (τ j)) {g : Fin t.r → Fin t.c → Option ℝ × FVal}
    (h : outlierFromHist2d N t ci = .ok ⟨t.r, t.c, g⟩) :
    outlierFromHist2d N t' ci = .ok ⟨t'.r, t'.c, fun i j => g (σ i) (τ j)⟩ := by
  rw [outlierFromHist2d_ok_iff] at h ⊢
  intro i j
  rw [estimateCell_perm N ci σ τ hv, hv]
  exact h (σ i) (τ j)

/-- **C96 (exchange of the variables).** The outlier p-values and Z-values of the transposed table are those of the table,
transposed. -/
theorem outlier_exchange (N : OutNum) (ci : String) {r c : ℕ} (n : Fin r → Fin c → ℕ) {g : Fin r → Fin c → Option ℝ × FVal}
    (h : outlierFromHist2d N ⟨r, c, n⟩ ci = .ok ⟨r, c, g⟩) :
    outlierFromHist2d N ⟨c, r, fun j i => n i j⟩ ci = .ok ⟨c, r, fun j i => g i j⟩ := by
  rw [outlierFromHist2d_ok_iff (t := ⟨r, c, n⟩)] at h
  rw [outlierFromHist2d_ok_iff (t := ⟨c, r, fun j i => n i j⟩)]
  intro j i
  rw [estimateCell_transpose N ci (t := ⟨r, c, n⟩) (t' := ⟨c, r, fun j i => n i j⟩) (Equiv.refl _) (Equiv.refl _) (fun _ _ => rfl)]
  exact h i j

/-! ### frames -/

/-- The outlier matrix `u` is the transposed of `t`. -/
def IsTransposed (t u : OutTab) : Prop :=
  u.rows = t.cols ∧ u.cols = t.rows ∧ ∀ i j i' j', i'.val = i.val → j'.val = j.val → u.v j' i' = t.v i j

theorem counts_swap {pf : String → Option (Option ℚ)} {dropna du dof : Bool} {ea eb : Option (List ℚ)} {a b : Column}
    {ra rb : List Category} {n : Fin ra.length → Fin rb.length → ℕ} (h : Counts pf dropna du dof ea eb a b ra rb n) :
    Counts pf dropna du dof eb ea b a rb ra fun j i => n i j := by
  have hz : b.cells.zip a.cells = (a.cells.zip b.cells).map Prod.swap := (List.zip_swap _ _).symm
  refine ⟨h.cols_order, h.rows_order, fun c => ?_, fun c => ?_, fun i j => ?_⟩
  · rw [h.cols_mem, hz]
    constructor
    · rintro ⟨p, hp, h1, h2⟩; exact ⟨p.swap, List.mem_map_of_mem hp, h2, h1⟩
    · rintro ⟨q, hq, h1, h2⟩
      obtain ⟨p, hp, rfl⟩ := List.mem_map.1 hq
      exact ⟨p, hp, h2, h1⟩
  · rw [h.rows_mem, hz]
    constructor
    · rintro ⟨p, hp, h1, h2⟩; exact ⟨p.swap, List.mem_map_of_mem hp, h2, h1⟩
    · rintro ⟨q, hq, h1, h2⟩
      obtain ⟨p, hp, rfl⟩ := List.mem_map.1 hq
      exact ⟨p, hp, h2, h1⟩
  · rw [h.counts, hz, List.countP_map]
    congr 1
    funext p
    simp [and_comm]

/-- Exchange of the two columns. -/
theorem outlier_exchanged {N : OutNum} {fmt : ℚ → String} {ci : String} {fl : ℚ → ℚ} {pf : String → Option (Option ℚ)}
    {quantile dropna du dof : Bool} {bins : Bins} {ic ic' : List String} {a b : Column}
    (hia : a.name ∈ ic ↔ a.name ∈ ic') (hib : b.name ∈ ic ↔ b.name ∈ ic') {x y : Option OutTab}
    (hx : ∃ ea eb ra rb n, EdgesFor fl pf quantile bins ic a ea ∧ EdgesFor fl pf quantile bins ic b eb ∧
      Counts pf dropna du dof ea eb a b ra rb n ∧ IsOutlierMatrix N fmt ci ra rb n (.ok x))
    (hy : ∃ eb ea rb ra n, EdgesFor fl pf quantile bins ic' b eb ∧ EdgesFor fl pf quantile bins ic' a ea ∧
      Counts pf dropna du dof eb ea b a rb ra n ∧ IsOutlierMatrix N fmt ci rb ra n (.ok y)) :
    (x = none ↔ y = none) ∧ ∀ t u, x = some t → y = some u → IsTransposed t u := by
  obtain ⟨ea, eb, ra, rb, n, h1, h2, h3, h4⟩ := hx
  have key : IsOutlierMatrix N fmt ci rb ra (fun j i => n i j) (.ok y) := by
    obtain ⟨eb', ea', rb', ra', n', k1, k2, k3, k4⟩ := hy
    obtain rfl := edgesFor_unique hia h1 k2
    obtain rfl := edgesFor_unique hib h2 k1
    have h3' := counts_swap h3
    obtain rfl : ra = ra' := by
      refine categories_unique (pf := pf) (dropna := dropna) (du := du) (dof := dof) (e := ea) (xs := a.cells) h3.rows_order
        k3.cols_order (fun c => by rw [h3'.cols_mem, k3.cols_mem]) fun c hc => ?_
      obtain ⟨p, hp, hb, -⟩ := (h3.rows_mem c).1 hc
      exact ⟨p.1, (List.of_mem_zip hp).1, hb⟩
    obtain rfl : rb = rb' := by
      refine categories_unique (pf := pf) (dropna := dropna) (du := du) (dof := dof) (e := eb) (xs := b.cells) h3.cols_order
        k3.rows_order (fun c => by rw [h3'.rows_mem, k3.rows_mem]) fun c hc => ?_
      obtain ⟨p, hp, -, hb⟩ := (h3.cols_mem c).1 hc
      exact ⟨p.2, (List.of_mem_zip hp).2, hb⟩
    obtain rfl : (fun j i => n i j) = n' := by
      funext i j
      rw [h3'.counts, k3.counts]
    exact k4
  rcases x with _ | t <;> rcases y with _ | u
  · exact ⟨by simp, by simp⟩
  · obtain ⟨k1, k2, -⟩ := key
    rcases h4 with h | h <;> omega
  · obtain ⟨k1, k2, -⟩ := h4
    rcases key with h | h <;> omega
  · refine ⟨by simp, ?_⟩
    rintro t u ⟨⟩ ⟨⟩
    obtain ⟨-, -, hr, hc, z, hz, hv⟩ := h4
    obtain ⟨-, -, hr', hc', z', hz', hv'⟩ := key
    rw [outlier_exchange N ci n hz] at hz'
    obtain rfl : (fun j i => z i j) = z' := by simpa using hz'
    refine ⟨hr'.trans hc.symm, hc'.trans hr.symm, fun i j i' j' e1 e2 => ?_⟩
    have li : i.val < ra.length := i.2.trans_eq (by rw [hr, List.length_map])
    have lj : j.val < rb.length := j.2.trans_eq (by rw [hc, List.length_map])
    rw [hv i j ⟨i, li⟩ ⟨j, lj⟩ rfl rfl, hv' j' i' ⟨j, lj⟩ ⟨i, li⟩ e2.symm e1.symm]

/-- **C96 (exchange of the columns).** `outlier_significance_matrix` of a frame with the columns `b`, `a` is NaN if it is for the
frame with the columns `a`, `b`, and otherwise it is the transposed matrix, labels included. -/
theorem outlier_matrix_exchange (N : OutNum) (fmt : ℚ → String) {fl : ℚ → ℚ} (hfl : fl = (fun x => x) ∨ fl = rne53)
    (pf : String → Option (Option ℚ)) (bins : Bins) (ci : String) (quantile dropna du dof : Bool)
    {r s : Ref} {w w' x x' : World} {f g : Frame} (hf : w.heap[r]? = some f) (hg : x.heap[s]? = some g)
    {icf icg : Option (List String)}
    (cf : OutlierArgs fl pf bins (icf.getD (guessIntervalCols f)) f) (cg : OutlierArgs fl pf bins (icg.getD (guessIntervalCols g)) g)
    {a b : Column} (hab : f.cols = [a, b]) (hba : g.cols = [b, a])
    (ka : Kept (icf.getD (guessIntervalCols f)) dropna a) (kb : Kept (icf.getD (guessIntervalCols f)) dropna b)
    (hia : a.name ∈ icf.getD (guessIntervalCols f) ↔ a.name ∈ icg.getD (guessIntervalCols g))
    (hib : b.name ∈ icf.getD (guessIntervalCols f) ↔ b.name ∈ icg.getD (guessIntervalCols g))
    {t u : Option OutTab} {dd ee : List (String × List (ℚ × ℚ))}
    (h1 : (outlierMatrix N fmt fl pf r icf ci bins quantile dropna du dof).exec w = (.ok (t, dd), w'))
    (h2 : (outlierMatrix N fmt fl pf s icg ci bins quantile dropna du dof).exec x = (.ok (u, ee), x')) :
    (t = none ↔ u = none) ∧ ∀ m m', t = some m → u = some m' → IsTransposed m m' := by
  have hn : a.name ≠ b.name := by
    have := cf.nodup
    unfold Frame.names at this
    rw [hab] at this
    simpa using this
  have hx := outlier_matrix_labels N fmt hfl pf hf hab hn icf ci bins quantile dropna du dof cf.entries cf.sorted cf.exact ka kb
  have hy := outlier_matrix_labels N fmt hfl pf hg hba hn.symm icg ci bins quantile dropna du dof cg.entries cg.sorted cg.exact
    ((kept_congr hib).1 kb) ((kept_congr hia).1 ka)
  rw [h1] at hx
  rw [h2] at hy
  rcases hx with ⟨_, he, -⟩ | hx
  · cases he
  rcases hy with ⟨_, he, -⟩ | hy
  · cases he
  exact outlier_exchanged hia hib hx hy

open scoped Classical in
/-- **C96 (exchange of the columns).** The same for `outlier_significance_matrices`: the entry of the pair `b:a` of one result is
the transposed of the entry of the pair `a:b` of another one, for frames that contain the same columns `a` and `b`. -/
theorem outlier_matrices_exchange (N : OutNum) (fmt : ℚ → String) {fl : ℚ → ℚ} (hfl : fl = (fun x => x) ∨ fl = rne53)
    (pf : String → Option (Option ℚ)) (bins : Bins) (ci : String) (quantile dropna du dof : Bool)
    {r s : Ref} {w w' x x' : World} {f g : Frame} (hf : w.heap[r]? = some f) (hg : x.heap[s]? = some g)
    {icf icg : Option (List String)}
    (cf : OutlierArgs fl pf bins (icf.getD (guessIntervalCols f)) f) (cg : OutlierArgs fl pf bins (icg.getD (guessIntervalCols g)) g)
    (colf : ∀ n ∈ f.names, ':' ∉ n.toList) (colg : ∀ n ∈ g.names, ':' ∉ n.toList) {combf combg : List (String × String)}
    (hcf : ∀ p ∈ combf, p.1 ≠ p.2 ∧ ∀ n ∈ [p.1, p.2], ∃ c ∈ f.cols, c.name = n ∧ Kept (icf.getD (guessIntervalCols f)) dropna c)
    (hcg : ∀ p ∈ combg, p.1 ≠ p.2 ∧ ∀ n ∈ [p.1, p.2], ∃ c ∈ g.cols, c.name = n ∧ Kept (icg.getD (guessIntervalCols g)) dropna c)
    {d e : List (String × Option OutTab)} {dd ee : List (String × List (ℚ × ℚ))}
    (h1 : (outlierMatrices N fmt fl pf r icf ci bins quantile combf dropna du dof).exec w = (.ok (d, dd), w'))
    (h2 : (outlierMatrices N fmt fl pf s icg ci bins quantile combg dropna du dof).exec x = (.ok (e, ee), x'))
    {a b : Column} (haf : a ∈ f.cols) (hag : a ∈ g.cols) (hbf : b ∈ f.cols) (hbg : b ∈ g.cols)
    (hia : a.name ∈ icf.getD (guessIntervalCols f) ↔ a.name ∈ icg.getD (guessIntervalCols g))
    (hib : b.name ∈ icf.getD (guessIntervalCols f) ↔ b.name ∈ icg.getD (guessIntervalCols g))
    {t u : Option OutTab} (ht : (a.name ++ ":" ++ b.name, t) ∈ d) (hu : (b.name ++ ":" ++ a.name, u) ∈ e) :
    (t = none ↔ u = none) ∧ ∀ m m', t = some m → u = some m' → IsTransposed m m' :=
  outlier_exchanged hia hib (outlier_entry N fmt hfl hf cf colf hcf h1 haf hbf ht)
    (outlier_entry N fmt hfl hg cg colg hcg h2 hbg hag hu)

/-! ### renaming -/

theorem distinct_rename {a : Column} {σ : Cell → Cell} (h : Renames σ a.cells) :
    distinct { a with cells := a.cells.map σ } = distinct a := by
  unfold distinct
  have : {x | x ∈ a.cells.map σ ∧ x ≠ Cell.nan} = σ '' {x | x ∈ a.cells ∧ x ≠ Cell.nan} := by
    ext x
    constructor
    · rintro ⟨hx, hn⟩
      obtain ⟨y, hy, rfl⟩ := List.mem_map.1 hx
      exact ⟨y, ⟨hy, fun e => hn ((h.nan y hy).2 e)⟩, rfl⟩
    · rintro ⟨y, ⟨hy, hn⟩, rfl⟩
      exact ⟨List.mem_map_of_mem hy, fun e => hn ((h.nan y hy).1 e)⟩
  simp only [this]
  exact Set.InjOn.ncard_image fun x hx y hy e => h.inj x hx.1 y hy.1 e

/-- The renaming on categories. -/
def renameCat (σ : Cell → Cell) : Category → Category
  | .value c => .value (renamed σ c)
  | c => c

theorem belongs_none {pf : String → Option (Option ℚ)} {dropna du dof : Bool} {x : Cell} {c : Category} :
    Belongs pf dropna du dof none x c ↔ ∃ v, view dropna du dof x = some v ∧ c = .value v := by
  constructor
  · intro h
    cases h with
    | value h => exact ⟨_, h, rfl⟩
  · rintro ⟨v, h, rfl⟩
    exact .value h

/-- The labels `t` and `u` of the rows, values: those of `u` are the renamed ones of `t`, possibly in another order, and the
values go with them. -/
def IsRenamed (σ : Cell → Cell) (t u : OutTab) : Prop :=
  u.cols = t.cols ∧ u.rows.Perm (t.rows.map σ) ∧
    ∀ i j i' j', u.rows[i'] = σ t.rows[i] → j'.val = j.val → u.v i' j' = t.v i j

theorem outlier_renamed {N : OutNum} {fmt : ℚ → String} {ci : String} {pf : String → Option (Option ℚ)}
    {dropna du dof : Bool} {eb : Option (List ℚ)} {a b : Column} {σ : Cell → Cell} (hσ : Renames σ a.cells) {x y : Option OutTab}
    {ra rb : List Category} {n : Fin ra.length → Fin rb.length → ℕ} (h3 : Counts pf dropna du dof none eb a b ra rb n)
    (h4 : IsOutlierMatrix N fmt ci ra rb n (.ok x))
    {ra' rb' : List Category} {n' : Fin ra'.length → Fin rb'.length → ℕ}
    (k3 : Counts pf dropna du dof none eb { a with cells := a.cells.map σ } b ra' rb' n')
    (k4 : IsOutlierMatrix N fmt ci ra' rb' n' (.ok y)) :
    (x = none ↔ y = none) ∧ ∀ t u, x = some t → y = some u → IsRenamed (renamed σ) t u := by
  have hz : (a.cells.map σ).zip b.cells = (a.cells.zip b.cells).map fun p => (σ p.1, p.2) := by
    rw [List.zip_map_left]; rfl
  have hb : ∀ x ∈ a.cells, ∀ c, Belongs pf dropna du dof none (σ x) c ↔
      ∃ d, Belongs pf dropna du dof none x d ∧ renameCat σ d = c := by
    intro x hx c
    rw [belongs_none, view_rename hσ hx]
    simp only [belongs_none, Option.map_eq_some_iff]
    constructor
    · rintro ⟨v, ⟨v', h, rfl⟩, rfl⟩; exact ⟨_, ⟨v', h, rfl⟩, rfl⟩
    · rintro ⟨_, ⟨v', h, rfl⟩, rfl⟩; exact ⟨_, ⟨v', h, rfl⟩, rfl⟩
  obtain rfl : rb = rb' := by
    refine categories_unique (pf := pf) (dropna := dropna) (du := du) (dof := dof) (e := eb) (xs := b.cells) h3.cols_order
      k3.cols_order (fun c => ?_) fun c hc => ?_
    · rw [h3.cols_mem, k3.cols_mem]
      simp only [hz, List.mem_map]
      constructor
      · rintro ⟨p, hp, ⟨d, hd⟩, hc⟩
        exact ⟨_, ⟨p, hp, rfl⟩, ⟨_, (hb _ (List.of_mem_zip hp).1 _).2 ⟨d, hd, rfl⟩⟩, hc⟩
      · rintro ⟨_, ⟨p, hp, rfl⟩, ⟨d, hd⟩, hc⟩
        obtain ⟨d', hd', -⟩ := (hb _ (List.of_mem_zip hp).1 _).1 hd
        exact ⟨p, hp, ⟨d', hd'⟩, hc⟩
    · obtain ⟨p, hp, -, hb⟩ := (h3.cols_mem c).1 hc
      exact ⟨p.2, (List.of_mem_zip hp).2, hb⟩
  have hval : ∀ c ∈ ra, ∃ z ∈ a.cells, ∃ v, view dropna du dof z = some v ∧ c = .value v := by
    intro c hc
    obtain ⟨p, hp, h, -⟩ := (h3.rows_mem c).1 hc
    exact ⟨p.1, (List.of_mem_zip hp).1, belongs_none.1 h⟩
  have hval' : ∀ c ∈ ra', ∃ v, c = .value v := by
    intro c hc
    obtain ⟨p, hp, h, -⟩ := (k3.rows_mem c).1 hc
    obtain ⟨v, -, h⟩ := belongs_none.1 h
    exact ⟨v, h⟩
  have hnd : ra.Nodup := by
    refine List.Pairwise.imp_of_mem ?_ h3.rows_order
    rintro c d hc - h rfl
    obtain ⟨_, -, v, -, rfl⟩ := hval c hc
    exact lt_irrefl v h
  have hnd' : ra'.Nodup := by
    refine List.Pairwise.imp_of_mem ?_ k3.rows_order
    rintro c d hc - h rfl
    obtain ⟨v, rfl⟩ := hval' c hc
    exact lt_irrefl v h
  have hinj : ∀ c ∈ ra, ∀ d ∈ ra, renameCat σ c = renameCat σ d → c = d := by
    intro c hc d hd e
    obtain ⟨x, hx, v, hv, rfl⟩ := hval c hc
    obtain ⟨y, hy, v', hv', rfl⟩ := hval d hd
    simp only [renameCat, Category.value.injEq] at e
    rw [renamed_inj hσ hx hy hv hv' e]
  have hmem : ∀ c, c ∈ ra' ↔ ∃ d ∈ ra, renameCat σ d = c := by
    intro c
    rw [k3.rows_mem]
    simp only [hz, List.mem_map]
    constructor
    · rintro ⟨_, ⟨p, hp, rfl⟩, h, d, hd⟩
      obtain ⟨d', hd', e⟩ := (hb _ (List.of_mem_zip hp).1 _).1 h
      exact ⟨d', (h3.rows_mem _).2 ⟨p, hp, hd', d, hd⟩, e⟩
    · rintro ⟨d, hd, rfl⟩
      obtain ⟨p, hp, h, e⟩ := (h3.rows_mem d).1 hd
      exact ⟨_, ⟨p, hp, rfl⟩, (hb _ (List.of_mem_zip hp).1 _).2 ⟨d, h, rfl⟩, e⟩
  obtain ⟨e, he⟩ := rename_equiv hnd hnd' hinj hmem
  have hlen : ra'.length = ra.length := by
    simpa using (Fintype.card_congr e).symm
  have hnn : ∀ i j, n' i j = n (e.symm i) j := by
    intro i j
    rw [h3.counts, k3.counts]
    simp only [hz, List.countP_map]
    refine List.countP_congr fun p hp => ?_
    have hp1 := (List.of_mem_zip hp).1
    simp only [Function.comp, decide_eq_true_eq]
    have hrow : ra'[i] = renameCat σ ra[e.symm i] := by
      obtain ⟨k, rfl⟩ := e.surjective i
      simpa using he k
    rw [hrow, hb _ hp1]
    constructor
    · rintro ⟨⟨d, hd, e1⟩, h⟩
      refine ⟨?_, h⟩
      have : d ∈ ra := (h3.rows_mem d).2 ⟨p, hp, hd, _, h⟩
      exact hinj d this _ (List.getElem_mem _) e1 ▸ hd
    · rintro ⟨h, h'⟩
      exact ⟨⟨_, h, rfl⟩, h'⟩
  rcases x with _ | t <;> rcases y with _ | u
  · exact ⟨by simp, by simp⟩
  · obtain ⟨k1, k2, -⟩ := k4
    rcases h4 with h | h <;> omega
  · obtain ⟨k1, k2, -⟩ := h4
    rcases k4 with h | h <;> omega
  · refine ⟨by simp, ?_⟩
    rintro t u ⟨⟩ ⟨⟩
    obtain ⟨-, -, hr, hc, z, hz1, hv⟩ := h4
    obtain ⟨-, -, hr', hc', z', hz', hv'⟩ := k4
    rw [outlier_order N ci (t := ⟨ra.length, rb.length, n⟩) (t' := ⟨ra'.length, rb.length, n'⟩) e.symm (Equiv.refl _) hnn hz1] at hz'
    obtain rfl : (fun i j => z (e.symm i) j) = z' := by simpa using hz'
    have hname : ∀ c ∈ ra, (renameCat σ c).name fmt = renamed σ (c.name fmt) := by
      intro c hc
      obtain ⟨_, -, v, -, rfl⟩ := hval c hc
      rfl
    refine ⟨hc'.trans hc.symm, ?_, fun i j i' j' e1 e2 => ?_⟩
    · rw [hr', hr, List.map_map]
      have hperm : ra'.Perm (ra.map (renameCat σ)) := by
        rw [List.perm_ext_iff_of_nodup hnd' ((List.nodup_map_iff_inj_on hnd).2 hinj)]
        intro c
        rw [hmem, List.mem_map]
      refine (hperm.map _).trans ?_
      rw [List.map_map]
      exact List.Perm.of_eq (List.map_congr_left hname)
    · have li : i.val < ra.length := i.2.trans_eq (by rw [hr, List.length_map])
      have lj : j.val < rb.length := j.2.trans_eq (by rw [hc, List.length_map])
      have li' : i'.val < ra'.length := i'.2.trans_eq (by rw [hr', List.length_map])
      rw [hv i j ⟨i, li⟩ ⟨j, lj⟩ rfl rfl, hv' i' j' ⟨i', li'⟩ ⟨j, lj⟩ rfl e2.symm]
      have hi : e ⟨i, li⟩ = ⟨i', li'⟩ := by
        have g1 : u.rows[i'] = (ra'[i'.val]).name fmt := by
          simp only [Fin.getElem_fin, hr', List.getElem_map]
        have g2 : t.rows[i] = (ra[i.val]).name fmt := by
          simp only [Fin.getElem_fin, hr, List.getElem_map]
        rw [g1, g2, ← hname _ (List.getElem_mem _)] at e1
        have g3 := he ⟨i, li⟩
        have g4 : ra'[i'.val] = ra'[e ⟨i, li⟩] := by
          rw [g3]
          obtain ⟨v, hv1⟩ := hval' _ (List.getElem_mem li')
          obtain ⟨v', hv2⟩ := hval' (renameCat σ ra[i.val]) ((hmem _).2 ⟨_, List.getElem_mem li, rfl⟩)
          simp only [Fin.getElem_fin]
          rw [hv1, hv2] at e1 ⊢
          simp only [Category.name] at e1
          rw [e1]
        refine Fin.ext ?_
        exact ((List.nodup_iff_injective_getElem.1 hnd') (a₁ := ⟨i', li'⟩) (a₂ := e ⟨i, li⟩) g4 ▸ rfl)
      rw [← hi]
      simp only [Equiv.symm_apply_apply]

/-- **C96 (names of the categories).** If the values of a column `a` that is not binned are renamed one-to-one, then
`outlier_significance_matrix` gives NaN if it did before, and otherwise the same columns, the renamed rows (in the order of the new
names), and the same value for every cell. -/
theorem outlier_matrix_rename (N : OutNum) (fmt : ℚ → String) {fl : ℚ → ℚ} (hfl : fl = (fun x => x) ∨ fl = rne53)
    (pf : String → Option (Option ℚ)) (bins : Bins) (ci : String) (quantile dropna du dof : Bool)
    {r s : Ref} {w w' x x' : World} {f g : Frame} (hf : w.heap[r]? = some f) (hg : x.heap[s]? = some g)
    {icf icg : Option (List String)}
    (cf : OutlierArgs fl pf bins (icf.getD (guessIntervalCols f)) f) (cg : OutlierArgs fl pf bins (icg.getD (guessIntervalCols g)) g)
    {a b : Column} {σ : Cell → Cell} (hσ : Renames σ a.cells) (hab : f.cols = [a, b])
    (hba : g.cols = [{ a with cells := a.cells.map σ }, b])
    (ka : Kept (icf.getD (guessIntervalCols f)) dropna a) (kb : Kept (icf.getD (guessIntervalCols f)) dropna b)
    (hia : a.name ∉ icf.getD (guessIntervalCols f)) (hia' : a.name ∉ icg.getD (guessIntervalCols g))
    (hib : b.name ∈ icf.getD (guessIntervalCols f) ↔ b.name ∈ icg.getD (guessIntervalCols g))
    {t u : Option OutTab} {dd ee : List (String × List (ℚ × ℚ))}
    (h1 : (outlierMatrix N fmt fl pf r icf ci bins quantile dropna du dof).exec w = (.ok (t, dd), w'))
    (h2 : (outlierMatrix N fmt fl pf s icg ci bins quantile dropna du dof).exec x = (.ok (u, ee), x')) :
    (t = none ↔ u = none) ∧ ∀ m m', t = some m → u = some m' → IsRenamed (renamed σ) m m' := by
  have hn : a.name ≠ b.name := by
    have := cf.nodup
    unfold Frame.names at this
    rw [hab] at this
    simpa using this
  have ka' : Kept (icg.getD (guessIntervalCols g)) dropna { a with cells := a.cells.map σ } := by
    unfold Kept at ka ⊢
    rw [distinct_rename hσ]
    simpa [hia, hia'] using ka
  have hx := outlier_matrix_labels N fmt hfl pf hf hab hn icf ci bins quantile dropna du dof cf.entries cf.sorted cf.exact ka kb
  have hy := outlier_matrix_labels N fmt hfl pf hg hba hn icg ci bins quantile dropna du dof cg.entries cg.sorted cg.exact
    ka' ((kept_congr hib).1 kb)
  rw [h1] at hx
  rw [h2] at hy
  rcases hx with ⟨_, he, -⟩ | ⟨ea, eb, ra, rb, n, p1, p2, p3, p4⟩
  · cases he
  rcases hy with ⟨_, he, -⟩ | ⟨ea', eb', ra', rb', n', q1, q2, q3, q4⟩
  · cases he
  obtain rfl : ea = none := by
    cases ea with
    | none => rfl
    | some e => exact absurd p1.1 hia
  obtain rfl : ea' = none := by
    cases ea' with
    | none => rfl
    | some e => exact absurd q1.1 hia'
  obtain rfl := edgesFor_unique hib p2 q2
  exact outlier_renamed hσ p3 p4 q3 q4

/-! ### examples -/

/-- With exact functions and without interval columns `outlier_significance_matrix` returns; at least two categories each that
occur together with one of the other variable give a matrix. -/
theorem outlier_matrix_categorical {N : OutNum} (hN : OutExact N) {ci : String} (hci : GoodCI N ci) (fmt : ℚ → String)
    (pf : String → Option (Option ℚ)) (bins : Bins) (quantile dropna du dof : Bool) {r : Ref} {w : World} {f : Frame}
    (hf : w.heap[r]? = some f) {a b : Column} (hab : f.cols = [a, b]) (hn : a.name ≠ b.name)
    (ka : Kept [] dropna a) (kb : Kept [] dropna b) :
    ∃ t dd w', (outlierMatrix N fmt (fun x => x) pf r (some []) ci bins quantile dropna du dof).exec w = (.ok (t, dd), w') ∧
      ((∃ p ∈ a.cells.zip b.cells, ∃ q ∈ a.cells.zip b.cells, ∃ c d c' d', view dropna du dof p.1 = some c ∧
        view dropna du dof p.2 = some d ∧ view dropna du dof q.1 = some c' ∧ view dropna du dof q.2 = some d' ∧ c ≠ c' ∧ d ≠ d') →
        ∃ m, t = some m) := by
  have h := outlier_matrix_labels N fmt (fl := fun x => x) (.inl rfl) pf hf hab hn (some []) ci bins quantile dropna du dof (by simp) (by simp)
    (by simp) ka kb
  rcases h with ⟨e, -, he⟩ | ⟨ea, eb, ra, rb, n, p1, p2, p3, p4⟩
  · exfalso
    rw [binData_exec (fun x => x) pf hf] at he
    have : binDataCore (fun x => x) pf f [] bins quantile = .ok (f, []) := by cases bins <;> rfl
    simp only [Option.getD_some, List.filter_nil, this] at he
    cases he
  · rcases hres : (outlierMatrix N fmt (fun x => x) pf r (some []) ci bins quantile dropna du dof).exec w with ⟨e | ⟨t, dd⟩, w'⟩
    · exfalso
      rw [hres] at p4
      obtain ⟨z, hz, -⟩ := cellZ_table hN hci n
      rw [p4.2.2] at hz
      cases hz
    · refine ⟨t, dd, w', rfl, ?_⟩
      rintro ⟨p, hp, q, hq, c, d, c', d', v1, v2, v3, v4, hc, hd⟩
      obtain rfl : ea = none := by
        cases ea with
        | none => rfl
        | some e => exact absurd p1.1 (by simp)
      obtain rfl : eb = none := by
        cases eb with
        | none => rfl
        | some e => exact absurd p2.1 (by simp)
      rw [hres] at p4
      have two : ∀ (l : List Category) (x y : Category), x ∈ l → y ∈ l → x ≠ y → 2 ≤ l.length := by
        intro l x y hx hy hxy
        match l, hx, hy with
        | [z], hx, hy => simp at hx hy; exact absurd (hx.trans hy.symm) hxy
        | _ :: _ :: _, _, _ => simp
      have l1 : 2 ≤ ra.length := two ra (.value c) (.value c') ((p3.rows_mem _).2 ⟨p, hp, .value v1, _, .value v2⟩)
        ((p3.rows_mem _).2 ⟨q, hq, .value v3, _, .value v4⟩) (by simpa using hc)
      have l2 : 2 ≤ rb.length := two rb (.value d) (.value d') ((p3.cols_mem _).2 ⟨p, hp, ⟨_, .value v1⟩, .value v2⟩)
        ((p3.cols_mem _).2 ⟨q, hq, ⟨_, .value v3⟩, .value v4⟩) (by simpa using hd)
      cases t with
      | some m => exact ⟨m, rfl⟩
      | none => rcases p4 with h | h <;> omega

/-- Two columns, and the first one with other names in another order. -/
def ordA : Column := ⟨"a", false, [.str "p", .str "p", .str "q"]⟩
def ordB : Column := ⟨"b", false, [.str "x", .str "y", .str "y"]⟩
def ordσ (c : Cell) : Cell := if c = .str "p" then .str "v" else if c = .str "q" then .str "u" else c

/-- Non-vacuity: all three calls return a matrix; the exchanged one is the transposed, the renamed one has renamed rows. -/
example {N : OutNum} (hN : OutExact N) (fmt : ℚ → String) (pf : String → Option (Option ℚ)) :
    ∃ t u v dt du' dv wt wu wv,
      (outlierMatrix N fmt (fun x => x) pf 0 (some []) "poisson" (.one (.num 10)) false true true true).exec
        ⟨[⟨3, [ordA, ordB]⟩], []⟩ = (.ok (some t, dt), wt) ∧
      (outlierMatrix N fmt (fun x => x) pf 0 (some []) "poisson" (.one (.num 10)) false true true true).exec
        ⟨[⟨3, [ordB, ordA]⟩], []⟩ = (.ok (some u, du'), wu) ∧
      (outlierMatrix N fmt (fun x => x) pf 0 (some []) "poisson" (.one (.num 10)) false true true true).exec
        ⟨[⟨3, [{ ordA with cells := ordA.cells.map ordσ }, ordB]⟩], []⟩ = (.ok (some v, dv), wv) ∧
      IsTransposed t u ∧ IsRenamed (renamed ordσ) t v := by
  have ka : Kept [] true ordA := by unfold Kept; rw [← nunique_eq]; decide
  have kb : Kept [] true ordB := by unfold Kept; rw [← nunique_eq]; decide
  have hσ : Renames ordσ ordA.cells := ⟨by decide, by decide, by unfold NoSentinel; decide, by unfold NoSentinel; decide⟩
  have kc : Kept [] true { ordA with cells := ordA.cells.map ordσ } := by unfold Kept; rw [← nunique_eq]; decide
  have args : ∀ f : Frame, f.names.Nodup → OutlierArgs (fun x => x) pf (.one (.num 10)) ((some []).getD (guessIntervalCols f)) f :=
    fun f h => ⟨h, by simp, by simp, by simp⟩
  obtain ⟨t, dt, wt, h1, m1⟩ := outlier_matrix_categorical hN (ci := "poisson") (.inl rfl) fmt pf (.one (.num 10)) false true true true
    (r := 0) (w := ⟨[⟨3, [ordA, ordB]⟩], []⟩) rfl (a := ordA) (b := ordB) rfl (by decide) ka kb
  obtain ⟨u, du', wu, h2, m2⟩ := outlier_matrix_categorical hN (ci := "poisson") (.inl rfl) fmt pf (.one (.num 10)) false true true true
    (r := 0) (w := ⟨[⟨3, [ordB, ordA]⟩], []⟩) rfl (a := ordB) (b := ordA) rfl (by decide) kb ka
  obtain ⟨v, dv, wv, h3, m3⟩ := outlier_matrix_categorical hN (ci := "poisson") (.inl rfl) fmt pf (.one (.num 10)) false true true true
    (r := 0) (w := ⟨[⟨3, [{ ordA with cells := ordA.cells.map ordσ }, ordB]⟩], []⟩) rfl
    (a := { ordA with cells := ordA.cells.map ordσ }) (b := ordB) rfl (by decide) kc kb
  obtain ⟨t, rfl⟩ := m1 ⟨(.str "p", .str "x"), by decide, (.str "q", .str "y"), by decide, _, _, _, _, rfl, rfl, rfl, rfl, by decide, by decide⟩
  obtain ⟨u, rfl⟩ := m2 ⟨(.str "x", .str "p"), by decide, (.str "y", .str "q"), by decide, _, _, _, _, rfl, rfl, rfl, rfl, by decide, by decide⟩
  obtain ⟨v, rfl⟩ := m3 ⟨(.str "v", .str "x"), by decide, (.str "u", .str "y"), by decide, _, _, _, _, rfl, rfl, rfl, rfl, by decide, by decide⟩
  refine ⟨t, u, v, dt, du', dv, wt, wu, wv, h1, h2, h3, ?_, ?_⟩
  · exact (outlier_matrix_exchange N fmt (fl := fun x => x) (.inl rfl) pf (.one (.num 10)) "poisson" false true true true (r := 0) (s := 0) rfl rfl
      (args ⟨3, [ordA, ordB]⟩ (by decide)) (args ⟨3, [ordB, ordA]⟩ (by decide)) rfl rfl ka kb Iff.rfl Iff.rfl h1 h2).2 t u rfl rfl
  · exact (outlier_matrix_rename N fmt (fl := fun x => x) (.inl rfl) pf (.one (.num 10)) "poisson" false true true true (r := 0) (s := 0) rfl rfl
      (args ⟨3, [ordA, ordB]⟩ (by decide)) (args ⟨3, [{ ordA with cells := ordA.cells.map ordσ }, ordB]⟩ (by decide)) hσ rfl rfl ka kb
      (by simp) (by simp) Iff.rfl h1 h3).2 t v rfl rfl

end Props

end Phik
