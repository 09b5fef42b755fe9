import Verif.Props.InfiniteFinite

/-! # Property C82: given edges in `bin_data`, infinities that are categories -/

namespace Phik

open Spec Props

/-! ### given edges -/

/-- What the loop of `bin_data` leaves in the columns with given edges. -/
theorem binLoopX_edges {fl : ℚ → ℚ} {pf : String → Option XF} {data : XFrame} {bins : XBins} {quantile : Bool}
    {cols : List String} {xbins : Option (List XF)} {out out' : XFrame} {dict dict' : List (String × List (XF × XF))}
    (h : binLoopX fl pf data bins quantile cols xbins out dict = .ok (out', dict')) :
    ∀ name e, bins.entry name = .edges e → (name ∈ cols ∨ ∃ arr, colFloatsX pf data name = .ok arr ∧
        ∀ d ∈ out, d.name = name → d.cells = (binArrayX arr e).1.map .cell) →
      ∃ arr, colFloatsX pf data name = .ok arr ∧
        ∀ d ∈ out', d.name = name → d.cells = (binArrayX arr e).1.map .cell := by
  induction cols generalizing xbins out dict with
  | nil =>
    cases h
    intro name e hq h
    rcases h with h | h
    · simp at h
    · exact h
  | cons n rest ih =>
    unfold binLoopX at h
    obtain ⟨xb, hx, h⟩ := except_bind_ok h
    obtain ⟨arr, ha, h⟩ := except_bind_ok h
    cases xb with
    | none => cases h
    | some e0 =>
      simp only at h
      intro name e hq hc
      refine ih h name e hq ?_
      by_cases hnn : name = n
      · subst hnn
        right
        unfold selectEdgesX at hx
        rw [hq] at hx
        cases hx
        refine ⟨arr, ha, fun d hd hdn => ?_⟩
        unfold setXCol at hd
        obtain ⟨d0, hd0, rfl⟩ := List.mem_map.1 hd
        by_cases hh : d0.name = name
        · simp [hh]
        · rw [if_neg (by simpa using hh)] at hdn
          exact absurd hdn hh
      · rcases hc with hc | ⟨arr', g1, g3⟩
        · left
          rcases List.mem_cons.1 hc with hc | hc
          · exact absurd hc hnn
          · exact hc
        · right
          refine ⟨arr', g1, fun d hd hdn => ?_⟩
          unfold setXCol at hd
          obtain ⟨d0, hd0, rfl⟩ := List.mem_map.1 hd
          by_cases hh : d0.name = n
          · rw [if_pos (by simpa using hh)] at hdn
            exact absurd hdn.symm hnn
          · rw [if_neg (by simpa using hh)] at hdn ⊢
            exact g3 d0 hd0 hdn

theorem mapM_getElem {α β : Type} {g : α → Except Err β} {l : List α} {arr : List β} (h : l.mapM g = .ok arr) :
    arr.length = l.length ∧ ∀ (i : ℕ) (hi : i < l.length) (hj : i < arr.length), g l[i] = .ok arr[i] := by
  induction l generalizing arr with
  | nil => simp only [List.mapM_nil] at h; cases h; simp
  | cons a l ih =>
    rw [List.mapM_cons] at h
    obtain ⟨b, hb, h⟩ := except_bind_ok h
    obtain ⟨bs, hbs, h⟩ := except_bind_ok h
    cases h
    obtain ⟨h1, h2⟩ := ih hbs
    refine ⟨by simp [h1], fun i hi hj => ?_⟩
    cases i with
    | zero => exact hb
    | succ i => exact h2 i (by simpa using hi) (by simpa using hj)

namespace Props

/-- **C82 (`bin_data`, given edges).** When the edges of a column are given (sorted, numbers or infinities), every entry of the
binned column is decided by the entry of the data: a missing value stays missing, minus infinity becomes 'UF', infinity
becomes 'OF' if the last edge is finite and otherwise gets the bin that ends at infinity, and a number gets 'UF', 'OF' or the
number of its half-open bin. -/
theorem infinite_bin_data {fl : ℚ → ℚ} {pf : String → Option XF} {data : XFrame} (hn : (data.map (·.name)).Nodup)
    {bins : XBins} {quantile : Bool} {cols : List String} {out : XFrame} {dict : List (String × List (XF × XF))}
    (h : binDataX fl pf data cols bins quantile = .ok (out, dict)) {c : XColumn} (hc : c ∈ data) (hcol : c.name ∈ cols)
    {edges : List XF} (he : bins.entry c.name = .edges edges) (hs : edges.Pairwise (· ≤ ·)) (hne : edges ≠ [])
    (hnan : XF.nan ∉ edges) :
    ∃ d ∈ out, d.name = c.name ∧ d.cells.length = c.cells.length ∧
      ∀ (i : ℕ) (hi : i < c.cells.length) (ho : i < d.cells.length),
        (c.cells[i] = .cell .nan → d.cells[i] = .cell .nan) ∧
        (c.cells[i] = .ninf → d.cells[i] = .cell (.str "UF")) ∧
        (c.cells[i] = .pinf → edges.getLast hne ≠ .pinf → d.cells[i] = .cell (.str "OF")) ∧
        (c.cells[i] = .pinf → edges.getLast hne = .pinf → edges.head hne ≠ .pinf →
          ∃ (k : ℕ) (hk : k + 1 < edges.length), d.cells[i] = .cell (.num (k + 1 : ℕ)) ∧ edges[k] ≠ .pinf ∧
            edges[k + 1] = .pinf) ∧
        ∀ q, c.cells[i] = .cell (.num q) →
          (d.cells[i] = .cell (.str "UF") ↔ .fin q ≤ edges.head hne) ∧
          (d.cells[i] = .cell (.str "OF") ↔ edges.getLast hne < .fin q) ∧
          (∀ n, d.cells[i] = .cell (.num n) ↔ ∃ (k : ℕ) (hk : k + 1 < edges.length),
            n = (k + 1 : ℕ) ∧ edges[k] < .fin q ∧ .fin q ≤ edges[k + 1]) := by
  have hnames := (binDataX_cols h).1
  unfold binDataX at h
  obtain ⟨u, -, h⟩ := except_bind_ok h
  obtain ⟨arr, ha, hout⟩ := binLoopX_edges h c.name edges he (Or.inl hcol)
  have hmem : c.name ∈ out.map (·.name) := by rw [hnames]; exact List.mem_map_of_mem hc
  obtain ⟨d, hd, hdn⟩ := List.mem_map.1 hmem
  have hcells := hout d hd hdn
  unfold colFloatsX at ha
  rw [getXCol_of_mem hn hc] at ha
  have ha' : c.cells.mapM (toFloatX pf) = .ok arr := ha
  obtain ⟨hlen, hget⟩ := mapM_getElem ha'
  obtain ⟨hl, hidx⟩ := infinite_bin_index hs hne arr
  refine ⟨d, hd, hdn, by rw [hcells, List.length_map, hl, hlen], fun i hi ho => ?_⟩
  have hia : i < arr.length := by omega
  have hib : i < (binArrayX arr edges).1.length := by omega
  have hval : d.cells[i] = .cell (binArrayX arr edges).1[i] := by simp [hcells]
  have hx := hget i hi hia
  obtain ⟨i1, i2, i3, i4⟩ := hidx i hia hib
  obtain ⟨g1, g2, g3⟩ := infinite_given_edges hs hne hnan arr i hia hib
  have key : ∀ y, toFloatX pf c.cells[i] = .ok y → arr[i] = y := by
    intro y hy
    rw [hx] at hy
    exact (Except.ok.injEq _ _).mp hy
  rw [hval]
  simp only [XCell.cell.injEq]
  refine ⟨fun h => i1.2 (key _ (by rw [h]; rfl)), fun h => g1 (key _ (by rw [h]; rfl)),
    fun h => g2 (key _ (by rw [h]; rfl)), fun h => g3 (key _ (by rw [h]; rfl)), fun q h => ?_⟩
  have hq : arr[i] = .fin q := key _ (by rw [h]; rfl)
  rw [i2, i3, hq]
  refine ⟨by simp, by simp, fun n => ?_⟩
  rw [i4 n, hq]
  simp

end Props

/-! ### infinities in categorical columns -/

section
variable {ic : List String} {g : String → XCell → XCell}

theorem relabelX_names (f : XFrame) : (relabelX ic g f).map (·.name) = f.map (·.name) := by
  unfold relabelX
  rw [List.map_map]
  apply List.map_congr_left
  intro c _
  simp only [Function.comp]
  split <;> rfl

/-- The replacement of one column. -/
def relabelC (ic : List String) (g : String → XCell → XCell) (c : XColumn) : XColumn :=
  if c.name ∈ ic then c else { c with cells := c.cells.map (g c.name) }

theorem relabelC_name (c : XColumn) : (relabelC ic g c).name = c.name := by unfold relabelC; split <;> rfl
theorem relabelC_numeric (c : XColumn) : (relabelC ic g c).numeric = c.numeric := by unfold relabelC; split <;> rfl

theorem relabelX_eq (f : XFrame) : relabelX ic g f = f.map (relabelC ic g) := rfl

theorem find_relabelX (f : XFrame) (name : String) :
    (relabelX ic g f).find? (fun c => c.name == name) = (f.find? (fun c => c.name == name)).map (relabelC ic g) := by
  rw [relabelX_eq, List.find?_map]
  congr 2
  funext c
  simp [relabelC_name]

theorem getXCol_relabelX (f : XFrame) (name : String) :
    getXCol (relabelX ic g f) name = (getXCol f name).map (relabelC ic g) := by
  unfold getXCol
  rw [find_relabelX]
  cases f.find? (fun c => c.name == name) <;> rfl

theorem isNan_iff (x : XCell) : x.isNan = true ↔ x = .cell .nan := by
  rcases x with (_ | _ | _) | _ | _ <;> simp [XCell.isNan, Cell.isNan]

theorem isNan_relabel {σ : XCell → XCell} (hi : Function.Injective σ) (hs : ∀ x ∈ sentinels, σ x = x) (x : XCell) :
    (σ x).isNan = x.isNan := by
  rw [Bool.eq_iff_iff, isNan_iff, isNan_iff]
  have h0 : σ (.cell .nan) = .cell .nan := hs _ (by simp [sentinels])
  constructor
  · intro h; exact hi (h.trans h0.symm)
  · rintro rfl; exact h0

variable (hi : ∀ n, Function.Injective (g n)) (hs : ∀ n, ∀ x ∈ sentinels, g n x = x)
include hi hs

theorem nuniqueX_relabel (f : XFrame) (name : String) : nuniqueX (relabelX ic g f) name = nuniqueX f name := by
  unfold nuniqueX
  rw [find_relabelX]
  cases f.find? (fun c => c.name == name) with
  | none => rfl
  | some c =>
    simp only [Option.map_some]
    unfold relabelC
    split
    · rfl
    · simp only [List.filter_map]
      rw [show (fun x : XCell => !x.isNan) ∘ g c.name = fun x => !x.isNan by
        funext x; simp [isNan_relabel (hi _) (hs _)]]
      rw [show ((c.cells.filter fun x => !x.isNan).map (g c.name)).toFinset =
        ((c.cells.filter fun x => !x.isNan).toFinset).image (g c.name) by ext; simp]
      exact Finset.card_image_of_injective _ (hi _)

theorem dqCheckX_relabel (f : XFrame) (ic' : List String) (dropna : Bool) :
    dqCheckX (relabelX ic g f) ic' dropna = (relabelX ic g (dqCheckX f ic' dropna).1, (dqCheckX f ic' dropna).2) := by
  unfold dqCheckX
  simp only [relabelX_names, nuniqueX_relabel hi hs]
  refine Prod.ext ?_ rfl
  simp only [relabelX_eq, List.filter_map]
  congr 2
  funext c
  simp [relabelC_name]

omit hi hs in
theorem colFloatsX_relabel (pf : String → Option XF) (f : XFrame) {name : String} (hm : name ∈ ic) :
    colFloatsX pf (relabelX ic g f) name = colFloatsX pf f name := by
  unfold colFloatsX
  rw [getXCol_relabelX]
  cases h : getXCol f name with
  | error e => rfl
  | ok c =>
    have := (getXCol_mem h).2
    have hc : relabelC ic g c = c := by unfold relabelC; rw [this, if_pos hm]
    simp only [Except.map, hc]

omit hi hs in
theorem setXCol_relabel (f : XFrame) {name : String} (hm : name ∈ ic) (c : XColumn) (hc : c.name = name) :
    setXCol (relabelX ic g f) name c = relabelX ic g (setXCol f name c) := by
  unfold setXCol
  rw [relabelX_eq, relabelX_eq, List.map_map, List.map_map]
  apply List.map_congr_left
  intro d _
  simp only [Function.comp, relabelC_name]
  have hcc : relabelC ic g c = c := by unfold relabelC; rw [hc, if_pos hm]
  split
  · exact hcc.symm
  · rfl

omit hi hs in
theorem selectEdgesX_relabel (fl : ℚ → ℚ) (pf : String → Option XF) (data : XFrame) (bins : XBins) (quantile : Bool)
    {name : String} (hm : name ∈ ic) (xbins : Option (List XF)) :
    selectEdgesX fl pf (relabelX ic g data) bins quantile name xbins = selectEdgesX fl pf data bins quantile name xbins := by
  unfold selectEdgesX
  rw [colFloatsX_relabel pf data hm]

omit hi hs in
theorem binLoopX_relabel (fl : ℚ → ℚ) (pf : String → Option XF) (data : XFrame) (bins : XBins) (quantile : Bool)
    {cols : List String} (hm : ∀ n ∈ cols, n ∈ ic) (xbins : Option (List XF)) (out : XFrame)
    (dict : List (String × List (XF × XF))) :
    binLoopX fl pf (relabelX ic g data) bins quantile cols xbins (relabelX ic g out) dict =
      (binLoopX fl pf data bins quantile cols xbins out dict).map fun p => (relabelX ic g p.1, p.2) := by
  induction cols generalizing xbins out dict with
  | nil => rfl
  | cons n rest ih =>
    have hn : n ∈ ic := hm n (by simp)
    unfold binLoopX
    rw [selectEdgesX_relabel fl pf data bins quantile hn, colFloatsX_relabel pf data hn]
    cases selectEdgesX fl pf data bins quantile n xbins with
    | error e => rfl
    | ok xb =>
      cases colFloatsX pf data n with
      | error e => rfl
      | ok arr =>
        cases xb with
        | none => rfl
        | some e =>
          simp only [bind, Except.bind]
          rw [setXCol_relabel out hn _ rfl]
          exact ih (fun k hk => hm k (by simp [hk])) _ _ _

omit hi hs in
theorem binDataX_relabel (fl : ℚ → ℚ) (pf : String → Option XF) (data : XFrame) (bins : XBins) (quantile : Bool)
    {cols : List String} (hm : ∀ n ∈ cols, n ∈ ic) :
    binDataX fl pf (relabelX ic g data) cols bins quantile =
      (binDataX fl pf data cols bins quantile).map fun p => (relabelX ic g p.1, p.2) := by
  unfold binDataX
  cases dictCheckX cols bins with
  | error e => rfl
  | ok u => exact binLoopX_relabel fl pf data bins quantile hm _ data []

theorem flagX_relabel (n : String) (dropna du dof : Bool) (x : XCell) :
    XCell.map (flagX dropna du dof) (g n x) = g n (XCell.map (flagX dropna du dof) x) := by
  by_cases hx : x ∈ sentinels
  · have hy : XCell.map (flagX dropna du dof) x ∈ sentinels := by
      simp only [sentinels, List.mem_cons, List.not_mem_nil, or_false] at hx ⊢
      rcases hx with rfl | rfl | rfl | rfl <;> cases dropna <;> cases du <;> cases dof <;> simp [XCell.map, flagX]
    rw [hs n x hx, hs n _ hy]
  · have hg : g n x ∉ sentinels := by
      intro h
      apply hx
      have := hi n ((hs n _ h).trans rfl)
      rwa [this] at h
    have plain : ∀ y : XCell, y ∉ sentinels → XCell.map (flagX dropna du dof) y = y := by
      intro y hy
      simp only [sentinels, List.mem_cons, List.not_mem_nil, or_false, not_or] at hy
      rcases y with c | _ | _
      · simp only [XCell.cell.injEq] at hy
        obtain ⟨h1, h2, h3, h4⟩ := hy
        cases dropna <;> cases du <;> cases dof <;> simp [XCell.map, flagX, h1, h2, h3]
      · rfl
      · rfl
    rw [plain _ hx, plain _ hg]

end

/-- The table of the records that are kept. -/
def tabX (kept : List (XCell × XCell)) : Arr2 ℕ :=
  ⟨((kept.map Prod.fst).toFinset.sort (· ≤ ·)).length, ((kept.map Prod.snd).toFinset.sort (· ≤ ·)).length,
    fun i j => kept.count (((kept.map Prod.fst).toFinset.sort (· ≤ ·)).get i, ((kept.map Prod.snd).toFinset.sort (· ≤ ·)).get j)⟩

theorem countsX_eq (l : List (XCell × XCell)) : countsX l = tabX (l.filter fun p => !p.1.isNan && !p.2.isNan) := rfl

/-- Two columns after the flags, one relabelled. -/
theorem countsX_relabel {σ τ : XCell → XCell} (hσ : Function.Injective σ) (hτ : Function.Injective τ)
    (hσs : ∀ x ∈ sentinels, σ x = x) (hτs : ∀ x ∈ sentinels, τ x = x) (l : List (XCell × XCell)) :
    ∃ (e : Fin (countsX l).r ≃ Fin (countsX (l.map (Prod.map σ τ))).r)
      (f : Fin (countsX l).c ≃ Fin (countsX (l.map (Prod.map σ τ))).c),
      ∀ i j, (countsX (l.map (Prod.map σ τ))).v (e i) (f j) = (countsX l).v i j := by
  have hk : (l.map (Prod.map σ τ)).filter (fun p => !p.1.isNan && !p.2.isNan) =
      (l.filter fun p => !p.1.isNan && !p.2.isNan).map (Prod.map σ τ) := by
    rw [List.filter_map]
    congr 2
    funext p
    simp [isNan_relabel hσ hσs, isNan_relabel hτ hτs]
  rw [countsX_eq, countsX_eq, hk]
  generalize l.filter (fun p => !p.1.isNan && !p.2.isNan) = k
  obtain ⟨e, he⟩ := rename_equiv (l := ((k.map Prod.fst).toFinset.sort (· ≤ ·)))
    (l' := (((k.map (Prod.map σ τ)).map Prod.fst).toFinset.sort (· ≤ ·))) (σ := σ) (Finset.sort_nodup _ _)
    (Finset.sort_nodup _ _) (fun a _ b _ h => hσ h) (fun b => by simp)
  obtain ⟨f, hf⟩ := rename_equiv (l := ((k.map Prod.snd).toFinset.sort (· ≤ ·)))
    (l' := (((k.map (Prod.map σ τ)).map Prod.snd).toFinset.sort (· ≤ ·))) (σ := τ) (Finset.sort_nodup _ _)
    (Finset.sort_nodup _ _) (fun a _ b _ h => hτ h) (fun b => by
      simp only [Finset.mem_sort, List.mem_toFinset, List.mem_map, Prod.exists, Prod.map]
      grind)
  refine ⟨e, f, fun i j => ?_⟩
  have hp : ((((k.map (Prod.map σ τ)).map Prod.fst).toFinset.sort (· ≤ ·)).get (e i),
      (((k.map (Prod.map σ τ)).map Prod.snd).toFinset.sort (· ≤ ·)).get (f j)) =
      Prod.map σ τ (((k.map Prod.fst).toFinset.sort (· ≤ ·)).get i, ((k.map Prod.snd).toFinset.sort (· ≤ ·)).get j) :=
    Prod.ext (he i) (hf j)
  exact (congrArg (fun z => (k.map (Prod.map σ τ)).count z) hp).trans
    (List.count_map_of_injective _ _ (hσ.prodMap hτ) (_, _))

/-- The replacement that `relabelC` makes in one column. -/
def relabelG (ic : List String) (g : String → XCell → XCell) (n : String) : XCell → XCell :=
  if n ∈ ic then id else g n

theorem relabelC_cells {ic : List String} {g : String → XCell → XCell} (c : XColumn) :
    (relabelC ic g c).cells = c.cells.map (relabelG ic g c.name) := by
  unfold relabelC relabelG
  split <;> simp

theorem phikTail_congr (nm : Numerics) (noise : Bool) (co : String × String) {A B : Arr2 ℕ} (e : Fin A.r ≃ Fin B.r)
    (f : Fin A.c ≃ Fin B.c) (h : ∀ i j, B.v (e i) (f j) = A.v i j) :
    (if B.r = 0 ∨ B.c = 0 ∨ B.r = 1 ∨ B.c = 1 then (.ok (co.1, co.2, none) : Except Err (String × String × Option ℝ))
      else (phikFromHist2d nm.mvn nm.brentq (Arr2.map (fun n : ℕ => (n : ℝ)) B) noise).map fun x => (co.1, co.2, some x)) =
    (if A.r = 0 ∨ A.c = 0 ∨ A.r = 1 ∨ A.c = 1 then .ok (co.1, co.2, none)
      else (phikFromHist2d nm.mvn nm.brentq (Arr2.map (fun n : ℕ => (n : ℝ)) A) noise).map fun x => (co.1, co.2, some x)) := by
  have hr := Fintype.card_congr e
  have hc := Fintype.card_congr f
  rw [Fintype.card_fin, Fintype.card_fin] at hr hc
  rw [phik_reindex nm noise (a := Arr2.map (fun n : ℕ => (n : ℝ)) A)
    (b := Arr2.map (fun n : ℕ => (n : ℝ)) B) e f (fun i j => by
      simp only [Arr2.map]
      exact congrArg _ (h i j)), hr, hc]

theorem calcPhikX_tail (nm : Numerics) (f : XFrame) (noise : Bool) (co : String × String) (hne : co.1 ≠ co.2)
    {a b : XColumn} (ha : getXCol f co.1 = .ok a) (hb : getXCol f co.2 = .ok b) {A : Arr2 ℕ}
    (hA : countsX (a.cells.zip b.cells) = A) :
    calcPhikX nm f noise co =
      if A.r = 0 ∨ A.c = 0 ∨ A.r = 1 ∨ A.c = 1 then .ok (co.1, co.2, none)
      else (phikFromHist2d nm.mvn nm.brentq (Arr2.map (fun n : ℕ => (n : ℝ)) A) noise).map fun x => (co.1, co.2, some x) := by
  unfold calcPhikX
  rw [if_neg hne]
  simp only [ha, hb, hA, bind, Except.bind, pure, Except.pure]
  split
  · rfl
  · cases phikFromHist2d nm.mvn nm.brentq (Arr2.map (fun n : ℕ => (n : ℝ)) A) noise <;> rfl

theorem calcPhikX_relabel {ic : List String} {g : String → XCell → XCell} (hi : ∀ n, Function.Injective (g n))
    (hs : ∀ n, ∀ x ∈ sentinels, g n x = x) (nm : Numerics) (f : XFrame) (noise : Bool) (co : String × String) :
    calcPhikX nm (relabelX ic g f) noise co = calcPhikX nm f noise co := by
  have hi' : ∀ n, Function.Injective (relabelG ic g n) := by
    intro n; unfold relabelG; split
    · exact Function.injective_id
    · exact hi n
  have hs' : ∀ n, ∀ x ∈ sentinels, relabelG ic g n x = x := by
    intro n x hx; unfold relabelG; split
    · rfl
    · exact hs n x hx
  by_cases hne : co.1 = co.2
  · unfold calcPhikX
    rw [if_pos hne, if_pos hne]
  · have ha' := getXCol_relabelX (ic := ic) (g := g) f co.1
    have hb' := getXCol_relabelX (ic := ic) (g := g) f co.2
    cases ha : getXCol f co.1 with
    | error e =>
      rw [ha] at ha'
      unfold calcPhikX
      rw [if_neg hne, if_neg hne, ha, ha']
      simp only [Except.map, bind, Except.bind]
    | ok a =>
      rw [ha] at ha'
      cases hb : getXCol f co.2 with
      | error e =>
        rw [hb] at hb'
        unfold calcPhikX
        rw [if_neg hne, if_neg hne, ha, ha', hb, hb']
        simp only [Except.map, bind, Except.bind]
      | ok b =>
        rw [hb] at hb'
        have hz : (relabelC ic g a).cells.zip (relabelC ic g b).cells =
            (a.cells.zip b.cells).map (Prod.map (relabelG ic g a.name) (relabelG ic g b.name)) := by
          rw [relabelC_cells, relabelC_cells, List.zip_map]
        obtain ⟨e, f', hef⟩ := countsX_relabel (hi' a.name) (hi' b.name) (hs' a.name) (hs' b.name) (a.cells.zip b.cells)
        rw [calcPhikX_tail nm f noise co hne ha hb rfl, calcPhikX_tail nm _ noise co hne ha' hb' (congrArg countsX hz)]
        exact phikTail_congr nm noise co e f' hef

namespace Props

/-- **C82 (categories).** In a column that is not an interval variable an infinity is a category like any other: exchanging the
values of such columns one-to-one for others — infinities for strings, say — while leaving missing values and the strings
'UF', 'OF' and 'NaN' alone changes nothing in the result of `phik_matrix`. -/
theorem infinite_category {g : String → XCell → XCell} (hi : ∀ n, Function.Injective (g n))
    (hs : ∀ n, ∀ x ∈ sentinels, g n x = x) (nm : Numerics) (sched : Option (List ℕ)) (fl : ℚ → ℚ)
    (pf : String → Option XF) (f : XFrame) (intervalCols : Option (List String)) (bins : XBins)
    (quantile noise dropna du dof : Bool) :
    phikMatrixX nm sched fl pf (relabelX (intervalCols.getD ((f.filter (·.numeric)).map (·.name))) g f) intervalCols bins
        quantile noise dropna du dof =
      phikMatrixX nm sched fl pf f intervalCols bins quantile noise dropna du dof := by
  set ic := intervalCols.getD ((f.filter (·.numeric)).map (·.name)) with hic
  have hnum : ((relabelX ic g f).filter (·.numeric)).map (·.name) = (f.filter (·.numeric)).map (·.name) := by
    rw [relabelX_eq, List.filter_map, List.map_map]
    rw [show (fun c : XColumn => c.numeric) ∘ relabelC ic g = fun c => c.numeric by funext c; simp [relabelC_numeric]]
    exact List.map_congr_left fun c _ => by simp [relabelC_name]
  unfold phikMatrixX
  simp only [hnum, ← hic, dqCheckX_relabel hi hs]
  have hsub : ∀ n ∈ (dqCheckX f ic dropna).2, n ∈ ic := by
    intro n hn
    unfold dqCheckX at hn
    exact List.mem_of_mem_filter (List.mem_of_mem_filter hn)
  rw [binDataX_relabel fl pf _ bins quantile hsub]
  cases binDataX fl pf (dqCheckX f ic dropna).1 (dqCheckX f ic dropna).2 bins quantile with
  | error e => rfl
  | ok p =>
    simp only [Except.map, bind, Except.bind]
    unfold phikFromRebinnedX
    have hflag : applyFlagsX dropna du dof (relabelX ic g p.1) = relabelX ic g (applyFlagsX dropna du dof p.1) := by
      rw [applyFlagsX_eq, applyFlagsX_eq, relabelX_eq, relabelX_eq, List.map_map, List.map_map]
      apply List.map_congr_left
      intro c _
      simp only [Function.comp, relabelC]
      split
      · rfl
      · simp only [List.map_map, XColumn.mk.injEq, true_and]
        apply List.map_congr_left
        intro x _
        exact flagX_relabel hi hs _ _ _ _ x
    simp only [hflag, relabelX_names]
    rw [show calcPhikX nm (relabelX ic g (applyFlagsX dropna du dof p.1)) noise =
      calcPhikX nm (applyFlagsX dropna du dof p.1) noise from funext fun co => calcPhikX_relabel hi hs nm _ noise co]

/-- Exchanging infinity for the string 'large' meets the hypotheses of `infinite_category`. -/
example : (∀ _n : String, Function.Injective (Equiv.swap XCell.pinf (.cell (.str "large")))) ∧
    ∀ x ∈ sentinels, Equiv.swap XCell.pinf (.cell (.str "large")) x = x := by
  refine ⟨fun _ => Equiv.injective _, fun x hx => ?_⟩
  simp only [sentinels, List.mem_cons, List.not_mem_nil, or_false] at hx
  rcases hx with rfl | rfl | rfl | rfl <;> exact Equiv.swap_apply_of_ne_of_ne (by simp) (by simp)

/-- The hypotheses of `infinite_bin_data` can be met. -/
example (pf : String → Option XF) : ∃ out dict,
    binDataX (fun x => x) pf infFrame ["x"] (.one (.edges [.fin 0, .fin 1, .pinf])) false = .ok (out, dict) ∧
    ([.fin 0, .fin 1, .pinf] : List XF).Pairwise (· ≤ ·) ∧ (infFrame.map (·.name)).Nodup ∧ XF.nan ∉ [.fin 0, .fin 1, .pinf] := by
  refine ⟨_, _, rfl, ?_, by simp [infFrame], by simp⟩
  simp only [List.pairwise_cons, List.mem_cons, List.not_mem_nil, or_false, forall_eq_or_imp, forall_eq, XF.fin_le_fin]
  exact ⟨⟨by norm_num, (XF.fin_lt_pinf 0).le⟩, (XF.fin_lt_pinf 1).le, by simp, by simp⟩

end Props

end Phik
