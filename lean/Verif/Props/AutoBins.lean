import Verif.Props.NullMatrix
import Verif.Props.Edges

/-! # Properties C84, C85, C86 with automatic bins -/

namespace Phik.Props

open Spec MeasureTheory ProbabilityTheory Topology
open Filter (Tendsto atTop Eventually)

/-! ### functions of independent draws -/

section
variable {Ω α β : Type} [MeasurableSpace Ω] [Countable α] {μ : Measure Ω} {R : ℕ → Ω → α} {raw : α → ℝ} {S : Finset α}

theorem pushLaw_nonneg (h : ∀ z, 0 ≤ raw z) (φ : α → β) (z : β) : 0 ≤ pushLaw S raw φ z :=
  Finset.sum_nonneg fun x _ => h x

theorem draws_measurable (h : ∀ k z, MeasurableSet {ω | R k ω = z}) (k : ℕ) (s : Set α) : MeasurableSet {ω | R k ω ∈ s} := by
  have : {ω | R k ω ∈ s} = ⋃ z ∈ s, {ω | R k ω = z} := by ext ω; simp
  rw [this]
  exact MeasurableSet.biUnion (Set.to_countable s) fun z _ => h k z

open scoped Classical in
/-- The probability of an event on one draw. -/
theorem _root_.Phik.Spec.IIDRecords.event (h : IIDRecords μ R raw) (hS : ∀ x, raw x ≠ 0 → x ∈ S) (φ : α → β) (k : ℕ) (z : β) :
    μ {ω | φ (R k ω) = z} = ENNReal.ofReal (pushLaw S raw φ z) := by
  have hae : {ω | φ (R k ω) = z} =ᵐ[μ] ⋃ x ∈ S.filter (φ · = z), {ω | R k ω = x} := by
    filter_upwards [h.frequency] with ω hω
    have := hS _ (hω.1 k)
    apply propext
    change φ (R k ω) = z ↔ ω ∈ ⋃ x ∈ S.filter (φ · = z), {ω | R k ω = x}
    simp [this]
  rw [measure_congr hae, measure_biUnion_finset]
  · unfold pushLaw
    rw [ENNReal.ofReal_sum_of_nonneg fun x _ => h.nonneg x]
    exact Finset.sum_congr (by congr) fun x _ => h.dist k x
  · intro x _ y _ hxy
    rw [Function.onFun, Set.disjoint_left]
    intro ω h1 h2
    exact hxy (h1.symm.trans h2)
  · exact fun x _ => h.meas k x

open scoped Classical in
/-- A function of independent draws. -/
theorem _root_.Phik.Spec.IIDRecords.map (h : IIDRecords μ R raw) (hS : ∀ x, raw x ≠ 0 → x ∈ S) (φ : α → β) :
    IIDRecords μ (fun k ω => φ (R k ω)) (pushLaw S raw φ) := by
  refine ⟨h.prob, pushLaw_nonneg h.nonneg φ, fun k z => draws_measurable h.meas k {x | φ x = z}, fun k z => h.event hS φ k z,
    fun k l hkl z z' => ?_⟩
  have hae : {ω | φ (R k ω) = z ∧ φ (R l ω) = z'} =ᵐ[μ]
      ⋃ x ∈ S.filter (φ · = z) ×ˢ S.filter (φ · = z'), {ω | R k ω = x.1 ∧ R l ω = x.2} := by
    filter_upwards [h.frequency] with ω hω
    have h1 := hS _ (hω.1 k)
    have h2 := hS _ (hω.1 l)
    apply propext
    change (φ (R k ω) = z ∧ φ (R l ω) = z') ↔ ω ∈ ⋃ x ∈ S.filter (φ · = z) ×ˢ S.filter (φ · = z'), {ω | R k ω = x.1 ∧ R l ω = x.2}
    simp only [Set.mem_iUnion, Finset.mem_product, Finset.mem_filter, Set.mem_ofPred_eq, Prod.exists, exists_prop]
    constructor
    · rintro ⟨e1, e2⟩; exact ⟨_, _, ⟨⟨h1, e1⟩, h2, e2⟩, rfl, rfl⟩
    · rintro ⟨_, _, ⟨⟨-, e1⟩, -, e2⟩, rfl, rfl⟩; exact ⟨e1, e2⟩
  rw [measure_congr hae, measure_biUnion_finset]
  · unfold pushLaw
    rw [Finset.sum_mul_sum, ← Finset.sum_product', ENNReal.ofReal_sum_of_nonneg fun x _ => mul_nonneg (h.nonneg _) (h.nonneg _)]
    exact Finset.sum_congr (by congr) fun x _ => h.indep k l hkl x.1 x.2
  · intro x _ y _ hxy
    rw [Function.onFun, Set.disjoint_left]
    intro ω h1 h2
    exact hxy (Prod.ext (h1.1.symm.trans h2.1) (h1.2.symm.trans h2.2))
  · exact fun x _ => (h.meas k x.1).inter (h.meas l x.2)

theorem _root_.Phik.Spec.IndepRecords.map (h : IndepRecords μ R raw) (hS : ∀ x, raw x ≠ 0 → x ∈ S) (φ : α → β) :
    IndepRecords μ (fun k ω => φ (R k ω)) (pushLaw S raw φ) := by
  refine ⟨h.prob, pushLaw_nonneg h.nonneg φ, fun k z => draws_measurable h.meas k {x | φ x = z}, fun s z => ?_⟩
  have hi := h.iIndepFun
  have := hi.measure_inter_preimage_eq_mul s (sets := fun k => {x | φ x = z k}) (fun _ _ => trivial)
  rw [Finset.prod_congr rfl fun k _ => (h.iid.event hS φ k (z k)).symm]
  refine Eq.trans ?_ this
  congr 1
  ext ω
  simp

end

/-! ### the range of a column -/

theorem edges_of_range (fl : ℚ → ℚ) {l : List ℚ} {lo hi : ℚ} (h1 : lo ∈ l) (h2 : hi ∈ l) (h : ∀ x ∈ l, lo ≤ x ∧ x ≤ hi) (m : ℤ) :
    binEdges fl l m false = binEdges fl [lo, hi] m false := by
  have hmin : ∀ l' : List ℚ, lo ∈ l' → (∀ x ∈ l', lo ≤ x) → l'.min? = some lo := fun l' a b => List.min?_eq_some_iff.2 ⟨a, b⟩
  have hmax : ∀ l' : List ℚ, hi ∈ l' → (∀ x ∈ l', x ≤ hi) → l'.max? = some hi := fun l' a b => List.max?_eq_some_iff.2 ⟨a, b⟩
  have hle : lo ≤ hi := (h _ h1).2
  unfold binEdges
  simp only [Bool.false_eq_true, if_false]
  rw [hmin l h1 fun x hx => (h x hx).1, hmax l h2 fun x hx => (h x hx).2, hmin [lo, hi] (by simp) (by simp [hle]),
    hmax [lo, hi] (by simp) (by simp [hle])]

/-- The draws in which the extreme values have occurred. -/
def Attained {α : Type} (raw : α → ℝ) (var : α → Cell) (lo hi : ℚ) (R : ℕ → α) (n : ℕ) : Prop :=
  (∀ k, raw (R k) ≠ 0) ∧ (∃ k < n, var (R k) = .num lo) ∧ ∃ k < n, var (R k) = .num hi

/-- A column that attains the range is prepared like one with only the extreme values. -/
theorem prepared_of_range {α : Type} {raw : α → ℝ} {var : α → Cell} {lo hi : ℚ} {R : ℕ → α} {n : ℕ} {fl : ℚ → ℚ} {ic : List String} {bins : Bins}
    {c : Column} {g : Cell → Cell} {d : Bool} (hr : c.name ∈ ic → HasRange raw var lo hi)
    (ha : HasRange raw var lo hi → Attained raw var lo hi R n)
    (hc : c.cells = (List.range n).map fun k => var (R k)) (hp : PreparedBy fl false ic bins ⟨c.name, d, [.num lo, .num hi]⟩ g) :
    PreparedBy fl false ic bins c g := by
  refine ⟨fun hic => ?_, hp.2⟩
  have hr := hr hic
  obtain ⟨hs, h1, h2⟩ := ha hr
  obtain ⟨s, e, he, hq, hso, hg⟩ := hp.1 hic
  refine ⟨s, e, he, ?_, hso, hg⟩
  cases hq with
  | edges => exact .edges _
  | num m _ hb =>
    refine .num m e ?_
    rw [← hb]
    have hmem : ∀ x, x ∈ (numberList c).filterMap id ↔ ∃ k < n, var (R k) = .num x := by
      intro x
      unfold numberList
      rw [hc, List.mem_filterMap]
      simp only [List.mem_map, List.mem_range, id]
      constructor
      · rintro ⟨a, ⟨y, ⟨k, hk, rfl⟩, rfl⟩, h⟩
        refine ⟨k, hk, ?_⟩
        revert h
        cases var (R k) <;> simp
      · rintro ⟨k, hk, h⟩
        exact ⟨_, ⟨_, ⟨k, hk, rfl⟩, rfl⟩, by rw [h]⟩
    have e2 : (numberList ⟨c.name, d, [.num lo, .num hi]⟩).filterMap id = [lo, hi] := rfl
    rw [e2]
    refine edges_of_range fl ((hmem lo).2 h1) ((hmem hi).2 h2) (fun x hx => ?_) _
    obtain ⟨k, -, hk⟩ := (hmem x).1 hx
    exact hr.within _ _ (hs k) hk

section
variable {Ω α : Type} [MeasurableSpace Ω] [Countable α] {μ : Measure Ω} {R : ℕ → Ω → α} {raw : α → ℝ}

open scoped Classical in
/-- Almost surely the extreme values occur. -/
theorem _root_.Phik.Spec.IIDRecords.attained (h : IIDRecords μ R raw) {var : α → Cell} {lo hi : ℚ} (hr : HasRange raw var lo hi) :
    ∀ᵐ ω ∂μ, ∀ᶠ n in atTop, Attained raw var lo hi (R · ω) n := by
  filter_upwards [h.frequency] with ω hω
  have key : ∀ x, raw x ≠ 0 → ∀ᶠ n in atTop, ∃ k < n, R k ω = x := by
    intro x hx
    have hpos : 0 < raw x := lt_of_le_of_ne (h.nonneg x) hx.symm
    filter_upwards [(hω.2 x).eventually_const_lt hpos] with n hn
    have : 0 < ((List.range n).map (R · ω)).count x := by
      rcases Nat.eq_zero_or_pos (((List.range n).map (R · ω)).count x) with h0 | h0
      · rw [h0] at hn; simp at hn
      · exact h0
    obtain ⟨k, hk, e⟩ := List.mem_map.1 (List.count_pos_iff.1 this)
    exact ⟨k, List.mem_range.1 hk, e⟩
  obtain ⟨x, hx, ex⟩ := hr.low
  obtain ⟨y, hy, ey⟩ := hr.high
  filter_upwards [key x hx, key y hy] with n ⟨k, hk, e⟩ ⟨l, hl, e'⟩
  exact ⟨hω.1, ⟨k, hk, by change var (R k ω) = _; rw [e, ex]⟩, ⟨l, hl, by change var (R l ω) = _; rw [e', ey]⟩⟩

/-- The probability that the extreme values have not yet occurred vanishes. -/
theorem _root_.Phik.Spec.IIDRecords.not_attained (h : IIDRecords μ R raw) {var : α → Cell} {lo hi : ℚ} (hr : HasRange raw var lo hi) :
    Tendsto (fun n => μ {ω | ¬ Attained raw var lo hi (R · ω) n}) atTop (𝓝 0) := by
  have := h.prob
  have hmeas : ∀ n, MeasurableSet {ω | ¬ Attained raw var lo hi (R · ω) n} := by
    intro n
    refine MeasurableSet.compl (MeasurableSet.inter ?_ (MeasurableSet.inter ?_ ?_))
    · have : {ω | ∀ k, raw (R k ω) ≠ 0} = ⋂ k, {ω | R k ω ∈ {x | raw x ≠ 0}} := by ext ω; simp
      change MeasurableSet {ω | ∀ k, raw (R k ω) ≠ 0}
      rw [this]
      exact MeasurableSet.iInter fun k => draws_measurable h.meas k _
    · have : {ω | ∃ k < n, var (R k ω) = .num lo} = ⋃ k, ⋃ _ : k < n, {ω | R k ω ∈ {x | var x = .num lo}} := by ext ω; simp
      change MeasurableSet {ω | ∃ k < n, var (R k ω) = .num lo}
      rw [this]
      exact MeasurableSet.iUnion fun k => MeasurableSet.iUnion fun _ => draws_measurable h.meas k _
    · have : {ω | ∃ k < n, var (R k ω) = .num hi} = ⋃ k, ⋃ _ : k < n, {ω | R k ω ∈ {x | var x = .num hi}} := by ext ω; simp
      change MeasurableSet {ω | ∃ k < n, var (R k ω) = .num hi}
      rw [this]
      exact MeasurableSet.iUnion fun k => MeasurableSet.iUnion fun _ => draws_measurable h.meas k _
  have hanti : Antitone fun n => {ω | ¬ Attained raw var lo hi (R · ω) n} := by
    intro m n hmn ω hω hm
    exact hω ⟨hm.1, let ⟨k, hk, e⟩ := hm.2.1; ⟨k, hk.trans_le hmn, e⟩, let ⟨k, hk, e⟩ := hm.2.2; ⟨k, hk.trans_le hmn, e⟩⟩
  have hlim := tendsto_measure_iInter_atTop (μ := μ) (fun n => (hmeas n).nullMeasurableSet) hanti ⟨0, measure_ne_top _ _⟩
  have hz : μ (⋂ n, {ω | ¬ Attained raw var lo hi (R · ω) n}) = 0 := by
    refine measure_mono_null (fun ω hω => ?_) (ae_iff.1 (h.attained hr))
    intro hev
    obtain ⟨n, hn⟩ := hev.exists
    exact (Set.mem_iInter.1 hω n) hn
  rwa [hz] at hlim

end

/-! ### the matrices -/

instance : Countable Cell := by
  have hs : Countable String := Function.Injective.countable (f := String.toList) fun _ _ h => String.toList_inj.1 h
  have : Function.Injective fun x : Cell => match x with
    | .nan => (Sum.inl () : Unit ⊕ ℚ ⊕ String)
    | .num q => .inr (.inl q)
    | .str s => .inr (.inr s) := by
    intro a b h
    cases a <;> cases b <;> simp_all
  exact this.countable

variable {r c : ℕ} {F : Type}

open scoped Classical in
/-- C84 with automatic bins: records drawn from a distribution with finitely many values, columns binned with given edges or in a given number of bins between
their smallest and their largest value; the law of the binned records is that of the bins between the smallest and the largest possible value. -/
theorem phik_matrix_auto_estimates {nm : Numerics} (hg : GoodNumerics nm) (hr : 2 ≤ r) (hc : 2 ≤ c)
    (hs : StrictMonoOn (distance nm.mvn r c) (Set.Icc 0 1)) {p : Fin r → Fin c → ℝ} (hp : IsJoint p) {rho : ℝ}
    (hrho : IsPhikOfLaw nm.mvn p rho) {raw : Cell × Cell → ℝ} {S : Finset (Cell × Cell)} (hS : ∀ x, raw x ≠ 0 → x ∈ S) {gA gB : Cell → Cell}
    (dropna du dof : Bool) {q : ℝ} {u : Fin r → Cell} {v : Fin c → Cell}
    (hl : CompleteLaw (pushLaw S raw fun x => (view dropna du dof (gA x.1), view dropna du dof (gB x.2))) q p u v)
    {Ω : Type} [MeasurableSpace Ω] {μ : Measure Ω} {A B : ℕ → Ω → Cell} (hR : IIDRecords μ (fun k ω => (A k ω, B k ω)) raw) (la ha lb hb : ℚ) :
    ∀ᵐ ω ∂μ, ∀ ε : ℝ, 0 < ε → ∀ᶠ n in atTop, ∀ (noise : Bool) (fl : ℚ → ℚ) (pf : String → Option (Option ℚ)) (w : World) (ref : Ref)
      (data : Frame) (ic : Option (List String)) (bins : Bins) (sched : Option (List ℕ)) (ca cb : Column),
      w.heap[ref]? = some data → data.names.Nodup →
      ValidSched (cwr ((data.cols.filter (fun c => decide (Kept (ic.getD (guessIntervalCols data)) dropna c))).map (·.name))).length sched →
      (∀ c ∈ data.cols, c.name ∈ ic.getD (guessIntervalCols data) → ∀ s, Cell.str s ∉ c.cells) →
      (∀ n ∈ ic.getD (guessIntervalCols data), ∃ s, EntryFor bins n s ∧ GoodEntry s) →
      ca ∈ data.cols → cb ∈ data.cols → ca.name ≠ cb.name →
      ca.cells = (List.range n).map (A · ω) → cb.cells = (List.range n).map (B · ω) →
      (ca.name ∈ ic.getD (guessIntervalCols data) → HasRange raw Prod.fst la ha) → (cb.name ∈ ic.getD (guessIntervalCols data) → HasRange raw Prod.snd lb hb) →
      PreparedBy fl false (ic.getD (guessIntervalCols data)) bins ⟨ca.name, true, [.num la, .num ha]⟩ gA →
      PreparedBy fl false (ic.getD (guessIntervalCols data)) bins ⟨cb.name, true, [.num lb, .num hb]⟩ gB →
      (dropna = true ∨ ca.name ∉ ic.getD (guessIntervalCols data) ∨ 3 ≤ r) → (dropna = true ∨ cb.name ∉ ic.getD (guessIntervalCols data) ∨ 3 ≤ c) →
      ∃ t w' x, (phikMatrix nm sched fl pf ref ic bins false noise dropna du dof).exec w = (.ok t, w') ∧
        t.v ca.name cb.name = some x ∧ |x - rho| ≤ rootTol + ε := by
  have hm := hR.map hS fun x => (view dropna du dof (gA x.1), view dropna du dof (gB x.2))
  have hA : ∀ᵐ ω ∂μ, HasRange raw Prod.fst la ha → ∀ᶠ n in atTop, Attained raw Prod.fst la ha (fun k => (A k ω, B k ω)) n := by
    by_cases h : HasRange raw Prod.fst la ha
    · filter_upwards [hR.attained h] with ω hω _ using hω
    · exact .of_forall fun ω h' => absurd h' h
  have hB : ∀ᵐ ω ∂μ, HasRange raw Prod.snd lb hb → ∀ᶠ n in atTop, Attained raw Prod.snd lb hb (fun k => (A k ω, B k ω)) n := by
    by_cases h : HasRange raw Prod.snd lb hb
    · filter_upwards [hR.attained h] with ω hω _ using hω
    · exact .of_forall fun ω h' => absurd h' h
  filter_upwards [phik_matrix_binned_estimates hg hr hc hs hp hrho hl gA gB dropna du dof hm, hA, hB] with ω h hA hB ε hε
  have hA' : ∀ᶠ n in atTop, HasRange raw Prod.fst la ha → Attained raw Prod.fst la ha (fun k => (A k ω, B k ω)) n := by
    by_cases h : HasRange raw Prod.fst la ha
    · filter_upwards [hA h] with n hn _ using hn
    · exact .of_forall fun ω h' => absurd h' h
  have hB' : ∀ᶠ n in atTop, HasRange raw Prod.snd lb hb → Attained raw Prod.snd lb hb (fun k => (A k ω, B k ω)) n := by
    by_cases h : HasRange raw Prod.snd lb hb
    · filter_upwards [hB h] with n hn _ using hn
    · exact .of_forall fun ω h' => absurd h' h
  filter_upwards [h ε hε, hA', hB'] with n hn hA hB noise fl pf w ref data ic bins sched ca cb hf hnd hsch hnum hbins hca hcb hne ea eb ra rb pa pb ka kb
  exact hn noise false fl pf w ref data ic bins sched ca cb hf hnd hsch hnum hbins hca hcb hne ea eb (prepared_of_range ra hA ea pa)
    (prepared_of_range rb hB eb pb) ka kb

/-- C85 with automatic bins. -/
theorem significance_matrix_auto_detects {Sg : SigNum} (hSg : SigSpec Sg) (hv : TailsVanish Sg) (hr : 2 ≤ r) (hc : 2 ≤ c) {p : Fin r → Fin c → ℝ}
    (hp : IsJoint p) (hdep : ¬ IndepJoint p) {raw : Cell × Cell → ℝ} {S : Finset (Cell × Cell)} (hS : ∀ x, raw x ≠ 0 → x ∈ S) {gA gB : Cell → Cell}
    (dropna du dof : Bool) {q : ℝ} {u : Fin r → Cell} {v : Fin c → Cell}
    (hl : CompleteLaw (pushLaw S raw fun x => (view dropna du dof (gA x.1), view dropna du dof (gB x.2))) q p u v)
    {Ω : Type} [MeasurableSpace Ω] {μ : Measure Ω} {A B : ℕ → Ω → Cell} (hR : IIDRecords μ (fun k ω => (A k ω, B k ω)) raw) (la ha lb hb : ℚ)
    {lam : String} (hlam : lam ∈ ["pearson", "log-likelihood", "cressie-read"]) :
    ∀ᵐ ω ∂μ, ∀ z0 : ℝ, ∀ᶠ n in atTop, ∀ (R : ℕ → SimRun F) (fl : ℚ → ℚ) (pf : String → Option (Option ℚ)) (w w' : World) (ref : Ref)
      (data : Frame) (ic : Option (List String)) (bins : Bins) (ca cb : Column) (t : LTab EReal),
      (∀ k, (R k).lambda = lam) → w.heap[ref]? = some data → data.names.Nodup →
      (∀ c ∈ data.cols, c.name ∈ ic.getD (guessIntervalCols data) → ∀ s, Cell.str s ∉ c.cells) →
      (∀ n ∈ ic.getD (guessIntervalCols data), ∃ s, EntryFor bins n s ∧ GoodEntry s) →
      ca ∈ data.cols → cb ∈ data.cols →
      ca.cells = (List.range n).map (A · ω) → cb.cells = (List.range n).map (B · ω) →
      (ca.name ∈ ic.getD (guessIntervalCols data) → HasRange raw Prod.fst la ha) → (cb.name ∈ ic.getD (guessIntervalCols data) → HasRange raw Prod.snd lb hb) →
      PreparedBy fl false (ic.getD (guessIntervalCols data)) bins ⟨ca.name, true, [.num la, .num ha]⟩ gA →
      PreparedBy fl false (ic.getD (guessIntervalCols data)) bins ⟨cb.name, true, [.num lb, .num hb]⟩ gB →
      (dropna = true ∨ ca.name ∉ ic.getD (guessIntervalCols data) ∨ 3 ≤ r) → (dropna = true ∨ cb.name ∉ ic.getD (guessIntervalCols data) ∨ 3 ≤ c) →
      (significanceMatrix Sg R fl pf ref ic bins "asymptotic" dropna du dof).exec w = (.ok t, w') →
      ∃ z, t.v ca.name cb.name = some z ∧ (z0 : EReal) < z := by
  have hm := hR.map hS fun x => (view dropna du dof (gA x.1), view dropna du dof (gB x.2))
  have hA : ∀ᵐ ω ∂μ, HasRange raw Prod.fst la ha → ∀ᶠ n in atTop, Attained raw Prod.fst la ha (fun k => (A k ω, B k ω)) n := by
    by_cases h : HasRange raw Prod.fst la ha
    · filter_upwards [hR.attained h] with ω hω _ using hω
    · exact .of_forall fun ω h' => absurd h' h
  have hB : ∀ᵐ ω ∂μ, HasRange raw Prod.snd lb hb → ∀ᶠ n in atTop, Attained raw Prod.snd lb hb (fun k => (A k ω, B k ω)) n := by
    by_cases h : HasRange raw Prod.snd lb hb
    · filter_upwards [hR.attained h] with ω hω _ using hω
    · exact .of_forall fun ω h' => absurd h' h
  filter_upwards [significance_matrix_detects (F := F) hSg hv hr hc hp hdep hl gA gB dropna du dof hm hlam, hA, hB] with ω h hA hB z0
  have hA' : ∀ᶠ n in atTop, HasRange raw Prod.fst la ha → Attained raw Prod.fst la ha (fun k => (A k ω, B k ω)) n := by
    by_cases h : HasRange raw Prod.fst la ha
    · filter_upwards [hA h] with n hn _ using hn
    · exact .of_forall fun ω h' => absurd h' h
  have hB' : ∀ᶠ n in atTop, HasRange raw Prod.snd lb hb → Attained raw Prod.snd lb hb (fun k => (A k ω, B k ω)) n := by
    by_cases h : HasRange raw Prod.snd lb hb
    · filter_upwards [hB h] with n hn _ using hn
    · exact .of_forall fun ω h' => absurd h' h
  filter_upwards [h z0, hA', hB'] with n hn hA hB R fl pf w w' ref data ic bins ca cb t hRl hf hnd hnum hbins hca hcb ea eb ra rb pa pb ka kb
  exact hn R fl pf w w' ref data ic bins ca cb t hRl hf hnd hnum hbins hca hcb ea eb (prepared_of_range ra hA ea pa) (prepared_of_range rb hB eb pb) ka kb

/-- C86 with automatic bins. -/
theorem null_matrix_auto (hr : 2 ≤ r) (hc : 2 ≤ c) {p : Fin r → Fin c → ℝ} (hp : IsJoint p) (hi : IndepJoint p)
    {raw : Cell × Cell → ℝ} {S : Finset (Cell × Cell)} (hS : ∀ x, raw x ≠ 0 → x ∈ S) {gA gB : Cell → Cell} (dropna du dof : Bool) {q : ℝ}
    {u : Fin r → Cell} {v : Fin c → Cell}
    (hl : CompleteLaw (pushLaw S raw fun x => (view dropna du dof (gA x.1), view dropna du dof (gB x.2))) q p u v)
    {Ω : Type} [MeasurableSpace Ω] {μ : Measure Ω} {A B : ℕ → Ω → Cell} (hR : IndepRecords μ (fun k ω => (A k ω, B k ω)) raw) (la ha lb hb : ℚ)
    {lam : String} (hlam : lam ∈ ["pearson", "log-likelihood", "cressie-read"]) (z0 : ℝ) (fl : ℚ → ℚ) (pf : String → Option (Option ℚ))
    {R : ℕ → Ω → ℕ → SimRun F} {w w' : ℕ → Ω → World} {ref : ℕ → Ω → Ref} {data : ℕ → Ω → Frame} {ic : ℕ → Ω → Option (List String)} {bins : ℕ → Ω → Bins}
    {ca cb : ℕ → Ω → Column} {t : ℕ → Ω → LTab EReal}
    (hRl : ∀ n ω k, (R n ω k).lambda = lam) (hf : ∀ n ω, (w n ω).heap[ref n ω]? = some (data n ω)) (hnd : ∀ n ω, (data n ω).names.Nodup)
    (hnum : ∀ n ω, ∀ c ∈ (data n ω).cols, c.name ∈ (ic n ω).getD (guessIntervalCols (data n ω)) → ∀ s, Cell.str s ∉ c.cells)
    (hbins : ∀ n ω, ∀ name ∈ (ic n ω).getD (guessIntervalCols (data n ω)), ∃ s, EntryFor (bins n ω) name s ∧ GoodEntry s)
    (hca : ∀ n ω, ca n ω ∈ (data n ω).cols) (hcb : ∀ n ω, cb n ω ∈ (data n ω).cols)
    (ea : ∀ n ω, (ca n ω).cells = (List.range n).map (A · ω)) (eb : ∀ n ω, (cb n ω).cells = (List.range n).map (B · ω))
    (ra : ∀ n ω, (ca n ω).name ∈ (ic n ω).getD (guessIntervalCols (data n ω)) → HasRange raw Prod.fst la ha)
    (rb : ∀ n ω, (cb n ω).name ∈ (ic n ω).getD (guessIntervalCols (data n ω)) → HasRange raw Prod.snd lb hb)
    (pa : ∀ n ω, PreparedBy fl false ((ic n ω).getD (guessIntervalCols (data n ω))) (bins n ω) ⟨(ca n ω).name, true, [.num la, .num ha]⟩ gA)
    (pb : ∀ n ω, PreparedBy fl false ((ic n ω).getD (guessIntervalCols (data n ω))) (bins n ω) ⟨(cb n ω).name, true, [.num lb, .num hb]⟩ gB)
    (ka : ∀ n ω, dropna = true ∨ (ca n ω).name ∉ (ic n ω).getD (guessIntervalCols (data n ω)) ∨ 3 ≤ r)
    (kb : ∀ n ω, dropna = true ∨ (cb n ω).name ∉ (ic n ω).getD (guessIntervalCols (data n ω)) ∨ 3 ≤ c)
    (hrun : ∀ n ω, (significanceMatrix trueSig (R n ω) fl pf (ref n ω) (ic n ω) (bins n ω) "asymptotic" dropna du dof).exec (w n ω) =
      (.ok (t n ω), w' n ω)) :
    Tendsto (fun n => μ {ω | ∃ z, (t n ω).v (ca n ω).name (cb n ω).name = some z ∧ (z0 : EReal) < z}) atTop
      (𝓝 (gaussianReal 0 1 (Set.Ioi z0))) := by
  have hm := hR.map hS fun x => (view dropna du dof (gA x.1), view dropna du dof (gB x.2))
  have hz : ∀ (var : Cell × Cell → Cell) (lo hi : ℚ),
      Tendsto (fun n => μ {ω | HasRange raw var lo hi ∧ ¬ Attained raw var lo hi (fun k => (A k ω, B k ω)) n}) atTop (𝓝 0) := by
    intro var lo hi
    by_cases h : HasRange raw var lo hi
    · simpa [h] using hR.iid.not_attained h
    · simp [h]
  have hE : Tendsto (fun n => μ ({ω | HasRange raw Prod.fst la ha ∧ ¬ Attained raw Prod.fst la ha (fun k => (A k ω, B k ω)) n} ∪
      {ω | HasRange raw Prod.snd lb hb ∧ ¬ Attained raw Prod.snd lb hb (fun k => (A k ω, B k ω)) n})) atTop (𝓝 0) := by
    refine tendsto_of_tendsto_of_tendsto_of_le_of_le tendsto_const_nhds (by simpa using (hz Prod.fst la ha).add (hz Prod.snd lb hb))
      (fun _ => bot_le) fun n => measure_union_le _ _
  refine null_matrix_off (F := F) hr hc hp hi hl gA gB dropna du dof hm hlam z0 hE fl pf hRl hf hnd hnum hbins hca hcb ea eb
    (fun n ω hω => prepared_of_range (R := fun k => (A k ω, B k ω)) (ra n ω) (fun h => ?_) (ea n ω) (pa n ω)) (fun n ω hω => prepared_of_range (R := fun k => (A k ω, B k ω)) (rb n ω) (fun h => ?_) (eb n ω) (pb n ω)) ka kb hrun
  · by_contra hn
    exact hω (.inl ⟨h, hn⟩)
  · by_contra hn
    exact hω (.inr ⟨h, hn⟩)

end Phik.Props
