import Verif.Props.Simulation
import Verif.Props.Stats

/-! # Properties C36, C37, C41 of `sim_2d_data_patefield` -/

namespace Phik

open Spec Finset

variable {F : Type}

/-! ### rounding of the margins -/

theorem rint_int (k : ℤ) : rint (k : ℝ) = k := by simp [rint]

theorem rint_nat (k : ℕ) : rint (k : ℝ) = k := by
  have := rint_int (k : ℤ)
  simpa using this

/-- `np.rint` is a nearest integer. -/
theorem rint_near (x : ℝ) : |x - rint x| ≤ 1 / 2 := by
  unfold rint
  have h1 := Int.floor_le x
  have h2 := Int.lt_floor_add_one x
  split
  · rw [abs_le]; constructor <;> linarith
  split
  · push_cast; rw [abs_le]; constructor <;> linarith
  split
  · rw [abs_le]; constructor <;> linarith
  · push_cast; rw [abs_le]; constructor <;> linarith

/-! ### the extension returns only for valid margins -/

theorem cpp_ok_valid {O : FloatOps F} {fuel passes : ℕ} {nrowt ncolt : List ℤ} {st st' : Statics F}
    {seed : ℤ} {buf buf' : List (Option ℤ)}
    (h : simPatefieldCpp O fuel passes nrowt.length ncolt.length nrowt ncolt st seed buf =
      .ok (st', .ok buf')) : ValidMargins nrowt ncolt := by
  unfold simPatefieldCpp rcont2 at h
  simp only [Bool.false_eq_true, if_false] at h
  by_cases h1 : (nrowt.length : ℤ) ≤ 1
  · simp [h1, bind, Except.bind] at h
  by_cases h2 : (ncolt.length : ℤ) ≤ 1
  · simp only [h1, h2, if_true, if_false] at h
    simp [bind, Except.bind] at h
  simp only [h1, h2, if_false, allPos_all, bind, Except.bind] at h
  by_cases h3 : ∀ v ∈ nrowt, 0 < v
  swap
  · rw [decide_eq_false h3] at h; simp at h
  by_cases h4 : ∀ v ∈ ncolt, 0 < v
  swap
  · rw [decide_eq_true h3, decide_eq_false h4] at h; simp at h
  rw [decide_eq_true h3, decide_eq_true h4] at h
  simp only [Bool.not_true, Bool.false_eq_true, if_false] at h
  have s1 := i4vecSum_spec nrowt h3
  have s2 := i4vecSum_spec ncolt h4
  cases e2 : i4vecSum (ncolt.length : ℤ) ncolt with
  | error e => rw [e2] at h; simp at h
  | ok x =>
    cases e1 : i4vecSum (nrowt.length : ℤ) nrowt with
    | error e => rw [e2, e1] at h; simp at h
    | ok y =>
      rw [e2, e1] at h
      rw [e1] at s1
      rw [e2] at s2
      by_cases h5 : x = y
      · exact ⟨by omega, by omega, h3, h4, by rw [← s1.1, ← s2.1, h5]⟩
      · simp [h5] at h

theorem readAll_ok {l : List (Option ℤ)} {l' : List ℤ} (h : readAll l = .ok l') : l = l'.map some := by
  induction l generalizing l' with
  | nil => cases h; rfl
  | cons x l ih =>
    cases x with
    | none => cases h
    | some x =>
      unfold readAll at h
      cases hr : readAll l with
      | error e => rw [hr] at h; cases h
      | ok l'' =>
        rw [hr] at h
        cases h
        rw [ih hr]; rfl

theorem readAll_map (l : List ℤ) : readAll (l.map some) = .ok l := by
  induction l with
  | nil => rfl
  | cons x l ih => simp [readAll, ih, Except.map]

/-- The margins handed to the extension. -/
noncomputable def rowT (a : Arr2 ℝ) : List ℤ := (List.finRange a.r).map fun i => rint (a.rowSum i)
noncomputable def colT (a : Arr2 ℝ) : List ℤ := (List.finRange a.c).map fun j => rint (a.colSum j)

/-- The seed handed to the extension. -/
def usedSeed (d : Draws F) (seed : Option ℤ) : ℤ :=
  match seed with
  | some s => if s = 0 then d.seed else s
  | none => d.seed

theorem simPatefield_eq {env : SimEnv F} (hc : env.cpp = true) (d : Draws F) (a : Arr2 ℝ)
    (seed : Option ℤ) :
    simPatefield env d a seed =
      if ¬ ∀ x ∈ rowT a ++ colT a, inInt32 x then .error .overflow
      else if ¬ inInt32 (usedSeed d seed) then .error .type
      else match runCall env.ops env.fuel env.passes d.statics ⟨rowT a, colT a, usedSeed d seed⟩ with
        | .error e => .error e
        | .ok (_, .error e) => .error e
        | .ok (_, .ok buf) => (readAll buf).map fun l =>
          ⟨a.c, a.r, fun i j => l.getD (i * a.r + j) 0⟩ := by
  unfold simPatefield
  simp only [hc, Bool.not_true, Bool.false_eq_true, if_false]
  change (if (!(rowT a ++ colT a).all fun x => decide (inInt32 x)) = true then _ else _) = _
  have hiff : ((rowT a ++ colT a).all fun x => decide (inInt32 x)) = true ↔
      ∀ x ∈ rowT a ++ colT a, inInt32 x := by
    simp only [List.all_eq_true, decide_eq_true_eq]
  by_cases h1 : ∀ x ∈ rowT a ++ colT a, inInt32 x
  · rw [if_neg (by rw [hiff.2 h1]; simp), if_neg (not_not.2 h1)]
    change (if ¬ inInt32 (usedSeed d seed) then _ else _) = _
    by_cases h2 : inInt32 (usedSeed d seed)
    · rw [if_neg (not_not.2 h2), if_neg (not_not.2 h2)]
      change (runCall env.ops env.fuel env.passes d.statics ⟨rowT a, colT a, usedSeed d seed⟩ >>= _) = _
      cases runCall env.ops env.fuel env.passes d.statics ⟨rowT a, colT a, usedSeed d seed⟩ with
      | error e => rfl
      | ok p =>
        obtain ⟨st, res⟩ := p
        cases res with
        | error e => rfl
        | ok buf =>
          simp only [bind, Except.bind]
          cases readAll buf <;> rfl
    · rw [if_pos h2, if_pos h2]; rfl
  · rw [if_pos (by rw [Bool.not_eq_true', Bool.eq_false_iff]; exact fun h => h1 (hiff.1 h)), if_pos h1]; rfl

namespace Props

theorem usedSeed_int32 {d : Draws F} (hd : GoodDraws d) {seed : Option ℤ}
    (hs : ∀ s, seed = some s → inInt32 s) : inInt32 (usedSeed d seed) := by
  have := hd.seed_nonneg
  have := hd.seed_lt
  unfold usedSeed
  cases seed with
  | none => dsimp only; exact ⟨by omega, by omega⟩
  | some s =>
    dsimp only
    split
    · exact ⟨by omega, by omega⟩
    · exact hs s rfl

/-- A table in the buffer, read as the array that `sim_2d_data_patefield` returns. -/
theorem holds_table {a : Arr2 ℝ} {buf : List (Option ℤ)} {X : ℕ → ℕ → ℤ}
    (hX : HoldsTable (rowT a) (colT a) buf X) :
    ∃ l, readAll buf = .ok l ∧ ∀ (i : Fin a.r) (j : Fin a.c), l.getD (j * a.r + i) 0 = X i j := by
  have hr : (rowT a).length = a.r := by simp [rowT]
  have hc : (colT a).length = a.c := by simp [colT]
  have hall : ∀ k < buf.length, ∃ x, buf[k]? = some (some x) := by
    intro k hk
    rw [hX.size] at hk
    have hrpos : 0 < (rowT a).length := by
      rcases Nat.eq_zero_or_pos (rowT a).length with h | h
      · rw [h, zero_mul] at hk; omega
      · exact h
    refine ⟨X (k % (rowT a).length) (k / (rowT a).length), ?_⟩
    rw [← hX.cells _ (Nat.mod_lt _ hrpos) _ (Nat.div_lt_of_lt_mul hk)]
    congr 1
    rw [Nat.mul_comm]; exact (Nat.mod_add_div k _).symm
  have hbuf : buf = (buf.map fun x => x.getD 0).map some := by
    apply List.ext_getElem?
    intro k
    by_cases hk : k < buf.length
    · obtain ⟨x, hx⟩ := hall k hk
      simp [hx]
    · simp [List.getElem?_eq_none (not_lt.1 hk)]
  refine ⟨buf.map fun x => x.getD 0, by conv_lhs => rw [hbuf, readAll_map], fun i j => ?_⟩
  have := hX.cells i (by rw [hr]; exact i.isLt) j (by rw [hc]; exact j.isLt)
  rw [hr, Nat.add_comm] at this
  simp [List.getD, this]

/-- **C37 and C36 at the level of the API.** Whenever `sim_2d_data_patefield` returns, for any table,
seed, random seed and history, the result has as many rows as the table has columns and vice versa, no
negative entry, row totals equal to the (rounded) column totals of the table and column totals equal to
its (rounded) row totals. -/
theorem patefield_py_result {env : SimEnv F} (hR : RoundOK env.ops) (d : Draws F) {a : Arr2 ℝ}
    {seed : Option ℤ} {t : Arr2 ℤ} (h : simPatefield env d a seed = .ok t) :
    ∃ v : Fin a.c → Fin a.r → ℤ, t = ⟨a.c, a.r, v⟩ ∧ (∀ j i, 0 ≤ v j i) ∧
      (∀ j, ∑ i, v j i = rint (∑ i, a.v i j)) ∧ (∀ i, ∑ j, v j i = rint (∑ j, a.v i j)) := by
  have hc : env.cpp = true := by
    by_contra hc
    rw [(patefield_no_extension (by simpa using hc) d a seed).1] at h
    cases h
  rw [simPatefield_eq hc] at h
  split at h
  · cases h
  split at h
  · cases h
  rename_i h1 h2
  rw [not_not] at h1 h2
  cases hrun : runCall env.ops env.fuel env.passes d.statics ⟨rowT a, colT a, usedSeed d seed⟩ with
  | error e => rw [hrun] at h; cases h
  | ok p =>
    obtain ⟨st, res⟩ := p
    rw [hrun] at h
    cases res with
    | error e => cases h
    | ok buf =>
      have hv := cpp_ok_valid hrun
      obtain ⟨buf', X, hb, hX⟩ := patefield_margins hR hv _ _ _ h2 (by simp) hrun
      cases hb
      obtain ⟨l, hl, hlX⟩ := holds_table hX
      simp only [hl, Except.map, Except.ok.injEq] at h
      have hr : (rowT a).length = a.r := by simp [rowT]
      have hc : (colT a).length = a.c := by simp [colT]
      refine ⟨fun j i => X i j, ?_, fun j i => ?_, fun j => ?_, fun i => ?_⟩
      · rw [← h]
        congr 1
        funext j i
        exact hlX i j
      · exact hX.nonneg i (by rw [hr]; exact i.isLt) j (by rw [hc]; exact j.isLt)
      · have := hX.cols j (by rw [hc]; exact j.isLt)
        rw [hr, Finset.sum_range] at this
        rw [this]
        simp [colT, Arr2.colSum]
      · have := hX.rows i (by rw [hr]; exact i.isLt)
        rw [hc, Finset.sum_range] at this
        rw [this]
        simp [rowT, Arr2.rowSum]

/-- Margins of a table with whole row and column sums. -/
theorem whole_margins {a : Arr2 ℝ} (hr : WholeRows a) (hc : WholeCols a) (h2r : 2 ≤ a.r) (h2c : 2 ≤ a.c) :
    ValidMargins (rowT a) (colT a) ∧ (((rowT a).sum : ℤ) : ℝ) = a.total := by
  choose R hR0 hR using hr
  choose C hC0 hC using hc
  have er : rowT a = (List.finRange a.r).map fun i => (R i : ℤ) := by
    apply List.map_congr_left
    intro i _
    change rint (∑ j, a.v i j) = R i
    rw [hR]; exact rint_nat _
  have ec : colT a = (List.finRange a.c).map fun j => (C j : ℤ) := by
    apply List.map_congr_left
    intro j _
    change rint (∑ i, a.v i j) = C j
    rw [hC]; exact rint_nat _
  have sr : (rowT a).sum = ∑ i, (R i : ℤ) := by rw [er, ← List.ofFn_eq_map, List.sum_ofFn]
  have sc : (colT a).sum = ∑ j, (C j : ℤ) := by rw [ec, ← List.ofFn_eq_map, List.sum_ofFn]
  have tr : ((∑ i, (R i : ℤ) : ℤ) : ℝ) = a.total := by
    push_cast; unfold Arr2.total; exact Finset.sum_congr rfl fun i _ => (hR i).symm
  have tc : ((∑ j, (C j : ℤ) : ℤ) : ℝ) = a.total := by
    push_cast; unfold Arr2.total; rw [Finset.sum_comm]
    exact Finset.sum_congr rfl fun i _ => (hC i).symm
  refine ⟨⟨by simpa [rowT] using h2r, by simpa [colT] using h2c, ?_, ?_, ?_⟩, by rw [sr, tr]⟩
  · rw [er]; intro v hv
    obtain ⟨i, -, rfl⟩ := List.mem_map.1 hv
    exact_mod_cast hR0 i
  · rw [ec]; intro v hv
    obtain ⟨i, -, rfl⟩ := List.mem_map.1 hv
    exact_mod_cast hC0 i
  · rw [sr, sc]; exact_mod_cast tr.trans tc.symm

theorem int32_of_valid {R C : List ℤ} (hv : ValidMargins R C) (hN : R.sum ≤ 46340) :
    ∀ x ∈ R ++ C, inInt32 x := by
  intro x hx
  have h1 := hv.sums
  rcases List.mem_append.1 hx with h | h
  · have := List.single_le_sum (fun y hy => (hv.pos_rows y hy).le) x h
    have := hv.pos_rows x h
    exact ⟨by omega, by omega⟩
  · have := List.single_le_sum (fun y hy => (hv.pos_cols y hy).le) x h
    have := hv.pos_cols x h
    exact ⟨by omega, by omega⟩

/-- **C36/C37, totality.** For a table of at least two rows and columns whose row and column sums are
whole positive numbers, with a total of at most 46340, `sim_2d_data_patefield` returns a table with the
exact totals, transposed, for every seed, random seed and history. -/
theorem patefield_py_total {env : SimEnv F} (hcpp : env.cpp = true) (hR : RoundOK env.ops) {G : F → Prop}
    (hL : FloatLaws env.ops G) {d : Draws F} (hd : GoodDraws d) {a : Arr2 ℝ} (hr : WholeRows a)
    (hc : WholeCols a) (h2r : 2 ≤ a.r) (h2c : 2 ≤ a.c) (hN : ∑ i, ∑ j, a.v i j ≤ 46340)
    (hfuel : ∑ i, ∑ j, a.v i j + 2 ≤ env.fuel) (hpass : 2 ≤ env.passes) {seed : Option ℤ}
    (hs : ∀ s, seed = some s → inInt32 s) :
    ∃ v : Fin a.c → Fin a.r → ℤ, simPatefield env d a seed = .ok ⟨a.c, a.r, v⟩ ∧ (∀ j i, 0 ≤ v j i) ∧
      (∀ j, ((∑ i, v j i : ℤ) : ℝ) = ∑ i, a.v i j) ∧ (∀ i, ((∑ j, v j i : ℤ) : ℝ) = ∑ j, a.v i j) := by
  obtain ⟨hv, htot⟩ := whole_margins hr hc h2r h2c
  have hN' : (rowT a).sum ≤ 46340 := by
    have : (((rowT a).sum : ℤ) : ℝ) ≤ 46340 := by rw [htot]; exact hN
    exact_mod_cast this
  have hfuel' : (rowT a).sum + 2 ≤ env.fuel := by
    have : (((rowT a).sum + 2 : ℤ) : ℝ) ≤ env.fuel := by
      rw [Int.cast_add, htot]; exact_mod_cast hfuel
    exact_mod_cast this
  have hseed := usedSeed_int32 hd hs
  obtain ⟨st', buf, X, hrun, hX⟩ := patefield_total hR hL hv hN' hfuel' hpass d.statics hseed
    (buf := List.replicate ((rowT a).length * (colT a).length) none) (by simp)
  obtain ⟨l, hl, -⟩ := holds_table hX
  have : ∃ t, simPatefield env d a seed = .ok t := by
    rw [simPatefield_eq hcpp, if_neg (not_not.2 (int32_of_valid hv hN')), if_neg (not_not.2 hseed)]
    have hrun' : runCall env.ops env.fuel env.passes d.statics ⟨rowT a, colT a, usedSeed d seed⟩ =
      .ok (st', .ok buf) := hrun
    rw [hrun']
    simp only [hl, Except.map]
    exact ⟨_, rfl⟩
  obtain ⟨t, ht⟩ := this
  obtain ⟨v, rfl, h1, h2, h3⟩ := patefield_py_result hR d ht
  refine ⟨v, ht, h1, fun j => ?_, fun i => ?_⟩
  · rw [h2]; obtain ⟨k, -, hk⟩ := hc j; rw [hk, rint_nat]; simp
  · rw [h3]; obtain ⟨k, -, hk⟩ := hr i; rw [hk, rint_nat]; simp

/-- **C37.** The transposed orientation has no effect on the test statistic computed from the sample. -/
theorem patefield_py_chi2 (t : Arr2 ℤ) (lambda : String) :
    getChi2 t.toReal lambda = getChi2 t.transpose.toReal lambda :=
  (get_chi2_swap t.toReal lambda).symm

/-! ### seeds -/

theorem runCall_congr {O : FloatOps F} {fuel passes : ℕ} (st st' : Statics F) (c : Call) {β : Type}
    (f : List (Option ℤ) → Except Err β) :
    (match runCall O fuel passes st c with
      | .error e => Except.error e
      | .ok (_, .error e) => .error e
      | .ok (_, .ok buf) => f buf) =
    (match runCall O fuel passes st' c with
      | .error e => .error e
      | .ok (_, .error e) => .error e
      | .ok (_, .ok buf) => f buf) := by
  have := patefield_state_irrelevant (O := O) fuel passes st st' c
  revert this
  rcases runCall O fuel passes st c with e | ⟨s, r⟩ <;> rcases runCall O fuel passes st' c with e' | ⟨s', r'⟩ <;>
    simp only [Except.map]
  · intro h; cases h; rfl
  · intro h; cases h
  · intro h; cases h
  · intro h; cases h; cases r <;> rfl

/-- **C41.** With a seed other than 0 the sampled table depends only on the row and column totals and on
the seed: not on the entries, on the random state (`d`), or on what the process has done before. -/
theorem patefield_py_reproducible {env : SimEnv F} (d d' : Draws F) {r c : ℕ}
    {v w : Fin r → Fin c → ℝ} (hrow : ∀ i, ∑ j, v i j = ∑ j, w i j) (hcol : ∀ j, ∑ i, v i j = ∑ i, w i j)
    {s : ℤ} (hs : s ≠ 0) :
    simPatefield env d ⟨r, c, v⟩ (some s) = simPatefield env d' ⟨r, c, w⟩ (some s) := by
  by_cases hc : env.cpp = true
  · have e1 : rowT ⟨r, c, v⟩ = rowT ⟨r, c, w⟩ := by
      apply List.map_congr_left; intro i _; exact congrArg rint (hrow i)
    have e2 : colT ⟨r, c, v⟩ = colT ⟨r, c, w⟩ := by
      apply List.map_congr_left; intro i _; exact congrArg rint (hcol i)
    have e3 : ∀ e : Draws F, usedSeed e (some s) = s := fun e => by simp [usedSeed, hs]
    rw [simPatefield_eq hc, simPatefield_eq hc, e1, e2, e3, e3]
    congr 1
    congr 1
    exact runCall_congr _ _ _ _
  · rw [(patefield_no_extension (by simpa using hc) d _ _).1,
      (patefield_no_extension (by simpa using hc) d' _ _).1]

/-- **C41 (violation).** Seed 0 is not a seed: it is replaced by the random seed, like no seed at all. -/
theorem patefield_py_seed_zero (env : SimEnv F) (d d' : Draws F) (a : Arr2 ℝ) :
    simPatefield env d a (some 0) = simPatefield env d a none ∧
    (d.seed ≠ 0 → simPatefield env d a (some 0) = simPatefield env d' a (some d.seed)) := by
  constructor
  · simp [simPatefield]
  · intro h
    by_cases hc : env.cpp = true
    · have e1 : usedSeed d (some 0) = d.seed := by simp [usedSeed]
      have e2 : usedSeed d' (some d.seed) = d.seed := by simp [usedSeed, h]
      rw [simPatefield_eq hc, simPatefield_eq hc, e1, e2]
      congr 1
      congr 1
      exact runCall_congr _ _ _ _
    · rw [(patefield_no_extension (by simpa using hc) d _ _).1,
        (patefield_no_extension (by simpa using hc) d' _ _).1]

/-- The 2 by 2 table of ones, and an extension with exact arithmetic. -/
def ones : Arr2 ℝ := ⟨2, 2, fun _ _ => 1⟩

def exactEnv : SimEnv ℚ :=
  ⟨ratOps (fun x => x) (fun _ => 1 / 2) (fun x => x) (1 / 2147483647), 9, 2, true⟩

theorem exactEnv_round : RoundOK exactEnv.ops := ratOps_roundOK Rounding_id _ _ _

theorem exactEnv_laws : ∃ G, FloatLaws exactEnv.ops G :=
  ⟨_, ratOps_laws Rounding_id (fun _ => 1 / 2) (fun x => x) (fun _ => by norm_num) (1 / 2147483647)
    (by norm_num) (by norm_num)⟩

theorem rowT_ones : rowT ones = [2, 2] := by
  have : (fun i => rint (ones.rowSum i)) = fun _ => 2 := by
    funext i
    have : ones.rowSum i = ((2 : ℤ) : ℝ) := by
      change ∑ j : Fin 2, (1 : ℝ) = _
      norm_num
    rw [this, rint_int]
  unfold rowT
  rw [this]; rfl

theorem colT_ones : colT ones = [2, 2] := by
  have : (fun i => rint (ones.colSum i)) = fun _ => 2 := by
    funext i
    have : ones.colSum i = ((2 : ℤ) : ℝ) := by
      change ∑ j : Fin 2, (1 : ℝ) = _
      norm_num
    rw [this, rint_int]
  unfold colT
  rw [this]; rfl

/-- Good draws with a given random seed. -/
noncomputable def seeded (s : ℤ) : Draws ℚ :=
  ⟨fun _ _ n p => open scoped Classical in if p = 1 then n else 0, s, initStatics⟩

theorem seeded_good {s : ℤ} (h0 : 0 ≤ s) (h1 : s < 2147483646) : GoodDraws (seeded s) := by
  refine ⟨fun i j n p => ?_, fun i j n => ?_, fun i j n => ?_, h0, h1⟩
  · simp only [seeded]; split <;> omega
  · simp [seeded]
  · simp [seeded]

/-- The hypotheses of `patefield_py_total` can be met. -/
example : ∃ v : Fin 2 → Fin 2 → ℤ, simPatefield exactEnv (seeded 5) ones none = .ok ⟨2, 2, v⟩ ∧
    (∀ j i, 0 ≤ v j i) ∧ (∀ j, ((∑ i, v j i : ℤ) : ℝ) = ∑ i : Fin 2, (1 : ℝ)) ∧
    (∀ i, ((∑ j, v j i : ℤ) : ℝ) = ∑ j : Fin 2, (1 : ℝ)) := by
  obtain ⟨G, hL⟩ := exactEnv_laws
  have h2 : ∑ _i : Fin 2, (1 : ℝ) = (2 : ℕ) := by norm_num
  have h4 : ∑ i, ∑ j, ones.v i j = 4 := by
    change ∑ _i : Fin 2, ∑ _j : Fin 2, (1 : ℝ) = 4
    norm_num
  exact patefield_py_total (a := ones) rfl exactEnv_round hL (seeded_good (by norm_num) (by norm_num))
    (fun i => ⟨2, by norm_num, h2⟩) (fun j => ⟨2, by norm_num, h2⟩) le_rfl le_rfl (by rw [h4]; norm_num)
    (by rw [h4]; norm_num [exactEnv]) le_rfl (fun s hs => by cases hs)

/-- What the extension writes for the table of ones and a seed. -/
def onesBuffer (s : ℤ) : Option (List (Option ℤ)) :=
  match runCall exactEnv.ops exactEnv.fuel exactEnv.passes initStatics ⟨[2, 2], [2, 2], s⟩ with
  | .ok (_, .ok l) => some l
  | _ => none

theorem onesBuffer_1 : onesBuffer 1 = some [some 1, some 1, some 1, some 1] := by decide +kernel
theorem onesBuffer_2 : onesBuffer 2000000000 = some [some 0, some 2, some 2, some 0] := by decide +kernel

theorem ones_sample {s : ℤ} (h0 : inInt32 s) {l : List ℤ} (h : onesBuffer s = some (l.map some)) :
    simPatefield exactEnv (seeded s) ones (some 0) = .ok ⟨2, 2, fun i j => l.getD (i * 2 + j) 0⟩ := by
  have hu : usedSeed (seeded s) (some 0) = s := by simp [usedSeed, seeded]
  rw [simPatefield_eq rfl, rowT_ones, colT_ones, hu, if_neg (not_not.2 (by
    intro x hx; simp at hx; subst hx; exact ⟨by norm_num, by norm_num⟩)), if_neg (not_not.2 h0)]
  unfold onesBuffer at h
  rw [show (seeded s).statics = initStatics from rfl]
  revert h
  rcases runCall exactEnv.ops exactEnv.fuel exactEnv.passes initStatics ⟨[2, 2], [2, 2], s⟩ with e | ⟨st, e | b⟩
  · intro h; cases h
  · intro h; cases h
  · intro h
    simp only [Option.some.injEq] at h
    subst h
    dsimp only
    rw [readAll_map]; rfl

/-- **C41 (violation, witness).** Two calls with `seed=0` on the same table can return different tables:
the result depends on the random state although a seed was given. -/
theorem patefield_py_seed_zero_random : ∃ d d' : Draws ℚ, GoodDraws d ∧ GoodDraws d' ∧
    d.statics = d'.statics ∧
    ∃ t t', simPatefield exactEnv d ones (some 0) = .ok t ∧ simPatefield exactEnv d' ones (some 0) = .ok t' ∧
      t ≠ t' := by
  refine ⟨seeded 1, seeded 2000000000, seeded_good (by norm_num) (by norm_num),
    seeded_good (by norm_num) (by norm_num), rfl, _, _,
    ones_sample (l := [1, 1, 1, 1]) ⟨by norm_num, by norm_num⟩ (by rw [onesBuffer_1]; rfl),
    ones_sample (l := [0, 2, 2, 0]) ⟨by norm_num, by norm_num⟩ (by rw [onesBuffer_2]; rfl), ?_⟩
  intro h
  simp only [Arr2.mk.injEq, heq_eq_eq, true_and] at h
  have := congrFun (congrFun h 0) 0
  simp at this

end Props
end Phik
