import Verif.Lemmas.Rcont2Top
import Verif.Lemmas.Float

/-!
# Properties C36, C38-C42 of the fixed-margin (Patefield) sampler

All statements are for an arbitrary float arithmetic `O`; `RoundOK O` (the cast of the conditional
expectation is feasible) and `FloatLaws O G` (used for termination only) are shown to hold for every
monotone rounding of the rationals (`ratOps_roundOK`, `ratOps_laws`).
-/

namespace Phik.Props

open Finset Spec

variable {F : Type} {O : FloatOps F}

/-- A concrete pair of margins used to show that hypotheses can be met. -/
theorem margins_ok : ValidMargins [3, 2] [1, 2, 2] :=
  ⟨by simp, by simp, by simp, by simp, by simp⟩

/-- **C36.** Whenever the sampler returns for valid margins, it has produced a table with exactly the
requested row and column totals and no negative entry, for every seed, every previous state of the
process, every content of the result buffer and every float arithmetic. -/
theorem patefield_margins (hR : RoundOK O) {nrowt ncolt : List ℤ} (hv : ValidMargins nrowt ncolt)
    (fuel passes : ℕ) (st : Statics F) {seed : ℤ} (hseed : inInt32 seed) {buf : List (Option ℤ)}
    (hlen : buf.length = nrowt.length * ncolt.length) {st' : Statics F}
    {res : Except Err (List (Option ℤ))}
    (h : simPatefieldCpp O fuel passes nrowt.length ncolt.length nrowt ncolt st seed buf =
      .ok (st', res)) :
    ∃ buf' X, res = .ok buf' ∧ HoldsTable nrowt ncolt buf' X := by
  have hp := rcont2_post (O := O) (G := fun _ => True) (T := False) hR (fun _ => trivial)
    (fun _ _ _ _ => trivial) (fun _ _ _ _ _ _ => trivial) (fun h => h.elim) nrowt ncolt hv fuel
    (fun h => h.elim) passes (fun h => h.elim) st seed hseed buf hlen
  unfold simPatefieldCpp at h
  obtain ⟨out, h1, h2⟩ := bind_eq_ok.1 h
  obtain ⟨g1, -, X, g3⟩ := hp.of_ok h1
  rw [if_neg (by simp [g1])] at h2
  simp only [Except.ok.injEq, Prod.mk.injEq] at h2
  exact ⟨out.matrix, X, h2.2.symm, g3⟩

/-- **C39 (safety).** For valid margins the sampler never reads or writes out of bounds, never reads
an unset variable and never divides by zero: the only possible failures of the model are running out
of fuel (non-termination) and 32-bit overflow, and the latter only when the total exceeds 46340. -/
theorem patefield_safe (hR : RoundOK O) {nrowt ncolt : List ℤ} (hv : ValidMargins nrowt ncolt)
    (fuel passes : ℕ) (st : Statics F) {seed : ℤ} (hseed : inInt32 seed) {buf : List (Option ℤ)}
    (hlen : buf.length = nrowt.length * ncolt.length) {e : Err}
    (h : simPatefieldCpp O fuel passes nrowt.length ncolt.length nrowt ncolt st seed buf = .error e) :
    e = .fuel ∨ e = .overflow ∧ 46340 < nrowt.sum := by
  have hp := rcont2_post (O := O) (G := fun _ => True) (T := False) hR (fun _ => trivial)
    (fun _ _ _ _ => trivial) (fun _ _ _ _ _ _ => trivial) (fun h => h.elim) nrowt ncolt hv fuel
    (fun h => h.elim) passes (fun h => h.elim) st seed hseed buf hlen
  unfold simPatefieldCpp at h
  cases hc : rcont2 O (r8Uniform01 O) fuel passes nrowt.length ncolt.length nrowt ncolt false st seed buf with
  | error e' =>
    rw [hc] at h hp
    simp only [bind, Except.bind, Except.error.injEq] at h
    subst h
    cases e' <;> simp_all [BadErr]
  | ok out =>
    rw [hc] at h
    simp only [bind, Except.bind] at h
    split at h <;> simp at h

/-- **C38.** Under the float laws the sampler never runs out of fuel when each search loop may take
`total + 2` steps and each entry two passes of the rejection loop: it terminates. -/
theorem patefield_terminates (hR : RoundOK O) {G : F → Prop} (hL : FloatLaws O G)
    {nrowt ncolt : List ℤ} (hv : ValidMargins nrowt ncolt) {fuel passes : ℕ}
    (hfuel : nrowt.sum + 2 ≤ fuel) (hpass : 2 ≤ passes) (st : Statics F) {seed : ℤ}
    (hseed : inInt32 seed) {buf : List (Option ℤ)}
    (hlen : buf.length = nrowt.length * ncolt.length) :
    simPatefieldCpp O fuel passes nrowt.length ncolt.length nrowt ncolt st seed buf ≠ .error .fuel := by
  have hp := rcont2_post (O := O) (G := G) (T := True) hR hL.exp hL.add hL.step (fun _ => hL.draw)
    nrowt ncolt hv fuel (fun _ => hfuel) passes (fun _ => hpass) st seed hseed buf hlen
  intro h
  unfold simPatefieldCpp at h
  cases hc : rcont2 O (r8Uniform01 O) fuel passes nrowt.length ncolt.length nrowt ncolt false st seed buf with
  | error e' =>
    rw [hc] at h hp
    simp only [bind, Except.bind, Except.error.injEq] at h
    subst h
    exact hp trivial
  | ok out =>
    rw [hc] at h
    simp only [bind, Except.bind] at h
    split at h <;> simp at h

/-- **C36/C38/C39 together.** For valid margins with a total of at most 46340 the sampler returns a
table with these margins, for every seed and history. -/
theorem patefield_total (hR : RoundOK O) {G : F → Prop} (hL : FloatLaws O G)
    {nrowt ncolt : List ℤ} (hv : ValidMargins nrowt ncolt) (hN : nrowt.sum ≤ 46340)
    {fuel passes : ℕ} (hfuel : nrowt.sum + 2 ≤ fuel) (hpass : 2 ≤ passes) (st : Statics F) {seed : ℤ}
    (hseed : inInt32 seed) {buf : List (Option ℤ)}
    (hlen : buf.length = nrowt.length * ncolt.length) :
    ∃ st' buf' X, simPatefieldCpp O fuel passes nrowt.length ncolt.length nrowt ncolt st seed buf =
      .ok (st', .ok buf') ∧ HoldsTable nrowt ncolt buf' X := by
  cases h : simPatefieldCpp O fuel passes nrowt.length ncolt.length nrowt ncolt st seed buf with
  | error e =>
    rcases patefield_safe hR hv fuel passes st hseed hlen h with rfl | ⟨_, h2⟩
    · exact absurd h (patefield_terminates hR hL hv hfuel hpass st hseed hlen)
    · omega
  | ok v =>
    obtain ⟨st', res⟩ := v
    obtain ⟨b, X, rfl, h2⟩ := patefield_margins hR hv fuel passes st hseed hlen h
    exact ⟨st', b, X, rfl, h2⟩

/-- The hypotheses of the four theorems above can be met: exact rational arithmetic. -/
example : ∃ st' buf' X, simPatefieldCpp (ratOps (fun x => x) (fun _ => 1) (fun x => x) 0) 7 2 2 3
    [3, 2] [1, 2, 2] ⟨none, 0⟩ 7 (List.replicate 6 none) = .ok (st', .ok buf') ∧
    HoldsTable [3, 2] [1, 2, 2] buf' X :=
  patefield_total (nrowt := [3, 2]) (ncolt := [1, 2, 2]) (ratOps_roundOK Rounding_id _ _ _)
    (ratOps_laws Rounding_id _ _ (fun _ => by norm_num) 0 (le_refl _) (by norm_num)) margins_ok
    (by simp) (by simp) (le_refl _) ⟨none, 0⟩ ⟨by norm_num, by norm_num⟩ (by simp)

/-- **C36/C38/C39 for binary64 arithmetic.** With round-to-nearest-even binary64 arithmetic, the
binary64 value of the random-number constant, any `log` and any non-negative `exp`, the sampler
returns a table with the requested margins, for every valid pair of margins with a total of at most
46340, every seed and every history. -/
theorem patefield_binary64 {ex lg : ℚ → ℚ} (hex : ∀ x, 0 ≤ ex x) {nrowt ncolt : List ℤ}
    (hv : ValidMargins nrowt ncolt) (hN : nrowt.sum ≤ 46340) {fuel passes : ℕ}
    (hfuel : nrowt.sum + 2 ≤ fuel) (hpass : 2 ≤ passes) (st : Statics ℚ) {seed : ℤ}
    (hseed : inInt32 seed) {buf : List (Option ℤ)}
    (hlen : buf.length = nrowt.length * ncolt.length) :
    ∃ st' buf' X, simPatefieldCpp (ratOps rne53 ex lg uniLit) fuel passes nrowt.length ncolt.length
      nrowt ncolt st seed buf = .ok (st', .ok buf') ∧ HoldsTable nrowt ncolt buf' X :=
  patefield_total (ratOps_roundOK Rounding_rne53 _ _ _)
    (ratOps_laws Rounding_rne53 _ _ hex _ uniLit_bounds.1 uniLit_bounds.2) hv hN hfuel hpass st
    hseed hlen

example : ∃ st' buf' X, simPatefieldCpp (ratOps rne53 (fun _ => 1) (fun x => x) uniLit) 7 2 2 3
    [3, 2] [1, 2, 2] ⟨none, 0⟩ 7 (List.replicate 6 none) = .ok (st', .ok buf') ∧
    HoldsTable [3, 2] [1, 2, 2] buf' X :=
  patefield_binary64 (nrowt := [3, 2]) (ncolt := [1, 2, 2]) (fun _ => by norm_num) margins_ok
    (by simp) (by simp) (le_refl _) ⟨none, 0⟩ ⟨by norm_num, by norm_num⟩ (by simp)

/-- **C39.** What the model counts as undefined behaviour: reading or writing outside of an array (also at negative indices), reading an
entry that was never written, and an integer outside of 32 bits raise the corresponding error, and nothing else does.  So "no error" in
`patefield_safe` and `patefield_total` excludes all of these. -/
theorem memory_checks {α : Type} (a : List α) (b : List (Option ℤ)) (i v x : ℤ) (y : α) :
    (rd a i = .ok y ↔ 0 ≤ i ∧ a[i.toNat]? = some y) ∧ (¬ (0 ≤ i ∧ i < a.length) → rd a i = .error .oob) ∧
    (rdO b i = .ok v ↔ 0 ≤ i ∧ b[i.toNat]? = some (some v)) ∧ (0 ≤ i ∧ b[i.toNat]? = some none → rdO b i = .error .uninit) ∧
    (0 ≤ i ∧ i < b.length → wr b i v = .ok (b.set i.toNat (some v))) ∧ (¬ (0 ≤ i ∧ i < b.length) → wr b i v = .error .oob) ∧
    (-2 ^ 31 ≤ x ∧ x ≤ 2 ^ 31 - 1 → int32 x = .ok x) ∧ (¬ (-2 ^ 31 ≤ x ∧ x ≤ 2 ^ 31 - 1) → int32 x = .error .overflow) := by
  have hrd : ∀ {β : Type} (a : List β) (y : β), rd a i = .ok y ↔ 0 ≤ i ∧ a[i.toNat]? = some y := by
    intro β a y
    unfold rd
    by_cases h : i < 0
    · rw [if_pos h]
      exact ⟨fun h => (by cases h), fun h' => absurd h'.1 (by omega)⟩
    · rw [if_neg h]
      cases a[i.toNat]? with
      | none => exact ⟨fun h => (by cases h), fun h2 => (by cases h2.2)⟩
      | some z => simp only [Except.ok.injEq, Option.some.injEq]; exact ⟨fun h' => ⟨by omega, h'⟩, fun h' => h'.2⟩
  refine ⟨hrd a y, fun h => ?_, ?_, fun h => ?_, fun h => ?_, fun h => ?_, fun h => ?_, fun h => ?_⟩
  · unfold rd
    by_cases h0 : i < 0
    · rw [if_pos h0]
    · rw [if_neg h0, List.getElem?_eq_none (by omega)]
  · unfold rdO
    cases hr : rd b i with
    | error e =>
      refine ⟨fun h => (by cases h), fun h => ?_⟩
      rw [(hrd b (some v)).2 h] at hr
      cases hr
    | ok z =>
      have hz := (hrd b z).1 hr
      cases z with
      | none => exact ⟨fun h => (by cases h), fun h => by rw [hz.2] at h; cases h.2⟩
      | some z =>
        rw [hz.2]
        change (Except.ok z = .ok v) ↔ _
        simp [hz.1]
  · unfold rdO
    rw [(hrd b none).2 h]
    rfl
  · unfold wr
    rw [if_pos ⟨h.1, by omega⟩]
  · unfold wr
    rw [if_neg (fun h' => h ⟨h'.1, by omega⟩)]
  · unfold int32
    rw [if_pos (by unfold inInt32; omega)]
  · unfold int32
    rw [if_neg (by unfold inInt32; omega)]

/-- **C39 (violated part).** Whenever the product of the first row total and the first column total
exceeds the `int` range, the sampler overflows, whatever the seed and the float arithmetic, although
the margins are valid and their total fits in an `int`. -/
theorem patefield_overflow {nrowt ncolt : List ℤ} (hv : ValidMargins nrowt ncolt)
    (hN : nrowt.sum ≤ 2147483646) {a b : ℤ} (ha : nrowt[0]? = some a) (hb : ncolt[0]? = some b)
    (hab : 2147483647 < a * b) (fuel passes : ℕ) (hpass : 0 < passes) (st : Statics F) {seed : ℤ}
    (hseed : inInt32 seed) (buf : List (Option ℤ)) :
    simPatefieldCpp O fuel passes nrowt.length ncolt.length nrowt ncolt st seed buf =
      .error .overflow := by
  obtain ⟨h1, h2, h3, h4, h5⟩ := hv
  obtain ⟨a0, a1⟩ := List.getElem?_eq_some_iff.1 ha
  obtain ⟨b0, b1⟩ := List.getElem?_eq_some_iff.1 hb
  have hapos : 0 < a := a1 ▸ h3 _ (List.getElem_mem a0)
  have hbpos : 0 < b := b1 ▸ h4 _ (List.getElem_mem b0)
  have haN : a ≤ nrowt.sum := by
    rw [← a1]; exact List.single_le_sum (fun v hv => le_of_lt (h3 v hv)) _ (List.getElem_mem a0)
  have hbN : b ≤ nrowt.sum := by
    rw [h5, ← b1]; exact List.single_le_sum (fun v hv => le_of_lt (h4 v hv)) _ (List.getElem_mem b0)
  have hrd : rd nrowt (0 : ℤ) = .ok a := by have := rd_nat a0; rw [a1] at this; exact_mod_cast this
  have hcell : ∀ r s d fact ib ic ie ii,
      cellLoop O (r8Uniform01 O) fact fuel a ib ic b ie ii passes r s d = .error .overflow := by
    intro r s d fact ib ic ie ii
    cases passes with
    | zero => omega
    | succ n =>
      unfold cellLoop firstGuess
      have : int32 (a * b) = .error .overflow := by
        unfold int32; rw [if_neg]; intro h; have := h.2; omega
      rw [this]; rfl
  obtain ⟨jw, hjw, hj1, hj2⟩ := (initWork_post (E := fun _ => False) (ncol := ncolt.length) ncolt
    (fun j => ncolt.getD j 0) (fun j hj => by simp [List.getD_eq_getElem?_getD, hj])
    (ncolt.length - 1) 0 (by omega) (List.replicate ncolt.length none) (by simp)
    (by intro j hj; omega)).total
  have hj0 : rdO jw (0 : ℤ) = .ok b := by
    have := rdO_nat (hj2 0 (by omega))
    simpa [List.getD_eq_getElem?_getD, b1, b0] using this
  have e1 : ((ncolt.length : ℤ) - 1).toNat = ncolt.length - 1 := by omega
  have e2 : ((nrowt.length : ℤ) - 1).toNat = (nrowt.length - 2) + 1 := by omega
  have e3 : ncolt.length - 1 = (ncolt.length - 2) + 1 := by omega
  unfold simPatefieldCpp rcont2
  rw [if_neg (by simp), if_neg (by omega), if_neg (by omega), allPos_all, allPos_all]
  simp only [bind, Except.bind]
  rw [decide_eq_true h3, decide_eq_true h4]
  simp only [Bool.not_true, Bool.false_eq_true, if_false]
  rw [i4vecSum_eq _ h4 (by omega), i4vecSum_eq _ h3 (by omega)]
  simp only []
  rw [if_neg (by simp [h5]), int32_of ⟨by omega, by omega⟩]
  unfold rcont2Body
  simp only [bind, Except.bind]
  rw [e1, e2]
  have hjw' : initWork ncolt (ncolt.length - 1) 0 (List.replicate (ncolt.length : ℤ).toNat none) =
      .ok jw := by simpa using hjw
  rw [hjw']
  simp only []
  unfold rowsLoop
  simp only [bind, Except.bind]
  rw [hrd]
  simp only []
  rw [int32_of ⟨by omega, by omega⟩, e1, e3]
  unfold rowLoop
  simp only [bind, Except.bind]
  rw [hj0]
  simp only []
  rw [int32_of ⟨by omega, by omega⟩, int32_of ⟨by omega, by omega⟩]
  simp only []
  rw [int32_of ⟨by omega, by omega⟩]
  simp only []
  rw [if_neg (by omega)]
  have hr8 : r8Uniform01 O seed = .ok (O.mul (O.ofInt (16807 * seed % 2147483647)) O.uni, 16807 * seed % 2147483647) := by
    unfold r8Uniform01
    rw [nextSeed_eq hseed]
    rfl
  simp only [hr8, hcell]

/-- Such margins exist with a total of 100000. -/
example : ValidMargins [50000, 50000] [50000, 50000] ∧
    [50000, 50000].sum ≤ (2147483646 : ℤ) ∧ (2147483647 : ℤ) < 50000 * 50000 :=
  ⟨⟨by simp, by simp, by simp, by simp, by simp⟩, by simp, by norm_num⟩

/-- **C40.** For every 32-bit seed the generator's next state is `16807 * seed mod (2^31 - 1)`, with no
intermediate overflow (`nextSeed` would return `Err.overflow`). -/
theorem rng_step {s : ℤ} (h : inInt32 s) : nextSeed s = .ok (16807 * s % 2147483647) := nextSeed_eq h

theorem rng_inv (s : ℤ) : 1407677000 * (16807 * s) % 2147483647 = s % 2147483647 := by
  have : 1407677000 * (16807 * s) = s + 2147483647 * (11017 * s) := by ring
  rw [this, Int.add_mul_emod_self_left]

theorem rng_inv' {s t : ℤ} (h : 16807 * s % 2147483647 = 16807 * t % 2147483647) :
    s % 2147483647 = t % 2147483647 := by
  rw [← rng_inv s, ← rng_inv t, Int.mul_emod, h, ← Int.mul_emod]

/-- **C40.** Seeds in `1 .. 2^31-2` stay there: the generator never degenerates. -/
theorem rng_range {s t : ℤ} (h1 : 1 ≤ s) (h2 : s ≤ 2147483646) (h : nextSeed s = .ok t) :
    1 ≤ t ∧ t ≤ 2147483646 := by
  rw [nextSeed_eq ⟨by omega, by omega⟩] at h
  simp only [Except.ok.injEq] at h
  have hne : t ≠ 0 := by
    rintro rfl
    have := rng_inv' (s := s) (t := 0) (by rw [h]; rfl)
    omega
  omega

example : nextSeed 12345 = .ok 207482415 := by rw [nextSeed_eq ⟨by norm_num, by norm_num⟩]; norm_num

/-- **C40.** Distinct seeds have distinct successors on `0 .. 2^31-2`: no state is lost. -/
theorem rng_injective {s s' t : ℤ} (h0 : 0 ≤ s) (h1 : s ≤ 2147483646) (h0' : 0 ≤ s')
    (h1' : s' ≤ 2147483646) (h : nextSeed s = .ok t) (h' : nextSeed s' = .ok t) : s = s' := by
  rw [nextSeed_eq ⟨by omega, by omega⟩] at h h'
  simp only [Except.ok.injEq] at h h'
  have := rng_inv' (h.trans h'.symm)
  clear h h'
  rwa [Int.emod_eq_of_lt h0 (by omega), Int.emod_eq_of_lt h0' (by omega)] at this

/-- **C40.** Exactly the seeds `0` and `±(2^31-1)` lead to state 0, which is absorbing. -/
theorem rng_zero {s : ℤ} (h : inInt32 s) :
    nextSeed s = .ok 0 ↔ s = 0 ∨ s = 2147483647 ∨ s = -2147483647 := by
  rw [nextSeed_eq h]
  obtain ⟨h1, h2⟩ := h
  simp only [Except.ok.injEq]
  constructor
  · intro h
    have := rng_inv' (s := s) (t := 0) (by rw [h]; rfl)
    clear h
    have h3 : (2147483647 : ℤ) ∣ s := Int.dvd_of_emod_eq_zero (by rw [this]; rfl)
    obtain ⟨k, rfl⟩ := h3
    have : -1 ≤ k := by omega
    have : k ≤ 1 := by omega
    omega
  · rintro (rfl | rfl | rfl) <;> norm_num

/-- **C41.** The outcome of a call does not depend on the state left by previous calls. -/
theorem patefield_state_irrelevant (fuel passes : ℕ) (st st' : Statics F) (c : Call) :
    (runCall O fuel passes st c).map Prod.snd = (runCall O fuel passes st' c).map Prod.snd := by
  unfold runCall simPatefieldCpp
  generalize List.replicate (c.nrowt.length * c.ncolt.length) (none : Option ℤ) = buf
  unfold rcont2
  simp only [Bool.false_eq_true, if_false]
  by_cases h1 : (c.nrowt.length : ℤ) ≤ 1
  · simp only [h1, if_true]; rfl
  by_cases h2 : (c.ncolt.length : ℤ) ≤ 1
  · simp only [h1, h2, if_true, if_false]; rfl
  simp only [h1, h2, if_false, bind, Except.bind]
  cases allPos c.nrowt (c.nrowt.length : ℤ).toNat 0 with
  | error e => rfl
  | ok b =>
    cases b with
    | false => rfl
    | true =>
      cases allPos c.ncolt (c.ncolt.length : ℤ).toNat 0 with
      | error e => rfl
      | ok b =>
        cases b with
        | false => rfl
        | true =>
          simp only [Bool.not_true, Bool.false_eq_true, if_false]
          cases i4vecSum (c.ncolt.length : ℤ) c.ncolt with
          | error e => rfl
          | ok v =>
            cases i4vecSum (c.nrowt.length : ℤ) c.nrowt with
            | error e => rfl
            | ok w =>
              simp only []
              by_cases h3 : v = w
              · simp only [h3, ne_eq, not_true_eq_false, if_false]
              · simp only [h3, ne_eq, not_false_eq_true, if_true]; rfl

/-- **C41.** In every sequence of calls (successful or failing) in one process, each call has the
outcome it would have as the first call of a fresh process. -/
theorem patefield_history_independent (fuel passes : ℕ) (st : Statics F) (cs : List Call) (i : ℕ)
    {r : Except Err (Except Err (List (Option ℤ)))}
    (h : (runHistory O fuel passes st cs)[i]? = some r) :
    ∃ c, cs[i]? = some c ∧ r = (runCall O fuel passes initStatics c).map Prod.snd := by
  induction cs generalizing st i with
  | nil => simp [runHistory] at h
  | cons c cs ih =>
    unfold runHistory at h
    have hind := patefield_state_irrelevant (O := O) fuel passes st initStatics c
    cases hc : runCall O fuel passes st c with
    | error e =>
      rw [hc] at h hind
      cases i with
      | zero =>
        simp at h
        exact ⟨c, rfl, by rw [← h, ← hind]; rfl⟩
      | succ i => simp at h
    | ok v =>
      obtain ⟨st', res⟩ := v
      rw [hc] at h hind
      cases i with
      | zero =>
        simp at h
        exact ⟨c, rfl, by rw [← h, ← hind]; rfl⟩
      | succ i =>
        simp only [List.getElem?_cons_succ] at h
        exact ih st' i h

/-- A history of two calls, of which the second fails. -/
example : (runHistory (ratOps (fun x => x) (fun _ => 1) (fun x => x) 0) 7 2 initStatics
    [⟨[3, 2], [0, 5], 1⟩, ⟨[3], [3], 1⟩]).length = 2 := by
  rfl

/-- **C42.** Fewer than two rows or columns, a non-positive total, or different sums: the sampler
reports an error and leaves the result buffer, the seed and the static variables untouched. -/
theorem patefield_rejects {nrowt ncolt : List ℤ} (hbad : ¬ ValidMargins nrowt ncolt)
    (hr : nrowt.sum ≤ 2147483647) (hc : ncolt.sum ≤ 2147483647) (fuel passes : ℕ) (st : Statics F)
    (seed : ℤ) (buf : List (Option ℤ)) :
    (∃ ie, ie ≠ 0 ∧ rcont2 O (r8Uniform01 O) fuel passes nrowt.length ncolt.length nrowt ncolt false st seed buf =
      .ok ⟨ie, st, seed, buf⟩) ∧
    simPatefieldCpp O fuel passes nrowt.length ncolt.length nrowt ncolt st seed buf =
      .ok (st, .error .simulation) := by
  have key : ∃ ie, ie ≠ 0 ∧ rcont2 O (r8Uniform01 O) fuel passes nrowt.length ncolt.length nrowt ncolt false st seed
      buf = .ok ⟨ie, st, seed, buf⟩ := by
    unfold rcont2
    rw [if_neg (by simp)]
    split
    · exact ⟨1, by norm_num, rfl⟩
    split
    · exact ⟨2, by norm_num, rfl⟩
    rw [allPos_all, allPos_all]
    simp only [bind, Except.bind]
    by_cases h3 : ∀ v ∈ nrowt, 0 < v
    · rw [decide_eq_true h3]
      by_cases h4 : ∀ v ∈ ncolt, 0 < v
      · rw [decide_eq_true h4]
        simp only [Bool.not_true, Bool.false_eq_true, if_false]
        rw [i4vecSum_eq _ h4 hc, i4vecSum_eq _ h3 hr]
        simp only []
        rw [if_pos]
        · exact ⟨6, by norm_num, rfl⟩
        · intro h
          exact hbad ⟨by omega, by omega, h3, h4, h.symm⟩
      · rw [decide_eq_false h4]
        simp only [Bool.not_true, Bool.false_eq_true, if_false, Bool.not_false, if_true]
        exact ⟨4, by norm_num, rfl⟩
    · rw [decide_eq_false h3]
      exact ⟨3, by norm_num, rfl⟩
  refine ⟨key, ?_⟩
  obtain ⟨ie, h1, h2⟩ := key
  unfold simPatefieldCpp
  rw [h2]
  simp only [bind, Except.bind]
  rw [if_pos h1]

example : ¬ ValidMargins [3, 2] [0, 5] := fun h => absurd (h.pos_cols 0 (by simp)) (by norm_num)

end Phik.Props
