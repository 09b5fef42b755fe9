import Verif.Model.Float
import Verif.Lemmas.Rcont2Rows
import Verif.Spec.Sampler
import Mathlib.Algebra.Order.Floor.Ring
import Mathlib.Data.Rat.Floor
import Mathlib.Tactic.Linarith

/-!
# `rcont2` and its wrapper as a whole
-/

namespace Phik

open Finset Spec

theorem allPos_eq (a : List ℤ) (n i : ℕ) (h : i + n = a.length) :
    allPos a n (i : ℤ) = .ok (decide (∀ v ∈ a.drop i, 0 < v)) := by
  induction n generalizing i with
  | zero =>
    have : a.drop i = [] := List.drop_eq_nil_of_le (by omega)
    simp [allPos, this]
  | succ n ih =>
    unfold allPos
    have hi : i < a.length := by omega
    rw [rd_nat hi, List.drop_eq_getElem_cons hi]
    simp only [bind, Except.bind]
    split
    · rename_i hv
      rw [decide_eq_false]
      intro hh
      have := hh a[i] List.mem_cons_self
      omega
    · rename_i hv
      have e : (i : ℤ) + 1 = ((i + 1 : ℕ) : ℤ) := by push_cast; ring
      rw [e, ih (i + 1) (by omega)]
      congr 1
      have hv' : 0 < a[i] := by omega
      simp only [List.forall_mem_cons, hv', true_and]

theorem allPos_all (a : List ℤ) :
    allPos a ((a.length : ℤ)).toNat 0 = .ok (decide (∀ v ∈ a, 0 < v)) := by
  have := allPos_eq a a.length 0 (by simp)
  simpa using this

theorem i4vecSum_spec (a : List ℤ) (hpos : ∀ v ∈ a, 0 < v) :
    Post (i4vecSum (a.length : ℤ) a) (fun e => e = Err.overflow ∧ 2147483647 < a.sum) (fun s => s = a.sum ∧ (a ≠ [] → inInt32 s)) := by
  have key : ∀ (n i : ℕ) (acc : ℤ), i + n = a.length → 0 ≤ acc → acc = (a.take i).sum →
      (0 < i → inInt32 acc) →
      Post (i4vecSumFrom a n (i : ℤ) acc) (fun e => e = Err.overflow ∧ 2147483647 < a.sum)
        (fun s => s = a.sum ∧ (a ≠ [] → inInt32 s)) := by
    intro n
    induction n with
    | zero =>
      intro i acc hi h0 hacc h32
      refine ⟨?_, ?_⟩
      · rw [hacc, List.take_of_length_le (by omega)]
      · intro hne
        have := List.length_pos_iff.2 hne
        exact h32 (by omega)
    | succ n ih =>
      intro i acc hi h0 hacc h32
      unfold i4vecSumFrom
      have hlt : i < a.length := by omega
      rw [rd_nat hlt]
      simp only [bind, Except.bind]
      have hv : 0 < a[i] := hpos _ (List.getElem_mem hlt)
      have hnext : acc + a[i] = (a.take (i + 1)).sum := by
        rw [hacc, List.sum_take_succ _ _ hlt]
      have hle : acc + a[i] ≤ a.sum := by
        rw [hnext]
        have h1 : a.sum = (a.take (i + 1)).sum + (a.drop (i + 1)).sum := by
          rw [← List.sum_append, List.take_append_drop]
        have h2 : 0 ≤ (a.drop (i + 1)).sum :=
          List.sum_nonneg (fun v hv => le_of_lt (hpos v (List.mem_of_mem_drop hv)))
        omega
      have h32' : Post (int32 (acc + a[i])) (fun e => e = Err.overflow ∧ 2147483647 < a.sum)
          (fun y => y = acc + a[i] ∧ inInt32 (acc + a[i])) := by
        unfold int32
        split
        · rename_i h; exact ⟨rfl, h⟩
        · rename_i h
          refine ⟨rfl, ?_⟩
          unfold inInt32 at h
          omega
      refine Post_bind' h32' ?_
      rintro _ ⟨rfl, hin⟩
      have e : (i : ℤ) + 1 = ((i + 1 : ℕ) : ℤ) := by push_cast; ring
      rw [e]
      exact ih (i + 1) _ (by omega) (by omega) hnext (fun _ => hin)
  have := key a.length 0 0 (by simp) (le_refl _) (by simp) (by intro h; omega)
  simpa [i4vecSum] using this

theorem i4vecSum_post {T : Prop} (a : List ℤ) (hpos : ∀ v ∈ a, 0 < v) :
    Post (i4vecSum (a.length : ℤ) a) (BadErr a.sum T) (fun s => s = a.sum ∧ (a ≠ [] → inInt32 s)) := by
  refine (i4vecSum_spec a hpos).mono ?_ (fun _ h => h)
  rintro _ ⟨rfl, h⟩
  simp only [BadErr]; omega

theorem i4vecSum_eq (a : List ℤ) (hpos : ∀ v ∈ a, 0 < v) (h : a.sum ≤ 2147483647) :
    i4vecSum (a.length : ℤ) a = .ok a.sum := by
  have h1 := i4vecSum_spec a hpos
  cases h2 : i4vecSum (a.length : ℤ) a with
  | error e => rw [h2] at h1; have := h1.2; omega
  | ok v => rw [h2] at h1; rw [h1.1]

theorem factFrom_length {F : Type} (O : FloatOps F) (n i : ℕ) (x : F) :
    (factFrom O n i x).length = n := by
  induction n generalizing i x with
  | zero => rfl
  | succ n ih => simp [factFrom, ih]

theorem factTable_length {F : Type} (O : FloatOps F) {n : ℤ} (h : 0 ≤ n) :
    ((factTable O n).length : ℤ) = n + 1 := by
  unfold factTable
  rw [List.length_cons, factFrom_length]
  omega

theorem length_le_sum (a : List ℤ) (h : ∀ v ∈ a, 0 < v) : (a.length : ℤ) ≤ a.sum := by
  induction a with
  | nil => simp
  | cons x a ih =>
    have h1 := ih (fun v hv => h v (by simp [hv]))
    have h2 := h x (by simp)
    simp only [List.length_cons, List.sum_cons]; push_cast; omega

theorem sum_range_getD (a : List ℤ) : ∑ j ∈ range a.length, a.getD j 0 = a.sum := by
  induction a with
  | nil => simp
  | cons x a ih =>
    rw [List.length_cons, Finset.sum_range_succ']
    simp only [List.getD_cons_succ, List.getD_cons_zero, List.sum_cons]
    rw [ih]; ring

section
variable {F : Type} {O : FloatOps F} {G : F → Prop} {T : Prop}

theorem rcont2_gen_post {σ : Type} (gen : σ → Except Err (F × σ))
    (nrowt ncolt : List ℤ) (hv : ValidMargins nrowt ncolt) (fuel passes : ℕ)
    {Φ : ℕ → ℕ → (ℕ → ℕ → ℤ) → σ → Prop}
    (hΦ : nrowt.sum ≤ 2147483647 → CellSpec O gen (factTable O nrowt.sum) fuel passes nrowt.sum T nrowt.length ncolt.length
      (fun l => nrowt.getD l 0) (fun j => ncolt.getD j 0) Φ)
    (st : Statics F) (seed : σ) (hseed : Φ 0 0 (fun _ _ => 0) seed) (buf : List (Option ℤ))
    (hlen : buf.length = nrowt.length * ncolt.length) :
    Post (rcont2 O gen fuel passes nrowt.length ncolt.length nrowt ncolt false st seed buf)
      (BadErr nrowt.sum T)
      (fun out => out.ierror = 0 ∧ out.statics = ⟨some (factTable O nrowt.sum), nrowt.sum⟩ ∧
        ∃ X, HoldsTable nrowt ncolt out.matrix X ∧ Φ (nrowt.length - 1) 0 X out.seed) := by
  obtain ⟨h1, h2, h3, h4, h5⟩ := hv
  unfold rcont2
  rw [if_neg (by simp), if_neg (by omega), if_neg (by omega)]
  rw [allPos_all, allPos_all]
  simp only [bind, Except.bind]
  rw [decide_eq_true h3, decide_eq_true h4]
  simp only [Bool.not_true, Bool.false_eq_true, if_false]
  have hs1 := i4vecSum_post (T := T) ncolt h4
  rw [← h5] at hs1
  refine Post_bind' hs1 ?_
  rintro _ ⟨rfl, hin⟩
  have hcne : ncolt ≠ [] := by intro h; rw [h] at h2; simp at h2
  have hin := hin hcne
  refine Post_bind' (i4vecSum_post (T := T) nrowt h3) ?_
  rintro _ ⟨rfl, -⟩
  rw [if_neg (by simp)]
  have hN0 : (nrowt.length : ℤ) ≤ nrowt.sum := length_le_sum _ h3
  have hN1 : (ncolt.length : ℤ) ≤ nrowt.sum := by rw [h5]; exact length_le_sum _ h4
  refine Post_bind' (Post_int32 (x := nrowt.sum + 1) (fun hN => ⟨by omega, by omega⟩)) ?_
  rintro _ -
  refine (rcont2Body_post (T := T) (N := nrowt.sum) (nrow := nrowt.length) (ncol := ncolt.length)
    gen (factTable O nrowt.sum) fuel passes
    hN0 hN1 h2 h1 nrowt ncolt (fun l => nrowt.getD l 0) (fun j => ncolt.getD j 0) ?_ ?_ ?_ ?_
    ?_ ?_ (hΦ hin.2) seed hseed buf hlen).imp ?_
  · intro l hl; simp [List.getD_eq_getElem?_getD, hl]
  · intro l hl; simp [List.getD_eq_getElem?_getD, hl]
  · intro l hl; simpa [List.getD_eq_getElem?_getD, hl] using h3 _ (List.getElem_mem hl)
  · intro l hl; simpa [List.getD_eq_getElem?_getD, hl] using h4 _ (List.getElem_mem hl)
  · rw [sum_range_getD, h5]
  · rw [sum_range_getD]
  · rintro out ⟨g1, g2, X, g3, g4⟩
    refine ⟨g1, g2, X, ⟨g3.len, g3.cells, g3.nonneg, ?_, ?_⟩, g4⟩
    · intro i hi; rw [g3.rows i hi]; simp [List.getD_eq_getElem?_getD, hi]
    · intro i hi; rw [g3.cols i hi]; simp [List.getD_eq_getElem?_getD, hi]

theorem rcont2_post (hR : RoundOK O) (hexp : ∀ x, G (O.exp x))
    (hG : ∀ x y, G x → G y → G (O.add x y))
    (hG' : ∀ x (j d : ℤ), G x → 0 ≤ j → 0 < d → G (O.div (O.mul x (O.ofInt j)) (O.ofInt d)))
    (hT : T → ∀ x (s : ℤ), G x → 0 ≤ s → s ≤ 2147483646 →
      O.le (O.mul x (O.mul (O.ofInt s) O.uni)) x = true)
    (nrowt ncolt : List ℤ) (hv : ValidMargins nrowt ncolt)
    (fuel : ℕ) (hfuel : T → nrowt.sum + 2 ≤ fuel) (passes : ℕ) (hpass : T → 2 ≤ passes)
    (st : Statics F) (seed : ℤ) (hseed : inInt32 seed) (buf : List (Option ℤ))
    (hlen : buf.length = nrowt.length * ncolt.length) :
    Post (rcont2 O (r8Uniform01 O) fuel passes nrowt.length ncolt.length nrowt ncolt false st seed buf)
      (BadErr nrowt.sum T)
      (fun out => out.ierror = 0 ∧ out.statics = ⟨some (factTable O nrowt.sum), nrowt.sum⟩ ∧
        ∃ X, HoldsTable nrowt ncolt out.matrix X) := by
  refine (rcont2_gen_post (T := T) (r8Uniform01 O) nrowt ncolt hv fuel passes (Φ := fun _ _ _ s => inInt32 s) ?_ st seed hseed
    buf hlen).imp ?_
  · intro hN31
    have hN0 : (nrowt.length : ℤ) ≤ nrowt.sum := length_le_sum _ hv.pos_rows
    refine ⟨fun _ _ _ _ _ _ h => h, ?_, fun _ _ _ _ _ _ _ h => h, fun _ _ _ _ h => h⟩
    intro l m X s _ _ hcp hs
    unfold drawCell
    refine Post_bind' (r8_post (O := O) (E := BadErr nrowt.sum T) hs) ?_
    rintro ⟨r, sd⟩ ⟨-, -, hsd0, hsd1⟩
    dsimp only at hsd0 hsd1 ⊢
    refine (cellLoop_post (T := T) hR hexp hG hG' hT hN31 hcp rfl rfl rfl _ (factTable_length O (by omega)) fuel
        hfuel passes hpass r sd ⟨hsd0, hsd1⟩ none).imp ?_
    rintro ⟨n, sd'⟩ ⟨hn, hsd'0, hsd'1⟩
    dsimp only at hn hsd'0 hsd'1 ⊢
    exact ⟨hn, by constructor <;> omega⟩
  · rintro out ⟨g1, g2, X, g3, -⟩
    exact ⟨g1, g2, X, g3⟩

end

/-! ### Floats as rationals with a rounding function -/

/-- A rounding function of the rationals: monotone, idempotent, exact on half-integers up to 2^52. -/
structure Rounding (fl : ℚ → ℚ) : Prop where
  mono : ∀ x y, x ≤ y → fl x ≤ fl y
  idem : ∀ x, fl (fl x) = fl x
  exact : ∀ z : ℤ, |z| ≤ 9007199254740992 → fl ((z : ℚ) / 2) = (z : ℚ) / 2

/-- `double` arithmetic as exact rational arithmetic followed by rounding; `ex`, `lg` are the library
functions `exp`, `log` (any functions), `uni` the value of the literal `4.656612875E-10`. -/
def ratOps (fl : ℚ → ℚ) (ex lg : ℚ → ℚ) (uni : ℚ) : FloatOps ℚ where
  ofInt z := fl z
  add a b := fl (a + b)
  sub a b := fl (a - b)
  mul a b := fl (a * b)
  div a b := fl (a / b)
  exp x := fl (ex x)
  log x := fl (lg x)
  zero := 0
  half := 1 / 2
  uni := uni
  le a b := decide (a ≤ b)
  toInt := truncQ

theorem Rounding.int {fl : ℚ → ℚ} (h : Rounding fl) (z : ℤ) (hz : |z| ≤ 4503599627370496) :
    fl (z : ℚ) = z := by
  have := h.exact (2 * z) (by rw [abs_mul]; simp; omega)
  push_cast at this
  simpa using this

theorem ratOps_roundOK {fl : ℚ → ℚ} (h : Rounding fl) (ex lg : ℚ → ℚ) (uni : ℚ) :
    RoundOK (ratOps fl ex lg uni) := by
  intro ia id ie h1 h2 h3 h4 h5 h6 h7
  have hp : 0 ≤ ia * id := mul_nonneg h1 h2
  have e1 : fl ((ia * id : ℤ) : ℚ) = ((ia * id : ℤ) : ℚ) := h.int _ (by rw [abs_of_nonneg hp]; omega)
  have e2 : fl (ie : ℚ) = ie := h.int _ (by rw [abs_of_pos h5]; omega)
  have hie : (0 : ℚ) < ie := by exact_mod_cast h5
  -- bounds of the quotient by integers
  have lower : ∀ n : ℤ, |n| ≤ 2147483647 → n * ie ≤ ia * id →
      n ≤ truncQ (fl (fl (((ia * id : ℤ) : ℚ) / ie) + 1 / 2)) ∨ n < 0 := by
    intro n hn hle
    by_cases hn0 : n < 0
    · exact Or.inr hn0
    left
    have q1 : (n : ℚ) ≤ ((ia * id : ℤ) : ℚ) / ie := by
      rw [le_div_iff₀ hie]; exact_mod_cast hle
    have q2 : (n : ℚ) ≤ fl (((ia * id : ℤ) : ℚ) / ie) := by
      have := h.mono _ _ q1
      rwa [h.int n (by omega)] at this
    have q3 : (n : ℚ) + 1 / 2 ≤ fl (fl (((ia * id : ℤ) : ℚ) / ie) + 1 / 2) := by
      have h0 : (n : ℚ) + 1 / 2 ≤ fl (((ia * id : ℤ) : ℚ) / ie) + 1 / 2 := by linarith
      have := h.mono _ _ h0
      have e3 : fl ((n : ℚ) + 1 / 2) = (n : ℚ) + 1 / 2 := by
        have h8 := h.exact (2 * n + 1) (by
          have h9 : |2 * n + 1| = 2 * n + 1 := abs_of_nonneg (by omega)
          rw [h9]; rw [abs_of_nonneg (by omega)] at hn; omega)
        have e4 : (((2 * n + 1 : ℤ)) : ℚ) / 2 = (n : ℚ) + 1 / 2 := by push_cast; ring
        rwa [e4] at h8
      rwa [e3] at this
    have hn0' : (0 : ℚ) ≤ n := by exact_mod_cast (not_lt.1 hn0)
    unfold truncQ
    rw [if_pos (by linarith)]
    rw [Int.le_floor]
    linarith
  have upper : ∀ n : ℤ, 0 ≤ n → n ≤ 2147483647 → ia * id ≤ n * ie →
      0 ≤ truncQ (fl (fl (((ia * id : ℤ) : ℚ) / ie) + 1 / 2)) ∧
      truncQ (fl (fl (((ia * id : ℤ) : ℚ) / ie) + 1 / 2)) ≤ n := by
    intro n hn0 hn hle
    have q1 : ((ia * id : ℤ) : ℚ) / ie ≤ n := by
      rw [div_le_iff₀ hie]; exact_mod_cast hle
    have q2 : fl (((ia * id : ℤ) : ℚ) / ie) ≤ n := by
      have := h.mono _ _ q1
      rwa [h.int n (by rw [abs_of_nonneg hn0]; omega)] at this
    have q3 : fl (fl (((ia * id : ℤ) : ℚ) / ie) + 1 / 2) ≤ (n : ℚ) + 1 / 2 := by
      have h0 : fl (((ia * id : ℤ) : ℚ) / ie) + 1 / 2 ≤ (n : ℚ) + 1 / 2 := by linarith
      have := h.mono _ _ h0
      have e3 : fl ((n : ℚ) + 1 / 2) = (n : ℚ) + 1 / 2 := by
        have h8 := h.exact (2 * n + 1) (by rw [abs_of_nonneg (by omega)]; omega)
        have e4 : (((2 * n + 1 : ℤ)) : ℚ) / 2 = (n : ℚ) + 1 / 2 := by push_cast; ring
        rwa [e4] at h8
      rwa [e3] at this
    have q0 : (0 : ℚ) ≤ fl (((ia * id : ℤ) : ℚ) / ie) := by
      have h0 : (0 : ℚ) ≤ ((ia * id : ℤ) : ℚ) / ie :=
        div_nonneg (by exact_mod_cast hp) (le_of_lt hie)
      have := h.mono _ _ h0
      have e0 : fl (0 : ℚ) = 0 := by simpa using h.int 0 (by simp)
      rwa [e0] at this
    have q4 : (0 : ℚ) ≤ fl (fl (((ia * id : ℤ) : ℚ) / ie) + 1 / 2) := by
      have h0 : (0 : ℚ) ≤ fl (((ia * id : ℤ) : ℚ) / ie) + 1 / 2 := by linarith
      have := h.mono _ _ h0
      have e0 : fl (0 : ℚ) = 0 := by simpa using h.int 0 (by simp)
      rwa [e0] at this
    unfold truncQ
    rw [if_pos q4]
    refine ⟨Int.floor_nonneg.2 q4, ?_⟩
    rw [← Int.lt_add_one_iff, Int.floor_lt]
    simp only [Int.cast_add, Int.cast_one]
    linarith
  show Feas ia id ie (truncQ (fl (fl (fl ((ia * id : ℤ) : ℚ) / fl (ie : ℚ)) + 1 / 2)))
  rw [e1, e2]
  have u1 := upper ia h1 (by omega) (mul_le_mul_of_nonneg_left h4 h1)
  have u2 := upper id h2 (by omega) (by rw [mul_comm ia id]; exact mul_le_mul_of_nonneg_left h3 h2)
  refine ⟨u1.1, ?_, u1.2, u2.2⟩
  have hlo : (ia + id - ie) * ie ≤ ia * id := by nlinarith [mul_nonneg (sub_nonneg.2 h3) (sub_nonneg.2 h4)]
  rcases lower (ia + id - ie) (by rw [abs_le]; constructor <;> omega) hlo with h8 | h8
  · exact h8
  · exact le_trans (le_of_lt h8) u1.1

theorem ratOps_laws {fl : ℚ → ℚ} (h : Rounding fl) (ex lg : ℚ → ℚ) (hex : ∀ x, 0 ≤ ex x) (uni : ℚ)
    (hu0 : 0 ≤ uni) (hu1 : uni * 2147483646 ≤ 1) :
    FloatLaws (ratOps fl ex lg uni) (fun x => 0 ≤ x ∧ fl x = x) := by
  have e0 : fl (0 : ℚ) = 0 := by simpa using h.int 0 (by simp)
  have e1 : fl (1 : ℚ) = 1 := by simpa using h.int 1 (by simp)
  have nn : ∀ x, 0 ≤ x → 0 ≤ fl x := by
    intro x hx
    have := h.mono _ _ hx
    rwa [e0] at this
  constructor
  · intro x; exact ⟨nn _ (hex x), h.idem _⟩
  · rintro x y ⟨hx, _⟩ ⟨hy, _⟩; exact ⟨nn _ (by positivity), h.idem _⟩
  · rintro x j d ⟨hx, _⟩ hj hd
    refine ⟨nn _ (div_nonneg (nn _ (mul_nonneg hx (nn _ (by exact_mod_cast hj))))
      (nn _ (by exact_mod_cast (le_of_lt hd)))), h.idem _⟩
  · rintro x s ⟨hx, hfx⟩ hs0 hs1
    show decide (fl (x * fl (fl (s : ℚ) * uni)) ≤ x) = true
    rw [decide_eq_true_iff]
    rw [h.int s (by rw [abs_of_nonneg hs0]; omega)]
    have hs0' : (0 : ℚ) ≤ s := by exact_mod_cast hs0
    have hs1' : (s : ℚ) ≤ 2147483646 := by exact_mod_cast hs1
    have q1 : (s : ℚ) * uni ≤ 1 := by nlinarith
    have q2 : fl ((s : ℚ) * uni) ≤ 1 := by
      have := h.mono _ _ q1
      rwa [e1] at this
    have q3 : x * fl ((s : ℚ) * uni) ≤ x := by nlinarith
    have := h.mono _ _ q3
    rwa [hfx] at this

theorem Rounding_id : Rounding (fun x => x) := ⟨fun _ _ h => h, fun _ => rfl, fun _ _ => rfl⟩

end Phik
