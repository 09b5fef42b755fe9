import Verif.Model.Rcont2
import Verif.Lemmas.Except
import Mathlib.Tactic.Ring
import Mathlib.Tactic.Linarith
import Mathlib.Tactic.Positivity

/-!
# Lemmas about the search for one entry (asa159.cpp:658-757)
-/

namespace Phik

/-- Errors the sampler may end with: 32-bit overflow only for totals above 46340, running out of
fuel only if `T` fails (`T` will say that the fuel suffices), nothing else. -/
def BadErr (N : ℤ) (T : Prop) : Err → Prop
  | .overflow => 46340 < N
  | .fuel => ¬ T
  | _ => False

theorem int32_of {x : ℤ} (h : inInt32 x) : int32 x = .ok x := by
  unfold int32; rw [if_pos h]

theorem Post_int32 {x N : ℤ} {T : Prop} (h : N ≤ 46340 → inInt32 x) :
    Post (int32 x) (BadErr N T) (fun y => y = x) := by
  unfold int32
  split
  · simp
  · rename_i hx
    simp only [Post_error, BadErr]
    by_contra hN
    exact hx (h (by omega))

theorem mul_le_sq {a b N : ℤ} (ha : 0 ≤ a) (_hb : 0 ≤ b) (haN : a ≤ N) (hbN : b ≤ N)
    (hN : N ≤ 46340) : a * b ≤ 2147395600 := by
  have h1 : a ≤ 46340 := by omega
  have h2 : b ≤ 46340 := by omega
  nlinarith

theorem inInt32_mul {a b N : ℤ} (ha : 0 ≤ a) (hb : 0 ≤ b) (haN : a ≤ N) (hbN : b ≤ N)
    (hN : N ≤ 46340) : inInt32 (a * b) := by
  have h1 := mul_le_sq ha hb haN hbN hN
  have h2 : 0 ≤ a * b := mul_nonneg ha hb
  constructor <;> omega

/-! ### The random number generator -/

/-- For every 32-bit seed the generator computes `16807 * seed mod (2^31 - 1)` without overflow. -/
theorem nextSeed_eq {s : ℤ} (h : inInt32 s) : nextSeed s = .ok (16807 * s % 2147483647) := by
  obtain ⟨h1, h2⟩ := h
  have hdm := Int.mul_tdiv_add_tmod s 127773
  have hlt : s.tmod 127773 < 127773 := Int.tmod_lt_of_pos s (by norm_num)
  have hgt : -127773 < s.tmod 127773 := Int.lt_tmod_of_pos s (by norm_num)
  have hpos : 0 ≤ s → 0 ≤ s.tmod 127773 := fun h => Int.tmod_nonneg _ h
  have hneg : s ≤ 0 → s.tmod 127773 ≤ 0 := by
    intro h
    have := Int.tmod_nonneg 127773 (a := -s) (by omega)
    rw [Int.neg_tmod] at this
    omega
  set k := s.tdiv 127773 with hk
  set b := s.tmod 127773 with hb
  have hb' : s - k * 127773 = b := by omega
  have e1 : int32 (k * 127773) = .ok (k * 127773) := by
    exact int32_of ⟨by omega, by omega⟩
  have e2 : int32 (s - k * 127773) = .ok b := by
    rw [hb']; exact int32_of ⟨by omega, by omega⟩
  have e3 : int32 (16807 * b) = .ok (16807 * b) := by
    exact int32_of ⟨by omega, by omega⟩
  have e4 : int32 (k * 2836) = .ok (k * 2836) := by
    exact int32_of ⟨by omega, by omega⟩
  have e5 : int32 (16807 * b - k * 2836) = .ok (16807 * b - k * 2836) := by
    exact int32_of ⟨by omega, by omega⟩
  have e6 : 16807 * b - k * 2836 < 0 →
      int32 (16807 * b - k * 2836 + 2147483647) = .ok (16807 * b - k * 2836 + 2147483647) := by
    intro h
    exact int32_of ⟨by omega, by omega⟩
  unfold nextSeed
  simp only [← hk, e1, e2, e3, e4, e5, bind, Except.bind]
  split
  · rename_i hs
    rw [e6 hs]; congr 1; omega
  · congr 1; omega

/-! ### The search loops -/

/-- Situation of one cell: row remainder `ia`, column remainder `id`, block total `ie ≤ N`. -/
structure CellPre (N ia id ie : ℤ) : Prop where
  ia0 : 0 ≤ ia
  id0 : 0 ≤ id
  ia_le : ia ≤ ie
  id_le : id ≤ ie
  ie_pos : 0 < ie
  ie_le : ie ≤ N

/-- Feasible values of a cell. -/
def Feas (ia id ie n : ℤ) : Prop := 0 ≤ n ∧ ia + id - ie ≤ n ∧ n ≤ ia ∧ n ≤ id

/-- Integer part of the invariant of the search, and the laws for the floats. -/
structure SInv {F : Type} (G : F → Prop) (ia id ie : ℤ) (s : Srch F) : Prop where
  nlm : Feas ia id ie s.nlm
  nll : Feas ia id ie s.nll
  gx : G s.x
  gy : G s.y
  gs : G s.sumprb

/-- The laws of `double` used for the termination of the search; `G x` means `x` is a non-negative
number (not NaN). -/
structure FloatLaws {F : Type} (O : FloatOps F) (G : F → Prop) : Prop where
  exp : ∀ x, G (O.exp x)
  add : ∀ x y, G x → G y → G (O.add x y)
  step : ∀ x (j d : ℤ), G x → 0 ≤ j → 0 < d → G (O.div (O.mul x (O.ofInt j)) (O.ofInt d))
  draw : ∀ x (s : ℤ), G x → 0 ≤ s → s ≤ 2147483646 →
    O.le (O.mul x (O.mul (O.ofInt s) O.uni)) x = true

section
variable {F : Type} {O : FloatOps F} {G : F → Prop} {N ia id ie ii : ℤ} {T : Prop}

theorem decLoop_post (hG : ∀ x y, G x → G y → G (O.add x y))
    (hG' : ∀ x (j d : ℤ), G x → 0 ≤ j → 0 < d → G (O.div (O.mul x (O.ofInt j)) (O.ofInt d)))
    (hc : CellPre N ia id ie) (hii : ii = ie - ia - id) (r : F) (n : ℕ) (s : Srch F)
    (hs : SInv G ia id ie s) (hd2 : s.done2 = some false)
    (hT : T → (if s.lsp then s.nll + 2 ≤ n else 1 ≤ n)) :
    Post (decLoop O r ia id ii n s) (BadErr N T) (fun t =>
      SInv G ia id ie t ∧ t.lsp = s.lsp ∧ t.done1 = s.done1 ∧
      (t.done2 = some true ∨ t.done2 = some false ∧ t.nlm = s.nlm ∧
        (s.lsp = true → t.lsm = true))) := by
  induction n generalizing s with
  | zero =>
    simp only [decLoop, Post_error, BadErr]
    intro h
    have h0 := hs.nll.1
    have := hT h
    split at this <;> omega
  | succ n ih =>
    obtain ⟨hlm0, hlm1, hlm2, hlm3⟩ := hs.nlm
    obtain ⟨hll0, hll1, hll2, hll3⟩ := hs.nll
    obtain ⟨c1, c2, c3, c4, c5, c6⟩ := hc
    unfold decLoop
    split
    · rename_i hlsm
      exact ⟨hs, rfl, rfl, Or.inr ⟨hd2, rfl, fun _ => hlsm⟩⟩
    · refine Post_bind' (Post_int32 (x := ii + s.nll) ?_) ?_
      · intro hN; constructor <;> omega
      rintro _ rfl
      refine Post_bind' (Post_int32 (x := s.nll * (ii + s.nll)) ?_) ?_
      · intro hN; exact inInt32_mul hll0 (by omega) (by omega) (by omega) hN
      rintro _ rfl
      split
      · exact ⟨⟨hs.nlm, hs.nll, hs.gx, hs.gy, hs.gs⟩, rfl, rfl, Or.inr ⟨hd2, rfl, fun _ => rfl⟩⟩
      · rename_i hj
        have hnll : s.nll ≠ 0 := fun h => hj (by rw [h]; ring)
        have hnll' : ii + s.nll ≠ 0 := fun h => hj (by rw [h]; ring)
        have hjpos : 0 ≤ s.nll * (ii + s.nll) := mul_nonneg hll0 (by omega)
        refine Post_bind' (Post_int32 (x := s.nll - 1) (fun _ => ⟨by omega, by omega⟩)) ?_
        rintro _ rfl
        refine Post_bind' (Post_int32 (x := id - (s.nll - 1)) (fun _ => ⟨by omega, by omega⟩)) ?_
        rintro _ rfl
        refine Post_bind' (Post_int32 (x := ia - (s.nll - 1)) (fun _ => ⟨by omega, by omega⟩)) ?_
        rintro _ rfl
        refine Post_bind' (Post_int32 (x := (id - (s.nll - 1)) * (ia - (s.nll - 1))) ?_) ?_
        · intro hN; exact inInt32_mul (by omega) (by omega) (by omega) (by omega) hN
        rintro _ rfl
        have hdpos : 0 < (id - (s.nll - 1)) * (ia - (s.nll - 1)) :=
          mul_pos (by omega) (by omega)
        rw [if_neg (by omega)]
        dsimp only
        have gy := hG' s.y _ _ hs.gy hjpos hdpos
        have gs := hG _ _ hs.gs gy
        have hfe : Feas ia id ie (s.nll - 1) := ⟨by omega, by omega, by omega, by omega⟩
        split
        · exact ⟨⟨hfe, hfe, hs.gx, gy, gs⟩, rfl, rfl, Or.inl rfl⟩
        · split
          · rename_i hlsp
            exact ⟨⟨hs.nlm, hfe, hs.gx, gy, gs⟩, rfl, rfl,
              Or.inr ⟨hd2, rfl, by rw [hlsp]; simp⟩⟩
          · rename_i hlsp
            have hlsp' : s.lsp = true := by simpa using hlsp
            refine (ih { s with nll := s.nll - 1, y := _, sumprb := _ } ⟨hs.nlm, hfe, hs.gx, gy, gs⟩ hd2 ?_).imp ?_
            · intro h
              have := hT h
              rw [hlsp'] at this ⊢
              simp only [if_true] at this ⊢
              push_cast at this
              omega
            · rintro t ⟨h1, h2, h3, h4⟩
              exact ⟨h1, h2, h3, h4⟩

theorem incStep_post (hG : ∀ x y, G x → G y → G (O.add x y))
    (hG' : ∀ x (j d : ℤ), G x → 0 ≤ j → 0 < d → G (O.div (O.mul x (O.ofInt j)) (O.ofInt d)))
    (hc : CellPre N ia id ie) (hii : ii = ie - ia - id) (r : F) (s : Srch F)
    (hs : SInv G ia id ie s) (hd1 : s.done1 = false) (hlsp : s.lsp = false) :
    Post (incStep O r ia id ii s) (BadErr N T) (fun p =>
      SInv G ia id ie p.1 ∧ p.1.done1 = p.2 ∧ p.1.done2 = s.done2 ∧ p.1.nll = s.nll ∧
      p.1.lsm = s.lsm ∧ (p.2 = false → p.1.lsp = true ∨ (p.1.lsp = false ∧ p.1.nlm = s.nlm + 1))) := by
  obtain ⟨hlm0, hlm1, hlm2, hlm3⟩ := hs.nlm
  obtain ⟨hll0, hll1, hll2, hll3⟩ := hs.nll
  obtain ⟨c1, c2, c3, c4, c5, c6⟩ := hc
  unfold incStep
  refine Post_bind' (Post_int32 (x := id - s.nlm) (fun _ => ⟨by omega, by omega⟩)) ?_
  rintro _ rfl
  refine Post_bind' (Post_int32 (x := ia - s.nlm) (fun _ => ⟨by omega, by omega⟩)) ?_
  rintro _ rfl
  refine Post_bind' (Post_int32 (x := (id - s.nlm) * (ia - s.nlm)) ?_) ?_
  · intro hN; exact inInt32_mul (by omega) (by omega) (by omega) (by omega) hN
  rintro _ rfl
  split
  · exact ⟨⟨hs.nlm, hs.nll, hs.gx, hs.gy, hs.gs⟩, hd1, rfl, rfl, rfl, fun _ => Or.inl rfl⟩
  · rename_i hj
    have h1 : id - s.nlm ≠ 0 := fun h => hj (by rw [h]; ring)
    have h2 : ia - s.nlm ≠ 0 := fun h => hj (by rw [h]; ring)
    have hjpos : 0 ≤ (id - s.nlm) * (ia - s.nlm) := mul_nonneg (by omega) (by omega)
    refine Post_bind' (Post_int32 (x := s.nlm + 1) (fun _ => ⟨by omega, by omega⟩)) ?_
    rintro _ rfl
    refine Post_bind' (Post_int32 (x := ii + (s.nlm + 1)) (fun _ => ⟨by omega, by omega⟩)) ?_
    rintro _ rfl
    refine Post_bind' (Post_int32 (x := (s.nlm + 1) * (ii + (s.nlm + 1))) ?_) ?_
    · intro hN; exact inInt32_mul (by omega) (by omega) (by omega) (by omega) hN
    rintro _ rfl
    have hdpos : 0 < (s.nlm + 1) * (ii + (s.nlm + 1)) := mul_pos (by omega) (by omega)
    rw [if_neg (by omega)]
    dsimp only
    have gx := hG' s.x _ _ hs.gx hjpos hdpos
    have gs := hG _ _ hs.gs gx
    have hfe : Feas ia id ie (s.nlm + 1) := ⟨by omega, by omega, by omega, by omega⟩
    split
    · exact ⟨⟨hfe, hs.nll, gx, hs.gy, gs⟩, rfl, rfl, rfl, rfl, by simp⟩
    · exact ⟨⟨hfe, hs.nll, gx, hs.gy, gs⟩, hd1, rfl, rfl, rfl, fun _ => Or.inr ⟨hlsp, rfl⟩⟩

theorem incLoop_post (hG : ∀ x y, G x → G y → G (O.add x y))
    (hG' : ∀ x (j d : ℤ), G x → 0 ≤ j → 0 < d → G (O.div (O.mul x (O.ofInt j)) (O.ofInt d)))
    (hc : CellPre N ia id ie) (hii : ii = ie - ia - id) (fuel : ℕ)
    (hT' : T → N + 2 ≤ fuel) (r : F) (n : ℕ) (s : Srch F)
    (hs : SInv G ia id ie s) (hd1 : s.done1 = false) (hd2 : s.lsp = true → s.done2 = some false)
    (hT : T → (if s.lsp then 1 ≤ n else (ie - s.nlm) + 2 ≤ n)) :
    Post (incLoop O fuel r ia id ii n s) (BadErr N T) (fun t =>
      SInv G ia id ie t ∧ (t.done1 = true ∨ t.done1 = false ∧ t.done2 ≠ none)) := by
  induction n generalizing s with
  | zero =>
    simp only [incLoop, Post_error, BadErr]
    intro h
    have := hT h
    obtain ⟨hlm0, hlm1, hlm2, hlm3⟩ := hs.nlm
    have h8 := hc.ia_le
    split at this <;> push_cast at * <;> omega
  | succ n ih =>
    unfold incLoop
    split
    · rename_i hlsp
      exact ⟨hs, Or.inr ⟨hd1, by rw [hd2 hlsp]; simp⟩⟩
    · rename_i hlsp
      have hlsp' : s.lsp = false := by simpa using hlsp
      refine Post_bind' (incStep_post hG hG' hc hii r s hs hd1 hlsp') ?_
      rintro ⟨s1, brk⟩ ⟨h1, h2, h3, h4, h5, h6⟩
      dsimp only at h1 h2 h3 h4 h5 h6 ⊢
      split
      · rename_i hb
        exact ⟨h1, Or.inl (by rw [h2, hb])⟩
      · rename_i hb
        have hb' : brk = false := by simpa using hb
        have hs1 : SInv G ia id ie { s1 with done2 := some false } :=
          ⟨h1.nlm, h1.nll, h1.gx, h1.gy, h1.gs⟩
        refine Post_bind' (decLoop_post (T := T) hG hG' hc hii r fuel _ hs1 rfl ?_) ?_
        · intro h
          have := hT' h
          have h7 := hs1.nll.2.2.1
          have h8 := hc.ia_le
          have h9 := hc.ie_le
          have h10 := hs1.nll.1
          split
          · omega
          · omega
        rintro s2 ⟨g1, g2, g3, g4⟩
        dsimp only at g2 g3 g4
        rcases g4 with g4 | ⟨g4, g5, g6⟩
        · simp only [g4]
          exact ⟨g1, by cases hd : s2.done1 <;> simp [g4]⟩
        · simp only [g4]
          refine ih s2 g1 (by rw [g3, h2, hb']) (fun _ => g4) ?_
          intro h
          have hT1 := hT h
          rw [hlsp'] at hT1
          simp only [Bool.false_eq_true, if_false] at hT1
          have h7 := hs.nlm.2.2.1
          have h8 := hc.ia_le
          rcases h6 hb' with h6 | ⟨h6, h6'⟩
          · rw [g2, h6]; simp only [if_true]; push_cast at hT1; omega
          · rw [g2, h6, g5, h6']
            simp only [Bool.false_eq_true, if_false]
            push_cast at hT1
            omega

end

end Phik
