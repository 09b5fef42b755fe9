import Verif.Model.Frame

/-! # Running programs, and the invariant "the frames in `H` are untouched" -/

namespace Phik
namespace M

variable {α β : Type}

@[simp] theorem exec_pure (a : α) (w : World) : (pure a : M α).exec w = (.ok a, w) := rfl

@[simp] theorem exec_throw (e : Err) (w : World) : (throw e : M α).exec w = (.error e, w) := rfl

theorem exec_bind (m : M α) (f : α → M β) (w : World) :
    (m >>= f).exec w = match m.exec w with
      | (.ok a, w') => (f a).exec w'
      | (.error e, w') => (.error e, w') := rfl

@[simp] theorem exec_warn (x : Warning) (w : World) :
    (warn x).exec w = (.ok (), { w with warns := w.warns ++ [x] }) := rfl

@[simp] theorem exec_write (r : Ref) (f : Frame) (w : World) :
    (write r f).exec w = (.ok (), { w with heap := w.heap.set r f }) := rfl

@[simp] theorem exec_alloc (f : Frame) (w : World) :
    (alloc f).exec w = (.ok w.heap.length, { w with heap := w.heap ++ [f] }) := rfl

theorem exec_read (r : Ref) (w : World) :
    (read r).exec w = match w.heap[r]? with
      | some f => (.ok f, w)
      | none => (.error .type, w) := rfl

theorem exec_read_of {r : Ref} {w : World} {f : Frame} (h : w.heap[r]? = some f) :
    (read r).exec w = (.ok f, w) := by rw [exec_read]; simp only [h]

@[simp] theorem exec_ofExcept (e : Except Err α) (w : World) : (ofExcept e).exec w = (e, w) := by
  cases e <;> rfl

/-- Running a program from a world that satisfies `P` leads, with a value, to `Q`, and with an
exception to `E`. -/
def Tr (P : World → Prop) (m : M α) (Q : α → World → Prop) (E : World → Prop) : Prop :=
  ∀ w, P w → match m.exec w with
    | (.ok a, w') => Q a w'
    | (.error _, w') => E w'

theorem Tr.bind {P : World → Prop} {m : M α} {Q : α → World → Prop} {E : World → Prop} {f : α → M β}
    {R : β → World → Prop} (h1 : Tr P m Q E) (h2 : ∀ a, Tr (Q a) (f a) R E) : Tr P (m >>= f) R E := by
  intro w hw
  rw [exec_bind]
  have := h1 w hw
  revert this
  rcases m.exec w with ⟨r, w'⟩
  cases r with
  | error e => exact id
  | ok a => exact fun this => h2 a w' this

theorem Tr.pure {P : World → Prop} {Q : α → World → Prop} {E : World → Prop} {a : α}
    (h : ∀ w, P w → Q a w) : Tr P (Pure.pure a : M α) Q E := fun w hw => h w hw

theorem Tr.throw {P : World → Prop} {Q : α → World → Prop} {E : World → Prop} {e : Err}
    (h : ∀ w, P w → E w) : Tr P (MonadExcept.throw e : M α) Q E := fun w hw => h w hw

/-- A fact that does not depend on the world can be moved out of the precondition. -/
theorem Tr.of_and {P : World → Prop} {p : Prop} {m : M α} {Q : α → World → Prop} {E : World → Prop}
    (h : p → Tr P m Q E) : Tr (fun w => P w ∧ p) m Q E := fun w hw => h hw.2 w hw.1

theorem Tr.weaken {P P' : World → Prop} {m : M α} {Q Q' : α → World → Prop} {E E' : World → Prop}
    (h : Tr P m Q E) (hp : ∀ w, P' w → P w) (hq : ∀ a w, Q a w → Q' a w) (he : ∀ w, E w → E' w) :
    Tr P' m Q' E' := by
  intro w hw
  have := h w (hp w hw)
  revert this
  rcases m.exec w with ⟨r, w'⟩
  cases r with
  | error e => exact he _
  | ok a => exact hq _ _

/-- The frames `H` exist, unchanged (and possibly others). -/
def Has (H : List Frame) (w : World) : Prop := H <+: w.heap

theorem Has.read {H : List Frame} (r : Ref) :
    Tr (Has H) (M.read r) (fun _ w => Has H w) (Has H) := by
  intro w hw
  rw [exec_read]
  cases w.heap[r]? <;> exact hw

theorem Has.alloc {H : List Frame} (f : Frame) :
    Tr (Has H) (M.alloc f) (fun r w => Has H w ∧ H.length ≤ r) (Has H) := by
  intro w hw
  obtain ⟨t, ht⟩ := hw
  change Has H _ ∧ _
  refine ⟨⟨t ++ [f], by simp [← ht]⟩, ?_⟩
  rw [← ht]; simp

theorem Has.write {H : List Frame} {r : Ref} (hr : H.length ≤ r) (f : Frame) :
    Tr (Has H) (M.write r f) (fun _ w => Has H w) (Has H) := by
  intro w hw
  obtain ⟨t, ht⟩ := hw
  change Has H _
  refine ⟨t.set (r - H.length) f, ?_⟩
  simp only [← ht]
  rw [List.set_append_right _ _ hr]

theorem Has.warn {H : List Frame} (x : Warning) :
    Tr (Has H) (M.warn x) (fun _ w => Has H w) (Has H) := fun _ hw => hw

theorem Has.ofExcept {H : List Frame} (e : Except Err α) :
    Tr (Has H) (M.ofExcept e) (fun _ w => Has H w) (Has H) := by
  intro w hw
  rw [exec_ofExcept]
  cases e <;> exact hw

end M
end Phik
