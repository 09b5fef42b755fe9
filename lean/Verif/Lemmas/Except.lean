import Verif.Model.Core

/-!
# A small program logic for `Except Err`

`Post x E Q`: if the computation `x` returns, its result satisfies `Q`; if it fails, the error
satisfies `E`.
-/

namespace Phik

/-- Postcondition of a computation, for normal results (`Q`) and for errors (`E`). -/
def Post {ε α : Type} (x : Except ε α) (E : ε → Prop) (Q : α → Prop) : Prop :=
  match x with
  | .ok a => Q a
  | .error e => E e

variable {ε α β : Type} {E E' : ε → Prop} {Q Q' : α → Prop}

@[simp] theorem Post_ok {a : α} : Post (.ok a) E Q ↔ Q a := Iff.rfl
@[simp] theorem Post_pure {a : α} : Post (pure a) E Q ↔ Q a := Iff.rfl
@[simp] theorem Post_error {e : ε} : Post (.error e : Except ε α) E Q ↔ E e := Iff.rfl

theorem Post_bind {x : Except ε α} {f : α → Except ε β} {R : β → Prop}
    (h : Post x E (fun a => Post (f a) E R)) : Post (x >>= f) E R := by
  cases x with
  | ok a => exact h
  | error e => exact h

theorem Post_bind' {x : Except ε α} {f : α → Except ε β} {R : β → Prop}
    (h : Post x E Q) (hf : ∀ a, Q a → Post (f a) E R) : Post (x >>= f) E R := by
  cases x with
  | ok a => exact hf a h
  | error e => exact h

theorem Post.mono {x : Except ε α} (h : Post x E Q) (hE : ∀ e, E e → E' e)
    (hQ : ∀ a, Q a → Q' a) : Post x E' Q' := by
  cases x with
  | ok a => exact hQ a h
  | error e => exact hE e h

theorem Post.imp {x : Except ε α} (h : Post x E Q) (hQ : ∀ a, Q a → Q' a) : Post x E Q' :=
  h.mono (fun _ h => h) hQ

theorem Post.and {x : Except ε α} (h : Post x E Q) (h' : Post x E Q') :
    Post x E (fun a => Q a ∧ Q' a) := by
  cases x with
  | ok a => exact ⟨h, h'⟩
  | error e => exact h

theorem Post_iff {x : Except ε α} :
    Post x E Q ↔ (∀ a, x = .ok a → Q a) ∧ (∀ e, x = .error e → E e) := by
  cases x <;> simp [Post]

/-- With no admissible error the computation returns. -/
theorem Post.total {x : Except ε α} (h : Post x (fun _ => False) Q) : ∃ a, x = .ok a ∧ Q a := by
  cases x with
  | ok a => exact ⟨a, rfl, h⟩
  | error e => exact h.elim

theorem Post.of_ok {x : Except ε α} {a : α} (h : Post x E Q) (hx : x = .ok a) : Q a := by
  subst hx; exact h

theorem Post.of_error {x : Except ε α} {e : ε} (h : Post x E Q) (hx : x = .error e) : E e := by
  subst hx; exact h

end Phik
