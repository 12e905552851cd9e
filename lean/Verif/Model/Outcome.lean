import Mathlib.Data.List.Basic

/-!
Results of running C++ code.

`ok a`   – normal return,
`throw`  – a C++ exception leaves the function,
`ub`     – undefined behaviour (out-of-range element access, use of an indeterminate value, ...).

The three are kept apart everywhere, so a theorem that says `= ok _` excludes the other two.
-/

namespace WB

/-- Result of a C++ call without visible state. -/
inductive Outcome (α : Type u) where
  | ok (a : α)
  | throw
  | ub
  deriving Repr, DecidableEq

namespace Outcome

def bind {α : Type u} {β : Type v} (x : Outcome α) (f : α → Outcome β) : Outcome β :=
  match x with
  | ok a => f a
  | throw => throw
  | ub => ub

instance : Monad Outcome where
  pure := ok
  bind := bind

@[simp] theorem pure_eq {α : Type u} (a : α) : (pure a : Outcome α) = ok a := rfl
@[simp] theorem bind_ok {α β : Type u} (a : α) (f : α → Outcome β) : (ok a >>= f) = f a := rfl
@[simp] theorem bind_throw {α β : Type u} (f : α → Outcome β) : ((throw : Outcome α) >>= f) = throw := rfl
@[simp] theorem bind_ub {α β : Type u} (f : α → Outcome β) : ((ub : Outcome α) >>= f) = ub := rfl

@[simp] theorem map_eq {α β : Type u} (f : α → β) (x : Outcome α) :
    (f <$> x) = x >>= fun a => ok (f a) := rfl

instance : LawfulMonad Outcome := LawfulMonad.mk'
  (id_map := by intro α x; cases x <;> rfl)
  (pure_bind := by intro α β a f; rfl)
  (bind_assoc := by intro α β γ x f g; cases x <;> rfl)

/-- Is the result a normal return? -/
def isOk {α : Type u} : Outcome α → Bool
  | ok _ => true
  | _ => false

/-- A list of actions whose every element succeeds, succeeds with the list of results. -/
theorem mapM_ok {α β : Type u} {l : List α} {f : α → Outcome β} {g : α → β}
    (h : ∀ a ∈ l, f a = ok (g a)) : l.mapM f = ok (l.map g) := by
  induction l with
  | nil => rfl
  | cons a l ih =>
    rw [List.mapM_cons, h a (by simp), bind_ok, ih (fun b hb => h b (by simp [hb]))]
    rfl

/-- A fold whose every step succeeds, succeeds. -/
theorem foldlM_ok {α β : Type u} {l : List α} {f : β → α → Outcome β} {g : β → α → β} (b : β)
    (h : ∀ a ∈ l, ∀ b, f b a = ok (g b a)) : l.foldlM f b = ok (l.foldl g b) := by
  induction l generalizing b with
  | nil => rfl
  | cons a l ih =>
    rw [List.foldlM_cons, h a (by simp), bind_ok, List.foldl_cons,
      ih _ (fun c hc => h c (by simp [hc]))]

end Outcome

/-- Result of a C++ call that updates a state `σ` in place: the state is also known when an exception leaves
the call. -/
inductive Run (σ : Type u) (α : Type v) where
  | ok (s : σ) (a : α)
  | throw (s : σ)
  | ub
  deriving Repr, DecidableEq

namespace Run

/-- Sequencing. -/
def bind {σ : Type u} {α : Type v} {β : Type w} (x : Run σ α) (f : σ → α → Run σ β) : Run σ β :=
  match x with
  | ok s a => f s a
  | throw s => throw s
  | ub => ub

/-- Run a stateless call in state `s`. -/
def lift {σ : Type u} {α : Type v} (s : σ) (x : Outcome α) : Run σ α :=
  match x with
  | .ok a => ok s a
  | .throw => throw s
  | .ub => ub

@[simp] theorem bind_ok {σ : Type u} {α : Type v} {β : Type w} (s : σ) (a : α) (f : σ → α → Run σ β) :
    (ok s a).bind f = f s a := rfl
@[simp] theorem bind_throw {σ : Type u} {α : Type v} {β : Type w} (s : σ) (f : σ → α → Run σ β) :
    (throw s : Run σ α).bind f = throw s := rfl
@[simp] theorem bind_ub {σ : Type u} {α : Type v} {β : Type w} (f : σ → α → Run σ β) :
    (ub : Run σ α).bind f = ub := rfl
@[simp] theorem lift_ok {σ : Type u} {α : Type v} (s : σ) (a : α) : lift s (.ok a) = ok s a := rfl
@[simp] theorem lift_throw {σ : Type u} {α : Type v} (s : σ) :
    lift s (.throw : Outcome α) = throw s := rfl
@[simp] theorem lift_ub {σ : Type u} {α : Type v} (s : σ) : lift s (.ub : Outcome α) = ub := rfl

end Run

/-- Checked element access of a vector: out of range is undefined behaviour
(`blaze::DynamicVector::operator[]`, `std::vector::operator[]` in a release build). -/
def rd {α : Type u} (l : List α) (i : ℕ) : Outcome α :=
  match l[i]? with
  | some a => .ok a
  | none => .ub

theorem rd_ok {α : Type u} {l : List α} {i : ℕ} (h : i < l.length) : rd l i = .ok l[i] := by
  simp [rd, h]

theorem rd_ub {α : Type u} {l : List α} {i : ℕ} (h : l.length ≤ i) : rd l i = .ub := by
  simp [rd, h]

theorem rd_eq_getD {α : Type u} {l : List α} {i : ℕ} (d : α) (h : i < l.length) :
    rd l i = .ok (l.getD i d) := by
  simp [rd, h, List.getD]

end WB
