import Verif.Model.Lifetime
import Verif.Spec.History

/-!
Vocabulary for statements about views and references that are kept: what they lead to, told from the calls that were made.
-/

namespace WB.Spec

open WB

variable {α : Type} [Zero α] [Add α] [Mul α] [Neg α] [Inhabited α]

/-- The process can get into this state. -/
inductive Played (k : Kit α) : Scene α → Prop where
  | start : Played k Scene.init
  | next {s s' x} (op : SceneOp α) : Played k s → s.step k op = some (s', x) → Played k s'

/-- The call replaces, takes away or ends the contents of object `h`. -/
def Renews (h : ℕ) : SceneOp α → Prop
  | .call op => Rebinds h op
  | _ => False

/-- View `v` was made from object `h` with these arguments and has not been destroyed. -/
inductive Watches (k : Kit α) : Scene α → ℕ → ℕ → View → Prop where
  | made {s s' x h u} : Played k s → s.step k (.makeView h u) = some (s', x) → Watches k s' s.views.length h u
  | kept {s s' x v h u} (op : SceneOp α) : Watches k s v h u → (∀ u', op = .dropView u' → u' ≠ v) → s.step k op = some (s', x) → Watches k s' v h u

/-- Reference `r` leads to the contents that object `h` has now: it was taken from an object or from a view of it, and when these contents were moved to another
object it went along. -/
inductive Follows (k : Kit α) : Scene α → ℕ → ℕ → Prop where
  | taken {s s' x h} : Played k s → s.step k (.takeRef h) = some (s', x) → Follows k s' s.refs.length h
  | window {s s' v h u w} : Watches k s v h u → s.step k (.windowView v) = some (s', .window w) → Follows k s' s.refs.length h
  | kept {s s' x r h} (op : SceneOp α) : Follows k s r h → ¬ Renews h op → s.step k op = some (s', x) → Follows k s' r h
  | moved {s s' x r h} : Follows k s r h → s.step k (.call (.move h)) = some (s', x) → Follows k s' r (fresh s.world)
  | moveAssigned {s s' x r h} (g : ℕ) : Follows k s r h → s.step k (.call (.moveAssign g h)) = some (s', x) → Follows k s' r g

/-- The contents that reference `r` led to are gone: their object was destroyed, or something else was assigned to it (to itself
included, when it is copied). -/
inductive Dangles (k : Kit α) : Scene α → ℕ → Prop where
  | destroyed {s s' x r h} : Follows k s r h → s.step k (.call (.destroy h)) = some (s', x) → Dangles k s' r
  | assigned {s s' x r h} (g : ℕ) : Follows k s r h → s.step k (.call (.assign h g)) = some (s', x) → Dangles k s' r
  | overwritten {s s' x r h} (g : ℕ) : Follows k s r h → g ≠ h → s.step k (.call (.moveAssign h g)) = some (s', x) → Dangles k s' r
  | later {s s' x r} (op : SceneOp α) : Dangles k s r → s.step k op = some (s', x) → Dangles k s' r

/-- The call changed the buffer in object `h` to `b`, and no other. -/
def OnlyChanges (w w' : World α) (h : ℕ) (b : Buffer α) : Prop := w'.content h = some b ∧ ∀ g ≠ h, w'.content g = w.content g

end WB.Spec
