import Verif.Spec.Reentrant
/-!
# Destructors that panic

A panic may make the library forget about items, but only about such as no handle covers.
-/

namespace Verif.Spec.World
variable {α : Type}

/-- Items that no handle covers are lost: they will never be dropped. -/
structure Loss (w w' : World α) : Prop where
  same : w' = { w with items := w'.items }
  items : ∀ b i, w'.items b i = w.items b i ∨
    (∃ a, w.items b i = .live a) ∧ w'.items b i = .moved ∧ w.anyHand (w.covers b i) = false

/-- Everything that can be observed when destructors make calls and panic. -/
inductive Unfolds (umax : Nat) (zst : Bool) : World α → Prop
  | init : Unfolds umax zst (World.empty zst)
  | sweep (w w' : World α) : Unfolds umax zst w → w.Sweep w' → Unfolds umax zst w'
  | call (w : World α) (op : Op α) (r : World α × Obs α) : Unfolds umax zst w → w.may umax op r → Unfolds umax zst r.1
  | loss (w w' : World α) : Unfolds umax zst w → w.Loss w' → Unfolds umax zst w'

end Verif.Spec.World
