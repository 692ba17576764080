import Verif.Spec.World
/-!
# Calls from inside destructors

The destructor of an item may itself call the library. While it runs, a slice is being torn
down: it has lost its handle but some of its items are still to be dropped. This file says
what may be observed then. The answers of `get_mut`, `into_mut` and `upgrade` depend on the
progress of the tear-down, so three calls have a second possible outcome.
-/

namespace Verif.Spec.World
variable {α : Type}

/-- What a call may do while drops are pending. -/
def may (umax : Nat) (w : World α) (op : Op α) (r : World α × Obs α) : Prop :=
  r = w.act umax op ∨
  match op with
  -- exclusive access may be refused although no handle conflicts
  | .getMut k _ _ => (∃ f p, w.get k = some (.shared f p)) ∧ r = (w, .none)
  | .intoMut k => (∃ f p, w.get k = some (.shared f p)) ∧ r = (w, .err)
  -- a slice whose items have not been touched yet may be upgraded to
  | .upgrade k => ∃ f p, w.get k = some (.weak f p) ∧ r = (w.push (.shared f p), .handle) ∧
      ∀ i, (w.rangeOf f p).has i = true → ∃ a, w.items (w.fam f).buf i = .live a
  | _ => False

/-- What the library does on its own: it drops items that no handle covers, and frees memory
that no handle keeps and that has no items left. -/
structure Sweep (w w' : World α) : Prop where
  same : w' = { w with items := w'.items, mem := w'.mem }
  items : ∀ b i, w'.items b i = w.items b i ∨
    (∃ a, w.items b i = .live a) ∧ w'.items b i = .dropped ∧ w.anyHand (w.covers b i) = false
  mem : ∀ b, w'.mem b = w.mem b ∨
    w.mem b = true ∧ w'.mem b = false ∧ w.anyHand (w.keeps b) = false ∧ ∀ i a, w'.items b i ≠ .live a

/-- Everything that can be observed when destructors make calls. -/
inductive Evolves (umax : Nat) (zst : Bool) : World α → Prop
  | init : Evolves umax zst (World.empty zst)
  | sweep (w w' : World α) : Evolves umax zst w → w.Sweep w' → Evolves umax zst w'
  | call (w : World α) (op : Op α) (r : World α × Obs α) : Evolves umax zst w → w.may umax op r → Evolves umax zst r.1

end Verif.Spec.World
