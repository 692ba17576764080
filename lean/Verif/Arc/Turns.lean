import Verif.Arc.Contract
/-!
# Counting the turns of calls

What is needed to say how many turns a call takes, whatever other threads do in between. Models no code.
-/

namespace Verif.Arc
open Verif.Rc (UB)
variable {α : Type}

/-- What happens between two situations, with the list of the calls that have had a turn: steps of calls, panics of
destructors, calls that are started according to the rules `P`, and items that are overwritten by users. -/
inductive Moves (P : Rules α) (c1 : Conf α) : Conf α → List Nat → Prop
  | refl : Moves P c1 c1 []
  | step {c c' : Conf α} {is : List Nat} (r : Moves P c1 c is) (i : Nat) (e : c.step i = .ok c') : Moves P c1 c' (i :: is)
  | start {c c' : Conf α} {is : List Nat} (r : Moves P c1 c is) (op : Op α) (hp : P c op) (e : c.start op = some c') : Moves P c1 c' is
  | write {c c' : Conf α} {is : List Nat} (r : Moves P c1 c is) (k : Nat) (en : Ent) (j : Nat) (x : α) (hk : c.get k = some en)
      (hw : Conf.writable en = true) (e : c.write en j x = .ok c') : Moves P c1 c' is
  | panic {c c' : Conf α} {is : List Nat} (r : Moves P c1 c is) (i : Nat) (e : c.panic i = some c') : Moves P c1 c' is

/-- How many items a handle shows. -/
def Conf.size (c : Conf α) (en : Ent) : Nat := match Conf.range c.a en.h with
  | .ok (some (_, _, len)) => len
  | _ => 0

/-- How many times the whole has been halved to get to the slice of a handle. -/
def Conf.depth (c : Conf α) (en : Ent) : Nat := match en.h with
  | .strong d _ => (c.a.b.sk.lab d).path.length
  | _ => 0

/-- How many turns a call takes at most, if there is a bound that does not depend on what others do.

* `clone_left`, `clone_right` and `downgrade` wait for a gate, and `upgrade` starts over when another thread has been
  faster, so there is none.
* `WeakSlice::new` and the end of a mutable borrow take effect at once in the model. -/
def Conf.maxTurns (c : Conf α) : Op α → Option Nat
  | .new _ | .intoImmut _ => some 6
  | .mutNew _ | .splitOff _ _ | .cut _ _ _ => some 1
  | .clone _ | .next _ _ => some 2
  | .getMut _ => some 7
  | .intoMut k => (c.get k).map fun en => 13 * c.size en + c.depth en + 11
  | .drop k => (c.get k).map fun en => 11 * c.size en + c.depth en + 4
  | .cloneSide _ _ | .downgrade _ | .upgrade _ | .weakNew | .endMut _ => none

end Verif.Arc
