import Verif.Arc.Turns
/-!
# How long calls take if nobody interferes
-/

namespace Verif.Arc
variable {α : Type}

/-- How many times the whole has been halved to get to the slice of an `ArcSlice` or `WeakSlice`. -/
def Conf.levels (c : Conf α) (en : Ent) : Nat := match en.h with
  | .strong d _ | .weak (some d) _ => (c.a.b.sk.lab d).path.length
  | _ => 0

/-- How many turns a call takes at most if no other thread does anything meanwhile. -/
def Conf.soloTurns (c : Conf α) : Op α → Option Nat
  | .cloneSide _ k => (c.get k).map fun en => 6 * c.levels en + 15
  | .upgrade k => (c.get k).map fun en => 6 * c.levels en + 6
  | .downgrade _ => some 2
  | op => c.maxTurns op

/-- Somebody is where the call would have to wait: another thread is inside a `get_mut` or `into_mut` that has closed the gate. -/
def Conf.mustWait (c : Conf α) : Op α → Prop
  | .cloneSide _ k => ∃ d g b cl, c.get k = some ⟨.strong d g, b⟩ ∧ cl ∈ c.calls ∧ cl.cloneLatch = some g
  | .downgrade k => ∃ d g b cl, c.get k = some ⟨.strong d g, b⟩ ∧ cl ∈ c.calls ∧ cl.downLatch = some g
  | _ => False

end Verif.Arc
