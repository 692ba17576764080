import Verif.Rc.Machine
/-!
# Histories of calls, performed by the code
-/

namespace Verif.Rc
open Verif.Spec (Op Obs)
variable {α : Type}

/-- The state after a history of calls, or undefined behaviour. `umax` is `usize::MAX`, `zst`
says whether the items are zero-sized. Models no code of /repo but that of its users. -/
def after (umax : Nat) (zst : Bool) (ops : List (Op α)) : Except UB (State α) :=
  (run umax ⟨Heap.empty zst, []⟩ ops).map (·.1)

/-- What a call returns after a history of calls. Models no code of /repo but that of its users. -/
def answer (umax : Nat) (zst : Bool) (ops : List (Op α)) (op : Op α) : Except UB (Obs α) :=
  (after umax zst ops).bind fun s => (call umax s op).map (·.2)

/-- Handle `k` shows item `i` of buffer `b`: the item lies in the slice of memory the handle
dereferences to (for iterators, the slice of items still to be yielded). -/
def State.Sees (umax : Nat) (s : State α) (k b i : Nat) : Prop :=
  ∃ x off len, s.get k = some x ∧ handleRange umax s.h x = .ok (some (b, off, len)) ∧ off ≤ i ∧ i < off + len

end Verif.Rc
