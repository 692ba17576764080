import Verif.Spec.Reentrant
/-!
# Words for speaking about histories of calls
-/

namespace Verif.Spec
variable {α : Type}

/-- The handle a call is made on. -/
def Op.on : Op α → Option Nat
  | .rcNew _ => none
  | .mutNew _ => none
  | .weakNew => none
  | .clone k => some k
  | .cloneSide _ k => some k
  | .splitOff _ k => some k
  | .getMut k _ _ => some k
  | .write k _ _ => some k
  | .read k => some k
  | .intoMut k => some k
  | .intoImmut k => some k
  | .downgrade k => some k
  | .upgrade k => some k
  | .drop k => some k
  | .intoIter k => some k
  | .next _ k => some k
  | .splitOffFrom k _ => some k
  | .splitOffTo k _ => some k
  | .intoParts k _ => some k
  | .nextPart _ k => some k

/-- None of these calls is made on handle `k`. -/
def Unused (k : Nat) (ops : List (Op α)) : Prop := ∀ op ∈ ops, op.on ≠ some k

/-- Two members of a family, one of which was cut from the other, or the same. Members are
named by the halvings that lead to them. -/
def Related (p q : List Side) : Prop := p <:+ q ∨ q <:+ p

/-- The handles, families, items and memory after a history of calls. -/
def World.after (umax : Nat) (zst : Bool) (ops : List (Op α)) : World α := ((World.empty zst).run umax ops).1

/-- Some other `RcSlice` lies on the same subslice, on one it was cut from, or on one cut from it. -/
def World.OtherStrong (w : World α) (k f : Nat) (p : List Side) : Prop :=
  ∃ k' q, k' ≠ k ∧ w.get k' = some (.shared f q) ∧ Related p q

/-- Some `WeakSlice` refers to the same subslice or to one cut from it. -/
def World.WeakBelow (w : World α) (f : Nat) (p : List Side) : Prop :=
  ∃ k' q, w.get k' = some (.weak f q) ∧ p <:+ q

/-- Some `RcSlice` lies on the same subslice or on one it was cut from. -/
def World.StrongAbove (w : World α) (f : Nat) (p : List Side) : Prop :=
  ∃ k' q, w.get k' = some (.shared f q) ∧ q <:+ p

/-- Some handle covers the item. -/
def World.Covered (w : World α) (b i : Nat) : Prop := ∃ k x, w.get k = some x ∧ w.covers b i x = true

/-- Some handle keeps the memory of the buffer. -/
def World.Kept (w : World α) (b : Nat) : Prop := ∃ k x, w.get k = some x ∧ w.keeps b x = true

end Verif.Spec
