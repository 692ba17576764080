import Verif.Rc.Kept
/-!
# How large reference counts get

The specification for C75, besides `Rc/Kept`.
-/

namespace Verif.Rc
variable {α : Type}

/-- The number of `RcSliceMut`s, `RcSliceMutIter`s and `RcSliceMutParts` there are. rc_slice_mut.rs:24-44. -/
def State.uniqs (s : State α) : Nat :=
  s.hs.countP fun o => match o with | some (.uniq _) | some (.iter _) | some (.parts _ _ _) => true | _ => false

end Verif.Rc
