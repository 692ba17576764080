import Verif.Model.SliceItems
import Verif.Model.BinParts
/-!
# `size_hint` and `count`

The macros of `/repo/src/internal/macros/iter.rs`, which all iterators use.
-/

namespace Verif

/-- macros/iter.rs:14-16 `size_hint`: `(self.len(), Some(self.len()))`. Used at slice_items.rs:188, 322, bin_parts_iter.rs:268, and, for the iterators that wrap
those, at rc_slice.rs:546, rc_slice_mut.rs:218, 263, arc_slice.rs:518, arc_slice_mut.rs:199, 244. -/
def exactSizeHint (len : Except Fault Nat) : Except Fault (Nat × Option Nat) := do
  let a ← len
  let b ← len
  pure (a, some b)

/-- macros/iter.rs:23 `count`: `self.len()`; then the iterator is dropped, which is `dropHandle` in layer B. Used one line after each `size_hint`. -/
def exactCount (len : Except Fault Nat) : Except Fault Nat := len

namespace SliceItemsIter

/-- slice_items.rs:188. -/
def sizeHint (C : Ctx) (it : SliceItemsIter) : Except Fault (Nat × Option Nat) := exactSizeHint (it.len C)
/-- slice_items.rs:189. -/
def count (C : Ctx) (it : SliceItemsIter) : Except Fault Nat := exactCount (it.len C)

end SliceItemsIter

namespace SliceItemsParts

/-- slice_items.rs:322. -/
def sizeHint (it : SliceItemsParts) : Except Fault (Nat × Option Nat) := exactSizeHint it.len
/-- slice_items.rs:323. -/
def count (it : SliceItemsParts) : Except Fault Nat := exactCount it.len

end SliceItemsParts

namespace BinaryPartsIter

/-- bin_parts_iter.rs:268. -/
def sizeHint {S : Type} (it : BinaryPartsIter S) : Except Fault (Nat × Option Nat) := exactSizeHint it.len
/-- bin_parts_iter.rs:269. -/
def count {S : Type} (it : BinaryPartsIter S) : Except Fault Nat := exactCount it.len

end BinaryPartsIter
end Verif
