import Verif.Spec.Parts
import Verif.Model.SliceItems
/-!
# Where a range of items lives

The item at position `k` of a buffer has address `base + k * size`. These are the
only definitions that connect item positions of the specification with the
addresses the code works on.
-/

namespace Verif
open Spec

/-- The range lies inside the buffer. -/
def InBuf (C : Ctx) (r : Rng) : Prop := r.off + r.len ≤ C.cnt
instance (C : Ctx) (r : Rng) : Decidable (InBuf C r) := inferInstanceAs (Decidable (_ ≤ _))

/-- The unique handle (`SliceItems`) that covers exactly the items `r`. -/
def enc (C : Ctx) (r : Rng) : SliceItems := ⟨C.base + r.off * C.size, r.len⟩

/-- The slice (`&[T]`) that shows exactly the items `r`. -/
def raw (C : Ctx) (r : Rng) : RawSlice := ⟨C.base + r.off * C.size, r.len⟩

/-- The `2^k` parts of a range, in order. -/
abbrev rparts (k : Nat) (r : Rng) : List Rng := parts Rng.left Rng.right k r

/-- What an item iterator over a slice that starts at position `o` reads for the
item at position `k`: its address, or, for zero-sized items, its index. -/
def loc (C : Ctx) (o k : Nat) : Nat := if C.size = 0 then k - o else C.base + k * C.size

/-- Part `i` of `2^m`: `m` halvings, directed by the binary digits of `i`, most
significant digit first (digit 0 = left half, digit 1 = right half). -/
def Spec.digitPart {S : Type} (left right : S → S) : Nat → Nat → S → S
  | 0, _, s => s
  | m + 1, i, s => Spec.digitPart left right m i (if i.testBit m then right s else left s)

end Verif
