import Verif.Arc.Unwind
/-!
# What the calls return

A specification of the results of all calls, in terms of what the caller sees of the handle they pass in at the time of the call.
It does not mention other threads.
-/

namespace Verif.Arc
open Verif.Spec (Side Slot Rng End)
open Verif.Rc (UB)
variable {α : Type}

/-- What can be seen of a handle. -/
inductive Seen where
  /-- an `ArcSlice` of the items `off, …, off + len - 1` of buffer `b` -/
  | shared (b off len : Nat)
  /-- an `ArcSliceMut`, or its iterators with these items left -/
  | uniq (b off len : Nat)
  /-- a `WeakSlice` to slice `d` -/
  | weak (d : Option Nat)
deriving DecidableEq, Repr

namespace Conf

def seen (c : Conf α) (e : Ent) : Option Seen :=
  match e.h with
  | .strong d _ => match c.a.b.getData d with
    | .ok v => some (.shared v.buf v.off v.len)
    | .error _ => none
  | .weak d _ => some (.weak d)
  | .uniq r => some (.uniq r.buf r.off r.len)

/-- Handle `k` is there, and this is what can be seen of it. -/
def Sees (c : Conf α) (k : Nat) (v : Seen) : Prop := ∃ e, c.get k = some e ∧ c.seen e = some v

end Conf

/-- The other side. -/
def _root_.Verif.Spec.Side.flip : Side → Side
  | .L => .R
  | .R => .L

def Seen.half (s : Side) : Seen → Seen
  | .shared b off len => .shared b ((Rng.mk off len).half s).off ((Rng.mk off len).half s).len
  | .uniq b off len => .uniq b ((Rng.mk off len).half s).off ((Rng.mk off len).half s).len
  | v => v

/-- The buffer contains `xs`, except where users overwrote items (`W`), and items that are gone. -/
def Filled (W : Nat → Nat → Prop) (slot : Nat → Nat → Slot α) (b : Nat) (xs : List α) : Prop :=
  ∀ i x, xs[i]? = some x → W b i ∨ slot b i = .live x ∨ slot b i = .dropped ∨ slot b i = .moved

/-- What a call may return that is made in situation `c`: the result, and what can be seen of the handles it returns. A
handle that is passed by `&mut` is returned.

`W`: the items that are overwritten by users during the call; `slot`: the items when it has returned. -/
def Returns (c : Conf α) (W : Nat → Nat → Prop) (slot : Nat → Nat → Slot α) : Op α → Res α → List Seen → Prop
  | .new xs, r, vs => r = .handle ∧ ∃ b, vs = [.shared b 0 xs.length] ∧ (∀ i, c.a.b.slot b i = .absent) ∧ Filled W slot b xs
  | .mutNew xs, r, vs => r = .handle ∧ ∃ b, vs = [.uniq b 0 xs.length] ∧ (∀ i, c.a.b.slot b i = .absent) ∧ Filled W slot b xs
  -- a `WeakSlice` to the same slice, or an `ArcSlice` of the same items
  | .clone k, r, vs => r = .handle ∧ ∃ v, c.Sees k v ∧ vs = [v]
  | .cloneSide s k, r, vs => r = .handle ∧ ∃ b off len, c.Sees k (.shared b off len) ∧ vs = [Seen.half s (.shared b off len)]
  -- granted or not, nothing happens to the handle
  | .getMut k, r, vs => (r = .handle ∨ r = .none) ∧ ∃ b off len, c.Sees k (.shared b off len) ∧ vs = [.shared b off len]
  | .intoMut k, r, vs => ∃ b off len, c.Sees k (.shared b off len) ∧
    (r = .handle ∧ vs = [.uniq b off len] ∨ r = .err ∧ vs = [.shared b off len])
  | .intoImmut k, r, vs => r = .handle ∧ ∃ b off len, c.Sees k (.uniq b off len) ∧ vs = [.shared b off len]
  | .splitOff s k, r, vs => r = .handle ∧ ∃ b off len, c.Sees k (.uniq b off len) ∧
    vs = [Seen.half s (.uniq b off len), Seen.half s.flip (.uniq b off len)]
  | .next .front k, r, vs => ∃ b off len, c.Sees k (.uniq b off len) ∧
    (len = 0 ∧ r = .none ∧ vs = [.uniq b off 0] ∨
     0 < len ∧ ∃ x, r = .item x ∧ (W b off ∨ c.a.b.slot b off = .live x) ∧ vs = [.uniq b (off + 1) (len - 1)])
  | .next .back k, r, vs => ∃ b off len, c.Sees k (.uniq b off len) ∧
    (len = 0 ∧ r = .none ∧ vs = [.uniq b off 0] ∨
     0 < len ∧ ∃ x, r = .item x ∧ (W b (off + len - 1) ∨ c.a.b.slot b (off + len - 1) = .live x) ∧ vs = [.uniq b off (len - 1)])
  | .cut .front n k, r, vs => ∃ b off len, c.Sees k (.uniq b off len) ∧
    (n ≤ len ∧ r = .handle ∧ vs = [.uniq b off n, .uniq b (off + n) (len - n)] ∨ len < n ∧ r = .panic ∧ vs = [.uniq b off len])
  | .cut .back n k, r, vs => ∃ b off len, c.Sees k (.uniq b off len) ∧
    (n ≤ len ∧ r = .handle ∧ vs = [.uniq b (off + n) (len - n), .uniq b off n] ∨ len < n ∧ r = .panic ∧ vs = [.uniq b off len])
  | .downgrade k, r, vs => r = .handle ∧ ∃ d g m, c.get k = some ⟨.strong d g, m⟩ ∧ vs = [.weak (some d)]
  -- the slice must have been there when the call was made, and this is what `ArcSlice`s of it showed
  | .upgrade k, r, vs => ∃ d, c.Sees k (.weak d) ∧ ((r = .none ∨ r = .panic) ∧ vs = [] ∨
    r = .handle ∧ ∃ d', d = some d' ∧ ∃ v, (∀ g m, c.seen ⟨.strong d' g, m⟩ = some v) ∧ vs = [v])
  | .drop k, r, vs => (r = .unit ∨ r = .panic) ∧ (∃ v, c.Sees k v) ∧ vs = []
  -- these are not calls in flight
  | .weakNew, _, _ => True
  | .endMut _, _, _ => True

/-- The handle the call takes (by value or by `&mut`). -/
def Op.takes : Op α → Option Nat
  | .getMut k | .intoMut k | .intoImmut k | .splitOff _ k | .next _ k | .cut _ _ k | .drop k => some k
  | _ => none

/-- The handle the call is made on. -/
def Op.on : Op α → Option Nat
  | .clone k | .cloneSide _ k | .getMut k | .endMut k | .intoMut k | .intoImmut k | .splitOff _ k | .next _ k | .cut _ _ k | .downgrade k | .upgrade k
  | .drop k => some k
  | .new _ | .mutNew _ | .weakNew => none

/-- What happens between two situations: steps of calls, panics of destructors, calls that are started according to the
rules `P`, and items that are overwritten by users, all of them in `W`. -/
inductive PRun (P : Rules α) (W : Nat → Nat → Prop) (c1 : Conf α) : Conf α → Prop
  | refl : PRun P W c1 c1
  | step {c c' : Conf α} (r : PRun P W c1 c) (i : Nat) (e : c.step i = .ok c') : PRun P W c1 c'
  | start {c c' : Conf α} (r : PRun P W c1 c) (op : Op α) (hp : P c op) (e : c.start op = some c') : PRun P W c1 c'
  | write {c c' : Conf α} (r : PRun P W c1 c) (k : Nat) (en : Ent) (j : Nat) (x : α) (hk : c.get k = some en)
      (hw : Conf.writable en = true) (hW : ∀ b off len, Conf.range c.a en.h = .ok (some (b, off, len)) → j < len → W b (off + j))
      (e : c.write en j x = .ok c') : PRun P W c1 c'
  | panic {c c' : Conf α} (r : PRun P W c1 c) (i : Nat) (e : c.panic i = some c') : PRun P W c1 c'

end Verif.Arc
