import Verif.Arc.Threads
/-!
# The items that handles read

A specification in terms of the items themselves: what a user of an `ArcSlice` or `ArcSliceMut` reads through `Deref`, what calls do to
that, and what other threads can do to it. It does not mention buffers, offsets or memory.
-/

namespace Verif.Arc
open Verif.Spec (Side Slot End)
variable {α : Type}

/-- arc_slice.rs:434-440, arc_slice_mut.rs:90-95 `Deref`, 152, 218 `as_slice`: `ArcSlice` or `ArcSliceMut` `k` derefs to `xs` (so does what is left of its iterators). -/
def Conf.Reads (c : Conf α) (k : Nat) (xs : List α) : Prop :=
  ∃ b off, (c.Sees k (.shared b off xs.length) ∨ c.Sees k (.uniq b off xs.length)) ∧ ∀ i x, xs[i]? = some x → c.a.b.slot b (off + i) = .live x

/-- What an `ArcSlice` of subslice `d` would read, if there were one: the subslice has not been destroyed, and its items are `xs`. -/
def Conf.Would (c : Conf α) (d : Nat) (xs : List α) : Prop :=
  ∃ b off, c.seen ⟨.strong d 0, false⟩ = some (.shared b off xs.length) ∧ ∀ i x, xs[i]? = some x → c.a.b.slot b (off + i) = .live x

/-- What other threads do: anything `P` permits, in any order. The handles in `M` are ours: others do not take them, and do not write through them.
They may use them by `&` (`clone`, `clone_left`, `downgrade`, …). Destructors may panic. -/
inductive Apart (P : Rules α) (M : Conf α → Nat → Prop) (c1 : Conf α) : Conf α → Prop
  | refl : Apart P M c1 c1
  | step {c c' : Conf α} (r : Apart P M c1 c) (i : Nat) (e : c.step i = .ok c') : Apart P M c1 c'
  | start {c c' : Conf α} (r : Apart P M c1 c) (op : Op α) (hp : P c op) (hM : ∀ k, op.takes = some k → ¬ M c k) (e : c.start op = some c') : Apart P M c1 c'
  | write {c c' : Conf α} (r : Apart P M c1 c) (k : Nat) (en : Ent) (j : Nat) (x : α) (hk : c.get k = some en) (hw : Conf.writable en = true)
      (hM : ¬ M c k) (e : c.write en j x = .ok c') : Apart P M c1 c'
  | panic {c c' : Conf α} (r : Apart P M c1 c) (i : Nat) (e : c.panic i = some c') : Apart P M c1 c'

/-- The calls `Gives` is about: those that return handles which read what `k` read. -/
def Op.gives : Op α → Bool
  | .clone _ | .cloneSide _ _ | .getMut _ | .intoMut _ | .intoImmut _ | .splitOff _ _ | .next _ _ | .cut _ _ _ => true
  | _ => false

/-- `Gives op xs r ys`: a call `op` on a handle that reads `xs` may return `r`, and handles that read `ys`. If the call takes the handle by `&mut`, the handle
itself is the last of those returned. -/
inductive Gives : Op α → List α → Res α → List (List α) → Prop
  /-- arc_slice.rs:424-432 `clone` -/
  | clone {k xs} : Gives (.clone k) xs .handle [xs]
  /-- 334-342 `clone_left`, `clone_right` -/
  | cloneLeft {k xs} : Gives (.cloneSide .L k) xs .handle [xs.take (xs.length / 2)]
  | cloneRight {k xs} : Gives (.cloneSide .R k) xs .handle [xs.drop (xs.length / 2)]
  /-- 362-387 `get_mut`, granted or not -/
  | getMut {k xs} : Gives (.getMut k) xs .handle [xs]
  | getMutNone {k xs} : Gives (.getMut k) xs .none [xs]
  /-- 389-405 `into_mut`: `Ok` the `ArcSliceMut`, or `Err` the `ArcSlice` itself -/
  | intoMut {k xs} : Gives (.intoMut k) xs .handle [xs]
  | intoMutErr {k xs} : Gives (.intoMut k) xs .err [xs]
  /-- arc_slice_mut.rs:79-84 `into_immut` -/
  | intoImmut {k xs} : Gives (.intoImmut k) xs .handle [xs]
  /-- 61-71 `split_off_left` returns the left half and keeps the right one; `split_off_right` vice versa -/
  | splitOffLeft {k xs} : Gives (.splitOff .L k) xs .handle [xs.take (xs.length / 2), xs.drop (xs.length / 2)]
  | splitOffRight {k xs} : Gives (.splitOff .R k) xs .handle [xs.drop (xs.length / 2), xs.take (xs.length / 2)]
  /-- 192-216 `next`, `next_back` -/
  | nextNone {e k} : Gives (.next e k) [] .none [[]]
  | nextFront {k x xs} : Gives (.next .front k) (x :: xs) (.item x) [xs]
  | nextBack {k x xs} : Gives (.next .back k) (xs ++ [x]) (.item x) [xs]
  /-- 159-182 `split_off_to`, `split_off_from` of the iterator; they panic if there are not that many items left -/
  | cutFront {n k xs} (h : n ≤ xs.length) : Gives (.cut .front n k) xs .handle [xs.take n, xs.drop n]
  | cutBack {n k xs} (h : n ≤ xs.length) : Gives (.cut .back n k) xs .handle [xs.drop n, xs.take n]
  | cutPanic {e n k xs} (h : xs.length < n) : Gives (.cut e n k) xs .panic [xs]

end Verif.Arc
