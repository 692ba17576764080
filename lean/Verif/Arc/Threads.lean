import Verif.Arc.Contract
import Verif.Model.BinParts
/-!
# Programs made of several calls

`ArcSlice::split_off_left`, `ArcSlice::split_off_right` and the methods of `ArcSliceParts` make several calls on handles, one
after another. Other threads do what they like before, between and during these calls, except that they cannot take
(consume, or borrow mutably) handles that belong to the thread which makes the calls.
-/

namespace Verif.Arc
open Verif.Spec (Side Slot Rng End)
variable {α β γ : Type}

/-- A program of one thread: it returns a value, fails (by a panic, an arithmetic overflow, …), or makes a call and goes on depending on
the result and the handles that the call returns. What the functions of arc_slice.rs and arc_slice_mut.rs are that call several others. -/
inductive Prog (α β : Type) where
  | ret (b : β)
  | fault (f : Fault)
  | call (op : Op α) (next : Res α → List Nat → Prog α β)

namespace Prog

/-- First `p`, then `q`. Models no code. -/
def bind : Prog α β → (β → Prog α γ) → Prog α γ
  | .ret b, q => q b
  | .fault f, _ => .fault f
  | .call op next, q => .call op fun r ks => bind (next r ks) q

instance : Monad (Prog α) where
  pure := .ret
  bind := bind

/-- `tryCatch` is not used: no code in the crate catches a panic. -/
instance : MonadExceptOf Fault (Prog α) where
  throw := .fault
  tryCatch p _ := p

/-- A call that returns one handle. E.g. arc_slice.rs:334-342. -/
def one (op : Op α) : Prog α Nat := .call op fun
  | .handle, [k] => .ret k
  | _, _ => .fault .panic

/-- `drop`, which panics if a destructor does. E.g. the assignment at arc_slice.rs:347. -/
def drop (k : Nat) : Prog α Unit := .call (.drop k) fun
  | .unit, _ => .ret ()
  | _, _ => .fault .panic

end Prog

/-- arc_slice.rs:344-356 `ArcSlice::split_off_left`, `ArcSlice::split_off_right`, and their use in `impl BinarySplitOff for ArcSlice`
(486-491): (returned half, what `this` is now). The assignment to `*this` drops the old value. -/
def splitOffK (s : Side) (k : Nat) : Prog α (Nat × Nat) := do
  let left ← Prog.one (.cloneSide .L k)
  let right ← Prog.one (.cloneSide .R k)
  Prog.drop k
  match s with
  | .L => pure (left, right)
  | .R => pure (right, left)

/-- arc_slice.rs:513-525 `ArcSliceParts::next`, `ArcSliceParts::next_back`; `as_slice` (503-505) and `len` (510) are layer A's. -/
def nextPart (umax : Nat) (debug : Bool) : End → BinaryPartsIter Nat → Prog α (Option Nat × BinaryPartsIter Nat)
  | .front, it => it.next (splitOffK .L) umax debug
  | .back, it => it.nextBack (splitOffK .R) umax debug

/-- `VecDeque::clone` clones the elements, front to back. Used at bin_parts_iter.rs:20. -/
def cloneAll : List Nat → Prog α (List Nat)
  | [] => pure []
  | k :: ks => do
    let k' ← Prog.one (.clone k)
    let ks' ← cloneAll ks
    pure (k' :: ks')

/-- arc_slice.rs:529-534 `impl Clone for ArcSliceParts` (bin_parts_iter.rs:20 `#[derive(Clone)]`). The capacity of the new deque is the standard
library's choice. -/
def cloneParts (cap : Nat) (it : BinaryPartsIter Nat) : Prog α (BinaryPartsIter Nat) := do
  let ks ← cloneAll it.deque.items
  pure { it with deque := ⟨ks, cap⟩ }

/-! ## Running programs among other threads -/

/-- What other threads may do: whatever `P` permits, but they cannot take handles in `M`. They can use them by `&`. -/
def Others (P : Rules α) (M : Conf α → Nat → Prop) : Rules α := fun c op => P c op ∧ ∀ k, op.takes = some k → ¬ M c k

/-- The thread's handles while it makes a call: those it does not take, and those it has been given by the call. -/
def Held (mine : List Nat) (op : Op α) (i : Nat) (c : Conf α) (k : Nat) : Prop :=
  (k ∈ mine ∧ op.takes ≠ some k) ∨ ∃ cl, c.calls[i]? = some cl ∧ k ∈ cl.out

/-- `Runs P W c mine p c' mine' r`: program `p` is run from situation `c` to situation `c'`, the thread's own handles being `mine` and `mine'`,
and returns `r`. Other threads act before and after every call and while it runs. -/
inductive Runs (P : Rules α) (W : Nat → Nat → Prop) : Conf α → List Nat → Prog α β → Conf α → List Nat → Except Fault β → Prop
  | ret {c c' mine b} (r : PRun (Others P fun _ k => k ∈ mine) W c c') : Runs P W c mine (.ret b) c' mine (.ok b)
  | fault {c c' mine f} (r : PRun (Others P fun _ k => k ∈ mine) W c c') : Runs P W c mine (.fault f) c' mine (.error f)
  | call {c c0 c1 c2 c3 mine mine3 op next cl res r} (r0 : PRun (Others P fun _ k => k ∈ mine) W c c0)
      -- the call is made
      (hon : ∀ k, op.on = some k → k ∈ mine) (hp : P c0 op) (hs : c0.start op = some c1)
      -- it runs, among others
      (r1 : PRun (Others P (Held mine op c0.calls.length)) W c1 c2)
      -- and returns
      (hi : c2.calls[c0.calls.length]? = some cl) (hf : cl.fin = true) (hr : cl.pc = .done res)
      (r2 : Runs P W c2 (mine.filter (fun k => op.takes ≠ some k) ++ cl.out) (next res cl.out) c3 mine3 r) :
      Runs P W c mine (.call op next) c3 mine3 r

/-- The history of an `ArcSliceParts`: `Life … b r m c it w` says that in situation `c` there is an iterator `it` over the `2 ^ m` parts of a slice of the items
`r` of buffer `b`, that has been through the calls `w` of `next` and `next_back` since `split_into_parts`. -/
inductive Life (P : Rules α) (W : Nat → Nat → Prop) (zst : Bool) (umax : Nat) (debug : Bool) (b : Nat) (r : Rng) (m : Nat) :
    Conf α → BinaryPartsIter Nat → List End → Prop
  /-- arc_slice.rs:358-360 `split_into_parts`, 495-499 `ArcSliceParts::new` -/
  | new {c k it} (h : Conf.PReach P zst c) (hk : c.Sees k (.shared b r.off r.len)) (hn : 2 ^ m ≤ umax) (e : BinaryPartsIter.new k (2 ^ m) = .ok it) :
      Life P W zst umax debug b r m c it []
  /-- other things happen -/
  | env {c c' it w} (h : Life P W zst umax debug b r m c it w) (run : PRun (Others P fun _ k => k ∈ it.deque.items) W c c') :
      Life P W zst umax debug b r m c' it w
  | next {c c' it it' w e mine o} (h : Life P W zst umax debug b r m c it w)
      (run : Runs P W c it.deque.items (nextPart umax debug e it) c' mine (.ok (o, it'))) : Life P W zst umax debug b r m c' it' (w ++ [e])
  /-- the clone; if `debug_assert_eq!` is compiled in, which requires that the deque does not grow, the new deque must have the capacity of the old one -/
  | clone {c c' it it' w cap mine} (h : Life P W zst umax debug b r m c it w) (hc : it.deque.items.length ≤ cap) (hd : debug = true → it.deque.cap ≤ cap)
      (run : Runs P W c it.deque.items (cloneParts cap it) c' mine (.ok it')) : Life P W zst umax debug b r m c' it' w

end Verif.Arc
