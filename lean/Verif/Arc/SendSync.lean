import Verif.Arc.Unwind
import Verif.Arc.Contract
/-!
# `Send` and `Sync`

Which values may be moved to another thread (`Send`), and which may be shared with one (`Sync`), as the compiler decides it from
the fields of the structures and the `unsafe impl`s; and what programs on several threads can do that respect this.
-/

namespace Verif.Arc
open Verif.Rc (upd)
variable {α : Type}

/-! ## The two traits -/

/-- Whether a type is `Send` and whether it is `Sync`. Models no code: what the compiler knows of a type. -/
structure Auto where
  send : Bool
  sync : Bool
deriving DecidableEq, Repr

namespace Auto

/-- Of the standard library: `NonNull<T>` and `*const T`, whatever `T` is. The type of arc_slice.rs:28, slice_items.rs:14, 25, 380. -/
def pointer : Auto := ⟨false, false⟩

/-- Of the standard library: `usize`, `AtomicBool`, `AtomicPtr<T>` whatever `T` is. The type of arc_slice.rs:29, 36, 38, 43, gate.rs:5. -/
def plain : Auto := ⟨true, true⟩

/-- Of the standard library: `Arc<X>` and `sync::Weak<X>`. The type of arc_slice.rs:32, 39, 53, 63, 64, 70, 72. -/
def arc (x : Auto) : Auto := ⟨x.send && x.sync, x.send && x.sync⟩

/-- Of the standard library: `Rc<X>` and `rc::Weak<X>`, whatever `X` is. The type of rc_slice.rs:72, 75, 81, 84, rc_slice_mut.rs:31. -/
def rc (_ : Auto) : Auto := ⟨false, false⟩

/-- A structure for which nothing else is said; `Option<X>`, `PhantomData<X>` and `VecDeque<X>` are like `X`. The rule for auto traits. -/
def fields (l : List Auto) : Auto := ⟨l.all (·.send), l.all (·.sync)⟩

/-- slice_alloc.rs:37-38: `unsafe impl<T> Send`, `unsafe impl<T> Sync`. -/
def sliceAlloc (_ : Auto) : Auto := ⟨true, true⟩

/-- slice_items.rs:100-101: `unsafe impl<T: Send> Send`, `unsafe impl<T: Sync> Sync`. -/
def sliceItems (T : Auto) : Auto := ⟨T.send, T.sync⟩

/-- slice_items.rs:165-166: `unsafe impl<T: Send> Send`, `unsafe impl<T: Sync> Sync`. -/
def sliceItemsIter (T : Auto) : Auto := ⟨T.send, T.sync⟩

/-- slice_items.rs:283-284: `unsafe impl<T: Send> Send`, `unsafe impl<T: Sync> Sync`. -/
def sliceItemsParts (T : Auto) : Auto := ⟨T.send, T.sync⟩

/-- arc_slice.rs:274-275: `unsafe impl<T: Send + Sync> Send`, `unsafe impl<T: Sync> Sync`. -/
def arcSliceData (T : Auto) : Auto := ⟨T.send && T.sync, T.sync⟩

/-- gate.rs:4-6. -/
def gate : Auto := fields [plain]

/-- arc_slice.rs:50-58. The field `_parent: Option<Arc<Self>>` is left out: auto traits are coinductive, so it adds nothing
(`dataGuard_rec`). -/
def dataGuard : Auto := fields [gate, gate]

/-- arc_slice.rs:62-65. -/
def arcSlice (T : Auto) : Auto := fields [arc (arcSliceData T), arc dataGuard]

/-- arc_slice.rs:69-73. -/
def weakSlice (T : Auto) : Auto := fields [arc (arcSliceData T), arc dataGuard]

/-- bin_parts_iter.rs:20-26 `BinaryPartsIter<S>`. -/
def binaryPartsIter (S : Auto) : Auto := fields [plain, plain, plain, S]

/-- arc_slice.rs:76-78. -/
def arcSliceParts (T : Auto) : Auto := fields [binaryPartsIter (arcSlice T)]

/-- arc_slice_mut.rs:23-29. -/
def arcSliceMut (T : Auto) : Auto := fields [sliceItems T, arc (sliceAlloc T)]

/-- arc_slice_mut.rs:31-35. -/
def arcSliceMutIter (T : Auto) : Auto := fields [sliceItemsIter T, arc (sliceAlloc T)]

/-- arc_slice_mut.rs:37-41. -/
def arcSliceMutParts (T : Auto) : Auto := fields [sliceItemsParts T, arc (sliceAlloc T)]

/-- rc_slice.rs:71-76; `d` and `g` are what the two `Rc`s point to. -/
def rcSlice (d g : Auto) : Auto := fields [rc d, rc g]

/-- rc_slice.rs:80-85. -/
def rcWeakSlice (d g : Auto) : Auto := fields [rc d, rc g]

/-- rc_slice.rs:88-90. -/
def rcSliceParts (d g : Auto) : Auto := fields [binaryPartsIter (rcSlice d g)]

/-- rc_slice_mut.rs:24-32. -/
def rcSliceMut (T : Auto) : Auto := fields [sliceItems T, rc (sliceAlloc T)]

/-- rc_slice_mut.rs:34-38. -/
def rcSliceMutIter (T : Auto) : Auto := fields [sliceItemsIter T, rc (sliceAlloc T)]

/-- rc_slice_mut.rs:40-44. -/
def rcSliceMutParts (T : Auto) : Auto := fields [sliceItemsParts T, rc (sliceAlloc T)]

/-- The type of a handle. `Handle.uniq` stands for `ArcSliceMut`, `ArcSliceMutIter` and `ArcSliceMutParts`; these are equally `Send`
and `Sync` (`C67_traits`). arc_slice.rs:62-73, arc_slice_mut.rs:23-41. -/
def handle (T : Auto) : Handle → Auto
  | .strong _ _ => arcSlice T
  | .weak _ _ => weakSlice T
  | .uniq _ => arcSliceMut T

end Auto

/-! ## Programs on several threads -/

/-- The call needs only a shared reference to its handle. arc_slice.rs:334, 339, 407, 426, 473, 481. -/
def Op.byRef : Op α → Bool
  | .clone _ | .cloneSide _ _ | .downgrade _ | .upgrade _ => true
  | _ => false

/-- The state of everything, and which thread has what. Models no code of /repo but the state of its users. -/
structure TConf (α : Type) where
  c : Conf α
  /-- the thread that owns a handle -/
  at_ : Nat → Nat
  /-- the thread that executes a call -/
  on : Nat → Nat
  /-- the thread that has the `&mut [T]` that `get_mut` made of a handle -/
  lent : Nat → Nat
  /-- the thread that made a slice of items, i.e. that called `from_boxed_slice` -/
  home : Nat → Nat

/-- From `n` on everything is new, and belongs to thread `t`. Models no code. -/
def fill (f : Nat → Nat) (n t : Nat) : Nat → Nat := fun k => if k < n then f k else t

namespace TConf

/-- The thread that can use the handle now. What arc_slice.rs:362 `get_mut` borrows cannot be used until the reference is gone. -/
def holder (s : TConf α) (k : Nat) (en : Ent) : Nat := if en.mutb then s.lent k else s.at_ k

/-- Thread `t` can make this call: it owns the handle, or has a shared reference to it. -/
def may (T : Auto) (s : TConf α) (t : Nat) (op : Op α) : Prop := ∀ k en, op.on = some k → s.c.get k = some en →
  s.at_ k = t ∨ (op.byRef = true ∧ (T.handle en.h).sync = true)

end TConf

/-- What can come about on several threads, if the items are of type `T` (of which we know whether it is `Send` and `Sync`), and
destructors may panic. `P` restricts the calls that are started. Models all programs that use arc_slice.rs and
arc_slice_mut.rs, on any number of threads. -/
inductive TReach (T : Auto) (P : Rules α) (zst : Bool) : TConf α → Prop
  | init (at_ on lent home : Nat → Nat) : TReach T P zst ⟨Conf.init zst, at_, on, lent, home⟩
  /-- a call makes a step; what it returns belongs to the thread it is executed by -/
  | run {s : TConf α} {c' : Conf α} (h : TReach T P zst s) (i : Nat) (e : s.c.step i = .ok c') :
      TReach T P zst ⟨c', fill s.at_ s.c.hs.length (s.on i), s.on, fill s.lent s.c.hs.length (s.on i), fill s.home s.c.a.b.sk.nbuf (s.on i)⟩
  /-- thread `t` starts a call -/
  | start {s : TConf α} {c' : Conf α} (h : TReach T P zst s) (t : Nat) (op : Op α) (hp : P s.c op) (hm : s.may T t op) (e : s.c.start op = some c') :
      TReach T P zst ⟨c', fill s.at_ s.c.hs.length t, fill s.on s.c.calls.length t, s.lent, s.home⟩
  /-- a handle that is not borrowed is moved to thread `t`; its type must be `Send` -/
  | send {s : TConf α} (h : TReach T P zst s) (k t : Nat) (en : Ent) (hk : s.c.get k = some en) (hb : s.c.borrowed k = false) (hm : en.mutb = false)
      (hs : (T.handle en.h).send = true) : TReach T P zst { s with at_ := upd s.at_ k t }
  /-- the `&mut [T]` that was made of a handle is moved to thread `t`; `T` must be `Send` -/
  | lend {s : TConf α} (h : TReach T P zst s) (k t : Nat) (en : Ent) (hk : s.c.get k = some en) (hm : en.mutb = true)
      (hs : T.send = true) : TReach T P zst { s with lent := upd s.lent k t }
  /-- items are overwritten -/
  | write {s : TConf α} {c' : Conf α} (h : TReach T P zst s) (k : Nat) (en : Ent) (j : Nat) (x : α) (hk : s.c.get k = some en)
      (hw : Conf.writable en = true) (e : s.c.write en j x = .ok c') : TReach T P zst { s with c := c' }
  /-- a destructor panics -/
  | panic {s : TConf α} {c' : Conf α} (h : TReach T P zst s) (i : Nat) (e : s.c.panic i = some c') : TReach T P zst { s with c := c' }

/-! ## Access to items -/

namespace TConf

/-- Thread `t` can have a `&T` to item `i` of buffer `b`: it can use a handle that shows it; or such a thread has made a reference to the
item, or to the handle, and given it to `t`. -/
def Reads (T : Auto) (s : TConf α) (t b i : Nat) : Prop := ∃ k en, s.c.get k = some en ∧ s.c.Shows k b i ∧
  (s.holder k en = t ∨ T.sync = true ∨ (en.mutb = false ∧ (T.handle en.h).sync = true))

/-- Thread `t` can have a `&mut T` to item `i` of buffer `b`. -/
def Changes (s : TConf α) (t b i : Nat) : Prop := ∃ k en, s.c.get k = some en ∧ s.c.Shows k b i ∧ Conf.writable en = true ∧ s.holder k en = t

end TConf
end Verif.Arc
