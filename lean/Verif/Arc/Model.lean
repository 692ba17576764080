import Verif.Rc.Proofs.Ledger
/-!
# Function by function model of `src/arc/arc_slice.rs`, with threads

Any number of calls are in flight at the same time; a step executes one atomic access of
one of them (together with accesses to things no other thread can reach). The memory is
sequentially consistent: reorderings allowed by `Acquire`/`Release` are not modelled.

The part of the heap made of `ArcSliceData` and `SliceAlloc` is `Verif.Rc.Heap`: as far as
counts, children and destructors go these are the same types as in `src/rc`. What is new
here is the pointer to the parent, the replaceable pointer to the guard, and `DataGuard`.

Simplifications:
* the counts are unbounded, and the `Weak` count of an `ArcSliceData` (which only decides
  when its memory block is returned) is tracked in `Arc/Weak.lean` only: here a `Weak` can be upgraded at any time;
* memory that only one thread can reach (a node or a guard before the compare-and-swap
  that publishes it) is written in the same step as that compare-and-swap;
* handles are named by their position in a table; a call that gives a handle back (for
  example `get_mut`) gives it a new name;
* `split_off_left/right` (arc_slice.rs:344-356) and `ArcSliceParts` are programs made of
  the calls modelled here (`clone_left`, `clone_right`, `drop`), as is
  `ArcSliceMut::clone`;
* an `ArcSliceMutParts` is the range of items it has left; the counters from which the code
  computes that range and the size of the next part (`SliceItemsParts`, layer A), which no
  other thread can reach, are part of the program that uses it (`Arc/Seq.lean`).
-/

namespace Verif.Arc
open Verif.Spec (Side Slot Family End)
open Verif.Rc (UB DataV Node Lab Skel Heap Reg Task upd noKids newFam newBuf mutFromBox sameNode dropStrong taskStep
  regSplitOff iterSplit iterNext writeItem)
variable {α : Type}

/-- An item position range: (buffer, start, length). What arc_slice.rs:194-205 return, for a node of a known buffer. -/
abbrev Span := Rc.Span

/-- arc_slice.rs:50-58 `DataGuard`. The gates are gate.rs:4-6, `true` is closed; gate.rs:11-13 makes them open. -/
structure GuardV where
  parent : Option Nat
  cGate : Bool
  dGate : Bool
deriving DecidableEq, Repr

/-- The shared memory. -/
structure Arena (α : Type) where
  /-- `ArcSliceData` and `SliceAlloc` objects with their strong counts, and the items -/
  b : Heap α
  /-- arc_slice.rs:39 `ArcSliceData.parent`, a `Weak` -/
  par : Nat → Option Nat
  /-- arc_slice.rs:43 `ArcSliceData.guard`, an `AtomicPtr<Weak<DataGuard>>` -/
  box : Nat → Nat
  /-- the number of `Box<Weak<DataGuard>>` made so far; published ones are never freed -/
  nbox : Nat
  /-- the `Weak<DataGuard>` in a box -/
  tgt : Nat → Option Nat
  /-- the next fresh guard -/
  ng : Nat
  guard : Nat → Option GuardV
  gS : Nat → Nat
  gW : Nat → Nat
  /-- ghost: the `ArcSliceData` a guard was made for -/
  gOf : Nat → Nat

/-- What a user holds. -/
inductive Handle where
  /-- `ArcSlice`: arc_slice.rs:62-65 -/
  | strong (d g : Nat)
  /-- `WeakSlice`: arc_slice.rs:69-73 -/
  | weak (d g : Option Nat)
  /-- `ArcSliceMut`, or `ArcSliceMutIter` or `ArcSliceMutParts` with the range of items left:
  arc_slice_mut.rs:23-41 -/
  | uniq (r : Reg)
deriving DecidableEq, Repr

/-- A handle in the table; `mutb`: the `&mut [T]` returned by `get_mut` is still in use. arc_slice.rs:362 `get_mut` borrows the handle that long. -/
structure Ent where
  h : Handle
  mutb : Bool := false
deriving DecidableEq, Repr

/-- Pending drops. -/
inductive ATask where
  /-- drop an `Arc<ArcSliceData>` or `Arc<SliceAlloc>`, or a range of items -/
  | base (t : Task)
  /-- drop an `ArcSlice`: arc_slice.rs:62-65, fields in order -/
  | slice (d g : Nat)
  /-- drop an `Arc<DataGuard>` -/
  | guard (g : Nat)
deriving DecidableEq, Repr

/-- What a call returned. The return types in arc_slice.rs:320-484. -/
inductive Res (α : Type) where
  | unit
  | handle
  | none
  | err
  | panic
  | item (a : α)

/-- A caller of `DataGuard::guard` waiting for its parent's guard: the data `x` to be
guarded, the box it found in `x`, the upgraded parent. arc_slice.rs:294-295. -/
structure GFrame where
  x : Nat
  b : Nat
  p : Nat
deriving DecidableEq, Repr

/-- What is left to be done in arc_slice.rs:220-227 `forget_items`. -/
inductive Fg where
  /-- a child to be unwrapped -/
  | kid (c : Nat)
  /-- drop an unwrapped child whose items have been forgotten -/
  | val (r : Reg)
deriving DecidableEq, Repr

/-- Where a call is. -/
inductive Pc (α : Type) where
  | done (r : Res α)
  /-- arc_slice.rs:326-328 `from_boxed_slice` -/
  | new (xs : List α)
  /-- arc_slice_mut.rs:44-47 `ArcSliceMut::from_boxed_slice` -/
  | mutNew (xs : List α)
  /-- arc_slice_mut.rs:79-84 `into_immut` -/
  | immut (r : Reg)
  /-- arc_slice_mut.rs:61-71 `split_off_left`, `split_off_right` -/
  | split (s : Side) (r : Reg)
  /-- arc_slice_mut.rs `ArcSliceMutIter::next`, `next_back` -/
  | nxt (e : End) (r : Reg)
  /-- arc_slice_mut.rs:159-182 `split_off_to` (the front is returned) and `split_off_from` (the
  back is returned) at `n`; also what `ArcSliceMutParts::next` and `next_back`
  (arc_slice_mut.rs:229-260) do with their items and `alloc` -/
  | cut (e : End) (n : Nat) (r : Reg)
  /-- arc_slice.rs:425-432 `clone`: about to clone `data` -/
  | cl1 (d g : Nat)
  /-- … about to clone `data_guard` -/
  | cl2 (d g : Nat)
  /-- arc_slice.rs:335, 340 `wait_till_open` (gate.rs:15-17) -/
  | wait (d g : Nat) (s : Side)
  /-- arc_slice.rs:110-133: about to load the child pointer -/
  | cs (d : Nat) (s : Side)
  /-- arc_slice.rs:170-173: about to clone the child found -/
  | csInc (c : Nat)
  /-- arc_slice.rs:137: about to clone `alloc` -/
  | csNew (d : Nat) (s : Side)
  /-- arc_slice.rs:141: about to publish the new child, which has these fields -/
  | csCas (d : Nat) (s : Side) (r : Reg)
  /-- arc_slice.rs:148-150: about to clone the child of the thread that won -/
  | csLose (c : Nat) (r : Reg)
  /-- arc_slice.rs:287: about to load the guard pointer of `x`; in the end a handle to `y`
  is made -/
  | gLoad (x : Nat) (fs : List GFrame) (y : Nat)
  /-- arc_slice.rs:289, 312: about to upgrade the `Weak` in box `b`; the guard of a lost
  race (with this parent guard) is still to be dropped -/
  | gTry (x b : Nat) (pend : Option Nat) (fs : List GFrame) (y : Nat)
  /-- arc_slice.rs:294: about to upgrade the parent -/
  | gPar (x b : Nat) (fs : List GFrame) (y : Nat)
  /-- arc_slice.rs:302: about to publish a guard with this parent guard -/
  | gCas (x b : Nat) (og : Option Nat) (fs : List GFrame) (y : Nat)
  /-- arc_slice.rs:316: `guard` returns -/
  | gRet (g : Nat) (fs : List GFrame) (y : Nat)
  /-- arc_slice.rs:369: about to close the downgrade gate (gate.rs:19-25) -/
  | gm0 (d g : Nat)
  /-- arc_slice.rs:370: about to read the weak count of the guard -/
  | gm1 (d g : Nat)
  /-- arc_slice.rs:371: about to close the clone gate -/
  | gm2 (d g : Nat)
  /-- arc_slice.rs:372: about to read the strong count of the guard -/
  | gm3 (d g : Nat)
  /-- arc_slice.rs:373: about to read the strong count of the data -/
  | gm4 (d g : Nat)
  /-- about to drop the clone latch (gate.rs:29-31), with the answer -/
  | gmOpenC (d g : Nat) (ok : Bool)
  /-- about to drop the downgrade latch, with the answer -/
  | gmOpenD (d g : Nat) (ok : Bool)
  /-- arc_slice.rs:394: about to close the clone gate -/
  | im0 (d g : Nat)
  /-- arc_slice.rs:396: about to read the strong count of the guard -/
  | im1 (d g : Nat)
  /-- arc_slice.rs:397: about to `try_unwrap` the data -/
  | im2 (d g : Nat)
  /-- arc_slice.rs:399-402: refused, about to drop the latch -/
  | imOpen (d g : Nat)
  /-- arc_slice.rs:216, 220-227 `forget_items`; `r` is the new unique slice. Ghost: `acc` are
  the items it owns so far. -/
  | imFg (todo : List Fg) (g : Nat) (r : Reg) (acc : List Span)
  /-- about to drop the latch -/
  | imGate (g : Nat) (r : Reg) (acc : List Span)
  /-- about to return -/
  | imOk (r : Reg) (acc : List Span)
  /-- arc_slice.rs:408 `wait_till_open` (gate.rs:15-17) -/
  | dg0 (d g : Nat)
  /-- arc_slice.rs:409: about to downgrade -/
  | dg1 (d g : Nat)
  /-- arc_slice.rs:476: about to upgrade `data` -/
  | up (d : Option Nat)
  /-- arc_slice.rs:480-484 `WeakSlice::clone` -/
  | wc (d g : Option Nat)
  /-- drop a `WeakSlice` -/
  | wd (g : Option Nat)

/-- What one step leads to: pending drops to be executed before `pc`, and new handles. Models no code. -/
structure Next (α : Type) where
  pc : Pc α
  tasks : List ATask := []
  push : List Ent := []

namespace Arena

/-- A new `Box<Weak<DataGuard>>` in the `guard` field of `x`. arc_slice.rs:96, 301. -/
def newBox (a : Arena α) (x : Nat) (t : Option Nat) : Arena α :=
  { a with box := upd a.box x a.nbox, tgt := upd a.tgt a.nbox t, nbox := a.nbox + 1 }

/-- arc_slice.rs:91-108 `from_data_parts`, `with_data_and_parent` without parent, in an
`Arc`. -/
def root (a : Arena α) (r : Reg) : Arena α × Nat :=
  let (h, f) := newFam a.b ⟨r.buf, ⟨r.off, r.len⟩, r.alloc.isSome⟩
  let (h, d) := h.rcNew (.data ⟨r.buf, r.off, r.len, r.alloc, noKids⟩) ⟨f, []⟩
  ({ a with b := h, par := upd a.par d none }.newBox d none, d)

/-- Clone an `Arc<DataGuard>`. arc_slice.rs:429. -/
def incG (a : Arena α) (g : Nat) : Except UB (Arena α) :=
  if a.gS g = 0 then .error .dangling
  else .ok { a with gS := upd a.gS g (a.gS g + 1) }

/-- Drop an `Arc<DataGuard>`; the last one drops `_parent`. arc_slice.rs:50-53. -/
def dropG (a : Arena α) (g : Nat) : Except UB (Arena α × List ATask) :=
  if a.gS g = 0 then .error .dangling
  else if a.gS g ≠ 1 then .ok ({ a with gS := upd a.gS g (a.gS g - 1) }, [])
  else match a.guard g with
    | none => .error .dangling
    | some v => .ok ({ a with gS := upd a.gS g 0, guard := upd a.guard g none }, v.parent.toList.map .guard)

/-- Dereference an `Arc<DataGuard>`. arc_slice.rs:416-422. -/
def getG (a : Arena α) (g : Nat) : Except UB GuardV :=
  match a.guard g with
  | some v => .ok v
  | none => .error .dangling

/-- Overwrite a gate. What gate.rs does to `clone_child_gate` and `downgrade_gate` (arc_slice.rs:54-57). -/
def setG (a : Arena α) (g : Nat) (v : GuardV) : Arena α := { a with guard := upd a.guard g (some v) }

/-- The arena with another data part. Models no code. -/
def withB (a : Arena α) (h : Heap α) : Arena α := { a with b := h }

end Arena

/-- One pending drop. Drop glue of arc_slice.rs:50-65, and arc_slice.rs:230-254. -/
def ataskStep (a : Arena α) : ATask → Except UB (Arena α × List ATask)
  | .base t => do
    let (h, ts) ← taskStep a.b t
    pure (a.withB h, ts.map .base)
  | .slice d g => do
    let (h, ts) ← dropStrong a.b d
    pure (a.withB h, ts.map .base ++ [.guard g])
  | .guard g => a.dropG g

/-- arc_slice.rs:230-254, 194-205: the items a data node owns itself. -/
def ownSpans (v : DataV) : List Span := (Node.data v).spans

/-- The children in the order in which `forget_items` takes them. arc_slice.rs:220-227, 177-192 (`take_left`, `take_right`, `take_child`). -/
def kidsFg (v : DataV) : List Fg := (v.kids .L).toList.map .kid ++ (v.kids .R).toList.map .kid

/-- One step of a call that has no pending drops. -/
def pcStep (a : Arena α) : Pc α → Except UB (Arena α × Next α)
  | .done r => .ok (a, { pc := .done r })
  | .new xs =>
    -- arc_slice.rs:81-89
    let (h, b) := newBuf a.b xs
    if xs.length = 0 then
      let (a, d) := (a.withB h).root ⟨b, 0, 0, none⟩
      .ok (a, { pc := .gLoad d [] d })
    else
      let (h, al) := h.rcNew (.alloc b) ⟨0, []⟩
      let (a, d) := (a.withB h).root ⟨b, 0, xs.length, some al⟩
      .ok (a, { pc := .gLoad d [] d })
  | .mutNew xs =>
    let (h, r) := mutFromBox a.b xs
    .ok (a.withB h, { pc := .done .handle, push := [⟨.uniq r, false⟩] })
  | .immut r =>
    let (a, d) := a.root r
    .ok (a, { pc := .gLoad d [] d })
  | .split s r => do
    let (h, new, rest) ← regSplitOff a.b r s
    pure (a.withB h, { pc := .done .handle, push := [⟨.uniq new, false⟩, ⟨.uniq rest, false⟩] })
  | .nxt e r => do
    let (h, o, r, ts) ← iterNext a.b r e
    pure (a.withB h,
      { pc := .done (match o with | some x => .item x | none => .none)
        tasks := ts.map .base
        push := [⟨.uniq r, false⟩] })
  | .cut e n r =>
    if n ≤ r.len then do
      let l : Reg := { r with len := n }
      let t : Reg := { r with off := r.off + n, len := r.len - n }
      let (h, new, rest) ← match e with
        | .front => iterSplit a.b l t
        | .back => iterSplit a.b t l
      pure (a.withB h, { pc := .done .handle, push := [⟨.uniq new, false⟩, ⟨.uniq rest, false⟩] })
    else .ok (a, { pc := .done .panic, push := [⟨.uniq r, false⟩] })
  | .cl1 d g => do
    let h ← a.b.incS d
    pure (a.withB h, { pc := .cl2 d g })
  | .cl2 d g => do
    let a ← a.incG g
    pure (a, { pc := .done .handle, push := [⟨.strong d g, false⟩] })
  | .wait d g s => do
    let v ← a.getG g
    if v.cGate then pure (a, { pc := .wait d g s }) else pure (a, { pc := .cs d s })
  | .cs d s => do
    let v ← a.b.getData d
    if sameNode v.len s then
      let h ← a.b.incS d
      pure (a.withB h, { pc := .gLoad d [] d })
    else match v.kids s with
      | some c => pure (a, { pc := .csInc c })
      | none => pure (a, { pc := .csNew d s })
  | .csInc c => do
    let h ← a.b.incS c
    pure (a.withB h, { pc := .gLoad c [] c })
  | .csNew d s => do
    let v ← a.b.getData d
    let alloc := if v.subLen s = 0 then none else v.alloc
    let h ← a.b.incSOpt alloc
    pure (a.withB h, { pc := .csCas d s ⟨v.buf, v.subOff s, v.subLen s, alloc⟩ })
  | .csCas d s r => do
    let v ← a.b.getData d
    match v.kids s with
    | none =>
      let (h, c) := a.b.rcNew (.data ⟨r.buf, r.off, r.len, r.alloc, noKids⟩) ((a.b.sk.lab d).child s)
      let h ← h.incS c
      let h := h.setNode d (.data (v.setKid s c))
      pure ({ a with b := h, par := upd a.par c (some d) }.newBox c none, { pc := .gLoad c [] c })
    | some c => pure (a, { pc := .csLose c r })
  | .csLose c r => do
    let h ← a.b.incS c
    -- the new child is dropped with its length set to 0
    pure (a.withB h, { pc := .gLoad c [] c, tasks := [.base (.dropReg { r with len := 0 })] })
  | .gLoad x fs y => do
    let _ ← a.b.getData x
    pure (a, { pc := .gTry x (a.box x) none fs y })
  | .gTry x b pend fs y =>
    match a.tgt b with
    | none => .ok (a, { pc := .gPar x b fs y, tasks := pend.toList.map .guard })
    | some g =>
      if a.gS g = 0 then .ok (a, { pc := .gPar x b fs y, tasks := pend.toList.map .guard })
      else .ok ({ a with gS := upd a.gS g (a.gS g + 1) },
        { pc := .gRet g fs y, tasks := pend.toList.map .guard })
  | .gPar x b fs y => do
    let _ ← a.b.getData x
    match a.par x with
    | none => pure (a, { pc := .gCas x b none fs y })
    | some p =>
      if a.b.strong p = 0 then pure (a, { pc := .gCas x b none fs y })
      else do
        let h ← a.b.incS p
        pure (a.withB h, { pc := .gLoad p (⟨x, b, p⟩ :: fs) y })
  | .gCas x b og fs y => do
    let _ ← a.b.getData x
    if a.box x = b then
      pure ({ a with
          ng := a.ng + 1
          guard := upd a.guard a.ng (some ⟨og, false, false⟩)
          gS := upd a.gS a.ng 1
          gW := upd a.gW a.ng 1
          gOf := upd a.gOf a.ng x }.newBox x (some a.ng),
        { pc := .gRet a.ng fs y })
    else pure (a, { pc := .gTry x (a.box x) og fs y })
  | .gRet g [] y => .ok (a, { pc := .done .handle, push := [⟨.strong y g, false⟩] })
  | .gRet g (f :: fs) y => .ok (a, { pc := .gCas f.x f.b (some g) fs y, tasks := [.base (.dropS f.p)] })
  | .gm0 d g => do
    let v ← a.getG g
    if v.dGate then pure (a, { pc := .done .none, push := [⟨.strong d g, false⟩] })
    else pure (a.setG g { v with dGate := true }, { pc := .gm1 d g })
  | .gm1 d g => do
    let _ ← a.getG g
    if a.gW g = 1 then pure (a, { pc := .gm2 d g }) else pure (a, { pc := .gmOpenD d g false })
  | .gm2 d g => do
    let v ← a.getG g
    if v.cGate then pure (a, { pc := .gmOpenD d g false })
    else pure (a.setG g { v with cGate := true }, { pc := .gm3 d g })
  | .gm3 d g => do
    let _ ← a.getG g
    if a.gS g = 1 then pure (a, { pc := .gm4 d g }) else pure (a, { pc := .gmOpenC d g false })
  | .gm4 d g => do
    let _ ← a.b.getData d
    pure (a, { pc := .gmOpenC d g (a.b.strong d == 1) })
  | .gmOpenC d g ok => do
    let v ← a.getG g
    pure (a.setG g { v with cGate := false }, { pc := .gmOpenD d g ok })
  | .gmOpenD d g ok => do
    let v ← a.getG g
    pure (a.setG g { v with dGate := false },
      { pc := .done (if ok then .handle else .none), push := [⟨.strong d g, ok⟩] })
  | .im0 d g => do
    let v ← a.getG g
    if v.cGate then pure (a, { pc := .done .err, push := [⟨.strong d g, false⟩] })
    else pure (a.setG g { v with cGate := true }, { pc := .im1 d g })
  | .im1 d g => do
    let _ ← a.getG g
    if a.gS g = 1 then pure (a, { pc := .im2 d g }) else pure (a, { pc := .imOpen d g })
  | .im2 d g => do
    let v ← a.b.getData d
    if a.b.strong d = 1 then
      pure (a.withB (a.b.kill d), { pc := .imFg (kidsFg v) g ⟨v.buf, v.off, v.len, v.alloc⟩ (ownSpans v) })
    else pure (a, { pc := .imOpen d g })
  | .imOpen d g => do
    let v ← a.getG g
    pure (a.setG g { v with cGate := false }, { pc := .done .err, push := [⟨.strong d g, false⟩] })
  | .imFg [] g r acc => .ok (a, { pc := .imGate g r acc })
  | .imFg (.kid c :: todo) g r acc => do
    let v ← a.b.getData c
    if a.b.strong c = 1 then
      pure (a.withB (a.b.kill c),
        { pc := .imFg (kidsFg v ++ .val ⟨v.buf, v.off, 0, v.alloc⟩ :: todo) g r (ownSpans v ++ acc) })
    else pure (a, { pc := .imFg todo g r acc, tasks := [.base (.dropS c)] })
  | .imFg (.val w :: todo) g r acc => .ok (a, { pc := .imFg todo g r acc, tasks := [.base (.dropReg w)] })
  | .imGate g r acc => do
    let v ← a.getG g
    pure (a.setG g { v with cGate := false }, { pc := .imOk r acc, tasks := [.guard g] })
  | .imOk r _ => .ok (a, { pc := .done .handle, push := [⟨.uniq r, false⟩] })
  | .dg0 d g => do
    let v ← a.getG g
    if v.dGate then pure (a, { pc := .dg0 d g }) else pure (a, { pc := .dg1 d g })
  | .dg1 d g => do
    let _ ← a.getG g
    pure ({ a with gW := upd a.gW g (a.gW g + 1) },
      { pc := .done .handle, push := [⟨.weak (some d) (some g), false⟩] })
  | .up none => .ok (a, { pc := .done .none })
  | .up (some d) =>
    if a.b.strong d = 0 then .ok (a, { pc := .done .none })
    else do
      let h ← a.b.incS d
      pure (a.withB h, { pc := .gLoad d [] d })
  | .wc d none => .ok (a, { pc := .done .handle, push := [⟨.weak d none, false⟩] })
  | .wc d (some g) =>
    if a.gW g = 0 then .error .dangling
    else .ok ({ a with gW := upd a.gW g (a.gW g + 1) },
      { pc := .done .handle, push := [⟨.weak d (some g), false⟩] })
  | .wd none => .ok (a, { pc := .done .unit })
  | .wd (some g) =>
    if a.gW g = 0 then .error .dangling
    else .ok ({ a with gW := upd a.gW g (a.gW g - 1) }, { pc := .done .unit })

/-- The calls a thread can make. The public functions of arc_slice.rs:320-484 and arc_slice_mut.rs:43-210. -/
inductive Op (α : Type) where
  | new (xs : List α)
  | mutNew (xs : List α)
  | weakNew
  | clone (k : Nat)
  | cloneSide (s : Side) (k : Nat)
  | getMut (k : Nat)
  /-- the `&mut [T]` obtained from `get_mut` is given up -/
  | endMut (k : Nat)
  | intoMut (k : Nat)
  | intoImmut (k : Nat)
  | splitOff (s : Side) (k : Nat)
  | next (e : End) (k : Nat)
  | cut (e : End) (n k : Nat)
  | downgrade (k : Nat)
  | upgrade (k : Nat)
  | drop (k : Nat)

/-- A call in flight; `borrow` is the handle it has been given a shared reference to. Ghost:
`op` is the call that was made, `on` the subslice it was made on (`Conf.node`), `out` are the handles it has returned. Models no code: an activation of one of the functions named in `Op`. -/
structure Call (α : Type) where
  op : Op α
  pc : Pc α
  tasks : List ATask := []
  borrow : Option Nat := none
  on : Option Nat := none
  out : List Nat := []

/-- Models no code. -/
def Pc.isDone : Pc α → Bool
  | .done _ => true
  | _ => false

/-- The call has returned. Models no code. -/
def Call.fin (cl : Call α) : Bool := cl.tasks.isEmpty && cl.pc.isDone

/-- Everything: memory, the handles of all threads, all calls started so far. Models no code of /repo but the state of its users. -/
structure Conf (α : Type) where
  a : Arena α
  hs : List (Option Ent)
  calls : List (Call α)

/-- One step of call `cl`. The code is in `pcStep` and `ataskStep`. -/
def callStep (a : Arena α) (cl : Call α) : Except UB (Arena α × Call α × List Ent) :=
  match cl.tasks with
  | t :: ts => do
    let (a, new) ← ataskStep a t
    pure (a, { cl with tasks := new ++ ts }, [])
  | [] => do
    let (a, n) ← pcStep a cl.pc
    pure (a, { cl with pc := n.pc, tasks := n.tasks }, n.push)

namespace Conf

/-- The handle with number `k`: a variable of some user. -/
def get (c : Conf α) (k : Nat) : Option Ent := c.hs[k]?.join

/-- A shared reference to handle `k` is in use. A call on `&ArcSlice` or `&WeakSlice`, e.g. arc_slice.rs:334, 339, 407, 426, 473, 481. -/
def borrowed (c : Conf α) (k : Nat) : Bool := c.calls.any fun cl => !cl.fin && cl.borrow == some k

/-- One step of the call number `i`. The code is in `pcStep` and `ataskStep`. -/
def step (c : Conf α) (i : Nat) : Except UB (Conf α) :=
  match c.calls[i]? with
  | none => .ok c
  | some cl => do
    let (a, cl, new) ← callStep c.a cl
    pure ⟨a, c.hs ++ new.map some, c.calls.set i { cl with out := cl.out ++ List.range' c.hs.length new.length }⟩

end Conf

namespace Conf

/-- The subslice an `ArcSlice` or `WeakSlice` handle refers to: the allocation of its slice data.
arc_slice.rs:62-64, 69-70 `data`. -/
def node (c : Conf α) (k : Nat) : Option Nat :=
  match c.get k with
  | some ⟨.strong d _, _⟩ => some d
  | some ⟨.weak d _, _⟩ => d
  | _ => none

/-- A call starts that has a shared reference to handle `k`. E.g. arc_slice.rs:334 `this: &Self`. -/
def shared (c : Conf α) (op : Op α) (k : Nat) (pc : Pc α) : Conf α :=
  { c with calls := c.calls ++ [{ op, pc, borrow := some k, on := c.node k }] }

/-- A call starts that takes handle `k` (by value, or by `&mut`). E.g. arc_slice.rs:389 `this: Self`, 362 `this: &mut Self`. -/
def taking (c : Conf α) (op : Op α) (k : Nat) (pc : Pc α) (ts : List ATask := []) : Conf α :=
  { c with hs := c.hs.set k none, calls := c.calls ++ [{ op, pc, tasks := ts, on := c.node k }] }

/-- A call starts that needs no handle. E.g. arc_slice.rs:326, 469. -/
def plain (c : Conf α) (op : Op α) (pc : Pc α) : Conf α := { c with calls := c.calls ++ [{ op, pc }] }

/-- Start a call, if Rust's borrow checker allows it: a handle can be shared unless it is
mutably borrowed, and moved or mutably borrowed only if nobody borrows it.
The receivers are those of arc_slice.rs:320-484 and arc_slice_mut.rs:43-210. -/
def start (c : Conf α) : Op α → Option (Conf α)
  | .new xs => some (c.plain (.new xs) (.new xs))
  | .mutNew xs => some (c.plain (.mutNew xs) (.mutNew xs))
  | .weakNew => some { c with hs := c.hs ++ [some ⟨.weak none none, false⟩] }
  | .clone k =>
    match c.get k with
    | some ⟨.strong d g, false⟩ => some (c.shared (.clone k) k (.cl1 d g))
    | some ⟨.weak d g, _⟩ => some (c.shared (.clone k) k (.wc d g))
    | _ => none
  | .cloneSide s k =>
    match c.get k with
    | some ⟨.strong d g, false⟩ => some (c.shared (.cloneSide s k) k (.wait d g s))
    | _ => none
  | .getMut k =>
    match c.get k with
    | some ⟨.strong d g, false⟩ => if c.borrowed k then none else some (c.taking (.getMut k) k (.gm0 d g))
    | _ => none
  | .endMut k =>
    match c.get k with
    | some ⟨.strong d g, true⟩ => some { c with hs := c.hs.set k (some ⟨.strong d g, false⟩) }
    | _ => none
  | .intoMut k =>
    match c.get k with
    | some ⟨.strong d g, false⟩ => if c.borrowed k then none else some (c.taking (.intoMut k) k (.im0 d g))
    | _ => none
  | .intoImmut k =>
    match c.get k with
    | some ⟨.uniq r, _⟩ => if c.borrowed k then none else some (c.taking (.intoImmut k) k (.immut r))
    | _ => none
  | .splitOff s k =>
    match c.get k with
    | some ⟨.uniq r, _⟩ => if c.borrowed k then none else some (c.taking (.splitOff s k) k (.split s r))
    | _ => none
  | .next e k =>
    match c.get k with
    | some ⟨.uniq r, _⟩ => if c.borrowed k then none else some (c.taking (.next e k) k (.nxt e r))
    | _ => none
  | .cut e n k =>
    match c.get k with
    | some ⟨.uniq r, _⟩ => if c.borrowed k then none else some (c.taking (.cut e n k) k (.cut e n r))
    | _ => none
  | .downgrade k =>
    match c.get k with
    | some ⟨.strong d g, false⟩ => some (c.shared (.downgrade k) k (.dg0 d g))
    | _ => none
  | .upgrade k =>
    match c.get k with
    | some ⟨.weak d _, _⟩ => some (c.shared (.upgrade k) k (.up d))
    | _ => none
  | .drop k =>
    match c.get k with
    | some ⟨.strong d g, false⟩ => if c.borrowed k then none else some (c.taking (.drop k) k (.done .unit) [.slice d g])
    | some ⟨.weak _ g, _⟩ => if c.borrowed k then none else some (c.taking (.drop k) k (.wd g))
    | some ⟨.uniq r, _⟩ => if c.borrowed k then none else some (c.taking (.drop k) k (.done .unit) [.base (.dropReg r)])
    | _ => none

/-- The items shown by a handle: buffer, start, length. arc_slice.rs:280-282, 437-439, arc_slice_mut.rs:94. -/
def range (a : Arena α) : Handle → Except UB (Option (Nat × Nat × Nat))
  | .strong d _ => do
    let v ← a.b.getData d
    pure (some (v.buf, v.off, v.len))
  | .weak _ _ => .ok none
  | .uniq r => .ok (some (r.buf, r.off, r.len))

/-- A user overwrites item `j` through the mutable reference or unique handle `e`. What users do with arc_slice.rs:362-387, arc_slice_mut.rs:99. -/
def write (c : Conf α) (e : Ent) (j : Nat) (x : α) : Except UB (Conf α) := do
  match ← range c.a e.h with
  | none => pure c
  | some (b, off, len) =>
    if j < len then do
      let h ← writeItem c.a.b b (off + j) x
      pure { c with a := c.a.withB h }
    else pure c

/-- May `e` be written through? arc_slice.rs:362, arc_slice_mut.rs:99. -/
def writable (e : Ent) : Bool :=
  match e.h with
  | .strong _ _ => e.mutb
  | .weak _ _ => false
  | .uniq _ => true

/-- Nothing exists yet. Before the first call. -/
def init (zst : Bool) : Conf α where
  a := { b := Heap.empty zst, par := fun _ => none, box := fun _ => 0, nbox := 0, tgt := fun _ => none, ng := 0,
         guard := fun _ => none, gS := fun _ => 0, gW := fun _ => 0, gOf := fun _ => 0 }
  hs := []
  calls := []

/-- What may happen next: any call in flight makes a step, some thread starts a call, or a
user writes to items they have exclusive access to. Models all programs that use arc_slice.rs and arc_slice_mut.rs, on any number of threads. -/
inductive Step : Conf α → Except UB (Conf α) → Prop
  | run (c : Conf α) (i : Nat) : Step c (c.step i)
  | start (c c' : Conf α) (op : Op α) (h : c.start op = some c') : Step c (.ok c')
  | write (c : Conf α) (k : Nat) (e : Ent) (j : Nat) (x : α) (h : c.get k = some e) (hw : writable e = true) :
    Step c (c.write e j x)

end Conf

/-- A discipline: which calls may be started in which situation. Models no code. -/
abbrev Rules (α : Type) := Conf α → Op α → Prop

/-- Only calls of a certain kind. Models no code. -/
abbrev only (Q : Op α → Prop) : Rules α := fun _ op => Q op

namespace Conf

/-- States that can come about. `P` restricts the calls that are started.
Models all programs that use arc_slice.rs and arc_slice_mut.rs, on any number of threads. -/
inductive Reach (P : Rules α) (zst : Bool) : Conf α → Prop
  | init : Reach P zst (init zst)
  | run {c c' : Conf α} (h : Reach P zst c) (i : Nat) (e : c.step i = .ok c') : Reach P zst c'
  | start {c c' : Conf α} (h : Reach P zst c) (op : Op α) (hp : P c op) (e : c.start op = some c') : Reach P zst c'
  | write {c c' : Conf α} (h : Reach P zst c) (k : Nat) (en : Ent) (j : Nat) (x : α) (hk : c.get k = some en)
      (hw : writable en = true) (e : c.write en j x = .ok c') : Reach P zst c'

end Conf
end Verif.Arc
