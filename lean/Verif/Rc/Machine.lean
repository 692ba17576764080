import Verif.Rc.Code
import Verif.Model.SliceItems
/-!
# Programs on the heap

A table of handles, the calls of `Verif.Spec.Calls` executed on the heap by the model
of the code, and the pending drops. User code runs between calls and inside the
destructors of items.
-/

namespace Verif.Rc
open Verif.Spec (Side Op Obs End)
variable {α : Type}

/-- What a user holds. -/
inductive Handle where
  /-- `RcSlice`: rc_slice.rs:71-76 -/
  | strong (d i : Nat)
  /-- `WeakSlice`: rc_slice.rs:80-85; `none` is `Weak::new()` -/
  | weak (d : Option Nat) (g : Nat)
  /-- `RcSliceMut`: rc_slice_mut.rs:24-30 -/
  | uniq (r : Reg)
  /-- `RcSliceMutIter`: rc_slice_mut.rs:32-37. The `SliceItemsIter` is represented by the
  range of items left; layer A relates it to the code's pointers or indices. -/
  | iter (r : Reg)
  /-- `RcSliceMutParts`: rc_slice_mut.rs:39-44, with layer A's `SliceItemsParts`, run with
  addresses that are item positions. -/
  | parts (buf : Nat) (alloc : Option Nat) (it : SliceItemsParts)
deriving DecidableEq, Repr

/-- A program: the heap, and the handles its variables hold. Models no code of /repo but that of its users. -/
structure State (α : Type) where
  h : Heap α
  hs : List (Option Handle)

namespace State

/-- The handle at `k`. Models a variable of the user. -/
def get (s : State α) (k : Nat) : Option Handle := s.hs[k]?.join
/-- Replace the handle at `k`. Models an assignment to `*this`, e.g. rc_slice.rs:369. -/
def put (s : State α) (k : Nat) (x : Handle) : State α := { s with hs := s.hs.set k (some x) }
/-- Take the handle at `k` out of the table. Models a move out of a variable. -/
def del (s : State α) (k : Nat) : State α := { s with hs := s.hs.set k none }
/-- Append a handle. Models a new variable of the user. -/
def push (s : State α) (x : Handle) : State α := { s with hs := s.hs ++ [some x] }

end State

/-- Layer A's context in which addresses are item positions. See `Model/Basic.lean`; models no code. -/
def posCtx (umax cnt : Nat) : Ctx := ⟨1, umax, 0, cnt⟩

/-- A `Fault` here is an error of the model. Models no code. -/
def noFault {β : Type} : Except Fault β → Except UB β
  | .ok b => .ok b
  | .error _ => .error .fault

/-- Read items through a reference. rc_slice.rs:224-226, rc_slice_mut.rs:110. -/
def readRange (h : Heap α) (b : Nat) : Nat → Nat → Except UB (List α)
  | _, 0 => .ok []
  | off, n + 1 =>
    if !h.accessible b then .error .useAfterFree
    else match h.slot b off with
      | .live a => do
        let rest ← readRange h b (off + 1) n
        pure (a :: rest)
      | _ => .error .deadItem

/-- Overwrite one item through a mutable reference. The destructor of the old item is the
user's and is not modelled. What users do with rc_slice.rs:384-403, rc_slice_mut.rs:115. -/
def writeItem (h : Heap α) (b i : Nat) (a : α) : Except UB (Heap α) :=
  if !h.accessible b then .error .useAfterFree
  else match h.slot b i with
    | .live _ => .ok (h.setSlot b i (.live a))
    | _ => .error .deadItem

/-- rc_slice_mut.rs:78-88 `split_off_left`, `split_off_right`: (returned half, rest). -/
def regSplitOff (h : Heap α) (r : Reg) (s : Side) : Except UB (Heap α × Reg × Reg) := do
  let l : Reg := { r with len := r.len >>> 1 }
  let t : Reg := { r with off := r.off + (r.len >>> 1), len := r.len - (r.len >>> 1) }
  let (new, rest) := match s with | .L => (l, t) | .R => (t, l)
  let alloc := if new.len > 0 then r.alloc else none
  let h ← h.incSOpt alloc
  pure (h, { new with alloc }, rest)

/-- The allocation references after items were split off an iterator,
rc_slice_mut.rs:180-186, 192-198, 253-259, 271-277: (for the new part, kept). -/
def splitAlloc (h : Heap α) (alloc : Option Nat) (restLen newLen : Nat) :
    Except UB (Heap α × Option Nat × Option Nat) :=
  if restLen = 0 then .ok (h, alloc, none)
  else if newLen > 0 then do
    let h ← h.incSOpt alloc
    pure (h, alloc, alloc)
  else .ok (h, none, alloc)

/-- rc_slice_mut.rs:178-200 `split_off_from`, `split_off_to` for `at ≤ len`. -/
def iterSplit (h : Heap α) (new rest : Reg) : Except UB (Heap α × Reg × Reg) := do
  let (h, a, b) ← splitAlloc h rest.alloc rest.len new.len
  pure (h, { new with alloc := a }, { rest with alloc := b })

/-- rc_slice_mut.rs:211-228 `next`, `next_back`: the item is moved out; the allocation
reference goes when nothing is left. -/
def iterNext (h : Heap α) (r : Reg) (e : End) : Except UB (Heap α × Option α × Reg × List Task) :=
  if r.len = 0 then .ok (h, none, { r with alloc := none }, r.alloc.toList.map .dropS)
  else
    let pos := match e with | .front => r.off | .back => r.off + r.len - 1
    let rest : Reg := match e with
      | .front => { r with off := r.off + 1, len := r.len - 1 }
      | .back => { r with len := r.len - 1 }
    if !h.accessible r.buf then .error .useAfterFree
    else match h.slot r.buf pos with
      | .live a =>
        let h := h.setSlot r.buf pos .moved
        if rest.len = 0 then .ok (h, some a, { rest with alloc := none }, r.alloc.toList.map .dropS)
        else .ok (h, some a, rest, [])
      | _ => .error .deadItem

/-- rc_slice_mut.rs:250-279 `RcSliceMutParts::next`, `next_back`; `len` (244) is layer A's. -/
def partsNext (umax : Nat) (h : Heap α) (b : Nat) (alloc : Option Nat) (it : SliceItemsParts) (e : End) :
    Except UB (Heap α × Option Reg × Option Nat × SliceItemsParts) := do
  let C := posCtx umax (h.sk.blen b)
  let (o, it) ← noFault (match e with | .front => it.next C | .back => it.nextBack C)
  match o with
  | none => pure (h, none, alloc, it)
  | some items => do
    let rest ← noFault (it.asSlice C 0)
    let (h, a, kept) ← splitAlloc h alloc rest.len items.len
    pure (h, some ⟨b, items.ptr, items.len, a⟩, kept, it)

/-- The items an `RcSliceMutParts` still owns: slice_items.rs:241-283 `as_raw_slice_parts`. -/
def partsReg (umax : Nat) (h : Heap α) (b : Nat) (alloc : Option Nat) (it : SliceItemsParts) : Except UB Reg := do
  let rest ← noFault (it.asSlice (posCtx umax (h.sk.blen b)) 0)
  pure ⟨b, rest.ptr, rest.len, alloc⟩

/-- The items visible through a handle. rc_slice.rs:224-226, rc_slice_mut.rs:110, 168, 170, 237, 239; `len` of iterators over items (205) is the length of the range. -/
def handleRange (umax : Nat) (h : Heap α) : Handle → Except UB (Option (Nat × Nat × Nat))
  | .strong d _ => do
    let v ← h.getData d
    pure (some (v.buf, v.off, v.len))
  | .weak _ _ => .ok none
  | .uniq r => .ok (some (r.buf, r.off, r.len))
  | .iter r => .ok (some (r.buf, r.off, r.len))
  | .parts b alloc it => do
    let r ← partsReg umax h b alloc it
    pure (some (r.buf, r.off, r.len))

/-- Drop a handle. Drop glue of rc_slice.rs:71-85, rc_slice_mut.rs:24-44. -/
def dropHandle (umax : Nat) (h : Heap α) : Handle → Except UB (Heap α × List Task)
  | .strong d i => .ok (h, [.dropRcSlice d i])
  | .weak d g => do
    let h ← h.decW d
    pure (h, [.dropS g])
  | .uniq r => .ok (h, [.dropReg r])
  | .iter r => .ok (h, [.dropReg r])
  | .parts b alloc it => do
    let r ← partsReg umax h b alloc it
    pure (h, [.dropReg r])

/-- One call: the new state, what the caller sees, and what is dropped before it returns.
`umax` is `usize::MAX`. `Op.clone` is also rc_slice_mut.rs:143-145, `Op.intoMut` is also the
`TryFrom` of rc_slice_mut.rs:133-135, `Op.intoImmut` the `From` of rc_slice.rs:460-462,
`Op.intoIter` is rc_slice_mut.rs:153-156, `Op.intoParts` is rc_slice_mut.rs:90-94. -/
def exec (umax : Nat) (s : State α) : Op α → Except UB (State α × Obs α × List Task)
  | .rcNew xs =>
    if xs.length ≤ umax then do
      let (h, d, i) ← rcFromBox s.h xs
      pure ({ s with h }.push (.strong d i), .handle, [])
    else .ok (s, .invalid, [])
  | .mutNew xs =>
    if xs.length ≤ umax then
      let (h, r) := mutFromBox s.h xs
      .ok ({ s with h }.push (.uniq r), .handle, [])
    else .ok (s, .invalid, [])
  | .weakNew =>
    let (h, g) := weakNew s.h
    .ok ({ s with h }.push (.weak none g), .handle, [])
  | .clone k =>
    match s.get k with
    | some (.strong d i) => do
      let h ← rcClone s.h d i
      pure ({ s with h }.push (.strong d i), .handle, [])
    | some (.weak d g) => do
      let h ← weakClone s.h d g
      pure ({ s with h }.push (.weak d g), .handle, [])
    | some (.uniq r) => do
      let xs ← readRange s.h r.buf r.off r.len
      let (h, r) := mutFromBox s.h xs
      pure ({ s with h }.push (.uniq r), .handle, [])
    | _ => .ok (s, .invalid, [])
  | .cloneSide sd k =>
    match s.get k with
    | some (.strong d i) => do
      let (h, c, j) ← rcCloneSide s.h d i sd
      pure ({ s with h }.push (.strong c j), .handle, [])
    | _ => .ok (s, .invalid, [])
  | .splitOff sd k =>
    match s.get k with
    | some (.strong d i) => do
      -- rc_slice.rs:366-378
      let (h, ld, li) ← rcCloneSide s.h d i .L
      let (h, rd, ri) ← rcCloneSide h d i .R
      match sd with
      | .L => pure (({ s with h }.put k (.strong rd ri)).push (.strong ld li), .handle, [.dropRcSlice d i])
      | .R => pure (({ s with h }.put k (.strong ld li)).push (.strong rd ri), .handle, [.dropRcSlice d i])
    | some (.uniq r) => do
      let (h, new, rest) ← regSplitOff s.h r sd
      pure (({ s with h }.put k (.uniq rest)).push (.uniq new), .handle, [])
    | _ => .ok (s, .invalid, [])
  | .getMut k j a =>
    match s.get k with
    | some (.strong d i) => do
      if ← getMutOk s.h d i then
        let v ← s.h.getData d
        if j < v.len then do
          let h ← writeItem s.h v.buf (v.off + j) a
          pure ({ s with h }, .done, [])
        else pure (s, .done, [])
      else pure (s, .none, [])
    | _ => .ok (s, .invalid, [])
  | .write k j a =>
    match s.get k with
    | some (.strong _ _) => .ok (s, .invalid, [])
    | some x => do
      match ← handleRange umax s.h x with
      | none => pure (s, .invalid, [])
      | some (b, off, len) =>
        if j < len then do
          let h ← writeItem s.h b (off + j) a
          pure ({ s with h }, .done, [])
        else pure (s, .panicked, [])
    | none => .ok (s, .invalid, [])
  | .read k =>
    match s.get k with
    | some x => do
      match ← handleRange umax s.h x with
      | none => pure (s, .invalid, [])
      | some (b, off, len) => do
        let xs ← readRange s.h b off len
        pure (s, .items xs, [])
    | none => .ok (s, .invalid, [])
  | .intoMut k =>
    match s.get k with
    | some (.strong d i) => do
      match ← intoMut s.h d i with
      | (h, some (r, ts)) => pure ({ s with h }.put k (.uniq r), .done, ts)
      | (h, none) => pure ({ s with h }, .err, [])
    | _ => .ok (s, .invalid, [])
  | .intoImmut k =>
    match s.get k with
    | some (.uniq r) => do
      -- rc_slice_mut.rs:96-101
      let (h, d, i) ← rcFromParts s.h r
      pure ({ s with h }.put k (.strong d i), .done, [])
    | _ => .ok (s, .invalid, [])
  | .downgrade k =>
    match s.get k with
    | some (.strong d i) => do
      let (h, g) ← downgrade s.h d i
      pure ({ s with h }.push (.weak (some d) g), .handle, [])
    | _ => .ok (s, .invalid, [])
  | .upgrade k =>
    match s.get k with
    | some (.weak d g) => do
      match ← upgradeWeak s.h d g with
      | (h, some (d, i)) => pure ({ s with h }.push (.strong d i), .handle, [])
      | (h, none) => pure ({ s with h }, .none, [])
    | _ => .ok (s, .invalid, [])
  | .drop k =>
    match s.get k with
    | some x => do
      let (h, ts) ← dropHandle umax s.h x
      pure ({ s with h }.del k, .done, ts)
    | none => .ok (s, .invalid, [])
  | .intoIter k =>
    match s.get k with
    | some (.uniq r) => .ok (s.put k (.iter r), .done, [])
    | _ => .ok (s, .invalid, [])
  | .next e k =>
    match s.get k with
    | some (.iter r) => do
      match ← iterNext s.h r e with
      | (h, some a, r, ts) => pure ({ s with h }.put k (.iter r), .item a, ts)
      | (h, none, r, ts) => pure ({ s with h }.put k (.iter r), .none, ts)
    | _ => .ok (s, .invalid, [])
  | .splitOffFrom k n =>
    match s.get k with
    | some (.iter r) =>
      if n ≤ r.len then do
        let (h, new, rest) ← iterSplit s.h { r with off := r.off + n, len := r.len - n } { r with len := n }
        pure (({ s with h }.put k (.iter rest)).push (.iter new), .handle, [])
      else .ok (s, .panicked, [])
    | _ => .ok (s, .invalid, [])
  | .splitOffTo k n =>
    match s.get k with
    | some (.iter r) =>
      if n ≤ r.len then do
        let (h, new, rest) ← iterSplit s.h { r with len := n } { r with off := r.off + n, len := r.len - n }
        pure (({ s with h }.put k (.iter rest)).push (.iter new), .handle, [])
      else .ok (s, .panicked, [])
    | _ => .ok (s, .invalid, [])
  | .intoParts k n =>
    match s.get k with
    | some (.uniq r) =>
      if n ≤ umax then
        match SliceItemsParts.new ⟨r.off, r.len⟩ n with
        | .ok it => .ok (s.put k (.parts r.buf r.alloc it), .done, [])
        -- unwinding drops the items, then the allocation reference
        | .error _ => .ok (s.del k, .panicked, [.dropReg r])
      else .ok (s, .invalid, [])
    | _ => .ok (s, .invalid, [])
  | .nextPart e k =>
    match s.get k with
    | some (.parts b alloc it) => do
      match ← partsNext umax s.h b alloc it e with
      | (h, some r, kept, it) => pure (({ s with h }.put k (.parts b kept it)).push (.uniq r), .handle, [])
      | (h, none, kept, it) => pure ({ s with h }.put k (.parts b kept it), .none, [])
    | _ => .ok (s, .invalid, [])

/-- A program in the middle of something: `tasks` is the stack of pending drops.
Models no code: the call stack, reduced to what remains to be dropped. -/
structure Config (α : Type) where
  st : State α
  tasks : List Task

/-- A program between two calls. Before the first call. -/
def Config.init (zst : Bool) : Config α := ⟨⟨Heap.empty zst, []⟩, []⟩

/-- What may happen next: the first pending drop is performed, or user code, when it is
running, makes a call. User code is running if nothing is pending, or if the first
pending thing is the end of an item's destructor. Calls from a destructor can happen whenever rc_slice.rs:217 or slice_items.rs drops items. -/
inductive Config.Step (umax : Nat) : Config α → Except UB (Config α) → Prop
  | task (st : State α) (t : Task) (ts : List Task) :
    Config.Step umax ⟨st, t :: ts⟩ ((taskStep st.h t).map fun (h, new) => ⟨{ st with h }, new ++ ts⟩)
  | call (st : State α) (ts : List Task) (op : Op α) (h : ts = [] ∨ ts.head? = some .userCode) :
    Config.Step umax ⟨st, ts⟩ ((exec umax st op).map fun (st, _, new) => ⟨st, new ++ ts⟩)

/-- Everything that can happen, with arbitrary calls from inside item destructors. Models all programs that use rc_slice.rs and rc_slice_mut.rs. -/
inductive Config.Reach (umax : Nat) (zst : Bool) : Config α → Prop
  | init : Config.Reach umax zst (Config.init zst)
  | step (c c' : Config α) : Config.Reach umax zst c → Config.Step umax c (.ok c') → Config.Reach umax zst c'

/-- Upper bound on the number of steps a pending drop takes by itself. Models no code. -/
def Task.cost : Task → Nat
  | .dropS _ => 1
  | .dropRcSlice _ _ => 2
  | .userCode => 1
  | .dropReg r => 2 * r.len + 2

/-- Upper bound on the number of steps the fields of a dropped object take. Models no code. -/
def Node.cost : Node → Nat
  | .data v => 2 * v.len + 4
  | .img _ => 2
  | .gmg _ => 1
  | .alloc _ => 0

/-- `f 0 + ... + f (n-1)`. Models no code. -/
def sumTo : Nat → (Nat → Nat) → Nat
  | 0, _ => 0
  | n + 1, f => sumTo n f + f n

/-- Enough steps for `drain`. Models no code. -/
def fuelFor (h : Heap α) (ts : List Task) : Nat :=
  sumTo h.sk.next (fun x => ((h.sk.node x).map Node.cost).getD 0) + (ts.map Task.cost).sum

/-- Perform pending drops until none is left (item destructors that make no calls). What the end of a scope does. -/
def drain : Nat → Heap α → List Task → Except UB (Heap α)
  | _, h, [] => .ok h
  | 0, _, _ :: _ => .error .diverge
  | fuel + 1, h, t :: ts => do
    let (h, new) ← taskStep h t
    drain fuel h (new ++ ts)

/-- One call, with all the drops it causes. Any function of rc_slice.rs or rc_slice_mut.rs. -/
def call (umax : Nat) (s : State α) (op : Op α) : Except UB (State α × Obs α) := do
  let (s, o, ts) ← exec umax s op
  let h ← drain (fuelFor s.h ts) s.h ts
  pure ({ s with h }, o)

/-- A history of calls. Models a program that uses them. -/
def run (umax : Nat) : State α → List (Op α) → Except UB (State α × List (Obs α))
  | s, [] => .ok (s, [])
  | s, op :: ops => do
    let (s, o) ← call umax s op
    let (s, os) ← run umax s ops
    pure (s, o :: os)

end Verif.Rc
