import Verif.Arc.Spec
/-!
# Accesses to items and the order between them

`Arc/Model.lean` executes the atomic accesses of all calls one after the other. Here every
such run gets the *happens-before* relation of the memory model of Rust (the one of C11):
each call, each handle and each atomic variable carries the set of accesses to items (and to the
objects the library itself allocates) it knows to have happened before. Only `Acquire` and
`Release` accesses of the same atomic variable pass this knowledge from one call to another.

What is modelled: which of the atomic accesses in `src/arc`, and inside of `Arc` and `Weak`,
are acquiring and releasing. What is not: executions in which a relaxed load reads a value
other than the latest one; every run considered here interleaves atomic accesses. See `Arc/Stale.lean` for those.

`std` has changed some of its orderings over time, and does not document all of them:
`Ords` says which variant is considered.
-/

namespace Verif.Arc
open Verif.Spec (Side Slot Family End)
open Verif.Rc (UB DataV Node Heap Reg Task upd)
variable {α : Type}

/-- A set of accesses, named by their positions in the log. Models no code: the memory model. -/
abbrev View := List Nat

/-- Union. Models no code. -/
def View.join (V W : View) : View := V ++ W.filter fun x => !V.contains x

/-- The atomic variables. -/
inductive Loc where
  /-- the strong count of an `ArcSliceData` or `SliceAlloc` -/
  | cnt (x : Nat)
  /-- the weak count of an `ArcSliceData` -/
  | wcnt (x : Nat)
  /-- the strong count of a `DataGuard` -/
  | gcnt (g : Nat)
  /-- the weak count of a `DataGuard` -/
  | gwk (g : Nat)
  /-- arc_slice.rs:36-38 `left_child`, `right_child` -/
  | kid (x : Nat) (s : Side)
  /-- arc_slice.rs:43 `guard` -/
  | box (x : Nat)
  /-- arc_slice.rs:55 `clone_child_gate` -/
  | cgate (g : Nat)
  /-- arc_slice.rs:57 `downgrade_gate` -/
  | dgate (g : Nat)
deriving DecidableEq, Repr

/-- What `std` does: `strong_count` and `weak_count` acquire (`SeqCst` in the days of this
crate, `Relaxed` today); a successful `Weak::upgrade` acquires (`Relaxed` in the days of this
crate, `Acquire` today); an unsuccessful one does (it never did). Used at arc_slice.rs:289, 294, 313, 362-405, 476 and in gate.rs.
`weak` does not vary: the accesses to the weak counts of slice data are part of the steps considered here, or they are left out.
`Arc/Return.lean` leaves them out and has them on its own account, at the time when they are made. -/
structure Ords where
  cnt : Bool
  up : Bool
  fail : Bool
  weak : Bool
deriving DecidableEq, Repr

/-- An atomic access. Models no code of /repo: `core::sync::atomic`. -/
inductive Acc where
  | load (l : Loc) (acq : Bool)
  /-- read-modify-write: continues the release sequence -/
  | rmw (l : Loc) (acq rel : Bool)
  /-- a releasing store -/
  | store (l : Loc)
deriving DecidableEq, Repr

/-- Orderings inside of `Arc`: dropping an `Arc` is `fetch_sub(1, Release)`, and `Acquire` if it
was the last one. Then the contents are dropped: arc_slice.rs:230-254 takes the children by
`swap(AcqRel)` (185); the `parent` (40) and the `Weak` that all `Arc`s together hold are
dropped, each a `fetch_sub(1, Release)`. -/
def dropAcc (a : Arena α) (x : Nat) : List Acc :=
  if a.b.strong x = 1 then
    .rmw (.cnt x) true true ::
      match a.b.sk.node x with
      | some (.data _) => [.rmw (.kid x .L) true true, .rmw (.kid x .R) true true] ++
          (a.par x).toList.map (fun p => .rmw (.wcnt p) false true) ++ [.rmw (.wcnt x) false true]
      | _ => []
  else [.rmw (.cnt x) false true]

/-- Dropping an `Arc<DataGuard>`. arc_slice.rs:50-53, inside of `Arc`. -/
def dropGAcc (a : Arena α) (g : Nat) : List Acc :=
  if a.gS g = 1 then [.rmw (.gcnt g) true true, .rmw (.gwk g) false true] else [.rmw (.gcnt g) false true]

/-- `Weak::upgrade` of an `ArcSliceData`. arc_slice.rs:294, 476, inside of `Weak`. -/
def upAcc (o : Ords) (a : Arena α) (p : Nat) : List Acc :=
  if a.b.strong p = 0 then [.load (.cnt p) o.fail] else [.rmw (.cnt p) o.up false]

/-- `Arc::try_unwrap`; if it succeeds, the children are taken next (arc_slice.rs:220-227), and
what is left is dropped. -/
def unwrapAcc (a : Arena α) (d : Nat) : List Acc :=
  if a.b.strong d = 1 then
    [.rmw (.cnt d) true true, .rmw (.kid d .L) true true, .rmw (.kid d .R) true true] ++
      (a.par d).toList.map (fun p => .rmw (.wcnt p) false true) ++ [.rmw (.wcnt d) false true]
  else []

/-- The atomic accesses of one pending drop. arc_slice.rs:230-254 and drop glue. -/
def ataskAcc (a : Arena α) : ATask → List Acc
  | .base (.dropS x) => dropAcc a x
  | .base _ => []
  | .slice d _ => dropAcc a d
  | .guard g => dropGAcc a g

/-- The atomic accesses of `pcStep`. Cloning an `Arc` or `Weak` is `fetch_add(1, Relaxed)`;
`Arc::downgrade` acquires the weak count. -/
def pcAcc (o : Ords) (a : Arena α) : Pc α → List Acc
  | .wait _ g _ => [.load (.cgate g) true]              -- gate.rs:18
  | .cs d s => match a.b.getData d with
    | .ok v => if Rc.sameNode v.len s then [] else [.load (.kid d s) true]   -- arc_slice.rs:133
    | .error _ => []
  | .csNew d _ => [.rmw (.wcnt d) true false]           -- arc_slice.rs:138
  | .csCas d s _ => match a.b.getData d with            -- arc_slice.rs:141
    | .ok v => if (v.kids s).isNone then [.rmw (.kid d s) true true] else [.load (.kid d s) true]
    | .error _ => []
  | .csLose c _ => (a.par c).toList.map fun p => .rmw (.wcnt p) false true   -- arc_slice.rs:158-163
  | .gLoad x _ _ => [.load (.box x) true]               -- arc_slice.rs:287
  | .gTry _ b _ _ _ => match a.tgt b with               -- arc_slice.rs:289, 312
    | none => []
    | some g => if a.gS g = 0 then [.load (.gcnt g) o.fail] else [.rmw (.gcnt g) o.up false]
  | .gPar x _ _ _ => match a.par x with                 -- arc_slice.rs:294
    | none => []
    | some p => upAcc o a p
  | .gCas x b _ _ _ => if a.box x = b then [.rmw (.box x) true true] else [.load (.box x) true]  -- arc_slice.rs:302
  | .gm0 _ g => [.rmw (.dgate g) true true]             -- gate.rs:22
  | .gm1 _ g => [.load (.gwk g) o.cnt]
  | .gm2 _ g => [.rmw (.cgate g) true true]
  | .gm3 _ g => [.load (.gcnt g) o.cnt]
  | .gm4 d _ => [.load (.cnt d) o.cnt]
  | .gmOpenC _ g _ => [.store (.cgate g)]               -- gate.rs:32
  | .gmOpenD _ g _ => [.store (.dgate g)]
  | .im0 _ g => [.rmw (.cgate g) true true]
  | .im1 _ g => [.load (.gcnt g) o.cnt]
  | .im2 d _ => unwrapAcc a d
  | .imOpen _ g => [.store (.cgate g)]
  | .imFg (.kid c :: _) _ _ _ => unwrapAcc a c
  | .imGate g _ _ => [.store (.cgate g)]
  | .dg0 _ g => [.load (.dgate g) true]
  | .dg1 d g => [.rmw (.wcnt d) true false, .rmw (.gwk g) true false]
  | .up (some d) => upAcc o a d
  | .wd (some g) => [.rmw (.wcnt (a.gOf g)) false true, .rmw (.gwk g) false true]
  | _ => []

/-- Is the access to the weak count of slice data? Models no code. -/
def Acc.onWeak : Acc → Bool
  | .load (.wcnt _) _ | .rmw (.wcnt _) _ _ | .store (.wcnt _) => true
  | _ => false

/-- The atomic accesses of one step of a call. See `pcAcc` and `ataskAcc`. -/
def callAcc (o : Ords) (a : Arena α) (cl : Call α) : List Acc :=
  (match cl.tasks with
  | t :: _ => ataskAcc a t
  | [] => pcAcc o a cl.pc).filter fun r => o.weak || !r.onWeak

/-- What each variable passes on to those who acquire it. Models no code: the memory model. -/
abbrev Rel := Loc → View

/-- Models no code. -/
def Rel.set (m : Rel) (l : Loc) (V : View) : Rel := fun l' => if l' = l then V else m l'

/-- The effect of an atomic access on what its thread knows, and on what the variable passes on. Models no code: the memory model. -/
def Acc.run (p : View × Rel) : Acc → View × Rel
  | .load l acq => (if acq then p.1.join (p.2 l) else p.1, p.2)
  | .rmw l acq rel =>
    let V := if acq then p.1.join (p.2 l) else p.1
    (V, if rel then p.2.set l ((p.2 l).join V) else p.2)
  | .store l => (p.1, p.2.set l p.1)

/-- Several accesses. Models no code. -/
def Acc.runs (p : View × Rel) (l : List Acc) : View × Rel := l.foldl Acc.run p

/-- What the library allocates apart from the memory of the items. -/
inductive Obj where
  /-- an `ArcSliceData` or `SliceAlloc`, with its counters -/
  | node (x : Nat)
  /-- a `DataGuard`, with its counters -/
  | guard (g : Nat)
  /-- a `Box<Weak<DataGuard>>` (arc_slice.rs:43) -/
  | box (b : Nat)
deriving DecidableEq, Repr

/-- How such an object is accessed. Models no code: the memory model. -/
inductive Touch where
  | none
  /-- only its counters -/
  | head
  /-- its contents: fields, `AtomicPtr`s, `Gate`s -/
  | body
  /-- it is allocated and initialized -/
  | make
  /-- its contents are destroyed -/
  | free
deriving DecidableEq, Repr

/-- May two such accesses not be made at the same time? Counters are atomic, and survive the contents; so are all
fields that are ever overwritten. Models no code: the memory model. -/
def Touch.clash : Touch → Touch → Bool
  | .make, .none | .none, .make => false
  | .make, _ | _, .make => true
  | .free, .body | .body, .free | .free, .free => true
  | _, _ => false

/-- Accesses to items and objects, made by one thread without an atomic access in between. Models no code: the memory model. -/
structure Ev where
  /-- items are overwritten, moved out, dropped, put in, or their memory is freed -/
  wr : Bool
  /-- it is a write through the `&mut [T]` returned by `get_mut` -/
  gm : Bool
  /-- which items: buffer and position -/
  at_ : Nat → Nat → Bool
  /-- which objects, and how -/
  obj : Obj → Touch
  /-- the accesses that happened before -/
  view : View

/-- Are these the same, except for the value of the item? Models no code. -/
def sameState : Slot α → Slot α → Bool
  | .absent, .absent | .live _, .live _ | .dropped, .dropped | .moved, .moved => true
  | _, _ => false

/-- The items touched by a step of a call: those that are put in, moved out or dropped, and all those
in memory that is freed. arc_slice.rs:252, arc_slice_mut.rs:192-210, slice_alloc.rs. -/
def touched (a a' : Arena α) (b i : Nat) : Bool :=
  !sameState (a.b.slot b i) (a'.b.slot b i) || (a.b.sk.mem b && !a'.b.sk.mem b)

/-- The objects whose counters dropping an `Arc` accesses; the last `Arc` of a slice also drops the `Weak` to
its parent (arc_slice.rs:39). -/
def dropHead (a : Arena α) (x : Nat) : List Obj :=
  .node x :: match a.b.sk.node x with
    | some (.data _) => if a.b.strong x = 1 then (a.par x).toList.map .node else []
    | _ => []

/-- The objects whose counters a pending drop accesses. arc_slice.rs:230-254 and drop glue. -/
def ataskHead (a : Arena α) : ATask → List Obj
  | .base (.dropS x) | .slice x _ => dropHead a x
  | .base _ => []
  | .guard g => [.guard g]

/-- The objects whose counters are accessed by `pcStep`. -/
def pcHead (a : Arena α) : Pc α → List Obj
  | .split _ r | .cut _ _ r => r.alloc.toList.map .node       -- cloning `alloc`
  | .cl1 d _ => [.node d]
  | .cl2 _ g => [.guard g]
  | .cs d _ => [.node d]
  | .csInc c => [.node c]
  | .csNew d _ => .node d :: match a.b.getData d with          -- arc_slice.rs:137-138
    | .ok v => v.alloc.toList.map .node
    | .error _ => []
  | .csLose c _ => .node c :: (a.par c).toList.map .node       -- arc_slice.rs:148-163
  | .gTry _ b _ _ _ => (a.tgt b).toList.map .guard
  | .gPar x _ _ _ => (a.par x).toList.map .node
  | .gm1 _ g | .gm3 _ g | .im1 _ g => [.guard g]
  | .gm4 d _ => [.node d]
  | .im2 d _ => .node d :: (a.par d).toList.map .node
  | .imFg (.kid c :: _) _ _ _ => .node c :: (a.par c).toList.map .node
  | .dg1 d g => [.node d, .guard g]
  | .up d => d.toList.map .node
  | .wc d g => d.toList.map .node ++ g.toList.map .guard
  | .wd (some g) => [.node (a.gOf g), .guard g]
  | _ => []

/-- The objects whose contents are accessed by `pcStep`, unless they are destroyed or made by it.
E.g. `(*existing_guard_ptr).upgrade()` at arc_slice.rs:289. -/
def pcBody : Pc α → List Obj
  | .wait _ g _ => [.guard g]
  | .cs d _ | .csNew d _ | .csCas d _ _ => [.node d]
  | .gLoad x _ _ | .gPar x _ _ _ | .gCas x _ _ _ _ => [.node x]
  | .gTry _ b _ _ _ => [.box b]
  | .gm0 _ g | .gm2 _ g | .gmOpenC _ g _ | .gmOpenD _ g _ => [.guard g]
  | .im0 _ g | .imOpen _ g | .imGate g _ _ => [.guard g]
  | .dg0 _ g => [.guard g]
  | _ => []

/-- The objects whose counters a step accesses: see `pcHead` and `ataskHead`. -/
def callHead (a : Arena α) (cl : Call α) : List Obj :=
  match cl.tasks with
  | t :: _ => ataskHead a t
  | [] => pcHead a cl.pc

/-- The objects whose contents a step accesses: see `pcBody`. -/
def callBody (cl : Call α) : List Obj :=
  match cl.tasks with
  | _ :: _ => []
  | [] => pcBody cl.pc

/-- Objects that have been made. Models no code. -/
def Arena.made (a : Arena α) : Obj → Bool
  | .node x => decide (x < a.b.sk.next)
  | .guard g => decide (g < a.ng)
  | .box b => decide (b < a.nbox)

/-- Objects whose contents are there. Boxes stay for ever (arc_slice.rs has no code to free them). -/
def Arena.live (a : Arena α) : Obj → Bool
  | .node x => (a.b.sk.node x).isSome
  | .guard g => (a.guard g).isSome
  | .box b => decide (b < a.nbox)

/-- How a step accesses objects before its atomic accesses. What it makes is made before it is published. See `pcHead` and `pcBody`. -/
def preObj (a a' : Arena α) (cl : Call α) (X : Obj) : Touch :=
  if !a.made X && a'.made X then .make
  else if X ∈ callBody cl then .body
  else if X ∈ callHead a cl then .head
  else .none

/-- How a step accesses objects after its atomic accesses. arc_slice.rs:230-254 and drop glue. -/
def postObj (a a' : Arena α) (X : Obj) : Touch := if a.live X && !a'.live X then .free else .none

/-- The objects accessed when items are read or written through a handle.
arc_slice.rs:280-282, 437-439: `Deref` reads `ptr` and `len` of the `ArcSliceData`. -/
def handleObj (h : Handle) (X : Obj) : Touch :=
  match h with
  | .strong d _ => if X = .node d then .body else .none
  | _ => .none

/-- Everything, together with who knows what. Models no code: the memory model. -/
structure VConf (α : Type) where
  c : Conf α
  m : Rel
  /-- what the owner of a handle knows -/
  hb : Nat → View
  /-- what those know who have used a shared reference to a handle; the owner knows it too once all of
  them are gone -/
  ha : Nat → View
  /-- what a call knows -/
  cv : Nat → View
  log : List Ev

namespace VConf

/-- Before the first call. -/
def init (zst : Bool) : VConf α where
  c := Conf.init zst
  m := fun _ => []
  hb := fun _ => []
  ha := fun _ => []
  cv := fun _ => []
  log := []

/-- Call `i` makes a step: it accesses objects, makes its atomic accesses, and accesses items. See `callAcc`. -/
def step (o : Ords) (v : VConf α) (i : Nat) : Except UB (VConf α) :=
  match v.c.calls[i]? with
  | none => .ok v
  | some cl => do
    let c' ← v.c.step i
    let (V, m) := Acc.runs (v.log.length :: v.cv i, v.m) (callAcc o v.c.a cl)
    let V' := (v.log.length + 1) :: V
    pure {
      c := c'
      m
      hb := fun k => if v.c.hs.length ≤ k then V' else v.hb k
      ha := fun k => if cl.borrow = some k then (v.ha k).join V' else v.ha k
      cv := upd v.cv i V'
      log := v.log ++ [⟨false, false, fun _ _ => false, preObj v.c.a c'.a cl, v.cv i⟩,
        ⟨true, false, touched v.c.a c'.a, postObj v.c.a c'.a, V⟩] }

/-- The handle a call is given. The receivers in arc_slice.rs:320-484. -/
def _root_.Verif.Arc.Op.arg : Op α → Option Nat
  | .new _ | .mutNew _ | .weakNew => none
  | .clone k | .cloneSide _ k | .getMut k | .endMut k | .intoMut k | .intoImmut k | .splitOff _ k | .next _ k | .cut _ _ k
  | .downgrade k | .upgrade k | .drop k => some k

/-- What a thread knows that uses handle `k`: what its owner does, what former users of shared
references did if there are none left, and whatever else (`X`) it has seen. Models no code: how users pass handles on. -/
def knows (v : VConf α) (X : View) (k : Nat) (excl : Bool) : View := X.join ((v.hb k).join (if excl then v.ha k else []))

/-- A thread that knows `X` starts a call. Models no code of /repo but that of its users. -/
def start (v : VConf α) (op : Op α) (X : View) : Option (VConf α) :=
  match v.c.start op with
  | none => none
  | some c' =>
    let V := match op.arg with
      | none => X
      | some k => v.knows X k (c'.get k).isNone
    some { v with
      c := c'
      hb := fun k => if v.c.hs.length ≤ k then V else v.hb k
      cv := fun i => if v.c.calls.length ≤ i then V else v.cv i }

/-- A thread that knows `X` reads item `j` of handle `k`. arc_slice.rs:437-439, arc_slice_mut.rs:94. -/
def read (v : VConf α) (k j : Nat) (X : View) : Option (VConf α) :=
  match v.c.get k with
  | none => none
  | some e => match Conf.range v.c.a e.h with
    | .ok (some (b, off, len)) =>
      if j < len then
        let V := v.knows X k (Conf.writable e)
        let V' := v.log.length :: V
        some { v with
          hb := if Conf.writable e then upd v.hb k V' else v.hb
          ha := if Conf.writable e then v.ha else upd v.ha k ((v.ha k).join V')
          log := v.log ++ [⟨false, false, fun b' i => b' == b && i == off + j, handleObj e.h, V⟩] }
      else none
    | _ => none

/-- A thread that knows `X` writes to item `j` of handle `k`, which it may. arc_slice.rs:362-387, arc_slice_mut.rs:99. -/
def write (v : VConf α) (k j : Nat) (x : α) (X : View) : Option (Except UB (VConf α)) :=
  match v.c.get k with
  | none => none
  | some e => match Conf.range v.c.a e.h with
    | .ok (some (b, off, len)) =>
      if j < len ∧ Conf.writable e = true then
        let V := v.knows X k true
        some do
          let c' ← v.c.write e j x
          pure { v with
            c := c'
            hb := upd v.hb k (v.log.length :: V)
            log := v.log ++ [⟨true, e.mutb, fun b' i => b' == b && i == off + j, handleObj e.h, V⟩] }
      else none
    | _ => none

/-- The executions of programs whose calls follow the rules `P`. The other things a thread may know
(`X`) are anything that has happened. Models all programs that use arc_slice.rs and arc_slice_mut.rs, on any number of threads. -/
inductive Reach (o : Ords) (P : Rules α) (zst : Bool) : VConf α → Prop
  | init : Reach o P zst (init zst)
  | run {v v' : VConf α} (h : Reach o P zst v) (i : Nat) (e : v.step o i = .ok v') : Reach o P zst v'
  | start {v v' : VConf α} (h : Reach o P zst v) (op : Op α) (X : View) (hX : ∀ x ∈ X, x < v.log.length) (hp : P v.c op)
      (e : v.start op X = some v') : Reach o P zst v'
  | read {v v' : VConf α} (h : Reach o P zst v) (k j : Nat) (X : View) (hX : ∀ x ∈ X, x < v.log.length)
      (e : v.read k j X = some v') : Reach o P zst v'
  | write {v v' : VConf α} (h : Reach o P zst v) (k j : Nat) (x : α) (X : View) (hX : ∀ x ∈ X, x < v.log.length)
      (e : v.write k j x X = some (.ok v')) : Reach o P zst v'

/-- Accesses number `i` and `j` conflict: they touch the same item, and one of them is not just reading. -/
def Conflict (v : VConf α) (i j : Nat) : Prop :=
  ∃ e f b s, v.log[i]? = some e ∧ v.log[j]? = some f ∧ e.at_ b s = true ∧ f.at_ b s = true ∧ (e.wr = true ∨ f.wr = true)

/-- Accesses number `i` and `j` clash: they are to the same object, and one of them makes or destroys it. -/
def Clash (v : VConf α) (i j : Nat) : Prop :=
  ∃ e f X, v.log[i]? = some e ∧ v.log[j]? = some f ∧ (e.obj X).clash (f.obj X) = true

/-- Access number `i` happened before access number `j`. -/
def Before (v : VConf α) (i j : Nat) : Prop := ∃ f, v.log[j]? = some f ∧ i ∈ f.view

/-- Two conflicting accesses neither of which happened before the other: a data race. -/
def Race (v : VConf α) (i j : Nat) : Prop := v.Conflict i j ∧ ¬ v.Before i j ∧ ¬ v.Before j i ∧ i ≠ j

/-- The same for the objects the library allocates. -/
def ObjRace (v : VConf α) (i j : Nat) : Prop := v.Clash i j ∧ ¬ v.Before i j ∧ ¬ v.Before j i ∧ i ≠ j

/-- Access number `i` is to object `X`, and of the given kind. -/
def Touches (v : VConf α) (i : Nat) (X : Obj) (t : Touch) : Prop := ∃ e, v.log[i]? = some e ∧ e.obj X = t

/-- Access number `i` is not just reading. -/
def Writes (v : VConf α) (i : Nat) : Prop := ∃ e, v.log[i]? = some e ∧ e.wr = true

/-- Access number `j` is a write through the result of `get_mut`. -/
def ByGetMut (v : VConf α) (j : Nat) : Prop := ∃ f, v.log[j]? = some f ∧ f.gm = true

end VConf

/-! ## Running schedules -/

inductive VAct (α : Type) where
  | op (o : Op α)
  /-- `n` steps of call `i` -/
  | run (i n : Nat)
  | rd (k j : Nat)
  | wr (k j : Nat) (x : α)

namespace VConf

def steps (o : Ords) (v : VConf α) (i : Nat) : Nat → Except UB (VConf α)
  | 0 => .ok v
  | n + 1 => do steps o (← v.step o i) i n

/-- Every call, read and write is made by a thread that knows no more than it has to. -/
def exec (o : Ords) (v : VConf α) : List (VAct α) → Option (VConf α)
  | [] => some v
  | .op p :: as => match v.start p [] with
    | some v' => exec o v' as
    | none => none
  | .run i n :: as => match steps o v i n with
    | .ok v' => exec o v' as
    | .error _ => none
  | .rd k j :: as => match v.read k j [] with
    | some v' => exec o v' as
    | none => none
  | .wr k j x :: as => match v.write k j x [] with
    | some (.ok v') => exec o v' as
    | _ => none

theorem steps_reach {o : Ords} {P : Rules α} {zst : Bool} {i n : Nat} : ∀ {v v' : VConf α}, Reach o P zst v →
    steps o v i n = .ok v' → Reach o P zst v' := by
  induction n with
  | zero => intro v v' h e; cases e; exact h
  | succ n ih =>
    intro v v' h e
    simp only [steps] at e
    cases hs : v.step o i with
    | error u => rw [hs] at e; cases e
    | ok v1 => rw [hs] at e; exact ih (.run h i hs) e

theorem exec_reach {o : Ords} {Q : Op α → Prop} {zst : Bool} : ∀ {as : List (VAct α)} {v v' : VConf α}, Reach o (only Q) zst v →
    (∀ p, VAct.op p ∈ as → Q p) → exec o v as = some v' → Reach o (only Q) zst v' := by
  intro as
  induction as with
  | nil => intro v v' h _ e; cases e; exact h
  | cons a as ih =>
    intro v v' h hp e
    have hp' : ∀ p, VAct.op p ∈ as → Q p := fun p h => hp p (List.mem_cons_of_mem _ h)
    cases a with
    | op p =>
      simp only [exec] at e
      cases hs : v.start p [] with
      | none => rw [hs] at e; cases e
      | some v1 => rw [hs] at e; exact ih (.start h p [] (fun _ h => by cases h) (hp p (List.mem_cons_self ..)) hs) hp' e
    | run i n =>
      simp only [exec] at e
      cases hs : steps o v i n with
      | error u => rw [hs] at e; cases e
      | ok v1 => rw [hs] at e; exact ih (steps_reach h hs) hp' e
    | rd k j =>
      simp only [exec] at e
      cases hs : v.read k j [] with
      | none => rw [hs] at e; cases e
      | some v1 => rw [hs] at e; exact ih (.read h k j [] (fun _ h => by cases h) hs) hp' e
    | wr k j x =>
      simp only [exec] at e
      cases hs : v.write k j x [] with
      | none => rw [hs] at e; cases e
      | some r =>
        cases r with
        | error u => rw [hs] at e; cases e
        | ok v1 => rw [hs] at e; exact ih (.write h k j x [] (fun _ h => by cases h) hs) hp' e

end VConf
end Verif.Arc
