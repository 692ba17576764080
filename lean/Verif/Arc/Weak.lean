import Verif.Arc.Unwind
import Verif.Arc.Race
/-!
# When memory blocks are returned

An `Arc` or `Weak` points to a memory block that holds two counters and the value. The block is returned to the allocator when
the weak counter reaches zero; all `Arc`s together count as one `Weak`. `Arc/Model.lean` does without the weak counters of
`ArcSliceData` and `SliceAlloc`, since no code reads them. Here they are added: each step of `Arc/Model.lean` and `Arc/Unwind.lean` is
accompanied by what it does to them, and fails if it accesses a block that has been returned.

The blocks of `DataGuard` have both counters in `Arc/Model.lean` already, except that the `Weak` that stands for all `Arc`s is left out
there. The boxes that `ArcSliceData.guard` points to are never returned (`C40_fails`).

Simplifications:
* A `Weak` that is given up by a step (for example the `parent` of an `ArcSliceData` whose last `Arc` is dropped) is dropped some
  time later, between any two steps of anybody. In the code this is at a certain point of what the call does next.
* `SliceAlloc` and the losing child of arc_slice.rs:158-163 have blocks that only one thread knows of before they are published; for
  the latter the block is not modelled.
-/

namespace Verif.Arc
open Verif.Spec (Side Slot Family End)
open Verif.Rc (UB DataV Node Heap Reg Task upd)
variable {α : Type}

/-- What a step does to memory blocks. Models no code: see `pcBlocks`. -/
structure Blocks where
  /-- the blocks that are accessed -/
  touch : List Obj := []
  /-- the nodes that a `Weak` is made for -/
  inc : List Nat := []
  /-- the nodes that a `Weak` of is given up -/
  out : List Nat := []

/-- An `Arc` of `x` is dropped or unwrapped. If it is the last one, two `Weak`s are given up: that which all `Arc`s of `x` together
hold, and the field `parent` (arc_slice.rs:39). -/
def lastOut (a : Arena α) (x : Nat) : List Nat := if a.b.strong x = 1 then x :: (a.par x).toList else []

/-- What a pending drop does to memory blocks. Drop glue of arc_slice.rs:27-73. -/
def ataskBlocks (a : Arena α) : ATask → Blocks
  | .base (.dropS x) | .slice x _ => { touch := [.node x], out := lastOut a x }
  | .base _ => {}
  | .guard g => { touch := [.guard g] }

/-- What a step of a call does to memory blocks; `on` is the node that the handle it was called on refers to. -/
def pcBlocks (a : Arena α) (on : Option Nat) : Pc α → Blocks
  | .cl1 d _ => { touch := [.node d] }                              -- arc_slice.rs:428
  | .cl2 _ g => { touch := [.guard g] }                             -- arc_slice.rs:429
  | .wait _ g _ => { touch := [.guard g] }                          -- arc_slice.rs:335, 340
  | .cs d _ => { touch := [.node d] }                               -- arc_slice.rs:111, 122, 133
  | .csInc c => { touch := [.node c] }                              -- arc_slice.rs:171
  | .csNew d _ => { touch := [.node d], inc := [d] }                -- arc_slice.rs:137-138
  | .csCas d _ _ => { touch := [.node d] }                          -- arc_slice.rs:141
  | .csLose c _ => { touch := [.node c], out := (a.par c).toList }  -- arc_slice.rs:149, 160: the new child has the parent of `c`
  | .gLoad x _ _ => { touch := [.node x] }                          -- arc_slice.rs:287
  | .gTry _ b _ _ _ => { touch := .box b :: (a.tgt b).toList.map .guard }   -- arc_slice.rs:289, 312
  | .gPar x _ _ _ => { touch := .node x :: (a.par x).toList.map .node }     -- arc_slice.rs:294
  | .gCas x _ _ _ _ => { touch := [.node x] }                       -- arc_slice.rs:302
  | .gm0 _ g | .gm1 _ g | .gm2 _ g | .gm3 _ g | .gmOpenC _ g _ | .gmOpenD _ g _ => { touch := [.guard g] }  -- arc_slice.rs:369-372
  | .gm4 d _ => { touch := [.node d] }                              -- arc_slice.rs:373
  | .im0 _ g | .im1 _ g | .imOpen _ g | .imGate g _ _ => { touch := [.guard g] }    -- arc_slice.rs:394-396
  | .im2 d _ => { touch := [.node d], out := lastOut a d }          -- arc_slice.rs:397
  | .imFg (.kid c :: _) _ _ _ => { touch := [.node c], out := lastOut a c }         -- arc_slice.rs:222-224
  | .dg0 _ g => { touch := [.guard g] }                             -- arc_slice.rs:408
  | .dg1 d g => { touch := [.node d, .guard g], inc := [d] }        -- arc_slice.rs:409
  | .up d => { touch := d.toList.map .node }                        -- arc_slice.rs:476
  | .wc d g => { touch := d.toList.map .node ++ g.toList.map .guard, inc := d.toList }  -- arc_slice.rs:480-484
  | .wd g => { touch := g.toList.map .guard, out := on.toList }     -- drop of arc_slice.rs:69-73
  | _ => {}

/-- What a step of a call does to memory blocks: see `ataskBlocks` and `pcBlocks`. -/
def callBlocks (a : Arena α) (cl : Call α) : Blocks :=
  match cl.tasks with
  | t :: _ => ataskBlocks a t
  | [] => pcBlocks a cl.on cl.pc

/-- Everything, together with the weak counters of `ArcSliceData` and `SliceAlloc` blocks. -/
structure WConf (α : Type) where
  c : Conf α
  /-- the weak counter; a block is there as long as it is not zero -/
  wk : Nat → Nat
  /-- `Weak`s that have been given up, and are about to be dropped -/
  due : List Nat

namespace WConf

/-- Before the first call. -/
def init (zst : Bool) : WConf α := ⟨Conf.init zst, fun _ => 0, []⟩

/-- Is the memory block there? A `DataGuard` has one as long as there are `Arc`s or `Weak`s of it; boxes stay for ever (arc_slice.rs:43, 301-315). -/
def there (w : WConf α) : Obj → Bool
  | .node x => w.wk x != 0
  | .guard g => w.c.a.gS g != 0 || w.c.a.gW g != 0
  | .box b => decide (b < w.c.a.nbox)

/-- Call `i` makes a step. It fails if it accesses a block that is not there. `Arc::new` sets the weak counter to 1. -/
def step (w : WConf α) (i : Nat) : Except UB (WConf α) :=
  match w.c.calls[i]? with
  | none => .ok w
  | some cl => do
    let c' ← w.c.step i
    let o := callBlocks w.c.a cl
    if o.touch.all w.there then
      .ok { c := c'
            wk := fun x => if w.c.a.b.sk.next ≤ x ∧ x < c'.a.b.sk.next then 1 else w.wk x + o.inc.count x
            due := w.due ++ o.out }
    else .error .useAfterFree

/-- A `Weak` that has been given up is dropped: number `j` of those. Inside of `Weak`. -/
def release (w : WConf α) (j : Nat) : Except UB (WConf α) :=
  match w.due[j]? with
  | none => .ok w
  | some x =>
    if w.wk x = 0 then .error .doubleFree
    else .ok { w with wk := upd w.wk x (w.wk x - 1), due := w.due.eraseIdx j }

/-- What may happen next: as in `PStep`; also, a `Weak` that has been given up is dropped. Models all programs that use arc_slice.rs and
arc_slice_mut.rs, on any number of threads. `P` restricts the calls that are started. -/
inductive Run (P : Rules α) : WConf α → WConf α → Prop
  | run {w w' : WConf α} (i : Nat) (e : w.step i = .ok w') : Run P w w'
  | start {w : WConf α} {c' : Conf α} (op : Op α) (hp : P w.c op) (e : w.c.start op = some c') : Run P w { w with c := c' }
  | write {w : WConf α} {c' : Conf α} (k : Nat) (en : Ent) (j : Nat) (x : α) (hk : w.c.get k = some en)
      (hw : Conf.writable en = true) (e : w.c.write en j x = .ok c') : Run P w { w with c := c' }
  | panic {w : WConf α} {c' : Conf α} (i : Nat) (e : w.c.panic i = some c') : Run P w { w with c := c' }
  | release {w w' : WConf α} (j : Nat) (e : w.release j = .ok w') : Run P w w'

/-- Any number of these. -/
inductive Runs (P : Rules α) : WConf α → WConf α → Prop
  | refl (w : WConf α) : Runs P w w
  | snoc {w w' w'' : WConf α} (h : Runs P w w') (s : Run P w' w'') : Runs P w w''

/-- States that can come about. -/
def Reach (P : Rules α) (zst : Bool) (w : WConf α) : Prop := Runs P (init zst) w

end WConf

/-! ## What C63 is about -/

/-- The memory blocks that a handle needs: those that dereferencing, cloning and dropping it access. arc_slice.rs:62-73, arc_slice_mut.rs:23-26. -/
def Handle.blocks : Handle → List Obj
  | .strong d g => [.node d, .guard g]
  | .weak d g => d.toList.map .node ++ g.toList.map .guard
  | .uniq r => r.alloc.toList.map .node

namespace Conf

/-- Some `WeakSlice` refers to node `x`. -/
def WeakTo (c : Conf α) (x : Nat) : Prop := ∃ k g b, c.get k = some ⟨.weak (some x) g, b⟩

/-- All handles are `WeakSlice`s. -/
def OnlyWeak (c : Conf α) : Prop := ∀ k e, c.get k = some e → ∃ d g, e.h = .weak d g

end Conf

/-! ## Running schedules -/

inductive WAct (α : Type) where
  | op (o : Op α)
  /-- `n` steps of call `i` -/
  | run (i n : Nat)
  | panic (i : Nat)
  /-- all `Weak`s that have been given up are dropped -/
  | flush

namespace WConf

def steps (w : WConf α) (i : Nat) : Nat → Except UB (WConf α)
  | 0 => .ok w
  | n + 1 => do steps (← w.step i) i n

def flush (w : WConf α) : Nat → Except UB (WConf α)
  | 0 => .ok w
  | n + 1 => do flush (← w.release 0) n

/-- Execute a schedule in which all calls follow a discipline. -/
def exec (p : Conf α → Op α → Bool) (w : WConf α) : List (WAct α) → Option (WConf α)
  | [] => some w
  | .op o :: as => if p w.c o then match w.c.start o with
    | some c' => exec p { w with c := c' } as
    | none => none
    else none
  | .run i n :: as => match w.steps i n with
    | .ok w' => exec p w' as
    | .error _ => none
  | .panic i :: as => match w.c.panic i with
    | some c' => exec p { w with c := c' } as
    | none => none
  | .flush :: as => match w.flush w.due.length with
    | .ok w' => exec p w' as
    | .error _ => none

end WConf
end Verif.Arc
