import Verif.Arc.Unwind
import Verif.Arc.Race
/-!
# Loads that do not find the latest value

In `Arc/Model.lean` every load finds the latest value of the atomic variable. The memory model of Rust (the one of C11) promises this
only if the accesses to the variable are ordered by happens-before, or are all `SeqCst`. Otherwise a load may find an older value.

The loads of the code are:
* arc_slice.rs:133 `child.load(Acquire)`;
* arc_slice.rs:287 `data.guard.load(Acquire)`;
* arc_slice.rs:302, if `compare_and_swap` fails;
* arc_slice.rs:370 `Arc::weak_count`, 372, 373 and 396 `Arc::strong_count`;
* arc_slice.rs:141, if `compare_and_swap` fails, and arc_slice.rs:289, 294, 313, 476, if `Weak::upgrade` fails. These find a child that is
  not null, and a strong count of 0. Both never change again, so what they find is the latest value;
* gate.rs:16. All accesses to a `Gate` are `SeqCst`, so they behave as if they were made one after the other.

All other accesses are read-modify-write operations, which find the latest value by definition.
-/

namespace Verif.Arc
open Verif.Spec (Side)
open Verif.Rc (UB)
variable {α : Type}

/-- What a load finds. Models no code. -/
inductive Obs where
  /-- a pointer to a child, or null -/
  | kid (o : Option Nat)
  /-- a pointer to a `Weak<DataGuard>` -/
  | box (b : Nat)
  /-- a reference count -/
  | count (n : Nat)
deriving DecidableEq, Repr

/-- The value that the variable loaded at this point has in this memory. arc_slice.rs:133, 287, 302, 370, 372, 373, 396. -/
def Arena.holds (a : Arena α) : Pc α → Option Obs
  | .cs d s => match a.b.getData d with
    | .ok v => if Rc.sameNode v.len s then none else some (.kid (v.kids s))
    | .error _ => none
  | .gLoad x _ _ | .gCas x _ _ _ _ => match a.b.getData x with
    | .ok _ => some (.box (a.box x))
    | .error _ => none
  | .gm1 _ g => (a.guard g).map fun _ => .count (a.gW g)
  | .gm3 _ g | .im1 _ g => (a.guard g).map fun _ => .count (a.gS g)
  | .gm4 d _ => match a.b.getData d with
    | .ok _ => some (.count (a.b.strong d))
    | .error _ => none
  | _ => none

/-- How a call goes on that has found this value. See `pcStep`; arc_slice.rs:134, 288-289, 303-313, 370, 372, 373, 396. -/
def Pc.found : Pc α → Obs → Option (Pc α)
  | .cs d s, .kid none => some (.csNew d s)
  | .cs _ _, .kid (some c) => some (.csInc c)
  | .gLoad x fs y, .box b => some (.gTry x b none fs y)
  | .gCas x b og fs y, .box b' => if b' = b then none else some (.gTry x b' og fs y)
  | .gm1 d g, .count n => some (if n = 1 then .gm2 d g else .gmOpenD d g false)
  | .gm3 d g, .count n => some (if n = 1 then .gm4 d g else .gmOpenC d g false)
  | .gm4 d g, .count n => some (.gmOpenC d g (n == 1))
  | .im1 d g, .count n => some (if n = 1 then .im2 d g else .imOpen d g)
  | _, _ => none

namespace Conf

/-- The point at which call `i` is, if it has no drops pending. Models no code. -/
def atPc (c : Conf α) (i : Nat) : Option (Pc α) :=
  match c.calls[i]? with
  | some cl => if cl.tasks.isEmpty then some cl.pc else none
  | none => none

/-- Call `i` loads a variable and finds this value. See `Pc.found`. -/
def load (c : Conf α) (i : Nat) (o : Obs) : Option (Conf α) :=
  match c.calls[i]? with
  | some cl =>
    if cl.tasks.isEmpty then
      match cl.pc.found o with
      | some pc => some { c with calls := c.calls.set i { cl with pc } }
      | none => none
    else none
  | none => none

/-- Loads of pointers may find any former value, and so may `weak_count`. `strong_count` finds the latest value, unless what it finds
makes `get_mut` or `into_mut` refuse. Models no code: the memory model. -/
def _root_.Verif.Arc.Pc.stale : Pc α → Obs → Bool
  | .gm3 _ _, o | .gm4 _ _, o | .im1 _ _, o => o != .count 1
  | _, _ => true

/-- States that can come about if loads may find former values and destructors may panic, together with all the states before.
Models all programs that use arc_slice.rs and arc_slice_mut.rs, on any number of threads. -/
inductive SReach (P : Rules α) (zst : Bool) : List (Conf α) → Conf α → Prop
  | init : SReach P zst [] (init zst)
  | run {l : List (Conf α)} {c c' : Conf α} (h : SReach P zst l c) (i : Nat) (e : c.step i = .ok c') : SReach P zst (c :: l) c'
  | start {l : List (Conf α)} {c c' : Conf α} (h : SReach P zst l c) (op : Op α) (hp : P c op) (e : c.start op = some c') :
      SReach P zst (c :: l) c'
  | write {l : List (Conf α)} {c c' : Conf α} (h : SReach P zst l c) (k : Nat) (en : Ent) (j : Nat) (x : α) (hk : c.get k = some en)
      (hw : writable en = true) (e : c.write en j x = .ok c') : SReach P zst (c :: l) c'
  | panic {l : List (Conf α)} {c c' : Conf α} (h : SReach P zst l c) (i : Nat) (e : c.panic i = some c') : SReach P zst (c :: l) c'
  /-- call `i` loads the value a variable had in state `c0` -/
  | load {l : List (Conf α)} {c c' : Conf α} (h : SReach P zst l c) (i : Nat) (pc : Pc α) (o : Obs) (c0 : Conf α) (h0 : c0 ∈ l)
      (hi : c.atPc i = some pc) (ho : c0.a.holds pc = some o) (hs : pc.stale o = true) (e : c.load i o = some c') : SReach P zst (c :: l) c'

end Conf

/-- In runs following these rules, `upgrade` does not overlap `into_mut` on something larger, even if loads find former values. -/
def STame (P : Rules α) : Prop := ∀ zst l c op, Conf.SReach P zst l c → P c op → c.careful op = true

/-- In runs following these rules, `upgrade` overlaps neither `into_mut` on something larger, nor `get_mut`
and the use of its result on the same or something larger, even if loads find former values. -/
def SStrict (P : Rules α) : Prop := ∀ zst l c op, Conf.SReach P zst l c → P c op → c.strict op = true

/-! ## Which former values a load may find -/

/-- The variable that is loaded. arc_slice.rs:133, 287, 302, 370, 372, 373, 396. -/
def Pc.var : Pc α → Option Loc
  | .cs d s => some (.kid d s)
  | .gLoad x _ _ | .gCas x _ _ _ _ => some (.box x)
  | .gm1 _ g => some (.gwk g)
  | .gm3 _ g | .im1 _ g => some (.gcnt g)
  | .gm4 d _ => some (.cnt d)
  | _ => none

/-- The variable that is accessed. Models no code. -/
def Acc.var : Acc → Loc
  | .load l _ | .rmw l _ _ | .store l => l

namespace VConf

/-- What call `j` did next in state `u`, call `i` can have missed when it loads `l`: either it did not happen before (neither of the two
entries it made in the log is in the view of call `i`), or it was a step of call `i` itself that did not access `l`. C11 lets loads find the
former value in more cases: only what happened before *and accessed `l`* cannot be missed. Models no code: the memory model. -/
def misses (o : Ords) (v : VConf α) (i : Nat) (l : Loc) (u : VConf α × Nat) : Bool :=
  if u.2 = i then match u.1.c.calls[i]? with
    | some cl => (callAcc o u.1.c.a cl).all fun x => x.var != l
    | none => true
  else !(v.cv i).contains u.1.log.length && !(v.cv i).contains (u.1.log.length + 1)

/-- The executions of programs whose calls follow the rules `P`, where every load may find any former value that `misses` allows it to
find, if it is in `S`; together with all states before, and who made the next step. Models all programs that use arc_slice.rs and arc_slice_mut.rs, on any
number of threads. Accesses of items are left out. -/
inductive SReach (o : Ords) (S : Pc α → Obs → Prop) (P : Rules α) (zst : Bool) : List (VConf α × Nat) → VConf α → Prop
  | init : SReach o S P zst [] (init zst)
  | run {l : List (VConf α × Nat)} {v v' : VConf α} (h : SReach o S P zst l v) (i : Nat) (e : v.step o i = .ok v') :
      SReach o S P zst ((v, i) :: l) v'
  | start {l : List (VConf α × Nat)} {v v' : VConf α} (h : SReach o S P zst l v) (op : Op α) (X : View)
      (hX : ∀ x ∈ X, x < v.log.length) (hp : P v.c op) (e : v.start op X = some v') : SReach o S P zst l v'
  /-- call `i` misses the last `n + 1` steps -/
  | load {l : List (VConf α × Nat)} {v : VConf α} {c' : Conf α} (h : SReach o S P zst l v) (i n : Nat) (pc : Pc α) (x : Loc) (ob : Obs)
      (u : VConf α × Nat) (hu : l[n]? = some u) (hm : (l.take (n + 1)).all (v.misses o i x) = true)
      (hi : v.c.atPc i = some pc) (hx : pc.var = some x) (ho : u.1.c.a.holds pc = some ob) (hs : S pc ob) (e : v.c.load i ob = some c') :
      SReach o S P zst ((v, i) :: l) { v with c := c' }

end VConf
end Verif.Arc
