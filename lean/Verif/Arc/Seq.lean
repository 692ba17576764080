import Verif.Arc.Spec
import Verif.Spec.Calls
import Verif.Rc.Machine
/-!
# `ArcSlice` used by one thread

A program that uses the `ArcSlice` types from a single thread is given in the same form as
one that uses the `RcSlice` types: a list of `Spec.Op`. This file says how the calls of
such a program are carried out by the threaded model: each is one call (for some, a few
calls) that is run until it has returned before the next one starts.

Handles of the threaded model get a new name when they are given back. The program refers to
handles by their position in a table, as for `RcSlice`; the table says what the handle at a
position is called at the moment, and whether it is an `ArcSliceMut` that has been turned
into an `ArcSliceMutIter` or an `ArcSliceMutParts`. The threaded model has for these the items
they still own. The pointers and counters of an `ArcSliceMutParts` are those of layer A; they
belong to the thread that has the iterator, so they are in the table.
-/

namespace Verif.Arc
open Verif.Spec (Side Slot End Obs)
open Verif.Rc (UB Reg readRange posCtx noFault partsReg)
variable {α : Type}

/-- The call `op` is made, nothing else happens until it has returned; it returned `r` and
the handles named `out`. -/
def Ret (c : Conf α) (op : Op α) (r : Res α) (out : List Nat) (c' : Conf α) : Prop :=
  ∃ c1 n cl, c.start op = some c1 ∧ steps c1 c.calls.length n = .ok c' ∧ c'.calls[c.calls.length]? = some cl ∧
    cl.tasks = [] ∧ cl.pc = .done r ∧ cl.out = out

/-- What a unique handle has been turned into. arc_slice_mut.rs:23-41. -/
inductive Kind where
  /-- nothing: `ArcSlice` or `ArcSliceMut` -/
  | plain
  /-- `ArcSliceMutIter` -/
  | iter
  /-- `ArcSliceMutParts` with these pointers and counters -/
  | parts (it : SliceItemsParts)

/-- The state of a program that runs in one thread. Models no code of /repo but the state of its users. -/
structure Seq (α : Type) where
  c : Conf α
  /-- position ↦ name of the handle, what it is -/
  tab : List (Option (Nat × Kind))

/-- What there is at a position. arc_slice.rs:62-73, arc_slice_mut.rs:23-41. -/
inductive Thing where
  /-- an `ArcSlice` called `m` -/
  | slice (m d g : Nat)
  /-- a `WeakSlice` called `m` -/
  | weak (m : Nat) (d g : Option Nat)
  /-- an `ArcSliceMut` called `m` -/
  | uniq (m : Nat) (r : Reg)
  /-- an `ArcSliceMutIter` called `m` -/
  | iter (m : Nat) (r : Reg)
  /-- an `ArcSliceMutParts` called `m` -/
  | parts (m : Nat) (r : Reg) (it : SliceItemsParts)

namespace Seq

/-- Before the first call. -/
def init (zst : Bool) : Seq α := ⟨.init zst, []⟩

/-- What there is at position `k`. -/
def at' (s : Seq α) (k : Nat) : Option Thing :=
  match s.tab[k]?.join with
  | none => none
  | some (m, it) =>
    match s.c.get m with
    | some ⟨.strong d g, _⟩ => some (.slice m d g)
    | some ⟨.weak d g, _⟩ => some (.weak m d g)
    | some ⟨.uniq r, _⟩ => some (match it with | .plain => .uniq m r | .iter => .iter m r | .parts it => .parts m r it)
    | none => none

/-- The memory has changed, names have not. -/
def to (s : Seq α) (c : Conf α) : Seq α := { s with c }
/-- The handle at `k` is called `m` now. -/
def put (s : Seq α) (k m : Nat) (it : Kind := .plain) : Seq α := { s with tab := s.tab.set k (some (m, it)) }
/-- There is no handle at `k` any more. -/
def del (s : Seq α) (k : Nat) : Seq α := { s with tab := s.tab.set k none }
/-- There is one more handle. -/
def push (s : Seq α) (m : Nat) (it : Kind := .plain) : Seq α := { s with tab := s.tab ++ [some (m, it)] }

/-- If there is an `ArcSliceMutParts` at `k`: the items that are left according to its
pointers (slice_items.rs:241-283 `as_raw_slice_parts`; arc_slice_mut.rs:218-220, 225) are those the threaded model has
for it. Where the code looks at its pointers and the model at its items, the rules below ask
for this; so a program in which they differ would have no run at all. -/
def agrees (umax : Nat) (s : Seq α) (k : Nat) : Prop :=
  match s.at' k with
  | some (.parts _ r it) =>
    ∃ q, partsReg umax s.c.a.b r.buf r.alloc it = .ok q ∧ q.len = r.len ∧ (0 < r.len → q.off = r.off)
  | _ => True

/-- The call exists in the threaded model and the handle is of the right type. -/
def takes (umax : Nat) (s : Seq α) : Spec.Op α → Bool
  | .rcNew xs | .mutNew xs => decide (xs.length ≤ umax)
  | .weakNew => true
  | .clone k => match s.at' k with | some (.slice ..) | some (.weak ..) | some (.uniq ..) => true | _ => false
  | .splitOff _ k => match s.at' k with | some (.slice ..) | some (.uniq ..) => true | _ => false
  | .upgrade k => match s.at' k with | some (.weak ..) => true | _ => false
  | .cloneSide _ k | .getMut k _ _ | .intoMut k | .downgrade k => match s.at' k with | some (.slice ..) => true | _ => false
  | .write k _ _ => match s.at' k with | some (.uniq ..) | some (.iter ..) | some (.parts ..) => true | _ => false
  | .read k => match s.at' k with | none | some (.weak ..) => false | _ => true
  | .drop k => (s.at' k).isSome
  | .intoImmut k | .intoIter k => match s.at' k with | some (.uniq ..) => true | _ => false
  | .next _ k | .splitOffFrom k _ | .splitOffTo k _ => match s.at' k with | some (.iter ..) => true | _ => false
  | .intoParts k n => match s.at' k with | some (.uniq ..) => decide (n ≤ umax) | _ => false
  | .nextPart _ k => match s.at' k with | some (.parts ..) => true | _ => false

/-- slice_items.rs: `next` or `next_back` of the `SliceItemsParts` (layer A). -/
def partsStep (umax blen : Nat) (it : SliceItemsParts) : End → Except Fault (Option SliceItems × SliceItemsParts)
  | .front => it.next (posCtx umax blen)
  | .back => it.nextBack (posCtx umax blen)

/-- Where to cut `len` items, so that `n` of them are cut off at the given end. -/
def cutAt (len n : Nat) : End → Nat
  | .front => n
  | .back => len - n

/-- One call of the program, what it sees, and the state after it. -/
inductive Does (umax : Nat) (s : Seq α) : Spec.Op α → Obs α → Seq α → Prop
  | rcNew {xs c m} (hl : xs.length ≤ umax) (h : Ret s.c (.new xs) .handle [m] c) : Does umax s (.rcNew xs) .handle ((s.to c).push m)
  | mutNew {xs c m} (hl : xs.length ≤ umax) (h : Ret s.c (.mutNew xs) .handle [m] c) :
    Does umax s (.mutNew xs) .handle ((s.to c).push m)
  | clone {k m d g c m'} (hk : s.at' k = some (.slice m d g)) (h : Ret s.c (.clone m) .handle [m'] c) :
    Does umax s (.clone k) .handle ((s.to c).push m')
  /-- `WeakSlice::new`, arc_slice.rs:467-471: nothing is allocated -/
  | weakNew {c} (h : s.c.start .weakNew = some c) : Does umax s .weakNew .handle ((s.to c).push s.c.hs.length)
  | cloneWeak {k m d g c m'} (hk : s.at' k = some (.weak m d g)) (h : Ret s.c (.clone m) .handle [m'] c) :
    Does umax s (.clone k) .handle ((s.to c).push m')
  | downgrade {k m d g c m'} (hk : s.at' k = some (.slice m d g)) (h : Ret s.c (.downgrade m) .handle [m'] c) :
    Does umax s (.downgrade k) .handle ((s.to c).push m')
  | upgrade {k m d g c m'} (hk : s.at' k = some (.weak m d g)) (h : Ret s.c (.upgrade m) .handle [m'] c) :
    Does umax s (.upgrade k) .handle ((s.to c).push m')
  | upgradeNo {k m d g c} (hk : s.at' k = some (.weak m d g)) (h : Ret s.c (.upgrade m) .none [] c) :
    Does umax s (.upgrade k) .none (s.to c)
  /-- `ArcSliceMut::clone`, arc_slice_mut.rs:122-130: the items are cloned into a new box -/
  | cloneMut {k m r xs c m'} (hk : s.at' k = some (.uniq m r)) (hx : readRange s.c.a.b r.buf r.off r.len = .ok xs)
    (h : Ret s.c (.mutNew xs) .handle [m'] c) : Does umax s (.clone k) .handle ((s.to c).push m')
  | cloneSide {sd k m d g c m'} (hk : s.at' k = some (.slice m d g)) (h : Ret s.c (.cloneSide sd m) .handle [m'] c) :
    Does umax s (.cloneSide sd k) .handle ((s.to c).push m')
  /-- arc_slice.rs:344-349 -/
  | splitL {k m d g c1 l c2 r c3} (hk : s.at' k = some (.slice m d g)) (h1 : Ret s.c (.cloneSide .L m) .handle [l] c1)
    (h2 : Ret c1 (.cloneSide .R m) .handle [r] c2) (h3 : Ret c2 (.drop m) .unit [] c3) :
    Does umax s (.splitOff .L k) .handle (((s.to c3).put k r).push l)
  /-- arc_slice.rs:351-356 -/
  | splitR {k m d g c1 l c2 r c3} (hk : s.at' k = some (.slice m d g)) (h1 : Ret s.c (.cloneSide .L m) .handle [l] c1)
    (h2 : Ret c1 (.cloneSide .R m) .handle [r] c2) (h3 : Ret c2 (.drop m) .unit [] c3) :
    Does umax s (.splitOff .R k) .handle (((s.to c3).put k l).push r)
  | splitMut {sd k m r c new rest} (hk : s.at' k = some (.uniq m r)) (h : Ret s.c (.splitOff sd m) .handle [new, rest] c) :
    Does umax s (.splitOff sd k) .handle (((s.to c).put k rest).push new)
  | getMutNo {k j a m d g c m'} (hk : s.at' k = some (.slice m d g)) (h : Ret s.c (.getMut m) .none [m'] c) :
    Does umax s (.getMut k j a) .none ((s.to c).put k m')
  /-- `get_mut` is granted, item `j` is overwritten, and the `&mut [T]` goes out of scope -/
  | getMut {k j a m d g c1 m' e c2 c3} (hk : s.at' k = some (.slice m d g)) (h : Ret s.c (.getMut m) .handle [m'] c1)
    (he : c1.get m' = some e) (hw : c1.write e j a = .ok c2) (h3 : c2.start (.endMut m') = some c3) :
    Does umax s (.getMut k j a) .done ((s.to c3).put k m')
  | writeMut {k j a m r c} (hk : s.at' k = some (.uniq m r) ∨ s.at' k = some (.iter m r) ∨ ∃ it, s.at' k = some (.parts m r it))
    (ha : s.agrees umax k) (hj : j < r.len) (hw : s.c.write ⟨.uniq r, false⟩ j a = .ok c) : Does umax s (.write k j a) .done (s.to c)
  | writeOut {k j a m r} (hk : s.at' k = some (.uniq m r) ∨ s.at' k = some (.iter m r) ∨ ∃ it, s.at' k = some (.parts m r it))
    (ha : s.agrees umax k) (hj : ¬ j < r.len) : Does umax s (.write k j a) .panicked s
  | read {k m e b off len xs} (hk : s.takes umax (.read k) = true) (ha : s.agrees umax k) (hm : (s.tab[k]?.join).map (·.1) = some m) (he : s.c.get m = some e)
    (hr : Conf.range s.c.a e.h = .ok (some (b, off, len))) (hx : readRange s.c.a.b b off len = .ok xs) :
    Does umax s (.read k) (.items xs) s
  | intoMutNo {k m d g c m'} (hk : s.at' k = some (.slice m d g)) (h : Ret s.c (.intoMut m) .err [m'] c) :
    Does umax s (.intoMut k) .err ((s.to c).put k m')
  | intoMut {k m d g c m'} (hk : s.at' k = some (.slice m d g)) (h : Ret s.c (.intoMut m) .handle [m'] c) :
    Does umax s (.intoMut k) .done ((s.to c).put k m')
  | intoImmut {k m r c m'} (hk : s.at' k = some (.uniq m r)) (h : Ret s.c (.intoImmut m) .handle [m'] c) :
    Does umax s (.intoImmut k) .done ((s.to c).put k m')
  | drop {k m it c} (hk : (s.at' k).isSome = true) (ha : s.agrees umax k) (hm : s.tab[k]?.join = some (m, it))
    (h : Ret s.c (.drop m) .unit [] c) : Does umax s (.drop k) .done ((s.to c).del k)
  | intoIter {k m r} (hk : s.at' k = some (.uniq m r)) : Does umax s (.intoIter k) .done (s.put k m .iter)
  | next {e k m r c m' x} (hk : s.at' k = some (.iter m r)) (h : Ret s.c (.next e m) (.item x) [m'] c) :
    Does umax s (.next e k) (.item x) ((s.to c).put k m' .iter)
  | nextNone {e k m r c m'} (hk : s.at' k = some (.iter m r)) (h : Ret s.c (.next e m) .none [m'] c) :
    Does umax s (.next e k) .none ((s.to c).put k m' .iter)
  /-- arc_slice_mut.rs:159-169 `split_off_from` -/
  | splitFrom {k n m r c new rest} (hk : s.at' k = some (.iter m r)) (h : Ret s.c (.cut .back n m) .handle [new, rest] c) :
    Does umax s (.splitOffFrom k n) .handle (((s.to c).put k rest .iter).push new .iter)
  | splitFromNo {k n m r c m'} (hk : s.at' k = some (.iter m r)) (h : Ret s.c (.cut .back n m) .panic [m'] c) :
    Does umax s (.splitOffFrom k n) .panicked ((s.to c).put k m' .iter)
  /-- arc_slice_mut.rs:171-181 `split_off_to` -/
  | splitTo {k n m r c new rest} (hk : s.at' k = some (.iter m r)) (h : Ret s.c (.cut .front n m) .handle [new, rest] c) :
    Does umax s (.splitOffTo k n) .handle (((s.to c).put k rest .iter).push new .iter)
  | splitToNo {k n m r c m'} (hk : s.at' k = some (.iter m r)) (h : Ret s.c (.cut .front n m) .panic [m'] c) :
    Does umax s (.splitOffTo k n) .panicked ((s.to c).put k m' .iter)
  /-- arc_slice_mut.rs:73-77 -/
  | intoParts {k n m r it} (hk : s.at' k = some (.uniq m r)) (hn : n ≤ umax) (hi : SliceItemsParts.new ⟨r.off, r.len⟩ n = .ok it) :
    Does umax s (.intoParts k n) .done (s.put k m (.parts it))
  /-- the count is not a power of two: what was the `ArcSliceMut` is dropped while unwinding -/
  | intoPartsNo {k n m r f c} (hk : s.at' k = some (.uniq m r)) (hn : n ≤ umax) (hi : SliceItemsParts.new ⟨r.off, r.len⟩ n = .error f)
    (h : Ret s.c (.drop m) .unit [] c) : Does umax s (.intoParts k n) .panicked ((s.to c).del k)
  /-- arc_slice_mut.rs:231-243, 249-260 `ArcSliceMutParts::next`, `next_back`: layer A says which items come
  next; these are cut off. They start where its pointer says. -/
  | nextPart {e k m r it p it' c new rest rn} (hk : s.at' k = some (.parts m r it)) (ha : s.agrees umax k)
    (hn : noFault (partsStep umax (s.c.a.b.sk.blen r.buf) it e) = .ok (some p, it'))
    (h : Ret s.c (.cut e (cutAt r.len p.len e) m) .handle [new, rest] c)
    (hnew : c.get new = some ⟨.uniq rn, false⟩) (ho : rn.off = p.ptr ∧ rn.len = p.len)
    (ha' : ((s.to c).put k rest (.parts it')).agrees umax k) :
    Does umax s (.nextPart e k) .handle (((s.to c).put k rest (.parts it')).push new)
  | nextPartNone {e k m r it it'} (hk : s.at' k = some (.parts m r it)) (ha : s.agrees umax k)
    (hn : noFault (partsStep umax (s.c.a.b.sk.blen r.buf) it e) = .ok (none, it')) :
    Does umax s (.nextPart e k) .none (s.put k m (.parts it'))
  | invalid {op} (h : s.takes umax op = false) : Does umax s op .invalid s

/-- A history of calls. Models programs that use arc_slice.rs and arc_slice_mut.rs. -/
inductive Run (umax : Nat) : Seq α → List (Spec.Op α) → List (Obs α) → Seq α → Prop
  | nil (s) : Run umax s [] [] s
  | cons {s s1 s2 op ops o os} (h : Does umax s op o s1) (hr : Run umax s1 ops os s2) : Run umax s (op :: ops) (o :: os) s2

end Seq

/-- One thread: a call is made only when the one before it has returned. -/
def alone : Rules α := fun c _ => c.Quiet

end Verif.Arc
