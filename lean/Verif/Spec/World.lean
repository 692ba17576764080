import Verif.Spec.Calls
/-!
# What the shared slices are supposed to do

This is the whole specification of `RcSlice`, `WeakSlice`, `RcSliceMut` and the
iterators over unique slices. It knows item buffers, and a table of handles that name
ranges of items; it knows nothing of counts, guards, or tree nodes, and of addresses.

A *family* is what is made from one box or one unique slice by cloning and halving. A
member of a family is named by the halving steps that lead to it.
-/

namespace Verif.Spec

/-- One of the halves of a range. -/
def Rng.half (r : Rng) : Side → Rng
  | .L => r.left
  | .R => r.right

/-- The range a sequence of halvings leads to; the last step is the head of the list. -/
def Rng.at (r : Rng) : List Side → Rng
  | [] => r
  | s :: p => (r.at p).half s

/-- `i` is one of the item positions. -/
def Rng.has (r : Rng) (i : Nat) : Bool := decide (r.off ≤ i) && decide (i < r.off + r.len)

/-- The whole slice of a family: a range of a buffer, and whether it holds on to the
buffer's memory. -/
structure Family where
  buf : Nat
  rng : Rng
  holds : Bool
deriving DecidableEq, Repr

/-- What a user holds. -/
inductive Hand where
  /-- `RcSlice` -/
  | shared (fam : Nat) (path : List Side)
  /-- `WeakSlice` -/
  | weak (fam : Nat) (path : List Side)
  /-- `WeakSlice::new()` -/
  | weakNone
  /-- `RcSliceMut` -/
  | uniq (buf : Nat) (r : Rng) (holds : Bool)
  /-- `RcSliceMutIter` -/
  | iter (buf : Nat) (r : Rng) (holds : Bool)
  /-- `RcSliceMutParts`: the parts still to be yielded -/
  | parts (buf : Nat) (rest : List Rng) (holds : Bool)
deriving DecidableEq, Repr

structure World (α : Type) where
  /-- the items are zero-sized -/
  zst : Bool
  nbuf : Nat
  items : Nat → Nat → Slot α
  /-- the buffer's memory is allocated -/
  mem : Nat → Bool
  fams : List Family
  hs : List (Option Hand)

namespace World
variable {α : Type}

def empty (zst : Bool) : World α := ⟨zst, 0, fun _ _ => .absent, fun _ => false, [], []⟩

def get (w : World α) (k : Nat) : Option Hand := w.hs[k]?.join
def put (w : World α) (k : Nat) (x : Hand) : World α := { w with hs := w.hs.set k (some x) }
def del (w : World α) (k : Nat) : World α := { w with hs := w.hs.set k none }
def push (w : World α) (x : Hand) : World α := { w with hs := w.hs ++ [some x] }

/-- The family with this number. -/
def fam (w : World α) (f : Nat) : Family := w.fams.getD f ⟨0, ⟨0, 0⟩, false⟩

/-- The range a member of a family stands for. -/
def rangeOf (w : World α) (f : Nat) (p : List Side) : Rng := (w.fam f).rng.at p

/-- The member of a family holds on to its buffer: the whole slice if it was built so,
subslices unless they are empty. -/
def holdsOf (w : World α) (f : Nat) (p : List Side) : Bool :=
  (w.fam f).holds && (p.isEmpty || decide (0 < (w.rangeOf f p).len))

/-- The items of buffer `b` a handle keeps alive. -/
def covers (w : World α) (b i : Nat) : Hand → Bool
  | .shared f p => (w.fam f).buf == b && (w.rangeOf f p).has i
  | .weak _ _ => false
  | .weakNone => false
  | .uniq b' r _ => b' == b && r.has i
  | .iter b' r _ => b' == b && r.has i
  | .parts b' rest _ => b' == b && rest.any (·.has i)

/-- The handle keeps the memory of buffer `b`. -/
def keeps (w : World α) (b : Nat) : Hand → Bool
  | .shared f p => (w.fam f).buf == b && w.holdsOf f p
  | .weak _ _ => false
  | .weakNone => false
  | .uniq b' _ h => b' == b && h
  | .iter b' _ h => b' == b && h
  | .parts b' _ h => b' == b && h

/-- Some handle satisfies the test. -/
def anyHand (w : World α) (t : Hand → Bool) : Bool := w.hs.any fun o => o.any t

/-- Some handle other than the one at `k` satisfies the test. -/
def otherHand (w : World α) (k : Nat) (t : Hand → Bool) : Bool := (w.del k).anyHand t

/-- After every call: items that no handle covers are dropped, memory that no handle keeps
is freed. -/
def settle (w : World α) : World α :=
  { w with
    items := fun b i => match w.items b i with
      | .live a => if w.anyHand (w.covers b i) then .live a else .dropped
      | x => x
    mem := fun b => w.mem b && w.anyHand (w.keeps b) }

/-- `p` is the member at `q` or one that `q` was cut from. -/
def above (p q : List Side) : Bool := p.isSuffixOf q

/-- A shared handle to the same member, to one it was cut from, or to one cut from it. -/
def sharedConflict (f : Nat) (p : List Side) : Hand → Bool
  | .shared f' p' => f' == f && (above p p' || above p' p)
  | _ => false

/-- A weak handle to the same member or to one cut from it. -/
def weakConflict (f : Nat) (p : List Side) : Hand → Bool
  | .weak f' p' => f' == f && above p p'
  | _ => false

/-- A shared handle to the member or to one it was cut from. -/
def sharedAbove (f : Nat) (p : List Side) : Hand → Bool
  | .shared f' p' => f' == f && above p' p
  | _ => false

/-- The items in a range, in order. -/
def look (w : World α) (b : Nat) (r : Rng) : List α :=
  r.items.filterMap fun i => match w.items b i with
    | .live a => some a
    | _ => none

/-- Replace an item. -/
def store (w : World α) (b i : Nat) (x : Slot α) : World α :=
  { w with items := fun b' i' => if b' = b ∧ i' = i then x else w.items b' i' }

/-- A box enters. Empty slices and zero-sized items have no memory. -/
def newBuf (w : World α) (xs : List α) : World α :=
  { w with
    nbuf := w.nbuf + 1
    items := fun b i => if b = w.nbuf then (match xs[i]? with | some a => .live a | none => .absent) else w.items b i
    mem := fun b => if b = w.nbuf then !w.zst && !xs.isEmpty else w.mem b }

/-- A family begins. -/
def newFam (w : World α) (f : Family) : World α := { w with fams := w.fams ++ [f] }

/-- The half of a member; an empty left half of an empty slice and the right half of a slice
of at most one item are the slice itself. -/
def halfPath (w : World α) (f : Nat) (p : List Side) (s : Side) : List Side :=
  match s with
  | .L => if (w.rangeOf f p).len = 0 then p else .L :: p
  | .R => if (w.rangeOf f p).len ≤ 1 then p else .R :: p

/-- Whether the (part split off, rest) hold the memory, for iterators. -/
def splitHolds (holds : Bool) (newLen restLen : Nat) : Bool × Bool :=
  if restLen = 0 then (holds, false) else if newLen = 0 then (false, holds) else (holds, holds)

/-- The half returned by `split_off_*` and the rest. -/
def _root_.Verif.Spec.Rng.split (r : Rng) : Side → Rng × Rng
  | .L => (r.left, r.right)
  | .R => (r.right, r.left)

/-- All items of these parts. -/
def total (rest : List Rng) : Nat := (rest.map Rng.len).sum

/-- The range seen through a handle as one slice. -/
def view (w : World α) : Hand → Option (Nat × Rng)
  | .shared f p => some ((w.fam f).buf, w.rangeOf f p)
  | .weak _ _ => none
  | .weakNone => none
  | .uniq b r _ => some (b, r)
  | .iter b r _ => some (b, r)
  | .parts b rest _ => some (b, ⟨(rest.head?.map Rng.off).getD 0, total rest⟩)

/-- One call, before items and memory are released. -/
def act (umax : Nat) (w : World α) : Op α → World α × Obs α
  | .rcNew xs =>
    if xs.length ≤ umax then
      (((w.newBuf xs).newFam ⟨w.nbuf, ⟨0, xs.length⟩, !xs.isEmpty⟩).push (.shared w.fams.length []), .handle)
    else (w, .invalid)
  | .mutNew xs =>
    if xs.length ≤ umax then
      ((w.newBuf xs).push (.uniq w.nbuf ⟨0, xs.length⟩ (!w.zst && !xs.isEmpty)), .handle)
    else (w, .invalid)
  -- a family without members: only its number is used up
  | .weakNew => ((w.newFam ⟨0, ⟨0, 0⟩, false⟩).push .weakNone, .handle)
  | .clone k =>
    match w.get k with
    | some (.shared f p) => (w.push (.shared f p), .handle)
    | some (.weak f p) => (w.push (.weak f p), .handle)
    | some .weakNone => (w.push .weakNone, .handle)
    | some (.uniq b r _) =>
      ((w.newBuf (w.look b r)).push (.uniq w.nbuf ⟨0, r.len⟩ (!w.zst && !(w.look b r).isEmpty)), .handle)
    | _ => (w, .invalid)
  | .cloneSide s k =>
    match w.get k with
    | some (.shared f p) => (w.push (.shared f (w.halfPath f p s)), .handle)
    | _ => (w, .invalid)
  | .splitOff s k =>
    match w.get k with
    | some (.shared f p) =>
      let l := w.halfPath f p .L
      let r := w.halfPath f p .R
      match s with
      | .L => ((w.put k (.shared f r)).push (.shared f l), .handle)
      | .R => ((w.put k (.shared f l)).push (.shared f r), .handle)
    | some (.uniq b r h) =>
      let (new, rest) := r.split s
      ((w.put k (.uniq b rest h)).push (.uniq b new (h && decide (0 < new.len))), .handle)
    | _ => (w, .invalid)
  | .getMut k j a =>
    match w.get k with
    | some (.shared f p) =>
      if w.otherHand k (sharedConflict f p) || w.otherHand k (weakConflict f p) then (w, .none)
      else if j < (w.rangeOf f p).len then (w.store (w.fam f).buf ((w.rangeOf f p).off + j) (.live a), .done)
      else (w, .done)
    | _ => (w, .invalid)
  | .write k j a =>
    match w.get k with
    | some (.shared _ _) => (w, .invalid)
    | some x =>
      match w.view x with
      | none => (w, .invalid)
      | some (b, r) => if j < r.len then (w.store b (r.off + j) (.live a), .done) else (w, .panicked)
    | none => (w, .invalid)
  | .read k =>
    match w.get k with
    | some x =>
      match w.view x with
      | none => (w, .invalid)
      | some (b, r) => (w, .items (w.look b r))
    | none => (w, .invalid)
  | .intoMut k =>
    match w.get k with
    | some (.shared f p) =>
      if w.otherHand k (sharedConflict f p) then (w, .err)
      else (w.put k (.uniq (w.fam f).buf (w.rangeOf f p) (w.holdsOf f p)), .done)
    | _ => (w, .invalid)
  | .intoImmut k =>
    match w.get k with
    | some (.uniq b r h) => ((w.newFam ⟨b, r, h⟩).put k (.shared w.fams.length []), .done)
    | _ => (w, .invalid)
  | .downgrade k =>
    match w.get k with
    | some (.shared f p) => (w.push (.weak f p), .handle)
    | _ => (w, .invalid)
  | .upgrade k =>
    match w.get k with
    | some (.weak f p) => if w.anyHand (sharedAbove f p) then (w.push (.shared f p), .handle) else (w, .none)
    | some .weakNone => (w, .none)
    | _ => (w, .invalid)
  | .drop k =>
    match w.get k with
    | some _ => (w.del k, .done)
    | none => (w, .invalid)
  | .intoIter k =>
    match w.get k with
    | some (.uniq b r h) => (w.put k (.iter b r h), .done)
    | _ => (w, .invalid)
  | .next e k =>
    match w.get k with
    | some (.iter b r h) =>
      if r.len = 0 then (w.put k (.iter b r false), .none)
      else
        let i := match e with | .front => r.off | .back => r.off + r.len - 1
        let rest : Rng := match e with | .front => ⟨r.off + 1, r.len - 1⟩ | .back => ⟨r.off, r.len - 1⟩
        match w.items b i with
        | .live a => ((w.store b i .moved).put k (.iter b rest (h && decide (0 < rest.len))), .item a)
        | _ => (w, .invalid)
    | _ => (w, .invalid)
  | .splitOffFrom k n =>
    match w.get k with
    | some (.iter b r h) =>
      if n ≤ r.len then
        let (hn, hr) := splitHolds h (r.len - n) n
        ((w.put k (.iter b ⟨r.off, n⟩ hr)).push (.iter b ⟨r.off + n, r.len - n⟩ hn), .handle)
      else (w, .panicked)
    | _ => (w, .invalid)
  | .splitOffTo k n =>
    match w.get k with
    | some (.iter b r h) =>
      if n ≤ r.len then
        let (hn, hr) := splitHolds h n (r.len - n)
        ((w.put k (.iter b ⟨r.off + n, r.len - n⟩ hr)).push (.iter b ⟨r.off, n⟩ hn), .handle)
      else (w, .panicked)
    | _ => (w, .invalid)
  | .intoParts k n =>
    match w.get k with
    | some (.uniq b r h) =>
      if n ≤ umax then
        if n = 2 ^ n.log2 then (w.put k (.parts b (parts Rng.left Rng.right n.log2 r) h), .done)
        else (w.del k, .panicked)
      else (w, .invalid)
    | _ => (w, .invalid)
  | .nextPart e k =>
    match w.get k with
    | some (.parts b rest h) =>
      let (o, rest') := deqStep e rest
      match o with
      | none => (w, .none)
      | some p =>
        let (hn, hr) := splitHolds h p.len (total rest')
        ((w.put k (.parts b rest' hr)).push (.uniq b p hn), .handle)
    | _ => (w, .invalid)

/-- One call. -/
def call (umax : Nat) (w : World α) (op : Op α) : World α × Obs α :=
  ((w.act umax op).1.settle, (w.act umax op).2)

/-- A history of calls. -/
def run (umax : Nat) : World α → List (Op α) → World α × List (Obs α)
  | w, [] => (w, [])
  | w, op :: ops =>
    let (w, o) := w.call umax op
    let (w, os) := run umax w ops
    (w, o :: os)

end World
end Verif.Spec
