/-!
# Specification of halving, parts and double-ended iteration

Nothing here mentions the implementation: a slice is a range of item positions,
halving cuts it at `len / 2`, the parts are obtained by halving `m` times, and a
double-ended iterator is a list consumed from both ends.
-/

namespace Verif.Spec

/-- A subslice: item positions `off, off+1, ..., off+len-1`. -/
structure Rng where
  off : Nat
  len : Nat
deriving DecidableEq, Repr

namespace Rng
/-- The first `⌊len/2⌋` items. -/
def left (r : Rng) : Rng := ⟨r.off, r.len / 2⟩
/-- The remaining `len - ⌊len/2⌋` items. -/
def right (r : Rng) : Rng := ⟨r.off + r.len / 2, r.len - r.len / 2⟩
/-- The item positions covered, in order. -/
def items (r : Rng) : List Nat := List.range' r.off r.len
end Rng

/-- The `2^m` parts of `s`, in order: halve `m` times. -/
def parts {S : Type} (left right : S → S) : Nat → S → List S
  | 0, s => [s]
  | m + 1, s => parts left right m (left s) ++ parts left right m (right s)

/-- A call on a double-ended iterator. -/
inductive End where
  | front
  | back
deriving DecidableEq, Repr

/-- Reference behaviour of one call on the list of items still to be yielded. -/
def deqStep {α : Type} : End → List α → Option α × List α
  | .front, xs => (xs.head?, xs.tail)
  | .back, xs => (xs.getLast?, xs.dropLast)

/-- Reference behaviour of a walk: the results, and the items left over. -/
def deqRun {α : Type} : List End → List α → List (Option α) × List α
  | [], xs => ([], xs)
  | e :: w, xs =>
    let (o, xs') := deqStep e xs
    let (os, xs'') := deqRun w xs'
    (o :: os, xs'')

/-- Run a stateful iterator along a walk, collecting the results. -/
def runWalk {σ α ε : Type} (step : End → σ → Except ε (Option α × σ)) :
    List End → σ → Except ε (List (Option α) × σ)
  | [], s => .ok ([], s)
  | e :: w, s =>
    match step e s with
    | .error x => .error x
    | .ok (o, s') =>
      match runWalk step w s' with
      | .error x => .error x
      | .ok (os, s'') => .ok (o :: os, s'')

end Verif.Spec

namespace Verif.Spec

/-- A call on one of a pool of item iterators; `i` picks the iterator. -/
inductive IterOp where
  | next (i : Nat)
  | nextBack (i : Nat)
  /-- `pool[i].split_off_from(at)`; the new iterator joins the end of the pool -/
  | splitOffFrom (i at_ : Nat)
  /-- `pool[i].split_off_to(at)` -/
  | splitOffTo (i at_ : Nat)
deriving DecidableEq, Repr

/-- What the caller of an `IterOp` sees. -/
inductive IterOut (α : Type) where
  | item (x : Option α)
  | split
  | panicked
deriving DecidableEq, Repr

/-- Apply a function to the item, if any. -/
def IterOut.map {α β : Type} (f : α → β) : IterOut α → IterOut β
  | .item x => .item (x.map f)
  | .split => .split
  | .panicked => .panicked

/-- Reference behaviour: every iterator is the list of items it will still yield.
Naming an iterator that does not exist is not a call at all. -/
def iterStep {α : Type} (pool : List (List α)) : IterOp → Option (IterOut α × List (List α))
  | .next i => (pool[i]?).map fun xs => (.item xs.head?, pool.set i xs.tail)
  | .nextBack i => (pool[i]?).map fun xs => (.item xs.getLast?, pool.set i xs.dropLast)
  | .splitOffFrom i a => (pool[i]?).map fun xs =>
      if a ≤ xs.length then (.split, pool.set i (xs.take a) ++ [xs.drop a]) else (.panicked, pool)
  | .splitOffTo i a => (pool[i]?).map fun xs =>
      if a ≤ xs.length then (.split, pool.set i (xs.drop a) ++ [xs.take a]) else (.panicked, pool)

/-- Reference behaviour of a history of calls. -/
def iterRun {α : Type} : List IterOp → List (List α) → List (IterOut α) × List (List α)
  | [], pool => ([], pool)
  | op :: ops, pool =>
    match iterStep pool op with
    | none => iterRun ops pool
    | some (o, pool') =>
      let (os, p) := iterRun ops pool'
      (o :: os, p)

end Verif.Spec
