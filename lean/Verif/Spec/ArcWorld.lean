import Verif.Spec.World
/-!
# What the `Arc` types are supposed to do in one thread

The same as the `Rc` types (`Spec/World`), with one exception. `RcSlice::get_mut` gives
nothing when there is a `WeakSlice` to the slice or to one cut from it. `ArcSlice::get_mut`
does not look at `WeakSlice`s to slices that were cut from this one. It does look at those to
the slice itself, but not at all of them: it misses the ones made before the last time there
was no `ArcSlice` to exactly this slice.
-/

namespace Verif.Spec
namespace World
variable {α : Type}

/-- A `WeakSlice` to this very member. -/
def weakHere (f : Nat) (p : List Side) : Hand → Bool
  | .weak f' p' => f' == f && p' == p
  | _ => false

/-- Item `j` of the member, if there is one, is replaced by `x`. -/
def wrote (w : World α) (f : Nat) (p : List Side) (j : Nat) (x : α) : World α :=
  if j < (w.rangeOf f p).len then w.store (w.fam f).buf ((w.rangeOf f p).off + j) (.live x) else w

/-- The call is not a `get_mut` that `RcSlice` refuses because of `WeakSlice`s only: if
there is a `WeakSlice` to the slice or to one cut from it, then there is another shared
handle to the slice, to one it was cut from, or to one cut from it. -/
def Mild (w : World α) : Op α → Prop
  | .getMut k _ _ => ∀ f p, w.get k = some (.shared f p) → w.otherHand k (weakConflict f p) = true →
    w.otherHand k (sharedConflict f p) = true
  | _ => True

/-- No call of the history is such a `get_mut`. -/
def Milds (umax : Nat) : World α → List (Op α) → Prop
  | _, [] => True
  | w, op :: ops => w.Mild op ∧ Milds umax (w.call umax op).1 ops

/-- One call of an `Arc` type in a single thread. -/
inductive ArcCall (umax : Nat) (w : World α) : Op α → Obs α → World α → Prop
  /-- as for the `Rc` types -/
  | same {op} (h : w.Mild op) : ArcCall umax w op (w.call umax op).2 (w.call umax op).1
  /-- `get_mut` is granted although there are `WeakSlice`s; there are no shared handles -/
  | granted {k j x f p} (hk : w.get k = some (.shared f p)) (hs : w.otherHand k (sharedConflict f p) = false) :
    ArcCall umax w (.getMut k j x) .done (w.wrote f p j x).settle
  /-- `get_mut` is refused; there is a `WeakSlice` to this very slice -/
  | refused {k j x f p} (hk : w.get k = some (.shared f p)) (hw : w.otherHand k (weakHere f p) = true) :
    ArcCall umax w (.getMut k j x) .none w.settle

/-- A history of such calls. -/
inductive ArcRun (umax : Nat) : World α → List (Op α) → List (Obs α) → World α → Prop
  | nil (w) : ArcRun umax w [] [] w
  | cons {w op o w' ops os w''} (h : ArcCall umax w op o w') (hr : ArcRun umax w' ops os w'') : ArcRun umax w (op :: ops) (o :: os) w''

end World
end Verif.Spec
