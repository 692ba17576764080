import Verif.Arc.Spec
/-!
# C38, C39, C40: what does not hold of `ArcSlice`

The three properties are false of the code. Each theorem here is the negation of one of
them, proved by executing a schedule. `ArcExclusive.lean` and `ArcRelease.lean` contain
what remains true.
-/

namespace Verif
open Arc Spec

namespace Arc

/-- The state a schedule leads to. -/
def after (as : List (Act Nat)) : Conf Nat :=
  match exec (Conf.init false) as with
  | some (.ok c) => c
  | _ => Conf.init false

theorem after_reach {as : List (Act Nat)} (h : exec (Conf.init false) as = some (.ok (after as))) :
    Conf.Reach (only fun _ => True) false (after as) :=
  exec_reach .init (fun _ _ => trivial) h

/-- `let a = ArcSlice::new(vec![1, 2]); let l = ArcSlice::clone_left(&a); let w =
ArcSlice::downgrade(&l); drop(l);` -/
def prelude : List (Act Nat) :=
  [.op (.new [1, 2]), .run 0 8, .op (.cloneSide .L 0), .run 1 16, .op (.downgrade 1), .run 2 3, .op (.drop 1),
    .run 3 12]

/-- `let m = ArcSlice::get_mut(&mut a); let l = w.upgrade();` -/
def descendant : List (Act Nat) := prelude ++ [.op (.getMut 0), .run 4 10, .op (.upgrade 2), .run 5 20]

/-- `let mut l = ArcSlice::clone_left(&a); drop(a); let m = ArcSlice::get_mut(&mut l);
let l2 = w.upgrade();` -/
def sameSubslice : List (Act Nat) :=
  prelude ++ [.op (.cloneSide .L 0), .run 4 20, .op (.drop 0), .run 5 20, .op (.getMut 3), .run 6 10,
    .op (.upgrade 2), .run 7 20]

/-- `let a = ArcSlice::new(vec![1, 2]); let a2 = a.clone();` One thread starts
`ArcSlice::downgrade(&a2)` and is interrupted after it has found the gate open. Another one
calls `ArcSlice::get_mut(&mut a)` and is interrupted after it has read the weak count. The
first one finishes and executes `drop(a2)`, the second one finishes, the first one executes
`w.upgrade()`. -/
def lateDowngrade : List (Act Nat) :=
  [.op (.new [1, 2]), .run 0 8, .op (.clone 0), .run 1 4, .op (.downgrade 1), .run 2 1, .op (.getMut 0), .run 3 2,
    .run 2 3, .op (.drop 1), .run 4 8, .run 3 10, .op (.upgrade 2), .run 5 20]

/-- One thread starts `w.upgrade()` and is interrupted after it has upgraded its pointer to
the data; another one calls `ArcSlice::into_mut(a)`; the first one goes on. -/
def race : List (Act Nat) := prelude ++ [.op (.upgrade 2), .run 4 1, .op (.intoMut 0), .run 5 12, .run 4 30]

end Arc

/-- C38 is false: in a single thread, with `get_mut` of the whole slice still in use, a
`WeakSlice` of the left half can be upgraded; the two handles show the same item. -/
theorem C38_fails_descendant : ∃ c : Conf Nat, Conf.Reach (only fun _ => True) false c ∧ c.Quiet ∧
    ∃ k k' d g b i, k ≠ k' ∧ c.get k = some ⟨.strong d g, true⟩ ∧ c.Shows k b i ∧ c.Shows k' b i :=
  ⟨after descendant, after_reach rfl, by unfold Conf.Quiet; decide, 3, 4, 1, 0, 0, 0, by decide, rfl,
    ⟨⟨.strong 1 0, true⟩, 0, 2, rfl, rfl, by decide, by decide⟩,
    ⟨⟨.strong 2 2, false⟩, 0, 1, rfl, rfl, by decide, by decide⟩⟩

/-- C38 is false also for a `WeakSlice` of the very same subslice, made before the guard of
that subslice was replaced. -/
theorem C38_fails_same : ∃ c : Conf Nat, Conf.Reach (only fun _ => True) false c ∧ c.Quiet ∧
    ∃ k k' d g g' b i, k ≠ k' ∧ c.get k = some ⟨.strong d g, true⟩ ∧ c.get k' = some ⟨.strong d g', false⟩ ∧
      c.Shows k b i ∧ c.Shows k' b i :=
  ⟨after sameSubslice, after_reach rfl, by unfold Conf.Quiet; decide, 4, 5, 2, 2, 2, 0, 0, by decide, rfl, rfl,
    ⟨⟨.strong 2 2, true⟩, 0, 1, rfl, rfl, by decide, by decide⟩,
    ⟨⟨.strong 2 2, false⟩, 0, 1, rfl, rfl, by decide, by decide⟩⟩

/-- C38 is false also for a `WeakSlice` of the same handle, made while `get_mut` is running:
the gate does not keep out a `downgrade` that has already found it open. Here the handle `k'`
obtained by upgrading it has even the same guard as `k`. -/
theorem C38_fails_late_downgrade : ∃ c : Conf Nat, Conf.Reach (only fun _ => True) false c ∧ c.Quiet ∧
    ∃ k k' d g b i, k ≠ k' ∧ c.get k = some ⟨.strong d g, true⟩ ∧ c.get k' = some ⟨.strong d g, false⟩ ∧
      c.Shows k b i ∧ c.Shows k' b i :=
  ⟨after lateDowngrade, after_reach rfl, by unfold Conf.Quiet; decide, 3, 4, 1, 0, 0, 0, by decide, rfl, rfl,
    ⟨⟨.strong 1 0, true⟩, 0, 2, rfl, rfl, by decide, by decide⟩,
    ⟨⟨.strong 1 0, false⟩, 0, 2, rfl, rfl, by decide, by decide⟩⟩

/-- C39 is false: `into_mut` has succeeded and another handle shows an item of the unique
slice. -/
theorem C39_fails : ∃ c : Conf Nat, Conf.Reach (only fun _ => True) false c ∧ c.Quiet ∧
    ∃ k k' r d g b i, c.get k = some ⟨.uniq r, false⟩ ∧ c.get k' = some ⟨.strong d g, false⟩ ∧
      c.Shows k b i ∧ c.Shows k' b i :=
  ⟨after race, after_reach rfl, by unfold Conf.Quiet; decide, 3, 4, ⟨0, 0, 2, some 0⟩, 2, 2, 0, 0, rfl, rfl,
    ⟨⟨.uniq ⟨0, 0, 2, some 0⟩, false⟩, 0, 2, rfl, rfl, by decide, by decide⟩,
    ⟨⟨.strong 2 2, false⟩, 0, 1, rfl, rfl, by decide, by decide⟩⟩

/-- … and the item both of them show is dropped twice, once by each of the two handles. So
C37 is false as soon as `into_mut` and `WeakSlice` are used together. -/
theorem C39_double_drop : ∃ (c : Conf Nat) (i : Nat), Conf.Reach (only fun _ => True) false c ∧
    c.step i = .error .deadItem :=
  ⟨after (race ++ [.op (.drop 3), .run 6 12, .op (.drop 4), .run 7 1]), 7, after_reach rfl, rfl⟩

/-- C40 is false: all handles are gone, and the pointer to a guard that was boxed for the
slice has not been freed (the model, like the code, has no step that frees one). -/
theorem C40_fails : ∃ c : Conf Nat, Conf.Reach (only fun _ => True) false c ∧ c.Quiet ∧ c.NoHandles ∧ c.a.nbox = 2 :=
  ⟨after [.op (.new [1, 2]), .run 0 8, .op (.drop 0), .run 1 20], after_reach rfl, by unfold Conf.Quiet; decide,
    (by
      intro k
      match k with
      | 0 => rfl
      | k + 1 => rfl), rfl⟩

end Verif
