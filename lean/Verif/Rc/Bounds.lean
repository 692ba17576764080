import Verif.Rc.Unwind
import Verif.Arc.Bounds
/-!
# How much memory and stack `RcSlice`s need

What is counted, in the states of the program.
-/

namespace Verif.Rc
variable {α : Type}

/-- All the `RcSliceData`s (rc_slice.rs:23-37) made so far for a slice that was made by `RcSlice::new` or `into_immut` and its subslices, whether dropped by now or
not (`Weak`s, like those in `WeakSlice`s, hold on to the memory). Slices made are numbered (dangling `WeakSlice`s too); `f` is the number. -/
def Config.blocks (c : Config α) (f : Nat) : List Nat :=
  (List.range c.st.h.sk.next).filter fun x => decide (c.st.h.sk.kind x = .data) && decide ((c.st.h.sk.lab x).fam = f)

/-- The `IntoMutGuard`s or `GetMutGuard`s (rc_slice.rs:40-67) of the same slice and its subslices for which there is memory: those that have not been dropped, and
those that have been but are still referred to by `Weak`s. -/
def Config.guards (c : Config α) (kd : Kind) (f : Nat) : List Nat :=
  (List.range c.st.h.sk.next).filter fun x =>
    ((c.st.h.sk.node x).isSome || decide (0 < c.st.h.weak x)) && decide (c.st.h.sk.kind x = kd) && decide ((c.st.h.sk.lab x).fam = f)

/-- The drop of `x` drops `y` inside of `n` drops (`x`'s own is the first one), if what is dropped has no other references: rc_slice.rs:40-67, fields `_parent`,
`get_mut_guard` and `parentage`. `forget_items` (rc_slice.rs:185-192) calls itself along chains of slice data, and `ensure_into_mut_guard` (rc_slice.rs:301-327)
along chains of `GetMutGuard`s. -/
inductive Config.Inside (c : Config α) : Nat → Nat → Nat → Prop
  | self (x : Nat) : Config.Inside c x 0 x
  | img {x p n y : Nat} {v : ImgV} (h : c.st.h.sk.node x = some (.img v)) (hp : v.parent = some p) (hn : Config.Inside c p n y) : Config.Inside c x (n + 1) y
  | own {x n y : Nat} {v : ImgV} (h : c.st.h.sk.node x = some (.img v)) (hn : Config.Inside c v.gmg n y) : Config.Inside c x (n + 1) y
  | gmg {x p n y : Nat} {s : Spec.Side} {v : GmgV} (h : c.st.h.sk.node x = some (.gmg v)) (hp : v.parent = some (p, s)) (hn : Config.Inside c p n y) :
    Config.Inside c x (n + 1) y
  /-- rc_slice.rs:195-219: `drop` of slice data drops the subslices -/
  | data {x k n y : Nat} {s : Spec.Side} {v : DataV} (h : c.st.h.sk.node x = some (.data v)) (hk : v.kids s = some k) (hn : Config.Inside c k n y) :
    Config.Inside c x (n + 1) y

end Verif.Rc
