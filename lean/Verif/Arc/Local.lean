import Verif.Arc.Values
/-!
# What a thread does with its own handles, among other threads and alone

`Body` is what a thread may do with handles of its own: call the functions of arc_slice.rs and arc_slice_mut.rs, and read and write items.
`Acts` runs it in the model, among other threads. `Sole` runs it without any: there, a handle is just a list of items. `Sole` is the
specification. It does not mention memory, counts, nodes, guards or other threads.
-/

namespace Verif.Arc
open Verif.Spec (Side Slot End)
variable {α β γ : Type}

/-- What a thread does. Models user code. -/
inductive Body (α β : Type) where
  | ret (b : β)
  /-- a panic of its own, an overflow, … -/
  | fault (f : Fault)
  /-- a call, and what to do depending on the result and the handles returned -/
  | call (op : Op α) (next : Res α → List Nat → Body α β)
  /-- `WeakSlice::new`, arc_slice.rs:467-471 -/
  | weakNew (next : Nat → Body α β)
  /-- the result of `get_mut` goes out of scope, arc_slice.rs:362 -/
  | endMut (k : Nat) (next : Body α β)
  /-- `k.len()`, by `Deref`: arc_slice.rs:434-440, arc_slice_mut.rs:90-95 -/
  | len (k : Nat) (next : Nat → Body α β)
  /-- `k.get(i).cloned()`, by `Deref` -/
  | get (k i : Nat) (next : Option α → Body α β)
  /-- `k[i] = x` if there is an item `i`, by `DerefMut` (arc_slice_mut.rs:97-100) or by the result of `get_mut` -/
  | set (k i : Nat) (x : α) (next : Body α β)

namespace Body

/-- First `p`, then `q`. Models no code. -/
def bind : Body α β → (β → Body α γ) → Body α γ
  | .ret b, q => q b
  | .fault f, _ => .fault f
  | .call op next, q => .call op fun r ks => bind (next r ks) q
  | .weakNew next, q => .weakNew fun k => bind (next k) q
  | .endMut k next, q => .endMut k (bind next q)
  | .len k next, q => .len k fun n => bind (next n) q
  | .get k i next, q => .get k i fun x => bind (next x) q
  | .set k i x next, q => .set k i x (bind next q)

instance : Monad (Body α) where
  pure := .ret
  bind := bind

end Body

/-- `weakNew` and `endMut` run no code that could be interrupted; all others are calls. -/
def Op.isCall : Op α → Bool
  | .weakNew | .endMut _ => false
  | _ => true

/-! ## Among other threads -/

/-- `Acts P c mine p c' mine' r`: a thread with handles `mine` does `p` from situation `c` to situation `c'`, has handles `mine'` then, and gets `r`.
Other threads do what `P` permits before, after, between and during its calls. They cannot take its handles or write through them; they can use
them by `&`. Destructors may panic. -/
inductive Acts (P : Rules α) : Conf α → List Nat → Body α β → Conf α → List Nat → Except Fault β → Prop
  | ret {c c' mine b} (r : Apart P (fun _ k => k ∈ mine) c c') : Acts P c mine (.ret b) c' mine (.ok b)
  | fault {c c' mine f} (r : Apart P (fun _ k => k ∈ mine) c c') : Acts P c mine (.fault f) c' mine (.error f)
  | call {c c0 c1 c2 c3 mine mine3 op next cl res r} (r0 : Apart P (fun _ k => k ∈ mine) c c0)
      -- the call is made
      (hc : op.isCall = true) (hon : ∀ k, op.on = some k → k ∈ mine) (hp : P c0 op) (hs : c0.start op = some c1)
      -- it runs, among others
      (r1 : Apart P (Held mine op c0.calls.length) c1 c2)
      -- and returns
      (hi : c2.calls[c0.calls.length]? = some cl) (hf : cl.fin = true) (hr : cl.pc = .done res)
      (r2 : Acts P c2 (mine.filter (fun k => op.takes ≠ some k) ++ cl.out) (next res cl.out) c3 mine3 r) :
      Acts P c mine (.call op next) c3 mine3 r
  | weakNew {c c0 c1 c3 mine mine3 next r} (r0 : Apart P (fun _ k => k ∈ mine) c c0) (hp : P c0 .weakNew) (hs : c0.start .weakNew = some c1)
      (r2 : Acts P c1 (mine ++ [c0.hs.length]) (next c0.hs.length) c3 mine3 r) : Acts P c mine (.weakNew next) c3 mine3 r
  | endMut {c c0 c1 c3 mine mine3 k next r} (r0 : Apart P (fun _ k => k ∈ mine) c c0) (hk : k ∈ mine) (hp : P c0 (.endMut k))
      (hs : c0.start (.endMut k) = some c1) (r2 : Acts P c1 mine next c3 mine3 r) : Acts P c mine (.endMut k next) c3 mine3 r
  | len {c c0 c3 mine mine3 k xs next r} (r0 : Apart P (fun _ k => k ∈ mine) c c0) (hk : k ∈ mine) (hr : c0.Reads k xs)
      (r2 : Acts P c0 mine (next xs.length) c3 mine3 r) : Acts P c mine (.len k next) c3 mine3 r
  | get {c c0 c3 mine mine3 k i xs next r} (r0 : Apart P (fun _ k => k ∈ mine) c c0) (hk : k ∈ mine) (hr : c0.Reads k xs)
      (r2 : Acts P c0 mine (next xs[i]?) c3 mine3 r) : Acts P c mine (.get k i next) c3 mine3 r
  | set {c c0 c1 c3 mine mine3 k i x en next r} (r0 : Apart P (fun _ k => k ∈ mine) c c0) (hk : k ∈ mine) (he : c0.get k = some en)
      (hw : Conf.writable en = true) (e : c0.write en i x = .ok c1) (r2 : Acts P c1 mine next c3 mine3 r) :
      Acts P c mine (.set k i x next) c3 mine3 r

/-! ## Alone -/

/-- What a handle is to a thread that is alone. -/
inductive Val (α : Type) where
  /-- an `ArcSlice`, an `ArcSliceMut`, or an iterator over an `ArcSliceMut`, with these items -/
  | items (xs : List α)
  | weak

/-- The thread's handles. -/
abbrev Store (α : Type) := Nat → Option (Val α)

/-- Models no code. -/
def Store.put (σ : Store α) (k : Nat) (v : Option (Val α)) : Store α := fun j => if j = k then v else σ j

/-- Without the handle that the call takes. Models no code. -/
def Store.minus (σ : Store α) (op : Op α) : Store α := fun j => if op.takes = some j then none else σ j

/-- With the handles `m`, `m + 1`, … to these items. Models no code. -/
def Store.plus (σ : Store α) (m : Nat) (ys : List (List α)) : Store α := fun j =>
  if m ≤ j then match ys[j - m]? with
    | some y => some (.items y)
    | none => σ j
  else σ j

/-- `Says σ op r ks σ'`: a call by a thread that is alone and has handles `σ` may return `r` and handles `ks`, and then it has `σ'`. The names
of new handles are any that it does not have. -/
inductive Says (σ : Store α) : Op α → Res α → List Nat → Store α → Prop
  /-- See `Gives`. -/
  | gives {op k xs r ys m} (hon : op.on = some k) (hk : σ k = some (.items xs)) (hg : Gives op xs r ys) (hm : ∀ i, i < ys.length → σ (m + i) = none) :
    Says σ op r (List.range' m ys.length) ((σ.minus op).plus m ys)
  /-- arc_slice.rs:320-332, arc_slice_mut.rs:44-51 -/
  | new {xs m} (hm : σ m = none) : Says σ (.new xs) .handle [m] (σ.put m (some (.items xs)))
  | mutNew {xs m} (hm : σ m = none) : Says σ (.mutNew xs) .handle [m] (σ.put m (some (.items xs)))
  /-- `drop` of a handle. It panics if the destructor of an item does. -/
  | drop {k v} (hk : σ k = some v) : Says σ (.drop k) .unit [] (σ.put k none)
  | dropPanic {k v} (hk : σ k = some v) : Says σ (.drop k) .panic [] (σ.put k none)
  /-- arc_slice.rs:407-414, 425-432 -/
  | downgrade {k xs m} (hk : σ k = some (.items xs)) (hm : σ m = none) : Says σ (.downgrade k) .handle [m] (σ.put m (some .weak))
  | cloneWeak {k m} (hk : σ k = some .weak) (hm : σ m = none) : Says σ (.clone k) .handle [m] (σ.put m (some .weak))
  /-- arc_slice.rs:473-484: which items an upgraded slice has is said by C59 only -/
  | upgradeNone {k} (hk : σ k = some .weak) : Says σ (.upgrade k) .none [] σ
  | upgradePanic {k} (hk : σ k = some .weak) : Says σ (.upgrade k) .panic [] σ
  | upgrade {k ys m} (hk : σ k = some .weak) (hm : σ m = none) : Says σ (.upgrade k) .handle [m] (σ.put m (some (.items ys)))

/-- `Sole σ p σ' r`: a thread that is alone and has handles `σ` does `p`, has handles `σ'` then, and gets `r`. -/
inductive Sole : Store α → Body α β → Store α → Except Fault β → Prop
  | ret {σ b} : Sole σ (.ret b) σ (.ok b)
  | fault {σ f} : Sole σ (.fault f) σ (.error f)
  | call {σ σ1 σ2 op res ks next r} (h : Says σ op res ks σ1) (h2 : Sole σ1 (next res ks) σ2 r) : Sole σ (.call op next) σ2 r
  | weakNew {σ σ2 m next r} (hm : σ m = none) (h2 : Sole (σ.put m (some .weak)) (next m) σ2 r) : Sole σ (.weakNew next) σ2 r
  | endMut {σ σ2 k next r} (h2 : Sole σ next σ2 r) : Sole σ (.endMut k next) σ2 r
  | len {σ σ2 k xs next r} (hk : σ k = some (.items xs)) (h2 : Sole σ (next xs.length) σ2 r) : Sole σ (.len k next) σ2 r
  | get {σ σ2 k i xs next r} (hk : σ k = some (.items xs)) (h2 : Sole σ (next xs[i]?) σ2 r) : Sole σ (.get k i next) σ2 r
  | set {σ σ2 k i x xs next r} (hk : σ k = some (.items xs)) (h2 : Sole (σ.put k (some (.items (xs.set i x)))) next σ2 r) :
    Sole σ (.set k i x next) σ2 r

/-! ## What the two have to do with each other -/

/-- Handle `k` is what the thread believes it is. -/
def Conf.Is (c : Conf α) (k : Nat) : Val α → Prop
  | .items xs => c.Reads k xs
  | .weak => ∃ d, c.Sees k (.weak d)

/-- The thread's handles are those in the store, and they are what the store says. -/
structure Believes (c : Conf α) (mine : List Nat) (σ : Store α) : Prop where
  mem : ∀ k, k ∈ mine ↔ σ k ≠ none
  is : ∀ k v, σ k = some v → c.Is k v

/-! ## Parts -/

/-- The `2 ^ i` parts of a list: halve `i` times. -/
abbrev lparts (i : Nat) (xs : List α) : List (List α) := Spec.parts (fun xs => xs.take (xs.length / 2)) (fun xs => xs.drop (xs.length / 2)) i xs

/-- `AreParts read ms yss`: one by one, `ms` are handles that read `yss`, or `none` on both sides. -/
def AreParts (read : Nat → List α → Prop) : List (Option Nat) → List (Option (List α)) → Prop
  | [], [] => True
  | some m :: ms, some ys :: yss => read m ys ∧ AreParts read ms yss
  | none :: ms, none :: yss => AreParts read ms yss
  | _, _ => False

end Verif.Arc
