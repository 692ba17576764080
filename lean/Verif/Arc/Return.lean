import Verif.Arc.Weak
/-!
# What is known when memory blocks are returned

`Arc/Weak.lean` says when the memory block of an `ArcSliceData` or `SliceAlloc` is returned. Here it is combined with the
happens-before relation of `Arc/Race.lean`: whoever returns a block must know all accesses to it, or else some thread might, on
a machine that reorders, still be about to read a counter in memory that is being used for something else.

Dropping a `Weak` is `fetch_sub(1, Release)`; if it was the last one then `fence(Acquire)` follows and the block is returned.
This holds of the `Weak` that all `Arc`s together hold as well.

Simplifications, on top of those of `Arc/Weak.lean` and `Arc/Race.lean`:
* Weak counters pass on nothing to those who make a `Weak` (`Ords.weak` is not set), although `Arc::downgrade` acquires. So less is
  known here than in the code.
* Who drops a `Weak` that has been given up knows what was known when it was given up, and possibly more.
* Panics are left out, as in `Arc/Race.lean`.
-/

namespace Verif.Arc
open Verif.Spec (Side Slot Family End)
open Verif.Rc (UB DataV Node Heap Reg Task upd)
variable {α : Type}

/-- Everything, together with who knows what, and the weak counters. -/
structure BConf (α : Type) where
  v : VConf α
  /-- the weak counters, as in `WConf` -/
  wk : Nat → Nat
  /-- what they pass on to those who acquire them -/
  wm : Nat → View
  /-- `Weak`s that have been given up, and what is known to those who are about to drop them -/
  due : List (Nat × View)
  /-- the blocks that have been returned; how many accesses had been made by then; what was known -/
  ret : List (Nat × Nat × View)

namespace BConf

/-- Before the first call. -/
def init (zst : Bool) : BConf α := ⟨VConf.init zst, fun _ => 0, fun _ => [], [], []⟩

/-- Forget who knows what. Models no code. -/
def w (b : BConf α) : WConf α := ⟨b.v.c, b.wk, b.due.map (·.1)⟩

/-- Call `i` makes a step: see `WConf.step` and `VConf.step`. -/
def step (o : Ords) (b : BConf α) (i : Nat) : Except UB (BConf α) :=
  match b.v.c.calls[i]? with
  | none => .ok b
  | some cl => do
    let w' ← b.w.step i
    let v' ← b.v.step { o with weak := false } i
    .ok { b with
      v := v'
      wk := w'.wk
      due := b.due ++ (callBlocks b.v.c.a cl).out.map fun x => (x, v'.cv i) }

/-- The access to the weak counter of `x` made by dropping a `Weak` of it, by someone who knows `V`. Inside of `Weak`. -/
def weakEv (x : Nat) (V : View) : Ev := ⟨false, false, fun _ _ => false, fun X => if X = .node x then .head else .none, V⟩

/-- A `Weak` that has been given up is dropped: number `j` of those. Inside of `Weak`: `fetch_sub(1, Release)`, and `fence(Acquire)`
if it was the last one. -/
def release (b : BConf α) (j : Nat) : Except UB (BConf α) :=
  match b.due[j]? with
  | none => .ok b
  | some (x, V) => do
    let w' ← b.w.release j
    let V' : View := b.v.log.length :: V
    .ok {
      v := { b.v with log := b.v.log ++ [weakEv x V] }
      wk := w'.wk
      wm := upd b.wm x ((b.wm x).join V')
      due := b.due.eraseIdx j
      ret := if w'.wk x = 0 then b.ret ++ [(x, b.v.log.length + 1, V'.join (b.wm x))] else b.ret }

/-- The executions of programs whose calls follow the rules `P`: see `VConf.Reach`; also, a `Weak` that has been given up is dropped.
Models all programs that use arc_slice.rs and arc_slice_mut.rs, on any number of threads. -/
inductive Reach (o : Ords) (P : Rules α) (zst : Bool) : BConf α → Prop
  | init : Reach o P zst (init zst)
  | run {b b' : BConf α} (h : Reach o P zst b) (i : Nat) (e : b.step o i = .ok b') : Reach o P zst b'
  | start {b : BConf α} {v' : VConf α} (h : Reach o P zst b) (op : Op α) (X : View) (hX : ∀ x ∈ X, x < b.v.log.length) (hp : P b.v.c op)
      (e : b.v.start op X = some v') : Reach o P zst { b with v := v' }
  | read {b : BConf α} {v' : VConf α} (h : Reach o P zst b) (k j : Nat) (X : View) (hX : ∀ x ∈ X, x < b.v.log.length)
      (e : b.v.read k j X = some v') : Reach o P zst { b with v := v' }
  | write {b : BConf α} {v' : VConf α} (h : Reach o P zst b) (k j : Nat) (x : α) (X : View) (hX : ∀ x ∈ X, x < b.v.log.length)
      (e : b.v.write k j x X = some (.ok v')) : Reach o P zst { b with v := v' }
  | release {b b' : BConf α} (h : Reach o P zst b) (j : Nat) (e : b.release j = .ok b') : Reach o P zst b'

end BConf

/-! ## Running schedules -/

inductive BAct (α : Type) where
  | op (o : Op α)
  /-- `n` steps of call `i` -/
  | run (i n : Nat)
  | rd (k j : Nat)
  | wr (k j : Nat) (x : α)
  /-- number `j` of the `Weak`s that have been given up is dropped -/
  | rel (j : Nat)

namespace BConf

def steps (o : Ords) (b : BConf α) (i : Nat) : Nat → Except UB (BConf α)
  | 0 => .ok b
  | n + 1 => do steps o (← b.step o i) i n

/-- Every call, read and write is made by a thread that knows no more than it has to. -/
def exec (o : Ords) (b : BConf α) : List (BAct α) → Option (BConf α)
  | [] => some b
  | .op p :: as => match b.v.start p [] with
    | some v' => exec o { b with v := v' } as
    | none => none
  | .run i n :: as => match steps o b i n with
    | .ok b' => exec o b' as
    | .error _ => none
  | .rd k j :: as => match b.v.read k j [] with
    | some v' => exec o { b with v := v' } as
    | none => none
  | .wr k j x :: as => match b.v.write k j x [] with
    | some (.ok v') => exec o { b with v := v' } as
    | _ => none
  | .rel j :: as => match b.release j with
    | .ok b' => exec o b' as
    | .error _ => none

theorem steps_reach {o : Ords} {P : Rules α} {zst : Bool} {i n : Nat} : ∀ {b b' : BConf α}, Reach o P zst b →
    steps o b i n = .ok b' → Reach o P zst b' := by
  induction n with
  | zero => intro b b' h e; cases e; exact h
  | succ n ih =>
    intro b b' h e
    simp only [steps] at e
    cases hs : b.step o i with
    | error u => rw [hs] at e; cases e
    | ok b1 => rw [hs] at e; exact ih (.run h i hs) e

theorem exec_reach {o : Ords} {Q : Op α → Prop} {zst : Bool} : ∀ {as : List (BAct α)} {b b' : BConf α}, Reach o (only Q) zst b →
    (∀ p, BAct.op p ∈ as → Q p) → exec o b as = some b' → Reach o (only Q) zst b' := by
  intro as
  induction as with
  | nil => intro b b' h _ e; cases e; exact h
  | cons a as ih =>
    intro b b' h hp e
    have hp' : ∀ p, BAct.op p ∈ as → Q p := fun p h => hp p (List.mem_cons_of_mem _ h)
    cases a with
    | op p =>
      simp only [exec] at e
      cases hs : b.v.start p [] with
      | none => rw [hs] at e; cases e
      | some v1 => rw [hs] at e; exact ih (.start h p [] (fun _ h => by cases h) (hp p (List.mem_cons_self ..)) hs) hp' e
    | run i n =>
      simp only [exec] at e
      cases hs : steps o b i n with
      | error u => rw [hs] at e; cases e
      | ok v1 => rw [hs] at e; exact ih (steps_reach h hs) hp' e
    | rd k j =>
      simp only [exec] at e
      cases hs : b.v.read k j [] with
      | none => rw [hs] at e; cases e
      | some v1 => rw [hs] at e; exact ih (.read h k j [] (fun _ h => by cases h) hs) hp' e
    | wr k j x =>
      simp only [exec] at e
      cases hs : b.v.write k j x [] with
      | none => rw [hs] at e; cases e
      | some r =>
        cases r with
        | error u => rw [hs] at e; cases e
        | ok v1 => rw [hs] at e; exact ih (.write h k j x [] (fun _ h => by cases h) hs) hp' e
    | rel j =>
      simp only [exec] at e
      cases hs : b.release j with
      | error u => rw [hs] at e; cases e
      | ok b1 => rw [hs] at e; exact ih (.release h j hs) hp' e

end BConf
end Verif.Arc
