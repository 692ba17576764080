import Verif.Arc.Model
/-!
# What the properties of `ArcSlice` talk about

A small specification vocabulary: which items a handle shows, which items are there.
-/

namespace Verif.Arc
open Verif.Rc (UB)
variable {α : Type}

namespace Conf

/-- Handle number `k` is in the hands of some thread and gives access to item `i` of
buffer `b`. -/
def Shows (c : Conf α) (k b i : Nat) : Prop :=
  ∃ e off len, c.get k = some e ∧ range c.a e.h = .ok (some (b, off, len)) ∧ off ≤ i ∧ i < off + len

/-- Handle number `k` gives *exclusive* access to what it shows: it is an `ArcSliceMut`, or
an `ArcSlice` whose `get_mut` reference is still in use. -/
def Exclusive (c : Conf α) (k : Nat) : Prop := ∃ e, c.get k = some e ∧ writable e = true

/-- Item `i` of buffer `b` is there: it has been put in and not been dropped or moved out. -/
def Present (c : Conf α) (b i : Nat) : Prop := ∃ x, c.a.b.slot b i = .live x

/-- No call is in flight. -/
def Quiet (c : Conf α) : Prop := ∀ cl ∈ c.calls, cl.fin = true

/-- All handles are gone. -/
def NoHandles (c : Conf α) : Prop := ∀ k, c.get k = none

end Conf

/-- The call creates or uses no `WeakSlice`. -/
def Op.NoWeak : Op α → Prop
  | .weakNew | .downgrade _ | .upgrade _ => False
  | _ => True

/-- The call does not upgrade a `WeakSlice`. -/
def Op.NoUpgrade : Op α → Prop
  | .upgrade _ => False
  | _ => True

/-- The call is not `into_mut`. -/
def Op.NoIntoMut : Op α → Prop
  | .intoMut _ => False
  | _ => True

/-- The call is not `get_mut`. -/
def Op.NoGetMut : Op α → Prop
  | .getMut _ => False
  | _ => True

def Op.isUpgrade : Op α → Bool
  | .upgrade _ => true
  | _ => false

def Op.isIntoMut : Op α → Bool
  | .intoMut _ => true
  | _ => false

def Op.isGetMut : Op α → Bool
  | .getMut _ => true
  | _ => false

/-- A call of this kind has begun and not returned. -/
def Conf.flying (c : Conf α) (p : Op α → Bool) : Bool := c.calls.any fun cl => !cl.fin && p cl.op

/-- A mutable reference obtained by `get_mut` is in use. -/
def Conf.mutInUse (c : Conf α) : Bool := c.hs.any fun o => o.any Ent.mutb

/-- Subslice `y` is `x`, or has been obtained from `x` by `clone_left` and `clone_right`, applied any
number of times. -/
def Conf.part (c : Conf α) (x y : Nat) : Bool :=
  (c.a.b.sk.lab x).fam == (c.a.b.sk.lab y).fam && (c.a.b.sk.lab x).path.isSuffixOf (c.a.b.sk.lab y).path

/-- Moreover, it is not `x`. -/
def Conf.proper (c : Conf α) (x y : Nat) : Bool := c.part x y && c.a.b.sk.lab x != c.a.b.sk.lab y

/-- A call of this kind on one of these subslices has begun and not returned. -/
def Conf.busy (c : Conf α) (p : Op α → Bool) (q : Nat → Bool) : Bool := c.calls.any fun cl => !cl.fin && p cl.op && cl.on.any q

/-- A mutable reference obtained by `get_mut` on one of these subslices is in use. -/
def Conf.lent (c : Conf α) (q : Nat → Bool) : Bool := c.hs.any fun o => o.any fun e => e.mutb && match e.h with
  | .strong d _ => q d
  | _ => false

/-- No `WeakSlice` of a part of a slice is upgraded while `into_mut` is running on the slice:
`upgrade` is not called as long as such a call of `into_mut` has not returned, and the other way
round. (`C39_fails` in `Props/ArcFails.lean`: otherwise `ArcSlice` is not sound.) Everything else
may overlap: `upgrade` may be called while `into_mut` is running on the same slice, on a
part of it, or elsewhere. -/
def Conf.careful (c : Conf α) : Op α → Bool
  | .upgrade k => !(c.node k).any fun u => c.busy Op.isIntoMut fun d => c.proper d u
  | .intoMut k => !(c.node k).any fun d => c.busy Op.isUpgrade fun u => c.proper d u
  | _ => true

/-- Moreover, no `WeakSlice` of a slice or of a part of it is upgraded while `get_mut` is running
on the slice, or a mutable reference obtained from it is in use. (`C38_fails_descendant` and
`C38_fails_same`.) -/
def Conf.strict (c : Conf α) : Op α → Bool
  | .upgrade k => !(c.node k).any fun u => c.busy Op.isIntoMut (fun d => c.proper d u) || c.busy Op.isGetMut (fun d => c.part d u) ||
      c.lent fun d => c.part d u
  | .intoMut k => !(c.node k).any fun d => c.busy Op.isUpgrade fun u => c.proper d u
  | .getMut k => !(c.node k).any fun d => c.busy Op.isUpgrade fun u => c.part d u
  | _ => true

/-- In runs following these rules, `upgrade` does not overlap `into_mut` on something larger. -/
def Tame (P : Rules α) : Prop := ∀ zst c op, Conf.Reach P zst c → P c op → c.careful op = true

/-- In runs following these rules, `upgrade` overlaps neither `into_mut` on something larger, nor `get_mut`
and the use of its result on the same or something larger. -/
def Strict (P : Rules α) : Prop := ∀ zst c op, Conf.Reach P zst c → P c op → c.strict op = true

theorem Strict.tame {P : Rules α} (h : Strict P) : Tame P := by
  intro zst c op hc hp
  have := h zst c op hc hp
  cases op with
  | upgrade k =>
    simp only [Conf.strict, Conf.careful] at this ⊢
    cases hk : c.node k <;> simp_all
  | _ => simp_all [Conf.strict, Conf.careful]

/-- The guard whose clone gate this call holds a live `Latch` of: from `try_close` in
arc_slice.rs:371 (`get_mut`) or 394 (`into_mut`) until the latch goes out of scope. -/
def Call.cloneLatch (cl : Call α) : Option Nat :=
  match cl.pc with
  | .gm3 _ g | .gm4 _ g | .gmOpenC _ g _ | .im1 _ g | .im2 _ g | .imOpen _ g | .imFg _ g _ _ | .imGate g _ _ => some g
  | _ => none

/-- The guard whose downgrade gate this call holds a live `Latch` of: from `try_close` in
arc_slice.rs:369 (`get_mut`) until the latch goes out of scope. -/
def Call.downLatch (cl : Call α) : Option Nat :=
  match cl.pc with
  | .gm1 _ g | .gm2 _ g | .gm3 _ g | .gm4 _ g | .gmOpenC _ g _ | .gmOpenD _ g _ => some g
  | _ => none

/-! ## Running schedules

For examples and counterexamples: a schedule is a list of calls to start and of steps to
make, executed by evaluation. -/

inductive Act (α : Type) where
  | op (o : Op α)
  /-- `n` steps of call `i` -/
  | run (i n : Nat)
  /-- a write through handle `k` -/
  | wr (k j : Nat) (x : α)

def steps (c : Conf α) (i : Nat) : Nat → Except UB (Conf α)
  | 0 => .ok c
  | n + 1 => do steps (← c.step i) i n

/-- Execute a schedule; `none` if some call is not allowed to start. -/
def exec (c : Conf α) : List (Act α) → Option (Except UB (Conf α))
  | [] => some (.ok c)
  | .op o :: as => match c.start o with
    | some c' => exec c' as
    | none => none
  | .run i n :: as => match steps c i n with
    | .ok c' => exec c' as
    | .error u => some (.error u)
  | .wr k j x :: as => match c.get k with
    | none => none
    | some e => if Conf.writable e then
        match c.write e j x with
        | .ok c' => exec c' as
        | .error u => some (.error u)
      else none

theorem steps_reach {P : Rules α} {zst : Bool} {i n : Nat} : ∀ {c c' : Conf α}, Conf.Reach P zst c →
    steps c i n = .ok c' → Conf.Reach P zst c' := by
  induction n with
  | zero => intro c c' h e; cases e; exact h
  | succ n ih =>
    intro c c' h e
    simp only [steps] at e
    cases hs : c.step i with
    | error u => rw [hs] at e; cases e
    | ok c1 => rw [hs] at e; exact ih (.run h i hs) e

/-- Executed schedules lead to reachable states. -/
theorem exec_reach {Q : Op α → Prop} {zst : Bool} : ∀ {as : List (Act α)} {c c' : Conf α}, Conf.Reach (only Q) zst c →
    (∀ o, Act.op o ∈ as → Q o) → exec c as = some (.ok c') → Conf.Reach (only Q) zst c' := by
  intro as
  induction as with
  | nil => intro c c' h _ e; simp only [exec, Option.some.injEq, Except.ok.injEq] at e; exact e ▸ h
  | cons a as ih =>
    intro c c' h hp e
    cases a with
    | op o =>
      simp only [exec] at e
      cases hs : c.start o with
      | none => rw [hs] at e; cases e
      | some c1 =>
        rw [hs] at e
        exact ih (.start h o (hp o (by simp)) hs) (fun o ho => hp o (by simp [ho])) e
    | run i n =>
      simp only [exec] at e
      cases hs : steps c i n with
      | error u => rw [hs] at e; cases e
      | ok c1 => rw [hs] at e; exact ih (steps_reach h hs) (fun o ho => hp o (by simp [ho])) e
    | wr k j x =>
      simp only [exec] at e
      cases hk : c.get k with
      | none => rw [hk] at e; cases e
      | some en =>
        rw [hk] at e; simp only at e
        split at e
        · rename_i hw
          cases hs : c.write en j x with
          | error u => rw [hs] at e; cases e
          | ok c1 => rw [hs] at e; exact ih (.write h k en j x hk hw hs) (fun o ho => hp o (by simp [ho])) e
        · cases e

/-- Execute a schedule in which all calls follow a discipline. -/
def execIf (p : Conf α → Op α → Bool) (c : Conf α) : List (Act α) → Option (Except UB (Conf α))
  | [] => some (.ok c)
  | .op o :: as => if p c o then
      match c.start o with
      | some c' => execIf p c' as
      | none => none
    else none
  | .run i n :: as => match steps c i n with
    | .ok c' => execIf p c' as
    | .error u => some (.error u)
  | .wr k j x :: as => match c.get k with
    | none => none
    | some e => if Conf.writable e then
        match c.write e j x with
        | .ok c' => execIf p c' as
        | .error u => some (.error u)
      else none

theorem execIf_reach {p : Conf α → Op α → Bool} {zst : Bool} : ∀ {as : List (Act α)} {c c' : Conf α},
    Conf.Reach (fun c op => p c op = true) zst c → execIf p c as = some (.ok c') → Conf.Reach (fun c op => p c op = true) zst c' := by
  intro as
  induction as with
  | nil => intro c c' h e; simp only [execIf, Option.some.injEq, Except.ok.injEq] at e; exact e ▸ h
  | cons a as ih =>
    intro c c' h e
    cases a with
    | op o =>
      simp only [execIf] at e
      split at e
      · next hp =>
        cases hs : c.start o with
        | none => rw [hs] at e; cases e
        | some c1 => rw [hs] at e; exact ih (.start h o hp hs) e
      · cases e
    | run i n =>
      simp only [execIf] at e
      cases hs : steps c i n with
      | error u => rw [hs] at e; cases e
      | ok c1 => rw [hs] at e; exact ih (steps_reach h hs) e
    | wr k j x =>
      simp only [execIf] at e
      cases hk : c.get k with
      | none => rw [hk] at e; cases e
      | some en =>
        rw [hk] at e; simp only at e
        split at e
        · rename_i hw
          cases hs : c.write en j x with
          | error u => rw [hs] at e; cases e
          | ok c1 => rw [hs] at e; exact ih (.write h k en j x hk hw hs) e
        · cases e

end Verif.Arc
