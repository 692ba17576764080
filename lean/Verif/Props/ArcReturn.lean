import Verif.Arc.Proofs.Return2
import Verif.Props.ArcRace
/-!
# C64: whoever returns a memory block knows all accesses to it

`BConf` (in `Arc/Return.lean`) is the model of `C50` (happens-before) together with that of `C63` (weak counters). `Tame P`: `upgrade` does not
overlap `into_mut` on something larger.
-/

namespace Verif
namespace Arc
open Rc (Node)
variable {α : Type}

/-- Access `i` is to the block of slice data, or of an owner of items, `x`: to its counters, to its value, or it makes or drops the value. -/
def BConf.Accesses (b : BConf α) (i x : Nat) : Prop := ∃ ev, b.v.log[i]? = some ev ∧ ev.obj (.node x) ≠ .none

/-- The block of `x` has been returned. `n` accesses, to anything, had been made by then; of these whoever returned it knew that those in `V` had
happened. -/
def BConf.Returned (b : BConf α) (x n : Nat) (V : View) : Prop := (x, n, V) ∈ b.ret

section
variable {P : Rules α} {o : Ords} {zst : Bool} {b b' : BConf α}

theorem BConf.step_erase {i : Nat} (e : b.step o i = .ok b') : b.v.c.step i = .ok b'.v.c ∧ b.w.step i = .ok b'.w := by
  rcases BConf.step_cases e with ⟨h, rfl⟩ | ⟨cl, w', v', hi, h1, h2, rfl⟩
  · exact ⟨by simp only [Conf.step, h], by simp only [WConf.step, BConf.w, h]⟩
  · refine ⟨VConf.step_erase h2, ?_⟩
    rw [h1]
    have hc := VConf.step_erase h2
    simp only [WConf.step] at h1
    rw [show b.w.c.calls[i]? = some cl from hi] at h1
    obtain ⟨c', e1, e3⟩ := bind_ok h1
    rw [show b.w.c = b.v.c from rfl, hc] at e1
    cases e1
    split at e3 <;> cases e3
    simp [BConf.w, Function.comp_def]

theorem BConf.release_erase {j : Nat} (e : b.release j = .ok b') : b'.v.c = b.v.c ∧ b.w.release j = .ok b'.w := by
  simp only [BConf.release] at e
  split at e
  · next h => cases e; exact ⟨rfl, by simp only [WConf.release, BConf.w, List.getElem?_map, h, Option.map_none]⟩
  · next x V hj =>
    obtain ⟨w', hw, h⟩ := bind_ok e
    cases h
    refine ⟨rfl, ?_⟩
    rw [hw]
    have hjw : b.w.due[j]? = some x := by simp [BConf.w, hj]
    simp only [WConf.release, hjw] at hw
    split at hw <;> cases hw
    simp [BConf.w, List.eraseIdx_eq_take_drop_succ, List.map_take, List.map_drop]

theorem VConf.start_erase {v v' : VConf α} {op : Op α} {X : View} (e : v.start op X = some v') : v.c.start op = some v'.c := by
  simp only [VConf.start] at e
  split at e
  · cases e
  · next h => cases e; exact h

theorem VConf.read_erase {v v' : VConf α} {k j : Nat} {X : View} (e : v.read k j X = some v') : v'.c = v.c := by
  simp only [VConf.read] at e
  split at e
  · cases e
  · split at e
    · split at e
      · cases e; rfl
      · cases e
    · cases e

theorem VConf.write_erase {v v' : VConf α} {k j : Nat} {x : α} {X : View} (e : v.write k j x X = some (.ok v')) :
    ∃ en, v.c.get k = some en ∧ Conf.writable en = true ∧ v.c.write en j x = .ok v'.c := by
  simp only [VConf.write] at e
  split at e
  · cases e
  · next en hk =>
    split at e
    · split at e
      · next hj =>
        simp only [Option.some.injEq] at e
        obtain ⟨c', e1, e2⟩ := bind_ok e
        cases e2
        exact ⟨en, hk, by simp_all, e1⟩
      · cases e
    · cases e

theorem BConf.Reach.erase (h : BConf.Reach o P zst b) : Conf.Reach P zst b.v.c := by
  induction h with
  | init => exact .init
  | run _ i e ih => exact .run ih i (BConf.step_erase e).1
  | start _ op X _ hp e ih => exact .start ih op hp (VConf.start_erase e)
  | read _ k j X _ e ih => rw [VConf.read_erase e]; exact ih
  | write _ k j x X _ e ih =>
    obtain ⟨en, hk, hw, e⟩ := VConf.write_erase e
    exact .write ih k en j x hk hw e
  | release _ j e ih => rw [(BConf.release_erase e).1]; exact ih

theorem BConf.Reach.retI (hP : Tame P) (h : BConf.Reach o P zst b) : RetI b := by
  induction h with
  | init => exact .init zst
  | run h i e ih => exact ih.step (h.erase.IA' hP) e (BConf.step_erase e).1
  | start h op X _ hp e ih => exact ih.start (h.erase.IA' hP) e
  | read h k j X _ e ih => exact ih.read (h.erase.BI hP) e
  | write h k j x X _ e ih => exact ih.write (h.erase.BI hP) e
  | release h j e ih => exact ih.release (h.erase.BI hP) e

end
end Arc

open Arc
variable {α : Type} {P : Rules α} {o : Ords} {zst : Bool} {b : BConf α}

/-- C64: whoever returns a block knows all accesses to it: those made before, and there are none after. -/
theorem C64_returned (hP : Tame P) (h : BConf.Reach o P zst b) {i x n : Nat} {V : View} (ha : b.Accesses i x) (hr : b.Returned x n V) :
    i < n ∧ i ∈ V :=
  let ⟨ev, h1, h2⟩ := ha
  (h.retI hP).sound i ev x n V h1 h2 hr

/-- C64: no block is returned twice. -/
theorem C64_once (hP : Tame P) (h : BConf.Reach o P zst b) : (b.ret.map (·.1)).Nodup := (h.retI hP).once

/-- C64: of the blocks that have been made, those have been returned that are not there any more (in the sense of `C63`). -/
theorem C64_iff (hP : Tame P) (h : BConf.Reach o P zst b) {x : Nat} (hx : x < b.v.c.a.b.sk.next) :
    (∃ n V, b.Returned x n V) ↔ b.w.there (.node x) = false := by
  have I := h.retI hP
  constructor
  · rintro ⟨n, V, hr⟩
    simp only [WConf.there, bne_eq_false_iff_eq]
    exact (I.gone x n V hr).1
  · intro h0
    simp only [WConf.there, bne_eq_false_iff_eq] at h0
    obtain ⟨⟨y, n, V⟩, hr, rfl⟩ := I.back x hx h0
    exact ⟨n, V, hr⟩

/-- C64: nothing that a call does, and no drop of a `Weak`, fails. -/
theorem C64_safe (hP : Tame P) (h : BConf.Reach o P zst b) : (∀ i, ∃ b', b.step o i = .ok b') ∧ ∀ j, ∃ b', b.release j = .ok b' := by
  have I := h.retI hP
  refine ⟨fun i => ?_, fun j => ?_⟩
  · obtain ⟨w', e, _, hc, _⟩ := I.led.step (h.erase.IA' hP) i
    simp only [BConf.step]
    split
    · exact ⟨_, rfl⟩
    · next cl hi =>
      rw [e]
      simp only [VConf.step, hi]
      rw [show b.v.c.step i = .ok w'.c from hc]
      exact ⟨_, rfl⟩
  · obtain ⟨w', e, _⟩ := I.led.release j
    simp only [BConf.release]
    split
    · exact ⟨_, rfl⟩
    · rw [e]; exact ⟨_, rfl⟩

/-- C64: these are executions of the model of `C63`. -/
theorem C64_same (h : BConf.Reach o P zst b) : WConf.Reach P zst b.w := by
  induction h with
  | init => exact .refl _
  | run _ i e ih => exact .snoc ih (.run i (BConf.step_erase e).2)
  | start _ op X _ hp e ih => exact .snoc ih (.start op hp (VConf.start_erase e))
  | @read b v' _ k j X _ e ih =>
    have : (BConf.w { b with v := v' }) = b.w := by simp only [BConf.w, VConf.read_erase e]
    rw [this]; exact ih
  | write _ k j x X _ e ih =>
    obtain ⟨en, hk, hw, e⟩ := VConf.write_erase e
    exact .snoc ih (.write k en j x hk hw e)
  | release _ j e ih => exact .snoc ih (.release j (BConf.release_erase e).2)

/-! ## Programs that meet the hypotheses -/

namespace Arc

/-- A slice of two items is made, its left half taken, and a `WeakSlice` of the whole; others read the whole and the half. The whole is dropped,
then the half, then the `WeakSlice`: each of these by a thread that knows nothing of the others. -/
def threeDrops : List (BAct Nat) :=
  [.op (.new [1, 2]), .run 0 8, .op (.cloneSide .L 0), .run 1 16, .op (.downgrade 0), .run 2 3, .rd 0 1, .rd 1 0,
   .op (.drop 0), .run 3 12, .op (.drop 1), .run 4 30, .op (.drop 2), .run 5 2]

def bafter (as : List (BAct Nat)) : BConf Nat := match (BConf.init false).exec ⟨false, false, false, false⟩ as with
  | some b => b
  | none => BConf.init false

/-- All five `Weak`s that were given up are dropped. -/
def allBack : List (BAct Nat) := threeDrops ++ [.rel 0, .rel 0, .rel 0, .rel 0, .rel 0]

theorem bafter_reach {as : List (BAct Nat)} (h : ((BConf.init false).exec ⟨false, false, false, false⟩ as).isSome = true)
    (hp : ∀ p, BAct.op p ∈ as → p.NoUpgrade) : BConf.Reach ⟨false, false, false, false⟩ (only (Op.NoUpgrade (α := Nat))) false (bafter as) := by
  obtain ⟨b, hb⟩ := Option.isSome_iff_exists.1 h
  rw [bafter, hb]
  exact BConf.exec_reach .init hp hb

theorem threeDrops_reach : BConf.Reach ⟨false, false, false, false⟩ (only (Op.NoUpgrade (α := Nat))) false (bafter threeDrops) :=
  bafter_reach (by decide +kernel) (by simp [threeDrops, Op.NoUpgrade])

theorem allBack_reach : BConf.Reach ⟨false, false, false, false⟩ (only (Op.NoUpgrade (α := Nat))) false (bafter allBack) :=
  bafter_reach (by decide +kernel) (by simp [allBack, threeDrops, Op.NoUpgrade])

/-- Which accesses are to block `x`, and what whoever returned it knew. -/
def BConf.accs (b : BConf Nat) (x : Nat) : List Nat :=
  (List.range b.v.log.length).filter fun i => (b.v.log[i]?.map fun e => decide (e.obj (.node x) ≠ .none)) == some true

/-- Five `Weak`s have been given up: that of the whole, those of the half and that it had of the whole, that of the owner of the items, and the
`WeakSlice`. Nothing has been returned yet. -/
example : (bafter threeDrops).due.map (·.1) = [1, 2, 1, 0, 1] ∧ (bafter threeDrops).ret = [] ∧
    (bafter threeDrops).accs 1 = [0, 2, 6, 8, 18, 20, 22, 28, 30, 36, 50, 54, 56, 57, 80, 140] := by decide +kernel

/-- The three blocks have been returned, that of the whole (number 1) last: by the thread that dropped the `WeakSlice`. This knew nothing of the
read through the whole (54), nor of the drop of the half (80), until it dropped its `Weak`; it still does not know that the items have been
dropped (88). -/
example : (bafter allBack).ret.map (fun r => (r.1, r.2.1)) = [(2, 146), (0, 148), (1, 149)] ∧
    (bafter allBack).accs 1 = [0, 2, 6, 8, 18, 20, 22, 28, 30, 36, 50, 54, 56, 57, 80, 140, 144, 146, 148] ∧
    ((bafter threeDrops).due[4]?.map fun r => (decide (54 ∈ r.2), decide (80 ∈ r.2))) = some (false, false) ∧
    ((bafter allBack).ret[2]?.map fun r => (decide (54 ∈ r.2.2), decide (80 ∈ r.2.2), decide (88 ∈ r.2.2))) = some (true, true, false) := by
  decide +kernel

/-- These programs are tame. -/
example : Tame (only (Op.NoUpgrade (α := Nat))) := tame_noUpgrade fun _ h => h

end Arc
end Verif
