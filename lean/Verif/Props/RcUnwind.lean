import Verif.Rc.Proofs.Unwind
import Verif.Props.RcSafety
/-!
# C52: destructors that panic
-/

namespace Verif
open Verif.Rc
open Verif.Spec (Side Slot Family Rng Hand World Op Obs End Related)
variable {α : Type} {umax : Nat} {zst : Bool}

/-- C52: when destructors of items make arbitrary calls and panic, no step ever causes undefined behaviour. In
particular no item is dropped twice or used after that, and no memory is used after or freed twice. -/
theorem C52_panic_safe {c : Config α} (h : Config.PReach umax zst c) {r : Except UB (Config α)} (st : Config.PStep umax c r) :
    ∃ c', r = .ok c' := pstep_ok h st

/-- C52: what happens is what the specification allows: calls act as always (up to what destructors may observe),
and items are lost only if no handle covers them. All items that handles cover are there. -/
theorem C52_panic_refines {c : Config α} (h : Config.PReach umax zst c) :
    ∃ w : World α, World.Unfolds umax zst w ∧ c.st.h.slot = w.items ∧ c.st.h.sk.mem = w.mem ∧ (∀ k, (c.st.get k).isSome = (w.get k).isSome) ∧
      ∀ k x, w.get k = some x → ∀ b i, w.covers b i x = true → ∃ a, c.st.h.slot b i = .live a := by
  obtain ⟨w, hw, R⟩ := preach_sim h
  refine ⟨w, hw, R.core.items.symm, R.core.mem.symm, fun k => ?_, fun k x h1 b i h2 => ?_⟩
  · rcases R.at_ k with ⟨h1, h2⟩ | ⟨x, y, h1, h2, _⟩
    · rw [h1, h2]; rfl
    · rw [h1, h2]; rfl
  · rw [← R.core.items]; exact R.live h1 h2

/-- C52: a panic itself leaves all handles, all memory and all items that any handle covers alone. -/
theorem C52_panic_frame {st : State α} {r : Reg} {ts ts' : List Task} {h' : Heap α}
    (h : Config.PReach umax zst ⟨st, .userCode :: .dropReg r :: ts⟩) (u : Unwinds st.h ts h' ts') :
    ∃ w w' : World α, World.Unfolds umax zst w ∧ w.Loss w' ∧ st.h.slot = w.items ∧ h'.slot = w'.items ∧ h'.sk.mem = st.h.sk.mem ∧
      (∀ k, (st.get k).isSome = (w.get k).isSome) := by
  obtain ⟨w, hw, R⟩ := preach_sim h
  obtain ⟨w', R', hl, p⟩ := panic_sim R u
  refine ⟨w, w', hw, hl, R.core.items.symm, R'.core.items.symm, by rw [p.sk], fun k => ?_⟩
  rcases R.at_ k with ⟨h1, h2⟩ | ⟨x, y, h1, h2, _⟩
  · have h1 : st.get k = none := h1
    rw [h1, h2]; rfl
  · have h1 : st.get k = some x := h1
    rw [h1, h2]; rfl

theorem unfolds_zst {w : World α} (hw : World.Unfolds umax zst w) : w.zst = zst := by
  induction hw with
  | init => rfl
  | sweep w w' _ hs ih => rw [hs.same]; exact ih
  | loss w w' _ hs ih => rw [hs.same]; exact ih
  | call w op r _ hm ih =>
    rcases hm with rfl | hm
    · rw [World.act_zst]; exact ih
    · cases op <;> simp only at hm
      · obtain ⟨_, rfl⟩ := hm; exact ih
      · obtain ⟨_, rfl⟩ := hm; exact ih
      · obtain ⟨_, _, _, rfl, _⟩ := hm; exact ih

/-- C52: also after panics, between calls the memory of a buffer is there exactly as long as some handle keeps it, and the
items alive are those covered by handles. -/
theorem C52_memory_iff_kept {st : State α} (h : Config.PReach umax false ⟨st, []⟩) :
    ∃ w : World α, World.Unfolds umax false w ∧ (∀ k, (st.get k).isSome = (w.get k).isSome) ∧ (∀ b, st.h.sk.mem b = true ↔ w.Kept b) ∧
      ∀ b i, (∃ a, st.h.slot b i = .live a) ↔ w.anyHand (w.covers b i) = true := by
  obtain ⟨w, hw, R⟩ := preach_sim h
  have R : Rel umax st w [] := R
  have I : Inv st.h (tabToks umax st.hs) := by simpa using R.inv
  have hz : st.h.sk.zst = false := by rw [← R.core.zst]; exact unfolds_zst hw
  refine ⟨w, hw, fun k => ?_, fun b => ⟨fun hm => ?_, fun hk => ?_⟩, fun b i => ⟨fun ⟨a, ha⟩ => ?_, fun hc => ?_⟩⟩
  · rcases R.at_ k with ⟨h1, h2⟩ | ⟨x, y, h1, h2, _⟩
    · rw [h1, h2]; rfl
    · rw [h1, h2]; rfl
  · exact World.anyHand_iff.1 ((hold_iff R b).1 (I.mem_hold (tabToks_quiet umax st.hs) hm))
  · obtain ⟨t, ht, hc⟩ := (hold_iff R b).2 (World.anyHand_iff.2 hk)
    exact I.hold_mem ht hc hz
  · exact (cov_iff R b i).1 (I.live_cov (tabToks_quiet umax st.hs) ha)
  · obtain ⟨t, ht, hc⟩ := (cov_iff R b i).2 hc
    exact I.cov_live ht hc

/-- C52: panics do not leak the memory of arrays: without handles and pending drops none is left. -/
theorem C52_memory_returned {st : State α} (h : Config.PReach umax false ⟨st, []⟩) (hn : ∀ k, st.get k = none) (b : Nat) : st.h.sk.mem b = false := by
  obtain ⟨w, _, h1, h2, _⟩ := C52_memory_iff_kept h
  rw [← Bool.not_eq_true, h2 b]
  rintro ⟨k, x, hk, _⟩
  have := h1 k
  rw [hn k, hk] at this; cases this

theorem drain_shrink {T : List Tok} : ∀ (fuel : Nat) {h h' : Heap α} {ts : List Task}, Inv h (toksOf ts ++ T) → drain fuel h ts = .ok h' →
    Inv h' T ∧ Shrink h h' := by
  intro fuel
  induction fuel with
  | zero =>
    intro h h' ts I e
    cases ts with
    | nil => cases e; exact ⟨I, .refl h⟩
    | cons t ts => cases e
  | succ fuel ih =>
    intro h h' ts I e
    cases ts with
    | nil => cases e; exact ⟨I, .refl h⟩
    | cons t ts =>
      rw [toksOf_cons, List.append_assoc] at I
      obtain ⟨h1, new, e1, I1, s1, c1⟩ := taskStep_ok I
      rw [← List.append_assoc, ← toksOf_append] at I1
      simp only [drain] at e
      rw [e1] at e
      obtain ⟨I2, s2⟩ := ih I1 e
      exact ⟨I2, s1.trans s2⟩

theorem drain_items {T : List Tok} : ∀ (n fuel : Nat) {h h' : Heap α} {r : Reg} {ts : List Task}, r.len = n → Inv h (toksOf (.dropReg r :: ts) ++ T) →
    drain fuel h (.dropReg r :: ts) = .ok h' → ∀ i, r.off ≤ i → i < r.off + r.len → h'.slot r.buf i = .dropped := by
  intro n
  induction n with
  | zero => intros; omega
  | succ n ih =>
    intro fuel h h' r ts hr I e i h1 h2
    have I0 := I
    rw [toksOf_cons, List.append_assoc] at I
    obtain ⟨h1', new, e1, I1, s1, c1⟩ := taskStep_ok I
    have I' : Inv h (.reg r :: (toksOf ts ++ T)) := I
    have hl : r.len ≠ 0 := by omega
    obtain ⟨a, ha⟩ := I'.reg_live (List.mem_cons_self ..) (i := r.off) (Nat.le_refl _) (by omega)
    have hacc := I'.reg_accessible (List.mem_cons_self ..) (by omega)
    have e2 : taskStep h (.dropReg r) = .ok (h.setSlot r.buf r.off .dropped, [.userCode, .dropReg { r with off := r.off + 1, len := r.len - 1 }]) := by
      simp only [taskStep]; rw [if_neg hl, hacc]; simp only [Bool.not_true, Bool.false_eq_true, if_false, ha]
    rw [e1] at e2
    cases e2
    rw [← List.append_assoc, ← toksOf_append] at I1
    cases fuel with
    | zero => cases e
    | succ fuel =>
      simp only [drain] at e
      rw [e1] at e
      have e : drain fuel (h.setSlot r.buf r.off .dropped) (.userCode :: .dropReg { r with off := r.off + 1, len := r.len - 1 } :: ts) = .ok h' := e
      cases fuel with
      | zero => cases e
      | succ fuel =>
        have e : drain fuel (h.setSlot r.buf r.off .dropped) (.dropReg { r with off := r.off + 1, len := r.len - 1 } :: ts) = .ok h' := e
        by_cases hi : i = r.off
        · subst hi
          have I2 : Inv (h.setSlot r.buf r.off .dropped) (toksOf (.dropReg { r with off := r.off + 1, len := r.len - 1 } :: ts) ++ T) := I1
          rcases (drain_shrink fuel I2 e).2.slot r.buf r.off with h3 | ⟨_, h3⟩
          · rw [h3, setSlot_slot, if_pos ⟨rfl, rfl⟩]
          · exact h3
        · exact ih fuel (r := { r with off := r.off + 1, len := r.len - 1 }) (by simp only; omega) I1 e i (by simp only; omega) (by simp only; omega)

/-- C52: if the destructor of an item of a range panics, the rest of the range is still dropped. -/
theorem C52_rest_dropped {st : State α} {r : Reg} {ts ts' : List Task} {h' h'' : Heap α} {fuel : Nat}
    (h : Config.PReach umax zst ⟨st, .userCode :: .dropReg r :: ts⟩) (u : Unwinds st.h ts h' ts')
    (e : drain fuel h' (.dropReg r :: ts') = .ok h'') (i : Nat) (h1 : r.off ≤ i) (h2 : i < r.off + r.len) : h''.slot r.buf i = .dropped := by
  obtain ⟨w, hw, R⟩ := preach_sim h
  obtain ⟨w', R', _⟩ := panic_sim R u
  exact drain_items (T := tabToks umax st.hs) r.len fuel rfl (R'.inv.perm List.perm_append_comm) e i h1 h2

/-- Follow a schedule: `inl none` performs a pending drop, `inl (some op)` makes a call, `inr ()` panics, not caught by
any destructor. -/
def unwindAll (h : Heap α) : List Task → Option (Heap α × List Task)
  | [] => some (h, [])
  | .userCode :: .dropReg r :: ts => (unwindAll h ts).map fun p => (p.1, .dropReg r :: p.2)
  | .userCode :: _ => none
  | .dropReg r :: ts => (unwindAll (h.lose r) ts).map fun p => (p.1, .dropReg { r with len := 0 } :: p.2)
  | .dropS x :: ts => (unwindAll h ts).map fun p => (p.1, .dropS x :: p.2)
  | .dropRcSlice d i :: ts => (unwindAll h ts).map fun p => (p.1, .dropRcSlice d i :: p.2)

theorem unwindAll_unwinds (ts : List Task) : ∀ {h h' : Heap α} {ts' : List Task}, unwindAll h ts = some (h', ts') → Unwinds h ts h' ts' := by
  intro h h' ts' e
  induction h, ts using unwindAll.induct generalizing h' ts' with
  | case1 h => cases e; exact .caught _ _ (.inl rfl)
  | case2 h r ts ih =>
    simp only [unwindAll, Option.map_eq_some_iff] at e
    obtain ⟨⟨h1, t1⟩, e1, e2⟩ := e
    cases e2; exact .destructor _ _ _ _ _ (ih e1)
  | case3 h ts hn => simp only [unwindAll] at e; cases e
  | case4 h r ts ih =>
    simp only [unwindAll, Option.map_eq_some_iff] at e
    obtain ⟨⟨h1, t1⟩, e1, e2⟩ := e
    cases e2; exact .node _ _ _ _ _ (ih e1)
  | case5 h x ts ih =>
    simp only [unwindAll, Option.map_eq_some_iff] at e
    obtain ⟨⟨h1, t1⟩, e1, e2⟩ := e
    cases e2; exact .field _ _ _ _ _ (ih e1)
  | case6 h d i ts ih =>
    simp only [unwindAll, Option.map_eq_some_iff] at e
    obtain ⟨⟨h1, t1⟩, e1, e2⟩ := e
    cases e2; exact .slice _ _ _ _ _ _ (ih e1)

inductive PAct (α : Type) where
  | drop
  | op (p : Op α)
  | panic

def followP (umax : Nat) : Config α → List (PAct α) → Option (Config α)
  | c, [] => some c
  | c, .op p :: l =>
    if c.tasks = [] ∨ c.tasks.head? = some .userCode then
      match exec umax c.st p with
      | .ok (st, _, new) => followP umax ⟨st, new ++ c.tasks⟩ l
      | .error _ => none
    else none
  | c, .drop :: l =>
    match c.tasks with
    | [] => none
    | t :: ts =>
      match taskStep c.st.h t with
      | .ok (h, new) => followP umax ⟨{ c.st with h }, new ++ ts⟩ l
      | .error _ => none
  | c, .panic :: l =>
    match c.tasks with
    | .userCode :: .dropReg r :: ts =>
      match unwindAll c.st.h ts with
      | some (h', ts') => followP umax ⟨{ c.st with h := h' }, .dropReg r :: ts'⟩ l
      | none => none
    | _ => none

theorem followP_reach (l : List (PAct α)) : ∀ {c c' : Config α}, Config.PReach umax zst c → followP umax c l = some c' →
    Config.PReach umax zst c' := by
  induction l with
  | nil => intro c c' h e; cases e; exact h
  | cons o l ih =>
    intro c c' h e
    cases o with
    | op p =>
      simp only [followP] at e
      split at e
      · next hp =>
        split at e
        · next st o new he =>
          refine ih (.step c _ h (.step _ _ ?_)) e
          have := Config.Step.call (umax := umax) c.st c.tasks p hp
          rw [he] at this; exact this
        · cases e
      · cases e
    | drop =>
      simp only [followP] at e
      split at e
      · cases e
      · next t ts ht =>
        split at e
        · next h' new he =>
          refine ih (.step c _ h (.step _ _ ?_)) e
          have := Config.Step.task (umax := umax) c.st t ts
          rw [he] at this
          have hc : c = ⟨c.st, t :: ts⟩ := by rw [← ht]
          rw [hc]; exact this
        · cases e
    | panic =>
      simp only [followP] at e
      split at e
      · next r ts ht =>
        split at e
        · next h' ts' he =>
          refine ih (.step c _ h ?_) e
          have := Config.PStep.panic (umax := umax) c.st h' r ts ts' (unwindAll_unwinds _ he)
          have hc : c = ⟨c.st, .userCode :: .dropReg r :: ts⟩ := by rw [← ht]
          rw [hc]; exact this
        · cases e
      · cases e

/-- A slice of four whose left half has been asked for once is dropped. The destructor of the first item makes a call and
panics, outside of any `catch_unwind`. -/
def panics : List (PAct Nat) :=
  [.op (.rcNew [1, 2, 3, 4]), .op (.cloneSide .L 0), .op (.drop 1)] ++ List.replicate 5 .drop ++
    [.op (.drop 0), .drop, .drop, .drop, .op (.rcNew [5]), .panic]

/-- Non-vacuity: the second item is still dropped, the other two are lost, and all memory of the array is freed. -/
example : ∃ st r ts h' ts', Config.PReach 100 false ⟨st, .userCode :: .dropReg r :: ts⟩ ∧ Unwinds (α := Nat) st.h ts h' ts' ∧ r.len = 1 := by
  refine ⟨_, _, _, _, _, followP_reach (panics.take 13) .init (by rfl), unwindAll_unwinds _ (by rfl), by rfl⟩

example : (followP 100 (Config.init false) panics).map (fun c => ((List.range 4).map (c.st.h.slot 0), c.st.h.sk.mem 0, c.tasks.length)) =
    some ([.dropped, .live 2, .moved, .moved], true, 3) := by rfl

example : (followP 100 (Config.init false) (panics ++ List.replicate 8 .drop)).map
    (fun c => ((List.range 4).map (c.st.h.slot 0), c.st.h.sk.mem 0, c.st.h.sk.mem 1, c.tasks.length)) =
    some ([.dropped, .dropped, .moved, .moved], false, true, 0) := by rfl

end Verif
