import Verif.Arc.Proofs.Guard2
import Verif.Props.ArcFails
/-!
# C35: a gate is a latch

For every history and every interleaving of the calls, of any number of threads.
-/

namespace Verif
open Arc
open Spec (Side)
variable {α : Type} {P : Rules α} {zst : Bool} {c c' : Conf α}

namespace Arc

theorem cL_eq (cl : Call α) : cL cl.pc = cl.cloneLatch.toList := by
  obtain ⟨op, pc, ts, b, n, o⟩ := cl; cases pc <;> rfl

theorem dL_eq (cl : Call α) : dL cl.pc = cl.downLatch.toList := by
  obtain ⟨op, pc, ts, b, n, o⟩ := cl; cases pc <;> rfl

/-- Two different positions count twice. -/
theorem two_count {β : Type} (f : β → Option Nat) {l : List β} {i j g : Nat} {x y : β} (hi : l[i]? = some x) (hj : l[j]? = some y)
    (hx : f x = some g) (hy : f y = some g) (hne : i ≠ j) : 2 ≤ (l.flatMap fun z => (f z).toList).count g := by
  have key : ∀ {l : List β} {i j : Nat} {x y : β}, l[i]? = some x → l[j]? = some y → f x = some g → f y = some g → i < j →
      2 ≤ (l.flatMap fun z => (f z).toList).count g := by
    intro l i j x y hi hj hx hy hlt
    have e := list_split hi
    have hj' : (l.drop (i + 1))[j - (i + 1)]? = some y := by
      rw [List.getElem?_drop, show i + 1 + (j - (i + 1)) = j by omega]; exact hj
    have e' := list_split hj'
    rw [e, e']
    simp only [List.flatMap_append, List.flatMap_cons, hx, hy, List.count_append, Option.toList, List.count_cons, List.count_nil,
      beq_self_eq_true, if_true]
    omega
  rcases Nat.lt_or_gt_of_ne hne with h | h
  · exact key hi hj hx hy h
  · exact key hj hi hy hx h

theorem count_latch (f : Call α → Option Nat) (l : List (Call α)) (g : Nat) :
    0 < (l.flatMap fun z => (f z).toList).count g ↔ ∃ cl ∈ l, f cl = some g := by
  simp only [List.count_pos_iff, List.mem_flatMap, Option.mem_toList]

theorem gate_books (G : c.GI) (g : Nat) :
    ((c.calls.flatMap fun cl => cl.cloneLatch.toList).count g = if (c.a.guard g).any (·.cGate) then 1 else 0) ∧
    ((c.calls.flatMap fun cl => cl.downLatch.toList).count g = if (c.a.guard g).any (·.dGate) then 1 else 0) := by
  have e1 : (fun cl : Call α => cL cl.pc) = fun cl => cl.cloneLatch.toList := funext cL_eq
  have e2 : (fun cl : Call α => dL cl.pc) = fun cl => cl.downLatch.toList := funext dL_eq
  have h1 := G.cg g; have h2 := G.dg g
  rw [e1] at h1; rw [e2] at h2
  exact ⟨h1, h2⟩

theorem gate_closed_iff (G : c.GI) {g : Nat} {v : GuardV} (hg : c.a.guard g = some v) :
    (v.cGate = true ↔ ∃ cl ∈ c.calls, cl.cloneLatch = some g) ∧ (v.dGate = true ↔ ∃ cl ∈ c.calls, cl.downLatch = some g) := by
  obtain ⟨h1, h2⟩ := gate_books G g
  rw [hg] at h1 h2
  simp only [Option.any_some] at h1 h2
  rw [← count_latch (fun cl : Call α => cl.cloneLatch), ← count_latch (fun cl : Call α => cl.downLatch), h1, h2]
  constructor
  · split <;> simp_all
  · split <;> simp_all

end Arc

theorem C35_books (h : Conf.Reach P zst c) (g : Nat) :
    ((c.calls.flatMap fun cl => cl.cloneLatch.toList).count g = if (c.a.guard g).any (·.cGate) then 1 else 0) ∧
    ((c.calls.flatMap fun cl => cl.downLatch.toList).count g = if (c.a.guard g).any (·.dGate) then 1 else 0) := gate_books h.GI g

/-- C35: at most one latch of a gate is live. -/
theorem C35_one_latch (h : Conf.Reach P zst c) {i j g : Nat} {cl cl' : Call α} (hi : c.calls[i]? = some cl) (hj : c.calls[j]? = some cl') :
    (cl.cloneLatch = some g → cl'.cloneLatch = some g → i = j) ∧ (cl.downLatch = some g → cl'.downLatch = some g → i = j) := by
  obtain ⟨h1, h2⟩ := C35_books h g
  refine ⟨fun a b => ?_, fun a b => ?_⟩
  · refine Decidable.byContradiction fun hne => ?_
    have := two_count (fun cl : Call α => cl.cloneLatch) hi hj a b hne
    have := ite_le ((c.a.guard g).any (·.cGate)); omega
  · refine Decidable.byContradiction fun hne => ?_
    have := two_count (fun cl : Call α => cl.downLatch) hi hj a b hne
    have := ite_le ((c.a.guard g).any (·.dGate)); omega

/-- C35: a gate is closed exactly while a latch of it is live. -/
theorem C35_closed_iff (h : Conf.Reach P zst c) {g : Nat} {v : GuardV} (hg : c.a.guard g = some v) :
    (v.cGate = true ↔ ∃ cl ∈ c.calls, cl.cloneLatch = some g) ∧ (v.dGate = true ↔ ∃ cl ∈ c.calls, cl.downLatch = some g) := gate_closed_iff h.GI hg

/-- C35: while a latch is live its gate exists. -/
theorem C35_latch_alive (h : Conf.Reach P zst c) {g : Nat} {cl : Call α} (hc : cl ∈ c.calls)
    (hl : cl.cloneLatch = some g ∨ cl.downLatch = some g) : ∃ v, c.a.guard g = some v := by
  obtain ⟨h1, h2⟩ := C35_books h g
  rcases hl with hl | hl
  · have := (count_latch (fun cl : Call α => cl.cloneLatch) c.calls g).2 ⟨cl, hc, hl⟩
    cases hv : c.a.guard g with
    | none => rw [hv] at h1; simp only [Option.any_none, Bool.false_eq_true, if_false] at h1; omega
    | some v => exact ⟨v, rfl⟩
  · have := (count_latch (fun cl : Call α => cl.downLatch) c.calls g).2 ⟨cl, hc, hl⟩
    cases hv : c.a.guard g with
    | none => rw [hv] at h2; simp only [Option.any_none, Bool.false_eq_true, if_false] at h2; omega
    | some v => exact ⟨v, rfl⟩

/-- `try_close` of the clone gate: the program points before it. -/
def AtCloseClone (cl : Call α) (g : Nat) : Prop := cl.tasks = [] ∧ ∃ d, cl.pc = .gm2 d g ∨ cl.pc = .im0 d g

/-- `try_close` of the downgrade gate: the program point before it. -/
def AtCloseDown (cl : Call α) (g : Nat) : Prop := cl.tasks = [] ∧ ∃ d, cl.pc = .gm0 d g

theorem held_of_call (h : Conf.Reach P zst c) {i g : Nat} {cl : Call α} (hi : c.calls[i]? = some cl) (hg : g ∈ aGd (callT cl)) :
    ∃ v, c.a.guard g = some v := by
  refine Arc.GI.held h.GI (g := g) ?_
  obtain ⟨t, h1, h2⟩ := List.mem_flatMap.1 hg
  refine mem_aGd (List.mem_append_right _ (List.mem_flatMap.2 ⟨cl, List.mem_of_getElem? hi, h1⟩)) h2

/-- C35: `try_close` of a clone gate always goes through, and returns a latch exactly when
none is live. -/
theorem C35_try_close_clone (h : Conf.Reach P zst c) {i g : Nat} {cl : Call α} (hi : c.calls[i]? = some cl) (hp : AtCloseClone cl g) :
    ∃ c' cl', c.step i = .ok c' ∧ c'.calls[i]? = some cl' ∧
      (cl'.cloneLatch = some g ↔ ¬ ∃ cl ∈ c.calls, cl.cloneLatch = some g) := by
  obtain ⟨ht, d, hd⟩ := hp
  have hlt := (List.getElem?_eq_some_iff.1 hi).1
  obtain ⟨v, hv⟩ := held_of_call h hi (g := g) (by rcases hd with hd | hd <;> simp [callT, ht, hd, pcT])
  have key := (C35_closed_iff h hv).1
  have hget : c.a.getG g = .ok v := by simp only [Arena.getG, hv]
  rw [Conf.step_eq hi]
  by_cases hc : v.cGate = true
  · rcases hd with hd | hd
    · refine ⟨_, { cl with pc := .gmOpenD d g false, tasks := [] }, by
        simp only [callStep, ht, hd, pcStep, bind, Except.bind, hget, hc, if_true]; rfl, ?_, ?_⟩
      · simp [Conf.after, hlt]
      · simp only [Call.cloneLatch, reduceCtorEq, false_iff, Classical.not_not]; exact key.1 hc
    · refine ⟨_, { cl with pc := .done .err, tasks := [], out := cl.out ++ [c.hs.length] }, by
        simp only [callStep, ht, hd, pcStep, bind, Except.bind, hget, hc, if_true]; rfl, ?_, ?_⟩
      · simp [Conf.after, hlt]
      · simp only [Call.cloneLatch, reduceCtorEq, false_iff, Classical.not_not]; exact key.1 hc
  · have hn : ¬ ∃ cl ∈ c.calls, cl.cloneLatch = some g := fun h => hc (key.2 h)
    rcases hd with hd | hd
    · refine ⟨_, { cl with pc := .gm3 d g, tasks := [] }, by
        simp only [callStep, ht, hd, pcStep, bind, Except.bind, hget, hc]; rfl, ?_, ?_⟩
      · simp [Conf.after, hlt]
      · simp only [Call.cloneLatch, true_iff]; exact hn
    · refine ⟨_, { cl with pc := .im1 d g, tasks := [] }, by
        simp only [callStep, ht, hd, pcStep, bind, Except.bind, hget, hc]; rfl, ?_, ?_⟩
      · simp [Conf.after, hlt]
      · simp only [Call.cloneLatch, true_iff]; exact hn

/-- C35: the same for the downgrade gate. -/
theorem C35_try_close_down (h : Conf.Reach P zst c) {i g : Nat} {cl : Call α} (hi : c.calls[i]? = some cl) (hp : AtCloseDown cl g) :
    ∃ c' cl', c.step i = .ok c' ∧ c'.calls[i]? = some cl' ∧
      (cl'.downLatch = some g ↔ ¬ ∃ cl ∈ c.calls, cl.downLatch = some g) := by
  obtain ⟨ht, d, hd⟩ := hp
  have hlt := (List.getElem?_eq_some_iff.1 hi).1
  obtain ⟨v, hv⟩ := held_of_call h hi (g := g) (by simp [callT, ht, hd, pcT])
  have key := (C35_closed_iff h hv).2
  have hget : c.a.getG g = .ok v := by simp only [Arena.getG, hv]
  rw [Conf.step_eq hi]
  by_cases hc : v.dGate = true
  · refine ⟨_, { cl with pc := .done .none, tasks := [], out := cl.out ++ [c.hs.length] }, by
      simp only [callStep, ht, hd, pcStep, bind, Except.bind, hget, hc, if_true]; rfl, ?_, ?_⟩
    · simp [Conf.after, hlt]
    · simp only [Call.downLatch, reduceCtorEq, false_iff, Classical.not_not]; exact key.1 hc
  · refine ⟨_, { cl with pc := .gm1 d g, tasks := [] }, by
      simp only [callStep, ht, hd, pcStep, bind, Except.bind, hget, hc]; rfl, ?_, ?_⟩
    · simp [Conf.after, hlt]
    · simp only [Call.downLatch, true_iff]; exact fun h => hc (key.2 h)

/-- C35: `wait_till_open` in `clone_left`/`clone_right` returns exactly in a state in which
no latch of the gate is live. -/
theorem C35_wait_clone (h : Conf.Reach P zst c) {i d g : Nat} {s : Side} {cl : Call α} (hi : c.calls[i]? = some cl)
    (ht : cl.tasks = []) (hp : cl.pc = .wait d g s) (e : c.step i = .ok c') :
    ∃ cl', c'.calls[i]? = some cl' ∧ c'.a = c.a ∧
      (cl'.pc = .cs d s ∧ (¬ ∃ cl ∈ c.calls, cl.cloneLatch = some g) ∨
       cl'.pc = .wait d g s ∧ ∃ cl ∈ c.calls, cl.cloneLatch = some g) := by
  have hlt := (List.getElem?_eq_some_iff.1 hi).1
  rw [Conf.step_eq hi] at e
  simp only [callStep, ht, hp, pcStep, bind, Except.bind] at e
  cases hg : c.a.getG g with
  | error u => rw [hg] at e; cases e
  | ok v =>
    rw [hg] at e
    have key := (C35_closed_iff h (getG_ok hg)).1
    by_cases hc : v.cGate = true
    · simp only [hc, if_true] at e; cases e
      exact ⟨{ cl with pc := .wait d g s, tasks := [] }, by simp [Conf.after, hlt], rfl, .inr ⟨rfl, key.1 hc⟩⟩
    · simp only [hc] at e; cases e
      exact ⟨{ cl with pc := .cs d s, tasks := [] }, by simp [Conf.after, hlt], rfl, .inl ⟨rfl, fun h => hc (key.2 h)⟩⟩

/-- C35: the same for `downgrade`. -/
theorem C35_wait_down (h : Conf.Reach P zst c) {i d g : Nat} {cl : Call α} (hi : c.calls[i]? = some cl)
    (ht : cl.tasks = []) (hp : cl.pc = .dg0 d g) (e : c.step i = .ok c') :
    ∃ cl', c'.calls[i]? = some cl' ∧ c'.a = c.a ∧
      (cl'.pc = .dg1 d g ∧ (¬ ∃ cl ∈ c.calls, cl.downLatch = some g) ∨
       cl'.pc = .dg0 d g ∧ ∃ cl ∈ c.calls, cl.downLatch = some g) := by
  have hlt := (List.getElem?_eq_some_iff.1 hi).1
  rw [Conf.step_eq hi] at e
  simp only [callStep, ht, hp, pcStep, bind, Except.bind] at e
  cases hg : c.a.getG g with
  | error u => rw [hg] at e; cases e
  | ok v =>
    rw [hg] at e
    have key := (C35_closed_iff h (getG_ok hg)).2
    by_cases hc : v.dGate = true
    · simp only [hc, if_true] at e; cases e
      exact ⟨{ cl with pc := .dg0 d g, tasks := [] }, by simp [Conf.after, hlt], rfl, .inr ⟨rfl, key.1 hc⟩⟩
    · simp only [hc] at e; cases e
      exact ⟨{ cl with pc := .dg1 d g, tasks := [] }, by simp [Conf.after, hlt], rfl, .inl ⟨rfl, fun h => hc (key.2 h)⟩⟩

/-! A call holds both latches of the guard of a slice while a second thread, that holds a
clone of the slice, is about to close the downgrade gate and a third one waits. -/

namespace Arc
def contended : List (Act Nat) :=
  [.op (.new [1, 2]), .run 0 8, .op (.clone 0), .run 1 4, .op (.clone 0), .run 2 4, .op (.getMut 0), .run 3 3,
   .op (.getMut 1), .op (.cloneSide .L 2), .op (.downgrade 2)]
end Arc

example : Conf.Reach (only fun _ => True) false (after contended) ∧
    ∃ cl, (after contended).calls[3]? = some cl ∧ cl.cloneLatch = some 0 ∧ cl.downLatch = some 0 :=
  ⟨after_reach rfl, _, rfl, rfl, rfl⟩

example : ∃ cl, (after contended).calls[4]? = some cl ∧ AtCloseDown cl 0 := ⟨_, rfl, rfl, 1, rfl⟩

example : ∃ cl, (after contended).calls[5]? = some cl ∧ cl.pc = .wait 1 0 .L := ⟨_, rfl, rfl⟩

example : ∃ cl, (after contended).calls[6]? = some cl ∧ cl.pc = .dg0 1 0 := ⟨_, rfl, rfl⟩

example : ∃ cl, (after (contended.take 8 ++ [.op (.intoMut 1)])).calls[4]? = some cl ∧ AtCloseClone cl 0 :=
  ⟨_, rfl, rfl, 1, .inr rfl⟩

end Verif
