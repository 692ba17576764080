import Verif.Arc.Proofs.Final
import Verif.Props.ArcFails
/-!
# C37: `ArcSlice` never drops an item twice or too early

For every number of threads and every interleaving of their steps, as long as no call of
`WeakSlice::upgrade` overlaps a call of `into_mut` on a larger slice (`Tame`; see `C39_double_drop` for what
happens otherwise). In particular for all programs that do not use both, and for those that
do, but not at the same time.
-/

namespace Verif
open Arc
open Spec (Side Slot)
variable {α : Type} {P : Rules α} {zst : Bool} {c c' : Conf α}

namespace Arc

theorem shown_is_there (B : c.BI) {k b i : Nat} (hs : c.Shows k b i) :
    c.Present b i ∧ c.a.b.accessible b = true := by
  obtain ⟨e, off, len, hk, hr, h1, h2⟩ := hs
  obtain ⟨o, ho, h3⟩ := B.shows hk
  rw [hr] at ho; cases ho
  exact ⟨(h3 b off len rfl).2 i h1 h2, (h3 b off len rfl).1 (by omega)⟩

theorem alive_iff_shown (B : c.BI) (hq : c.Quiet) (b i : Nat) :
    c.Present b i ↔ ∃ k, c.Shows k b i := by
  refine ⟨fun ⟨x, hx⟩ => ?_, fun ⟨k, hk⟩ => (shown_is_there B hk).1⟩
  have calls : c.calls.flatMap callT = [] := by
    rw [List.flatMap_eq_nil_iff]
    intro cl hcl
    obtain ⟨r, h1, h2⟩ := fin_pc (hq cl hcl)
    simp [callT, h1, h2, pcT]
  have tok : ∀ {t : AT}, t ∈ c.T → ∃ k e, c.get k = some e ∧ t ∈ entT e := by
    intro t ht
    rw [Conf.T, calls, List.append_nil] at ht
    obtain ⟨o, ho, ht⟩ := List.mem_flatMap.1 ht
    cases o with
    | none => simp [slotT] at ht
    | some e =>
      obtain ⟨k, hk⟩ := List.getElem?_of_mem ho
      exact ⟨k, e, by simp [Conf.get, hk], ht⟩
  rcases B.heap.item_held hx with ⟨y, w, hy, hw, rfl, h1, h2⟩ | ⟨r, hr, rfl, h1, h2⟩ | ⟨s, hs, _⟩
  · obtain ⟨k, ⟨hh, m⟩, hk, ht⟩ := tok hy
    cases hh with
    | strong d g =>
      simp only [entT, List.mem_cons, AT.ref.injEq, reduceCtorEq, List.not_mem_nil, or_false] at ht
      subst ht
      exact ⟨k, _, w.off, w.len, hk, by simp [Conf.range, Rc.Heap.getData, hw, bind, Except.bind, pure, Except.pure], h1, h2⟩
    | weak d g => simp [entT] at ht
    | uniq r => simp [entT] at ht
  · obtain ⟨k, ⟨hh, m⟩, hk, ht⟩ := tok hr
    cases hh with
    | strong d g => simp [entT] at ht
    | weak d g => simp [entT] at ht
    | uniq r' =>
      simp only [entT, List.mem_cons, AT.reg.injEq, List.not_mem_nil, or_false] at ht
      subst ht
      exact ⟨k, _, r.off, r.len, hk, rfl, h1, h2⟩
  · obtain ⟨k, ⟨hh, m⟩, hk, ht⟩ := tok hs
    cases hh <;> simp [entT] at ht

theorem handles_keep (A : c.IA false) {i : Nat} (e : c.step i = .ok c') {k b j : Nat} (hs : c.Shows k b j) :
    c'.Shows k b j := by
  obtain ⟨⟨hh, m⟩, off, len, hk, hr, h1⟩ := hs
  obtain ⟨c2, e5, A', ge⟩ := A.step (i := i)
  rw [e] at e5; cases e5
  have hk' : c'.get k = some ⟨hh, m⟩ := by
    cases CStep.of e with
    | none _ => exact hk
    | task => exact after_get_old hk
    | pc => exact after_get_old hk
  refine ⟨_, off, len, hk', ?_, h1⟩
  cases hh with
  | strong d g =>
    obtain ⟨v, e1, e2⟩ := Arc.bind_ok hr
    cases pure_ok e2
    obtain ⟨o, ho, _⟩ := A'.bi.shows hk'
    obtain ⟨v', e3, e4⟩ := Arc.bind_ok ho
    cases pure_ok e4
    obtain ⟨v2, h3, h4, h5, h6, _⟩ := ge.evo.evo.data d v _ (getData_some e1) (getData_some e3)
    cases h3
    simp [Conf.range, e3, bind, Except.bind, pure, Except.pure, h4, h5, h6]
  | weak d g => cases hr
  | uniq r => exact hr

theorem step_once (A : c.IA false) (hn : c.NxtI) {i : Nat} (e : c.step i = .ok c') (b j : Nat) :
    c'.a.b.slot b j = c.a.b.slot b j ∨
    (c.a.b.slot b j = .absent ∧ ∃ cl x xs, c.calls[i]? = some cl ∧ (cl.op = .new xs ∨ cl.op = .mutNew xs) ∧ x ∈ xs ∧
      c'.a.b.slot b j = .live x) ∨
    ((∃ x, c.a.b.slot b j = .live x) ∧ c'.a.b.slot b j = .dropped ∧ (∀ k, ¬ c.Shows k b j) ∧ ∀ k, ¬ c'.Shows k b j) ∨
    (∃ cl cl' x en k, c.calls[i]? = some cl ∧ cl.op = .next en k ∧ c.a.b.slot b j = .live x ∧ c'.a.b.slot b j = .moved ∧
      c'.calls[i]? = some cl' ∧ cl'.pc = .done (.item x)) := by
  have B := A.bi
  obtain ⟨c2, e5, A', _⟩ := A.step (i := i)
  rw [e] at e5; cases e5
  cases CStep.of e with
  | none _ => exact .inl rfl
  | task cl t ts a' new hi ht e2 =>
    have I : HInv c.a.b (ataskT t ++ (ts.flatMap ataskT ++ pcT cl.pc ++ c.rest i)) := by
      have := B.heap.perm (Conf.T_perm hi)
      simpa [callT, ht, List.append_assoc] using this
    rcases slots_task I ((B.calls i cl hi).2 t (by rw [ht]; exact List.mem_cons_self ..)) e2 b j with h1 | ⟨h1, h2⟩
    · exact .inl h1
    · refine .inr (.inr (.inl ⟨h1, h2, ?_⟩))
      have key : ∀ k, ¬ (c.after i a' { cl with tasks := new ++ ts } []).Shows k b j := by
        intro k hs
        obtain ⟨x, hx⟩ := (shown_is_there A'.bi hs).1
        exact absurd (hx.symm.trans h2) (by simp)
      exact ⟨fun k hs => key k (handles_keep A e hs), key⟩
  | pc cl a' n hi ht e2 =>
    have I : HInv c.a.b (pcT cl.pc ++ c.rest i) := by
      have := B.heap.perm (Conf.T_perm hi)
      simpa [callT, ht] using this
    have hlt : i < c.calls.length := by
      refine Decidable.byContradiction fun hh => ?_
      rw [List.getElem?_eq_none (by omega)] at hi; cases hi
    rcases slots_pc I (.of e2) b j with h1 | ⟨h1, x, xs, hp, hx, hm⟩ | ⟨x, en, r, hp, hx, hm, hr⟩
    · exact .inl h1
    · refine .inr (.inl ⟨h1, cl, x, xs, hi, ?_, hm, hx⟩)
      have := hn i cl hi
      rcases hp with hp | hp
      · simp only [nxtOp, hp] at this; exact .inl this
      · simp only [nxtOp, hp] at this; exact .inr this
    · refine .inr (.inr (.inr ?_))
      have := hn i cl hi
      simp only [nxtOp, hp] at this
      obtain ⟨k, hk⟩ := this
      exact ⟨cl, _, x, en, k, hi, hk, hx, hm, List.getElem?_set_self hlt, hr⟩

end Arc

/-- C37: whatever happens next, no freed node or memory is accessed, and no item is dropped
or read that is not there: all of this would be an `.error`. -/
theorem C37_safe (hP : Tame P) (h : Conf.Reach P zst c) {r : Except Rc.UB (Conf α)} (hs : Conf.Step c r) : ∃ c', r = .ok c' := by
  cases hs with
  | run i => obtain ⟨c', e, _⟩ := h.step hP i; exact ⟨c', e⟩
  | start c' op e => exact ⟨c', rfl⟩
  | write k e j x hk hw => obtain ⟨c', e, _⟩ := (h.BI hP).write hk j x; exact ⟨c', e⟩

/-- C37: all items a handle shows are there: none has been dropped too early. -/
theorem C37_shown_is_there (hP : Tame P) (h : Conf.Reach P zst c) {k b i : Nat} (hs : c.Shows k b i) :
    c.Present b i ∧ c.a.b.accessible b = true := shown_is_there (h.BI hP) hs

/-- C37: when no call is in flight, exactly those items are there that some handle shows: all
others have been dropped (or moved out by an iterator). -/
theorem C37_alive_iff_shown (hP : Tame P) (h : Conf.Reach P zst c) (hq : c.Quiet) (b i : Nat) :
    c.Present b i ↔ ∃ k, c.Shows k b i := alive_iff_shown (h.BI hP) hq b i

/-- A handle that is still in the hands of some thread after a step of another call shows the
same items as before. -/
theorem C37_handles_keep (hP : Tame P) (h : Conf.Reach P zst c) {i : Nat} (e : c.step i = .ok c') {k b j : Nat} (hs : c.Shows k b j) :
    c'.Shows k b j := handles_keep (h.IA' hP) e hs

/-- C37: what a step of a call does to an item. It leaves it alone, or puts it in (`new`), or
drops it, at a time when no handle shows it, or hands it out (`next`). -/
theorem C37_once (hP : Tame P) (h : Conf.Reach P zst c) {i : Nat} (e : c.step i = .ok c') (b j : Nat) :
    c'.a.b.slot b j = c.a.b.slot b j ∨
    (c.a.b.slot b j = .absent ∧ ∃ cl x xs, c.calls[i]? = some cl ∧ (cl.op = .new xs ∨ cl.op = .mutNew xs) ∧ x ∈ xs ∧
      c'.a.b.slot b j = .live x) ∨
    ((∃ x, c.a.b.slot b j = .live x) ∧ c'.a.b.slot b j = .dropped ∧ (∀ k, ¬ c.Shows k b j) ∧ ∀ k, ¬ c'.Shows k b j) ∨
    (∃ cl cl' x en k, c.calls[i]? = some cl ∧ cl.op = .next en k ∧ c.a.b.slot b j = .live x ∧ c'.a.b.slot b j = .moved ∧
      c'.calls[i]? = some cl' ∧ cl'.pc = .done (.item x)) := step_once (h.IA' hP) h.nxtOp e b j

/-- … and the other things that can happen: starting a call does nothing to items, and a
write replaces an item that is shown by the handle that is written through. -/
theorem C37_start {op : Op α} (e : c.start op = some c') (b j : Nat) : c'.a.b.slot b j = c.a.b.slot b j := by
  rw [(Conf.start_T e).2]

theorem C37_write {k j : Nat} {en : Ent} {x : α} (hk : c.get k = some en) (e : c.write en j x = .ok c') (b i : Nat) :
    c'.a.b.slot b i = c.a.b.slot b i ∨ (c.Shows k b i ∧ c.Present b i ∧ c'.a.b.slot b i = .live x) := by
  rcases Conf.write_eq e with rfl | ⟨b0, off, len, h', hr, hj, e2, rfl⟩
  · exact .inl rfl
  · simp only [Rc.writeItem] at e2
    split at e2
    · cases e2
    · split at e2
      · next y hy =>
        cases e2
        simp only [Arena.withB, Rc.setSlot_slot]
        split
        · next h => obtain ⟨rfl, rfl⟩ := h; exact .inr ⟨⟨en, off, len, hk, hr, by omega, by omega⟩, ⟨y, hy⟩, rfl⟩
        · exact .inl rfl
      · cases e2

/-- C37: an item that has been dropped, or moved out, is never touched again, whatever
happens afterwards. So it is dropped at most once. -/
theorem C37_gone_for_good (hP : Tame P) (h : Conf.Reach P zst c) (hs : Conf.Step c (.ok c')) {b j : Nat}
    (hg : c.a.b.slot b j = .dropped ∨ c.a.b.slot b j = .moved) : c'.a.b.slot b j = c.a.b.slot b j := by
  generalize hr : (Except.ok c' : Except Rc.UB (Conf α)) = r at hs
  cases hs with
  | run i =>
    rcases C37_once hP h hr.symm b j with h1 | ⟨h1, _⟩ | ⟨⟨x, h1⟩, _⟩ | ⟨_, _, x, _, _, _, _, h1, _⟩
    · exact h1
    all_goals rw [h1] at hg; rcases hg with hg | hg <;> cases hg
  | start c2 op e => cases hr; exact C37_start e b j
  | write k en i x hk hw =>
    rcases C37_write hk hr.symm b j with h1 | ⟨_, ⟨y, h1⟩, _⟩
    · exact h1
    · rw [h1] at hg; rcases hg with hg | hg <;> cases hg

/-! ## A program that meets the hypotheses -/

namespace Arc

/-- Three threads: one holds a two item slice, one clones its left half while a third one
upgrades a `WeakSlice` of the left half; then the first one drops the whole slice. -/
def threeThreads : List (Act Nat) :=
  prelude ++ [.op (.cloneSide .L 0), .op (.upgrade 2), .run 4 2, .run 5 1, .run 4 5, .run 5 20, .run 4 20, .op (.drop 0),
    .run 6 30]

theorem noIntoMut_tame : Tame (only (α := Nat) Op.NoIntoMut) := tame_noIntoMut fun _ h => h

theorem threeThreads_reach : Conf.Reach (only Op.NoIntoMut) false (after threeThreads) :=
  exec_reach (as := threeThreads) .init (by
    intro o ho
    simp only [threeThreads, prelude, List.cons_append, List.nil_append, List.mem_cons, Act.op.injEq, reduceCtorEq, false_or,
      List.not_mem_nil, or_false] at ho
    rcases ho with rfl | rfl | rfl | rfl | rfl | rfl | rfl <;> trivial) rfl

/-- Nothing is in flight, two handles show the first item, nobody the second one, which has
been dropped. -/
example : (after threeThreads).Quiet ∧ (after threeThreads).Shows 3 0 0 ∧ (after threeThreads).Shows 4 0 0 ∧
    (after threeThreads).Present 0 0 ∧ (after threeThreads).a.b.slot 0 1 = .dropped :=
  ⟨by unfold Conf.Quiet; decide, ⟨⟨.strong 2 2, false⟩, 0, 1, rfl, rfl, by decide, by decide⟩,
    ⟨⟨.strong 2 2, false⟩, 0, 1, rfl, rfl, by decide, by decide⟩, ⟨1, rfl⟩, rfl⟩

example : ¬ ∃ k, (after threeThreads).Shows k 0 1 := fun h =>
  absurd ((C37_alive_iff_shown noIntoMut_tame threeThreads_reach (by unfold Conf.Quiet; decide) 0 1).2 h)
    (by rintro ⟨x, hx⟩; exact absurd (hx.symm.trans (show (after threeThreads).a.b.slot 0 1 = .dropped from rfl)) (by simp))

/-- A `WeakSlice` of the left half is upgraded while the slice is cloned, and all of these
handles are dropped again; then `into_mut` turns the whole slice into an `ArcSliceMut`, while
the `WeakSlice` is cloned; then it is upgraded again, without success. -/
def takingTurns : List (Act Nat) :=
  prelude ++ [.op (.upgrade 2), .run 4 1, .op (.clone 0), .run 5 20, .run 4 20, .op (.drop 3), .op (.drop 4), .run 7 2, .run 6 30, .run 7 30,
    .op (.intoMut 0), .run 8 2, .op (.clone 2), .run 9 2, .run 8 30, .op (.upgrade 2), .run 10 10]

theorem takingTurns_reach : Conf.Reach (fun c op => c.careful op = true) false (after takingTurns) :=
  execIf_reach (as := takingTurns) .init rfl

/-- The first upgrade returned handle 4, `into_mut` handle 6, the second upgrade none; both
items are still there. -/
example : (after takingTurns).Quiet ∧ ((after takingTurns).calls.map fun cl => cl.out) = [[0], [1], [2], [], [4], [3], [], [], [6], [5], []] ∧
    ∃ r, (after takingTurns).get 6 = some ⟨.uniq r, false⟩ :=
  ⟨by unfold Conf.Quiet; decide, rfl, ⟨0, 0, 2, some 0⟩, rfl⟩

example : (after takingTurns).Present 0 0 ∧ (after takingTurns).Present 0 1 :=
  ⟨(C37_shown_is_there tame_careful takingTurns_reach (k := 6) ⟨⟨.uniq ⟨0, 0, 2, some 0⟩, false⟩, 0, 2, rfl, rfl, by decide, by decide⟩).1,
    (C37_shown_is_there tame_careful takingTurns_reach (k := 6) ⟨⟨.uniq ⟨0, 0, 2, some 0⟩, false⟩, 0, 2, rfl, rfl, by decide, by decide⟩).1⟩

end Arc
end Verif
