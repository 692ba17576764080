import Verif.Arc.Proofs.Unwind3
import Verif.Props.ArcSafety
import Verif.Props.ArcRelease
import Verif.Props.ArcExclusive
import Verif.Props.ArcLive
/-!
# C53, C54: `ArcSlice` and destructors that panic

For every number of threads and every interleaving, where any destructor of an item may panic at any time. As in C37, no
call of `WeakSlice::upgrade` overlaps a call of `into_mut` on a larger slice (`PTame`); C53_exclusive needs what C38 needs.
-/

namespace Verif
open Arc
open Spec (Side Slot)
variable {α : Type} {P : Rules α} {zst : Bool} {c c' : Conf α}

/-- C53: whatever happens next, no freed node or memory is accessed, and no item is dropped or read that is not there. -/
theorem C53_safe (hP : PTame P) (h : Conf.PReach P zst c) {r : Except Rc.UB (Conf α)} (hs : Conf.PStep c r) : ∃ c', r = .ok c' := by
  cases hs with
  | step r hs =>
    cases hs with
    | run i => obtain ⟨c', e, _⟩ := (h.IA' hP).step (i := i); exact ⟨c', e⟩
    | start c' op e => exact ⟨c', rfl⟩
    | write k e j x hk hw => obtain ⟨c', e, _⟩ := (h.BI hP).write hk j x; exact ⟨c', e⟩
  | panic c' i e => exact ⟨c', rfl⟩

/-- C53: this covers all panics of item destructors: one that is running can panic. -/
theorem C53_can_panic (hP : PTame P) (h : Conf.PReach P zst c) {i : Nat} {cl : Call α} (hi : c.calls[i]? = some cl)
    (hu : .base .userCode ∈ cl.tasks) : ∃ c', c.panic i = some c' := (h.UI hP).can hi hu

/-- C53: all items a handle shows are there, after any number of panics. -/
theorem C53_shown_is_there (hP : PTame P) (h : Conf.PReach P zst c) {k b i : Nat} (hs : c.Shows k b i) :
    c.Present b i ∧ c.a.b.accessible b = true := shown_is_there (h.BI hP) hs

/-- C53: when no call is in flight, only those items are there that some handle shows; all others have been dropped, moved
out, or lost by a panic. -/
theorem C53_alive_iff_shown (hP : PTame P) (h : Conf.PReach P zst c) (hq : c.Quiet) (b i : Nat) :
    c.Present b i ↔ ∃ k, c.Shows k b i := alive_iff_shown (h.BI hP) hq b i

/-- C53: what a panic does. The call in which the destructor ran is going to panic, returns no handle, and does nothing but
drop what it owns; no other call and no handle notices. Some items are lost: they will not be dropped; no handle shows
them. All other items stay as they are. -/
theorem C53_panic (hP : PTame P) (h : Conf.PReach P zst c) {i : Nat} (e : c.panic i = some c') :
    (∃ cl cl', c.calls[i]? = some cl ∧ c'.calls[i]? = some cl' ∧ cl'.op = cl.op ∧ cl'.pc = .done .panic ∧ cl'.out = cl.out) ∧
    (∀ j, j ≠ i → c'.calls[j]? = c.calls[j]?) ∧ (∀ k, c'.get k = c.get k) ∧ (∀ k b j, c'.Shows k b j ↔ c.Shows k b j) ∧
    c'.a.b.sk.mem = c.a.b.sk.mem ∧
    ∀ b j, c'.a.b.slot b j = c.a.b.slot b j ∨
      ((∃ x, c.a.b.slot b j = .live x) ∧ c'.a.b.slot b j = .moved ∧ ∀ k, ¬ c.Shows k b j) := by
  have B := h.BI hP
  obtain ⟨cl, r, ts, ts', us, s, p⟩ := Panicked.of B.heap e
  have hlen := (List.getElem?_eq_some_iff.1 p.call).1
  have hr : ∀ hh, Conf.range c'.a hh = Conf.range c.a hh := by intro hh; rw [p.eq]; cases hh <;> rfl
  have hsh : ∀ k b j, c'.Shows k b j ↔ c.Shows k b j := by
    intro k b j; simp only [Conf.Shows, p.get, hr]
  refine ⟨⟨cl, { cl with pc := .done .panic, tasks := .base (.dropReg r) :: (ts' ++ us) }, p.call,
      by rw [p.eq]; exact List.getElem?_set_self hlen, rfl, rfl, rfl⟩,
    fun j hj => by rw [p.eq]; exact List.getElem?_set_ne (fun e => hj e.symm), p.get, hsh, by rw [p.eq]; rfl, fun b j => ?_⟩
  have hl := p.lost.slot b j
  have es : c'.a.b.slot = s := by rw [p.eq]; rfl
  rw [es]
  rcases hl with hl | ⟨h1, h2⟩
  · exact .inl hl
  · refine .inr ⟨h1, h2, fun k hk => ?_⟩
    obtain ⟨x, hx⟩ := (C53_shown_is_there hP (h.panic i e) ((hsh k b j).2 hk)).1
    rw [es] at hx
    exact absurd (hx.symm.trans h2) (by simp)

/-- C53: what a step of a call does to an item, also while it is cleaning up after a panic. It leaves it alone, or puts it
in (`new`), or drops it, at a time when no handle shows it, or hands it out (`next`). -/
theorem C53_once (hP : PTame P) (h : Conf.PReach P zst c) {i : Nat} (e : c.step i = .ok c') (b j : Nat) :
    c'.a.b.slot b j = c.a.b.slot b j ∨
    (c.a.b.slot b j = .absent ∧ ∃ cl x xs, c.calls[i]? = some cl ∧ (cl.op = .new xs ∨ cl.op = .mutNew xs) ∧ x ∈ xs ∧
      c'.a.b.slot b j = .live x) ∨
    ((∃ x, c.a.b.slot b j = .live x) ∧ c'.a.b.slot b j = .dropped ∧ (∀ k, ¬ c.Shows k b j) ∧ ∀ k, ¬ c'.Shows k b j) ∨
    (∃ cl cl' x en k, c.calls[i]? = some cl ∧ cl.op = .next en k ∧ c.a.b.slot b j = .live x ∧ c'.a.b.slot b j = .moved ∧
      c'.calls[i]? = some cl' ∧ cl'.pc = .done (.item x)) := step_once (h.IA' hP) (h.nxtOp hP) e b j

/-- A handle that is still there after a step of a call shows the same items as before. -/
theorem C53_handles_keep (hP : PTame P) (h : Conf.PReach P zst c) {i : Nat} (e : c.step i = .ok c') {k b j : Nat} (hs : c.Shows k b j) :
    c'.Shows k b j := handles_keep (h.IA' hP) e hs

/-- C53: an item that has been dropped, moved out or lost is never touched again, whatever happens afterwards. So it is
dropped at most once. -/
theorem C53_gone_for_good (hP : PTame P) (h : Conf.PReach P zst c) (hs : Conf.PStep c (.ok c')) {b j : Nat}
    (hg : c.a.b.slot b j = .dropped ∨ c.a.b.slot b j = .moved) : c'.a.b.slot b j = c.a.b.slot b j := by
  generalize hr : (Except.ok c' : Except Rc.UB (Conf α)) = r at hs
  cases hs with
  | step r hs =>
    cases hs with
    | run i =>
      rcases C53_once hP h hr.symm b j with h1 | ⟨h1, _⟩ | ⟨⟨x, h1⟩, _⟩ | ⟨_, _, x, _, _, _, _, h1, _⟩
      · exact h1
      all_goals rw [h1] at hg; rcases hg with hg | hg <;> cases hg
    | start c2 op e => cases hr; exact C37_start e b j
    | write k en i x hk hw =>
      rcases C37_write hk hr.symm b j with h1 | ⟨_, ⟨y, h1⟩, _⟩
      · exact h1
      · rw [h1] at hg; rcases hg with hg | hg <;> cases hg
  | panic c2 i e =>
    cases hr
    rcases (C53_panic hP h e).2.2.2.2.2 b j with h1 | ⟨⟨x, h1⟩, _⟩
    · exact h1
    · rw [h1] at hg; rcases hg with hg | hg <;> cases hg

/-- A call is about to drop this item, as part of a slice whose items it is dropping. -/
def Arc.Conf.Owes (c : Conf α) (i b j : Nat) : Prop :=
  ∃ cl r ts, c.calls[i]? = some cl ∧ (cl.tasks = .base (.dropReg r) :: ts ∨ cl.tasks = .base .userCode :: .base (.dropReg r) :: ts) ∧
    r.buf = b ∧ r.off ≤ j ∧ j < r.off + r.len

theorem Arc.Conf.Owes.panic {i k b j : Nat} (B : c.BI) (h : c.Owes i b j) (e : c.panic k = some c') : c'.Owes i b j := by
  obtain ⟨cl, r, ts, hi, ht, h1⟩ := h
  obtain ⟨clk, rk, tk, tk', us, s, p⟩ := Panicked.of B.heap e
  by_cases hk : k = i
  · subst hk
    have hlen := (List.getElem?_eq_some_iff.1 hi).1
    have := p.call
    rw [hi] at this; cases this
    have h2 := p.tasks
    rcases ht with ht | ht
    · rw [ht] at h2; cases h2
    · rw [ht] at h2; cases h2
      exact ⟨_, r, tk' ++ us, by rw [p.eq]; exact List.getElem?_set_self hlen, .inl rfl, h1⟩
  · exact ⟨cl, r, ts, by rw [p.eq]; exact (List.getElem?_set_ne hk).trans hi, ht, h1⟩

theorem Arc.Conf.Owes.step {i k b j : Nat} (h : c.Owes i b j) (e : c.step k = .ok c') : c'.Owes i b j ∨ c'.a.b.slot b j = .dropped := by
  obtain ⟨cl, r, ts, hi, ht, h1, h2, h3⟩ := h
  by_cases hk : k = i
  · subst hk
    cases CStep.of e with
    | none _ => exact .inl ⟨cl, r, ts, hi, ht, h1, h2, h3⟩
    | pc cl2 a' n hi2 ht2 e2 => rw [hi] at hi2; cases hi2; rcases ht with ht | ht <;> rw [ht] at ht2 <;> cases ht2
    | task cl2 t ts2 a' new hi2 ht2 e2 =>
      rw [hi] at hi2; cases hi2
      have hlen := (List.getElem?_eq_some_iff.1 hi).1
      rcases ht with ht | ht
      · rw [ht] at ht2; cases ht2
        obtain ⟨⟨h', ts'⟩, e3, e4⟩ := Arc.bind_ok e2
        cases Arc.pure_ok e4
        simp only [Rc.taskStep] at e3
        split at e3
        · omega
        · split at e3
          · cases e3
          · split at e3
            · cases e3
              by_cases hj : j = r.off
              · refine .inr ?_
                show (c.a.b.setSlot r.buf r.off .dropped).slot b j = .dropped
                rw [Rc.setSlot_slot, if_pos ⟨h1.symm, hj⟩]
              · exact .inl ⟨_, { r with off := r.off + 1, len := r.len - 1 }, ts, List.getElem?_set_self hlen, .inr rfl, h1, by simp only; omega, by simp only; omega⟩
            · cases e3
      · rw [ht] at ht2; cases ht2
        obtain ⟨⟨h', ts'⟩, e3, e4⟩ := Arc.bind_ok e2
        cases Arc.pure_ok e4
        cases e3
        exact .inl ⟨_, r, ts, List.getElem?_set_self hlen, .inl rfl, h1, h2, h3⟩
  · refine .inl ⟨cl, r, ts, ?_, ht, h1, h2, h3⟩
    cases CStep.of e with
    | none _ => exact hi
    | pc cl2 a' n hi2 ht2 e2 => exact (List.getElem?_set_ne hk).trans hi
    | task cl2 t ts2 a' new hi2 ht2 e2 => exact (List.getElem?_set_ne hk).trans hi

/-- C53: a call that has begun to drop the items of a slice drops all of them before it returns, even if some of their destructors
panic. -/
theorem C53_rest_dropped (hP : PTame P) {s : Nat → Conf α} (h : ∀ n, Conf.PReach P zst (s n)) (hs : ∀ n, Conf.PStep (s n) (.ok (s (n + 1))))
    {i : Nat} {cl : Call α} {r : Rc.Reg} {ts : List ATask} (hi : (s 0).calls[i]? = some cl) (ht : cl.tasks = .base .userCode :: .base (.dropReg r) :: ts)
    {n : Nat} {cl' : Call α} (hi' : (s n).calls[i]? = some cl') (hf : cl'.fin = true)
    {j : Nat} (h1 : r.off ≤ j) (h2 : j < r.off + r.len) : (s n).a.b.slot r.buf j = .dropped := by
  have key : ∀ n, (s n).Owes i r.buf j ∨ (s n).a.b.slot r.buf j = .dropped := by
    intro n
    induction n with
    | zero => exact .inl ⟨cl, r, ts, hi, .inr ht, rfl, h1, h2⟩
    | succ n ih =>
      rcases ih with ih | ih
      · have hp := hs n
        generalize hr : (Except.ok (s (n + 1)) : Except Rc.UB (Conf α)) = q at hp
        cases hp with
        | step q hp =>
          cases hp with
          | run k => exact ih.step hr.symm
          | start c2 op e =>
            cases hr
            obtain ⟨cl, r, ts, hi, h3⟩ := ih
            refine .inl ⟨cl, r, ts, ?_, h3⟩
            have hl := (List.getElem?_eq_some_iff.1 hi).1
            generalize s (n + 1) = c2 at e ⊢
            cases SStep.of e <;> first | exact hi | exact (List.getElem?_append_left hl).trans hi
          | write k en j x hk hw =>
            obtain ⟨cl, r, ts, hi, h3⟩ := ih
            refine .inl ⟨cl, r, ts, ?_, h3⟩
            rcases Conf.write_cases hr.symm with h4 | ⟨b, i, h4⟩ <;> rw [h4] <;> exact hi
        | panic c2 k e => cases hr; exact .inl (ih.panic ((h n).BI hP) e)
      · exact .inr ((C53_gone_for_good hP (h n) (hs n) (.inl ih)).trans ih)
  rcases key n with ⟨cl, r, ts, hi, ht, _⟩ | h3
  · rw [hi] at hi'; cases hi'
    rcases ht with ht | ht <;> simp [Call.fin, ht] at hf
  · exact h3

theorem Arc.unwind_slot (ts : List ATask) : ∀ (h : Rc.Heap α) (b j : Nat), (unwind h ts).1.slot b j = h.slot b j ∨
    ∃ r, .base (.dropReg r) ∈ ts ∧ b = r.buf ∧ r.off ≤ j ∧ j < r.off + r.len := by
  intro h b j
  induction h, ts using unwind.induct with
  | case1 h => exact .inl rfl
  | case2 h r ts ih =>
    rcases ih with ih | ⟨r', h1, h2⟩
    · by_cases hc : b = r.buf ∧ r.off ≤ j ∧ j < r.off + r.len
      · exact .inr ⟨r, List.mem_cons_self .., hc⟩
      · exact .inl (ih.trans (if_neg hc))
    · exact .inr ⟨r', List.mem_cons_of_mem _ h1, h2⟩
  | case3 h t ts hn ih =>
    have e : (unwind h (t :: ts)).1 = (unwind h ts).1 := by
      rw [unwind]
      · exact hn
    rw [e]
    exact ih.imp id fun ⟨r', h1, h2⟩ => ⟨r', List.mem_cons_of_mem _ h1, h2⟩

/-- C53: the items that are lost are the ones that the call was going to drop later, after those of the slice the panic comes
from: items that belong to a larger slice only. If there are none, because no subslice was taken, nothing is lost. -/
theorem C53_lost (hP : PTame P) (h : Conf.PReach P zst c) {i : Nat} {cl : Call α} {r : Rc.Reg} {ts : List ATask} (e : c.panic i = some c')
    (hi : c.calls[i]? = some cl) (ht : cl.tasks = .base .userCode :: .base (.dropReg r) :: ts) {b j : Nat}
    (hl : c'.a.b.slot b j ≠ c.a.b.slot b j) :
    (∃ r', .base (.dropReg r') ∈ ts ∧ b = r'.buf ∧ r'.off ≤ j ∧ j < r'.off + r'.len) ∧ ¬ (b = r.buf ∧ r.off ≤ j ∧ j < r.off + r.len) := by
  refine ⟨?_, fun ⟨h1, h2⟩ => ?_⟩
  · simp only [Conf.panic, hi, ht] at e
    split at e
    · next r2 ts2 us e1 e2 =>
      cases e1; cases e
      rcases unwind_slot ts c.a.b b j with h3 | h3
      · exact absurd h3 hl
      · exact h3
    · cases e
  · have B := (h.panic i e).BI hP
    obtain ⟨clk, rk, tk, tk', us, s, p⟩ := Panicked.of (h.BI hP).heap e
    have h3 := p.call
    rw [hi] at h3; cases h3
    have h4 := p.tasks
    rw [ht] at h4; cases h4
    have hm : .reg r ∈ c'.T := by
      have hlen := (List.getElem?_eq_some_iff.1 hi).1
      refine (Conf.T_perm (cl := { cl with pc := .done .panic, tasks := .base (.dropReg r) :: (tk' ++ us) })
        (by rw [p.eq]; exact List.getElem?_set_self hlen)).mem_iff.2 (List.mem_append_left _ ?_)
      simp [callT, ataskT, taskT]
    rcases (C53_panic hP h e).2.2.2.2.2 b j with h5 | ⟨_, h5, _⟩
    · exact hl h5
    · obtain ⟨x, h6⟩ := B.heap.reg_live hm h2.1 h2.2
      rw [← h1, h5] at h6; cases h6

/-- C53: panics do not break exclusive access: whoever may write to an item is the only one who sees it. -/
theorem C53_exclusive (hP : PStrict P) (h : Conf.PReach P zst c) {k k' b i : Nat}
    (hk : c.Exclusive k) (h1 : c.Shows k b i) (h2 : c.Shows k' b i) : k' = k := exclusive (h.IA hP) hk h1 h2

/-- C53: a unique slice stays unique. -/
theorem C53_unique (hP : PTame P) (h : Conf.PReach P zst c) {k k' b i : Nat} {r : Rc.Reg} {m : Bool}
    (hk : c.get k = some ⟨.uniq r, m⟩) (h1 : c.Shows k b i) (h2 : c.Shows k' b i) : k' = k := exclusive_own (h.BI hP) hk h1 h2

/-- C53: panics leak items only, no memory (other than the boxes of C40): once all handles are gone and no call is in
flight, the memory the items were in, all nodes and all guards have been released. -/
theorem C53_released (hP : PTame P) (h : Conf.PReach P zst c) (hq : c.Quiet) (hn : c.NoHandles) :
    (∀ b i, ¬ c.Present b i) ∧ (∀ b, c.a.b.sk.mem b = false) ∧ (∀ x, c.a.b.sk.node x = none ∧ c.a.b.strong x = 0) ∧
    (∀ g, c.a.guard g = none ∧ c.a.gS g = 0) ∧ ∀ g, c.a.gW g = if g < c.a.ng then 1 else 0 := released (h.IA' hP) hq hn

/-- C53: no panic leaves a gate closed: a gate is closed exactly while a latch of it is live. -/
theorem C53_gates (hP : PTame P) (h : Conf.PReach P zst c) {g : Nat} {v : GuardV} (hg : c.a.guard g = some v) :
    (v.cGate = true ↔ ∃ cl ∈ c.calls, cl.cloneLatch = some g) ∧ (v.dGate = true ↔ ∃ cl ∈ c.calls, cl.downLatch = some g) :=
  gate_closed_iff (h.BI hP).gi hg

/-- C53: … so there are no deadlocks. -/
theorem C53_no_deadlock (hP : PTame P) (h : Conf.PReach P zst c) (hq : ¬ c.Quiet) : ∃ i c', c.step i = .ok c' ∧ c' ≠ c :=
  no_deadlock (h.IA' hP) hq

/-- What may happen if the calls get their turns in the order `f 0, f 1, …`, no new calls are made, and destructors may panic
instead of returning. -/
def Arc.PFollows (f : Nat → Nat) (s : Nat → Conf α) : Prop :=
  ∀ n, (s n).step (f n) = .ok (s (n + 1)) ∨ (s n).panic (f n) = some (s (n + 1))

theorem Arc.PFollows.reach {f : Nat → Nat} {s : Nat → Conf α} (h : Conf.PReach P zst (s 0)) (hs : PFollows f s) (n : Nat) :
    Conf.PReach P zst (s n) := by
  induction n with
  | zero => exact h
  | succ n ih =>
    rcases hs n with e | e
    · exact .run ih (f n) e
    · exact .panic ih (f n) e

/-- C53: under every fair schedule all calls return, some of them with a panic. -/
theorem C53_all_return (hP : PTame P) {f : Nat → Nat} {s : Nat → Conf α} (h : Conf.PReach P zst (s 0)) (hs : PFollows f s) (hf : Fair f) :
    ∃ N, ∀ n, N ≤ n → (s n).Quiet := by
  have wf := (Prod.lex ⟨(· < ·), Nat.lt_wfRel.wf⟩ ⟨(· < ·), Nat.lt_wfRel.wf⟩).wf
  have one : ∀ m, s (m + 1) = s m ∧ (s m).step (f m) = .ok (s m) ∨ Prod.Lex (· < ·) (· < ·) (s (m + 1)).mu (s m).mu := by
    intro m
    have hr := hs.reach h m
    rcases hs m with e | e
    · obtain ⟨c2, h1, _, h2⟩ := (hr.IA' hP).step (i := f m)
      rw [e] at h1; cases h1
      rcases (hr.BI hP).down h2.evo e with ⟨h3, _⟩ | h3
      · exact .inl ⟨h3, by rw [e, h3]⟩
      · exact .inr h3
    · exact .inr (panic_down (hr.BI hP).heap e)
  have down : ∀ m k, s (m + k) = s m ∨ Prod.Lex (· < ·) (· < ·) (s (m + k)).mu (s m).mu := by
    intro m k
    induction k with
    | zero => exact .inl rfl
    | succ k ih =>
      rcases one (m + k) with ⟨h3, _⟩ | h3
      · rcases ih with ih | ih
        · exact .inl (h3.trans ih)
        · exact .inr (by rw [show m + (k + 1) = m + k + 1 from rfl, h3]; exact ih)
      · rcases ih with ih | ih
        · exact .inr (by rw [← ih]; exact h3)
        · exact .inr (lex_trans h3 ih)
  have key : ∀ (p : Nat × Nat) (m : Nat), (s m).mu = p → ∃ N, ∀ n, N ≤ n → s n = s N := by
    intro p
    induction wf.apply p with
    | intro p _ ih =>
      intro m hm
      by_cases hc : ∃ k, s (m + k) ≠ s m
      · obtain ⟨k, hk⟩ := hc
        rcases down m k with h1 | h1
        · exact absurd h1 hk
        · exact ih _ (by rw [← hm]; exact h1) (m + k) rfl
      · refine ⟨m, fun n hn => ?_⟩
        obtain ⟨k, rfl⟩ := Nat.exists_eq_add_of_le hn
        exact Classical.byContradiction fun hh => hc ⟨k, hh⟩
  obtain ⟨N, hN⟩ := key _ 0 rfl
  refine ⟨N, fun n hn => ?_⟩
  rw [hN n hn]
  refine Classical.byContradiction fun hq => ?_
  obtain ⟨i, c', h1, h2⟩ := C53_no_deadlock hP (hs.reach h N) hq
  obtain ⟨m, hm, hfm⟩ := hf i N
  have e1 := hN m hm
  have e2 := hN (m + 1) (by omega)
  rcases one m with ⟨_, h3⟩ | h3
  · rw [hfm, e1, h1] at h3
    exact h2 (Except.ok.inj h3)
  · rw [e1, e2] at h3; exact lex_irrefl _ h3

/-- C54: destructors of items run in drops and in `WeakSlice::upgrade` only. In particular no other call panics because one
of them does. -/
theorem C54_where (hP : PTame P) (h : Conf.PReach P zst c) {i : Nat} {cl : Call α} (hi : c.calls[i]? = some cl)
    (hu : .base .userCode ∈ cl.tasks) : (∃ k, cl.op = .drop k) ∨ ∃ k, cl.op = .upgrade k := by
  cases hd : cl.op.drops with
  | false => exact ((h.WI hP i cl hi hd).2 _ hu).not_user.elim
  | true => cases ho : cl.op <;> simp_all [Op.drops]

/-- C54: … and no other call drops an item. -/
theorem C54_drops (hP : PTame P) (h : Conf.PReach P zst c) {i : Nat} (e : c.step i = .ok c') {b j : Nat} {x : α}
    (h1 : c.a.b.slot b j = .live x) (h2 : c'.a.b.slot b j = .dropped) :
    ∃ cl, c.calls[i]? = some cl ∧ ((∃ k, cl.op = .drop k) ∨ ∃ k, cl.op = .upgrade k) := by
  have B := h.BI hP
  have hr : Conf.PReach P zst c' := h.run i e
  generalize hc : c' = c2 at *
  cases CStep.of e with
  | none _ => rw [h1] at h2; cases h2
  | pc cl a' n hi ht e2 =>
    have I : HInv c.a.b (pcT cl.pc ++ c.rest i) := by
      have := B.heap.perm (Conf.T_perm hi)
      simpa [callT, ht] using this
    rcases slots_pc I (.of e2) b j with h3 | ⟨h3, _⟩ | ⟨y, en, r, hp, hx, hm, hr⟩
    · exact absurd (h1.symm.trans (h3.symm.trans h2)) (by simp)
    · exact absurd (h1.symm.trans h3) (by simp)
    · exact absurd (hm.symm.trans h2) (by simp)
  | task cl t ts a' new hi ht e2 =>
    refine ⟨cl, hi, ?_⟩
    have hlen := (List.getElem?_eq_some_iff.1 hi).1
    rcases taskStep_drops e2 with h3 | h3
    · have h3 : a'.b.slot b j = c.a.b.slot b j := by rw [h3]
      exact absurd (h1.symm.trans (h3.symm.trans h2)) (by simp)
    · exact C54_where hP hr (i := i) (cl := { cl with tasks := new ++ ts, out := cl.out ++ [] }) (List.getElem?_set_self hlen) (List.mem_append_left _ h3)

/-! ## Programs that meet the hypotheses -/

namespace Arc

def pafter (as : List (PAct Nat)) : Conf Nat :=
  match pexec (fun c op => c.strict op) (Conf.init false) as with
  | some (.ok c) => c
  | _ => Conf.init false

theorem pexec_reach {p : Conf α → Op α → Bool} : ∀ {as : List (PAct α)} {c c' : Conf α},
    Conf.PReach (fun c op => p c op = true) zst c → pexec p c as = some (.ok c') → Conf.PReach (fun c op => p c op = true) zst c' := by
  have run : ∀ {n i : Nat} {c c' : Conf α}, Conf.PReach (fun c op => p c op = true) zst c → steps c i n = .ok c' →
      Conf.PReach (fun c op => p c op = true) zst c' := by
    intro n i
    induction n with
    | zero => intro c c' h e; cases e; exact h
    | succ n ih =>
      intro c c' h e
      obtain ⟨c1, e1, e2⟩ := Arc.bind_ok e
      exact ih (.run h i e1) e2
  intro as
  induction as with
  | nil => intro c c' h e; simp only [pexec, Option.some.injEq, Except.ok.injEq] at e; exact e ▸ h
  | cons a as ih =>
    intro c c' h e
    cases a with
    | panic i =>
      simp only [pexec] at e
      split at e
      · next c1 hc => exact ih (.panic h i hc) e
      · cases e
    | act a =>
      simp only [pexec] at e
      split at e
      · next c1 hc =>
        refine ih ?_ e
        cases a with
        | op o =>
          simp only [execIf] at hc
          split at hc
          · next hp =>
            cases hs : c.start o with
            | none => rw [hs] at hc; cases hc
            | some c2 => rw [hs] at hc; cases hc; exact .start h o hp hs
          · cases hc
        | run i n =>
          simp only [execIf] at hc
          cases hs : steps c i n with
          | error u => rw [hs] at hc; cases hc
          | ok c2 => rw [hs] at hc; cases hc; exact run h hs
        | wr k j x =>
          simp only [execIf] at hc
          cases hk : c.get k with
          | none => rw [hk] at hc; cases hc
          | some en =>
            rw [hk] at hc; simp only at hc
            split at hc
            · rename_i hw
              cases hs : c.write en j x with
              | error u => rw [hs] at hc; cases hc
              | ok c2 => rw [hs] at hc; cases hc; exact .write h k en j x hk hw hs
            · cases hc
      · next hh => exact absurd e (hh c')

/-- `let a = ArcSlice::new(vec![1, 2, 3, 4]); drop(ArcSlice::clone_left(&a)); drop(a);`, up to the point where the destructor of
the first item is running. -/
def dropping : List (PAct Nat) :=
  [.act (.op (.new [1, 2, 3, 4])), .act (.run 0 8), .act (.op (.cloneSide .L 0)), .act (.run 1 30), .act (.op (.drop 1)), .act (.run 2 30),
    .act (.op (.drop 0)), .act (.run 3 3)]

/-- It panics. -/
def dropPanics : List (PAct Nat) := dropping ++ [.panic 3]

/-- … and the rest is dropped. -/
def dropPanicked : List (PAct Nat) := dropPanics ++ [.act (.run 3 30)]

theorem dropping_reach : Conf.PReach (fun c op => c.strict op = true) false (pafter dropping) := pexec_reach (as := dropping) .init rfl

theorem dropPanicked_reach : Conf.PReach (fun c op => c.strict op = true) false (pafter dropPanicked) :=
  pexec_reach (as := dropPanicked) .init rfl

example : (pafter dropping).panic 3 = some (pafter dropPanics) := rfl

/-- The destructor of the second item has been run; the third and the fourth item have been lost. All memory has been
released. -/
example : (pafter dropPanicked).Quiet ∧ (pafter dropPanicked).NoHandles ∧
    (List.range 4).map ((pafter dropPanicked).a.b.slot 0) = [.dropped, .dropped, .moved, .moved] ∧
    (pafter dropPanicked).a.b.sk.mem 0 = false ∧ (∃ cl, (pafter dropPanicked).calls[3]? = some cl ∧ cl.pc = .done .panic) :=
  ⟨by unfold Conf.Quiet; decide, (by
      intro k
      match k with
      | 0 => rfl
      | 1 => rfl
      | k + 2 => rfl), rfl, rfl, _, rfl, rfl⟩

/-- The same, step by step. -/
def dropRun : Nat → Conf Nat
  | 0 => pafter dropping
  | 1 => pafter dropPanics
  | n + 2 => match (dropRun (n + 1)).step 3 with
    | .ok c => c
    | .error _ => dropRun (n + 1)

theorem dropRun_reach (n : Nat) : Conf.PReach (fun c op => c.strict op = true) false (dropRun n) ∧
    Conf.PStep (dropRun n) (.ok (dropRun (n + 1))) := by
  have pt : PTame (fun (c : Conf Nat) op => c.strict op = true) := pstrict_strict.tame
  have key : ∀ n, Conf.PReach (fun c op => c.strict op = true) false (dropRun (n + 1)) ∧
      (dropRun (n + 1)).step 3 = .ok (dropRun (n + 2)) := by
    intro n
    have hr : Conf.PReach (fun c op => c.strict op = true) false (dropRun (n + 1)) := by
      induction n with
      | zero => exact .panic dropping_reach 3 rfl
      | succ n ih =>
        obtain ⟨c, e⟩ := C53_safe pt ih (.step _ _ (.run _ 3))
        exact .run ih 3 (e.trans (by simp only [dropRun, e]))
    obtain ⟨c, e⟩ := C53_safe pt hr (.step _ _ (.run _ 3))
    exact ⟨hr, e.trans (by simp only [dropRun, e])⟩
  cases n with
  | zero => exact ⟨dropping_reach, .panic _ _ 3 rfl⟩
  | succ n => exact ⟨(key n).1, by rw [← (key n).2]; exact .step _ _ (.run _ 3)⟩

/-- One item of the left half is left when the panic occurs. -/
example : ∃ cl r ts, (dropRun 0).calls[3]? = some cl ∧ cl.tasks = .base .userCode :: .base (.dropReg r) :: ts ∧ r.off = 1 ∧ r.len = 1 ∧
    (dropRun 0).a.b.slot r.buf 1 = .live 2 := ⟨_, _, _, rfl, rfl, rfl, rfl, rfl⟩

example : ∃ cl, (dropRun 12).calls[3]? = some cl ∧ cl.fin = true := ⟨_, rfl, rfl⟩

/-- A thread drops a slice of two items while another one upgrades a `WeakSlice` of the left half. The `Arc` that the latter
has of the whole slice is the last one, so it runs the destructor of the second item, which panics. -/
def upgradePanics : List (PAct Nat) :=
  prelude.map .act ++ [.act (.op (.upgrade 2)), .act (.run 4 4), .act (.op (.drop 0)), .act (.run 5 30), .act (.run 4 8), .panic 4]

def upgradePanicked : List (PAct Nat) := upgradePanics ++ [.act (.run 4 30)]

theorem upgradePanicked_reach : Conf.PReach (fun c op => c.strict op = true) false (pafter upgradePanicked) :=
  pexec_reach (as := upgradePanicked) .init rfl

/-- So `upgrade` panics and returns nothing; both items have been dropped. -/
example : (pafter upgradePanicked).Quiet ∧ (pafter upgradePanicked).calls.map (·.out) = [[0], [1], [2], [], [], []] ∧
    (∃ cl, (pafter upgradePanicked).calls[4]? = some cl ∧ cl.op = .upgrade 2 ∧ cl.pc = .done .panic) ∧
    (List.range 2).map ((pafter upgradePanicked).a.b.slot 0) = [.dropped, .dropped] ∧ (pafter upgradePanicked).a.b.sk.mem 0 = false :=
  ⟨by unfold Conf.Quiet; decide, rfl, ⟨_, rfl, rfl, rfl⟩, rfl, rfl⟩

end Arc
end Verif
