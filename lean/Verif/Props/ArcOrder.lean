import Verif.Arc.Proofs.Contract2
import Verif.Arc.Proofs.Threads
import Verif.Props.ArcContract
import Verif.Props.ArcUnwind
/-!
# C80: the order in which the items of an `ArcSliceMut` are dropped
-/

namespace Verif
open Arc
open Spec (Side Slot)
variable {α : Type} {P : Rules α} {W : Nat → Nat → Prop} {zst : Bool} {c c0 c1 c2 c' : Conf α}

/-- A call has dropped the first `j` items of a unique slice, and is going to drop the others. -/
def Arc.Conf.Going (c : Conf α) (i : Nat) (r : Rc.Reg) (j : Nat) : Prop :=
  j ≤ r.len ∧ (∀ n, n < j → c.a.b.slot r.buf (r.off + n) = .dropped) ∧
  (j = r.len ∨ ∃ cl ts, c.calls[i]? = some cl ∧
    (cl.tasks = .base (.dropReg { r with off := r.off + j, len := r.len - j }) :: ts ∨
      cl.tasks = .base .userCode :: .base (.dropReg { r with off := r.off + j, len := r.len - j }) :: ts))

/-- Nothing that happens elsewhere matters. -/
theorem Arc.Conf.Going.other {i j : Nat} {r : Rc.Reg} (h : c.Going i r j)
    (hd : ∀ b n, c.a.b.slot b n = .dropped → c'.a.b.slot b n = .dropped)
    (hc : ∀ cl, c.calls[i]? = some cl → c'.calls[i]? = some cl) : c'.Going i r j := by
  obtain ⟨h1, h2, h3⟩ := h
  exact ⟨h1, fun n hn => hd _ _ (h2 n hn), h3.imp id fun ⟨cl, ts, h4, h5⟩ => ⟨cl, ts, hc cl h4, h5⟩⟩

theorem Arc.Conf.Going.step {i k j : Nat} {r : Rc.Reg} (h : c.Going i r j)
    (hd : ∀ b n, c.a.b.slot b n = .dropped → c'.a.b.slot b n = .dropped) (e : c.step k = .ok c') : ∃ j', c'.Going i r j' := by
  by_cases hk : k = i
  · subst hk
    obtain ⟨h1, h2, h3⟩ := h
    rcases h3 with h3 | ⟨cl, ts, hi, ht⟩
    · exact ⟨j, h1, fun n hn => hd _ _ (h2 n hn), .inl h3⟩
    have hlen := (List.getElem?_eq_some_iff.1 hi).1
    cases CStep.of e with
    | none _ => exact ⟨j, h1, h2, .inr ⟨cl, ts, hi, ht⟩⟩
    | pc cl2 a' n hi2 ht2 e2 => rw [hi] at hi2; cases hi2; rcases ht with ht | ht <;> rw [ht] at ht2 <;> cases ht2
    | task cl2 t ts2 a' new hi2 ht2 e2 =>
      rw [hi] at hi2; cases hi2
      rcases ht with ht | ht
      · rw [ht] at ht2; cases ht2
        obtain ⟨⟨h', ts'⟩, e3, e4⟩ := Arc.bind_ok e2
        cases Arc.pure_ok e4
        simp only [Rc.taskStep] at e3
        split at e3
        · next h0 => exact ⟨j, h1, fun n hn => hd _ _ (h2 n hn), .inl (by omega)⟩
        · next h0 =>
          split at e3
          · cases e3
          · split at e3
            · cases e3
              refine ⟨j + 1, by omega, fun n hn => ?_, .inr ⟨_, ts, List.getElem?_set_self hlen, .inr ?_⟩⟩
              · show (c.a.b.setSlot r.buf (r.off + j) .dropped).slot r.buf (r.off + n) = .dropped
                rw [Rc.setSlot_slot]
                split
                · rfl
                · next hne => exact h2 n (by have : n ≠ j := fun e => hne ⟨rfl, by rw [e]⟩
                                             omega)
              · simp only [List.map_cons, List.map_nil, List.cons_append, List.nil_append, Nat.add_assoc, Nat.sub_sub]
            · cases e3
      · rw [ht] at ht2; cases ht2
        obtain ⟨⟨h', ts'⟩, e3, e4⟩ := Arc.bind_ok e2
        cases Arc.pure_ok e4
        cases e3
        exact ⟨j, h1, h2, .inr ⟨_, ts, List.getElem?_set_self hlen, .inl rfl⟩⟩
  · refine ⟨j, h.other hd fun cl hi => ?_⟩
    cases CStep.of e with
    | none _ => exact hi
    | pc cl2 a' n hi2 ht2 e2 => exact (List.getElem?_set_ne hk).trans hi
    | task cl2 t ts2 a' new hi2 ht2 e2 => exact (List.getElem?_set_ne hk).trans hi

theorem Arc.Conf.Going.panic {i k j : Nat} {r : Rc.Reg} (B : c.BI) (h : c.Going i r j)
    (hd : ∀ b n, c.a.b.slot b n = .dropped → c'.a.b.slot b n = .dropped) (e : c.panic k = some c') : c'.Going i r j := by
  obtain ⟨clk, rk, tk, tk', us, s, p⟩ := Panicked.of B.heap e
  by_cases hk : k = i
  · subst hk
    obtain ⟨h1, h2, h3⟩ := h
    refine ⟨h1, fun n hn => hd _ _ (h2 n hn), h3.imp id fun ⟨cl, ts, hi, ht⟩ => ?_⟩
    have hlen := (List.getElem?_eq_some_iff.1 hi).1
    have := p.call
    rw [hi] at this; cases this
    have h4 := p.tasks
    rcases ht with ht | ht
    · rw [ht] at h4; cases h4
    · rw [ht] at h4; cases h4
      exact ⟨_, tk' ++ us, by rw [p.eq]; exact List.getElem?_set_self hlen, .inl rfl⟩
  · exact h.other hd fun cl hi => by rw [p.eq]; exact (List.getElem?_set_ne hk).trans hi

theorem Arc.PRun.going (hP : PTame P) (h : Conf.PReach P zst c1) {i j : Nat} {r : Rc.Reg} (g : c1.Going i r j) (w : PRun P W c1 c2) :
    ∃ j, c2.Going i r j := by
  induction w with
  | refl => exact ⟨j, g⟩
  | @step c c' w k e ih =>
    obtain ⟨j, g⟩ := ih
    exact g.step (fun b n hn => (C53_gone_for_good hP (w.reach h) (.step _ _ (e ▸ Conf.Step.run c k)) (.inl hn)).trans hn) e
  | @start c c' w op hp e ih =>
    obtain ⟨j, g⟩ := ih
    refine ⟨j, g.other (fun b n hn => (C37_start e b n).trans hn) fun cl hi => ?_⟩
    rcases start_length e with ⟨cl2, h1, _⟩ | h1 <;> rw [h1]
    · exact (List.getElem?_append_left (List.getElem?_eq_some_iff.1 hi).1).trans hi
    · exact hi
  | @write c c' w k en m x hk hw hW e ih =>
    obtain ⟨j, g⟩ := ih
    refine ⟨j, g.other (fun b n hn => (C53_gone_for_good hP (w.reach h) (.step _ _ (e ▸ Conf.Step.write c k en m x hk hw)) (.inl hn)).trans hn) fun cl hi => ?_⟩
    rcases Conf.write_cases e with h4 | ⟨b, i, h4⟩ <;> rw [h4] <;> exact hi
  | @panic c c' w k e ih =>
    obtain ⟨j, g⟩ := ih
    exact ⟨j, g.panic ((w.reach h).BI hP) (fun b n hn => (C53_gone_for_good hP (w.reach h) (.panic _ _ _ e) (.inl hn)).trans hn) e⟩

/-- C80: when an `ArcSliceMut` (or the rest of an iterator over one) is dropped, its items are dropped from front to back: at
any time, whatever other threads do and even if destructors panic, the items that have been dropped are the first few, the
others still are there, and once the call has returned all are dropped. -/
theorem C80_arc (hP : PTame P) (h : Conf.PReach P zst c0) {k : Nat} {r : Rc.Reg} {l : Bool} (hk : c0.get k = some ⟨.uniq r, l⟩)
    (hp : P c0 (.drop k)) (e : c0.start (.drop k) = some c1) (w : PRun P W c1 c2) :
    ∃ j ≤ r.len, (∀ n, n < j → c2.a.b.slot r.buf (r.off + n) = .dropped) ∧
      (∀ n, j ≤ n → n < r.len → ∃ x, c2.a.b.slot r.buf (r.off + n) = .live x) ∧
      ∀ cl, c2.calls[c0.calls.length]? = some cl → cl.fin = true → j = r.len := by
  have h1 : Conf.PReach P zst c1 := PRun.reach (W := W) (.start .refl _ hp e) h
  have g : c1.Going c0.calls.length r 0 := by
    simp only [Conf.start, hk] at e
    split at e
    · cases e
    · cases e
      exact ⟨Nat.zero_le _, fun n hn => absurd hn (Nat.not_lt_zero _), .inr ⟨_, [], List.getElem?_concat_length, .inl rfl⟩⟩
  obtain ⟨j, hj, hd, h3⟩ := w.going hP h1 g
  refine ⟨j, hj, hd, fun n h4 h5 => ?_, fun cl hi hf => ?_⟩
  · rcases h3 with h3 | ⟨cl, ts, hi, ht⟩
    · omega
    · have hm : AT.reg { r with off := r.off + j, len := r.len - j } ∈ c2.T := by
        refine Conf.call_tok hi ?_
        rcases ht with ht | ht <;> simp [callT, ht, ataskT, taskT]
      exact ((w.reach h1).BI hP).heap.reg_live hm (by simp only; omega) (by simp only; omega)
  · rcases h3 with h3 | ⟨cl', ts, hi', ht⟩
    · exact h3
    · rw [hi] at hi'; cases hi'
      rcases ht with ht | ht <;> simp [Call.fin, ht] at hf

namespace Arc

/-- Five items, of which handle 1 has the first two. -/
def orderStart : List (PAct Nat) :=
  [.act (.op (.mutNew [5, 6, 7, 8, 9])), .act (.run 0 5), .act (.op (.splitOff .L 0)), .act (.run 1 5)]

/-- Two threads are dropping both halves; the destructor of the first item of the right half panics. -/
def orderMid : List (PAct Nat) := [.act (.run 2 1), .act (.op (.drop 1)), .act (.run 3 1), .panic 2, .act (.run 2 1)]

def orderAsked : Conf Nat := ((pafter orderStart).start (.drop 2)).getD (Conf.init false)

def orderThen (as : List (PAct Nat)) : Conf Nat := match pexec (fun c op => c.strict op) orderAsked as with
  | some (.ok c) => c
  | _ => Conf.init false

/-- What the example needs: the range of the handle that is dropped, and what has become of the five items. -/
def orderCheck (as : List (PAct Nat)) (gone : List Bool) (fin : Bool) : Bool :=
  match pexec (fun c op => c.strict op) orderAsked as with
  | some (.ok c) => ((List.range 5).map fun j => match c.a.b.slot 0 j with | .dropped => true | _ => false) == gone &&
      (c.calls[2]?.map (·.fin)) == some fin
  | _ => false

end Arc

/-- Handle 2 has the last three items, and the call is allowed. -/
example : Conf.PReach (fun c op => c.strict op = true) false (pafter orderStart) ∧ (pafter orderStart).start (.drop 2) = some orderAsked ∧
    (pafter orderStart).strict (.drop 2) = true ∧ (∃ r l, (pafter orderStart).get 2 = some ⟨.uniq r, l⟩ ∧ r.buf = 0 ∧ r.off = 2 ∧ r.len = 3) ∧
    (pafter orderStart).calls.length = 2 :=
  ⟨pexec_reach (as := orderStart) .init rfl, rfl, rfl, ⟨_, _, rfl, rfl, rfl, rfl⟩, rfl⟩

/-- In between, two of the three items are dropped (and one of the other half); in the end all are. -/
example : orderCheck orderMid [true, false, true, true, false] false = true ∧
    orderCheck (orderMid ++ [.act (.run 2 9)]) [true, false, true, true, true] true = true := ⟨by decide +kernel, by decide +kernel⟩

example : PRun (fun c op => c.strict op = true) (fun _ _ => True) orderAsked (orderThen orderMid) := by
  have h : wentWell (pexec (fun c op => c.strict op) orderAsked orderMid) = true := by decide +kernel
  unfold orderThen
  split
  · next e => exact pexec_run e
  · next hne =>
    exfalso
    revert h
    cases e : pexec (fun c op => c.strict op) orderAsked orderMid with
    | none => exact fun h => nomatch h
    | some x => cases x with
      | error u => exact fun h => nomatch h
      | ok c => exact absurd e (hne c)

end Verif
