import Verif.Rc.Proofs.Within
import Verif.Props.RcUnwind
/-!
# C73: which calls run the destructors of items

`RcSlice`s drop items only where handles are dropped. In particular no other call panics because the destructor of an item does, and none is re-entered from one.
-/

namespace Verif
open Verif.Rc
open Verif.Spec (Side Slot Family Rng Hand World Op Obs End)
variable {α : Type} {umax : Nat} {zst : Bool} {st st' : State α} {ts new : List Task} {op : Op α} {o : Obs α}

theorem C73_call (h : Config.PReach umax zst ⟨st, ts⟩) (hu : ts = [] ∨ ts.head? = some .userCode) (e : exec umax st op = .ok (st', o, new))
    {h2 : Heap α} {ts2 : List Task} (w : Within st'.h new h2 ts2) (hq : Rc.Op.tidy st op) : .userCode ∉ ts2 ∧ h2.slot = st'.h.slot := by
  obtain ⟨_, _, R⟩ := preach_sim h
  have h' : Config.PReach umax zst ⟨st', new ++ ts⟩ := .step _ _ h (.step _ _ (by have := Config.Step.call st ts op hu (umax := umax); rw [e] at this; exact this))
  exact exec_within R.inv h'.shape (exec_ev R.inv h.hist.1 e).kind e hq w

theorem not_tidy (hq : ¬ Rc.Op.tidy st op) :
    (∃ k x, op = .drop k ∧ st.get k = some x ∧ ∀ d g, x ≠ .weak d g) ∨ ∃ k n, op = .intoParts k n := by
  cases op with
  | drop k =>
    simp only [Rc.Op.tidy, Classical.not_forall, not_exists] at hq
    obtain ⟨x, hx, hq⟩ := hq
    exact .inl ⟨k, x, rfl, hx, hq⟩
  | intoParts k n => exact .inr ⟨k, n, rfl⟩
  | _ => exact absurd trivial hq

/-- C73: if the destructor of an item runs within a call, then the call is the drop of a handle that is not a `WeakSlice`, or `split_into_parts` of an `RcSliceMut` (which
takes it by value, and panics if the number of parts is wrong). This also holds of calls that are made in a destructor, and after destructors have panicked. -/
theorem C73_where (h : Config.PReach umax zst ⟨st, ts⟩) (hu : ts = [] ∨ ts.head? = some .userCode) (e : exec umax st op = .ok (st', o, new))
    {h2 : Heap α} {ts2 : List Task} (w : Within st'.h new h2 ts2) (hm : .userCode ∈ ts2) :
    (∃ k x, op = .drop k ∧ st.get k = some x ∧ ∀ d g, x ≠ .weak d g) ∨ ∃ k n, op = .intoParts k n := by
  by_cases hq : Rc.Op.tidy st op
  · exact absurd hm (C73_call h hu e w hq).1
  · exact not_tidy hq

/-- C73: … and no other call drops an item. -/
theorem C73_drops (h : Config.PReach umax zst ⟨st, ts⟩) (hu : ts = [] ∨ ts.head? = some .userCode) (e : exec umax st op = .ok (st', o, new))
    {h2 : Heap α} {ts2 : List Task} (w : Within st'.h new h2 ts2) {b j : Nat} {x : α} (h1 : st.h.slot b j = .live x) (h3 : h2.slot b j = .dropped) :
    (∃ k x, op = .drop k ∧ st.get k = some x ∧ ∀ d g, x ≠ .weak d g) ∨ ∃ k n, op = .intoParts k n := by
  by_cases hq : Rc.Op.tidy st op
  · rw [(C73_call h hu e w hq).2] at h3
    obtain ⟨ww, _, R⟩ := preach_sim h
    obtain ⟨s', o', ts', w', e', R', hm, _⟩ := exec_sim R op
    have e' : exec umax st op = _ := e'
    rw [e] at e'
    cases e'
    rw [← R'.core.items] at h3
    exact absurd h3 (may_items hm (x := x) (by rw [R.core.items]; exact h1))
  · exact not_tidy hq

/-- C73: `split_into_parts` does so only if it panics. -/
theorem C73_parts {k n : Nat} (e : exec umax st (.intoParts k n) = .ok (st', o, new)) (hn : new ≠ []) : o = .panicked := by
  simp only [exec] at e
  split at e
  · split at e
    · split at e <;> cases e
      · exact absurd rfl hn
      · rfl
    · cases e; exact absurd rfl hn
  · cases e; exact absurd rfl hn

/-! ## Programs that meet the hypotheses -/

namespace Rc

/-- Do the drops a call has left to do. -/
def within : Nat → Heap α → List Task → Option (Heap α × List Task)
  | 0, h, ts => some (h, ts)
  | n + 1, h, t :: ts =>
    match taskStep h t with
    | .ok (h1, new) => within n h1 (new ++ ts)
    | .error _ => none
  | _ + 1, _, [] => none

theorem within_ok : ∀ {n : Nat} {h h' : Heap α} {ts ts' : List Task}, within n h ts = some (h', ts') → Within h ts h' ts'
  | 0, _, _, _, _, e => by cases e; exact .now ..
  | n + 1, h, _, [], _, e => by cases e
  | n + 1, h, _, t :: ts, _, e => by
    simp only [within] at e
    split at e
    · next e1 => exact .next e1 (within_ok e)
    · cases e

end Rc

/-- The items after `n` drops done within a call, and what is left to drop. -/
def withinCall (l : List (PAct Nat)) (op : Op Nat) (n : Nat) : Option (List (Slot Nat) × List Task) :=
  (followP 100 (Config.init false) l).bind fun c =>
    match exec 100 c.st op with
    | .ok (st, _, new) => (within n st.h new).map fun r => ((List.range 4).map (r.1.slot 0), r.2)
    | .error _ => none

/-- Non-vacuity: `split_off_left` of the only `RcSlice`: the `RcSliceData` it stood for, and its guard, are dropped, but none of the items. -/
example : ∃ st ts st' o new h2, Config.PReach 100 false ⟨st, ts⟩ ∧ (ts = [] ∨ ts.head? = some .userCode) ∧
    exec 100 st (.splitOff .L 0) = .ok (st', o, new) ∧ Within st'.h new h2 [] ∧ (st.h.sk.node 1).isSome = true ∧ h2.sk.node 1 = none ∧ st.h.slot 0 3 = .live (4 : Nat) ∧ h2.slot 0 3 = .live 4 := by
  refine ⟨_, _, _, _, _, _, followP_reach [.op (.rcNew [1, 2, 3, 4])] .init (by rfl), .inl rfl, by rfl, within_ok (n := 6) (by rfl), by rfl, by rfl, by rfl, by rfl⟩

/-- The drop of the only `RcSlice` does run destructors. -/
example : withinCall [.op (.rcNew [1, 2, 3, 4])] (.drop 0) 2 =
    some ([.dropped, .live 2, .live 3, .live 4], [.userCode, .dropReg ⟨0, 1, 3, some 0⟩, .dropS 3]) := by rfl

/-- So does a `split_into_parts` that fails. -/
example : withinCall [.op (.mutNew [1, 2, 3, 4])] (.intoParts 0 3) 1 = some ([.dropped, .live 2, .live 3, .live 4], [.userCode, .dropReg ⟨0, 1, 3, some 0⟩]) := by decide +kernel

end Verif
