import Verif.Rc.Inside
import Verif.Props.RcSafety
import Verif.Rc.Proofs.Within
import Verif.Rc.Proofs.WorldInv
import Verif.Rc.Proofs.Frame
/-!
# C80: the order in which items are dropped
-/

namespace Verif
open Verif.Rc
open Verif.Spec (Side Slot Family Rng Hand World Op Obs End)
variable {α : Type} {umax : Nat} {zst : Bool}

namespace Rc

/-- A drop leaves what was dropped, moved or lost before. -/
theorem taskStep_gone {h h' : Heap α} {t : Task} {new : List Task} (e : taskStep h t = .ok (h', new)) {b i : Nat}
    (hd : h.slot b i = .dropped ∨ h.slot b i = .moved) : h'.slot b i = h.slot b i := by
  have dS : ∀ {x : Nat} {h' : Heap α} {new : List Task}, dropStrong h x = .ok (h', new) → h'.slot = h.slot := by
    intro x h' new e
    simp only [dropStrong] at e
    split at e
    · cases e
    · split at e
      · cases e; rfl
      · split at e
        · cases e
        · cases e; rfl
        · obtain ⟨h1, e1, e⟩ := okb e
          obtain ⟨h2, e2, e⟩ := okb e
          cases e
          rw [(decW_c e2).2.2, (decW_c e1).2.2]; rfl
        · obtain ⟨h1, e1, e⟩ := okb e
          obtain ⟨h2, e2, e⟩ := okb e
          obtain ⟨h3, e3, e⟩ := okb e
          cases e
          rw [(decW_c e3).2.2, (decW_c e2).2.2, (decW_c e1).2.2]; rfl
        · split at e
          · cases e; rfl
          · split at e <;> cases e
            rfl
  cases t with
  | dropS x => rw [dS e]
  | dropRcSlice d i =>
    simp only [taskStep] at e
    obtain ⟨⟨h1, ts⟩, e1, e⟩ := okb e
    cases e
    rw [dS e1]
  | userCode => cases e; rfl
  | dropReg r =>
    simp only [taskStep] at e
    split at e
    · cases e; rfl
    · split at e
      · cases e
      · split at e
        · next hl =>
          cases e
          rw [setSlot_slot]
          split
          · next hb => rw [hb.1, hb.2, hl] at hd; rcases hd with hd | hd <;> cases hd
          · rfl
        · cases e

theorem taskStep_dropped {h h' : Heap α} {t : Task} {new : List Task} (e : taskStep h t = .ok (h', new)) {b i : Nat} (hd : h.slot b i = .dropped) :
    h'.slot b i = .dropped := (taskStep_gone e (.inl hd)).trans hd

/-- So does a call. -/
theorem exec_gone {s s' : State α} {w : World α} {T : List Tok} (R : Rel umax s w T) {op : Op α} {o : Obs α} {ts : List Task}
    (e : exec umax s op = .ok (s', o, ts)) {b i : Nat} (hd : s.h.slot b i = .dropped ∨ s.h.slot b i = .moved) : s'.h.slot b i = s.h.slot b i := by
  obtain ⟨s1, o1, ts1, w1, e1, R1, hm, _⟩ := exec_sim R op
  rw [e] at e1
  cases e1
  rw [← R1.core.items, ← R.core.items]
  rw [← R.core.items] at hd
  rcases hm with hm | hm
  · have := World.act_touch umax R.wf op b i
    rw [← hm] at this
    cases this with
    | same h => exact h
    | fresh e _ => rw [R.wf.fresh b i (by omega)] at hd; rcases hd with hd | hd <;> cases hd
    | write k' a a' h1 h2 h3 h4 h5 h6 => rw [h3] at hd; rcases hd with hd | hd <;> cases hd
    | move e k' a h1 h2 h3 h4 h5 => rw [h3] at hd; rcases hd with hd | hd <;> cases hd
  · cases op <;> simp only at hm
    · obtain ⟨_, h⟩ := hm; cases h; rfl
    · obtain ⟨_, h⟩ := hm; cases h; rfl
    · obtain ⟨_, _, _, h, _⟩ := hm; cases h; rfl

theorem exec_dropped {s s' : State α} {w : World α} {T : List Tok} (R : Rel umax s w T) {op : Op α} {o : Obs α} {ts : List Task}
    (e : exec umax s op = .ok (s', o, ts)) {b i : Nat} (hd : s.h.slot b i = .dropped) : s'.h.slot b i = .dropped :=
  (exec_gone R e (.inl hd)).trans hd

/-- The items of range `r` are dropped from front to back: `j` of them are dropped, the others have to be. -/
def Going (s : State α) (u : List Task) (r : Reg) (j : Nat) : Prop :=
  (∀ i, r.off ≤ i → i < r.off + j → s.h.slot r.buf i = .dropped) ∧
    ((j = r.len) ∨ j ≤ r.len ∧ ∃ l m, u = l ++ .dropReg { r with off := r.off + j, len := r.len - j } :: m)

theorem Inside.reach {st st' : State α} {ts u u' : List Task} (h : Config.Reach umax zst ⟨st, u ++ ts⟩) (w : Inside umax ts st u st' u') :
    Config.Reach umax zst ⟨st', u' ++ ts⟩ := by
  induction w with
  | now => exact h
  | next _ s ih => exact .step _ _ ih s

theorem Inside.going {st st' : State α} {ts u u' : List Task} (h : Config.Reach umax zst ⟨st, u ++ ts⟩) {r : Reg} (hg : ∃ j, Going st u r j)
    (w : Inside umax ts st u st' u') : ∃ j, Going st' u' r j := by
  induction w with
  | now => exact hg
  | @next st1 st2 t u1 u2 i s ih =>
    obtain ⟨j, h1, h2⟩ := ih
    obtain ⟨w, _, R⟩ := reach_sim (i.reach h)
    generalize hr : (Except.ok (⟨st2, u2 ++ ts⟩ : Config α) : Except UB (Config α)) = x at s
    generalize hc : (⟨st1, t :: u1 ++ ts⟩ : Config α) = c at s
    cases s with
    | call st3 ts3 op hu =>
      cases hc
      cases e : exec umax st1 op with
      | error x => rw [e] at hr; cases hr
      | ok p =>
        obtain ⟨st4, o, new⟩ := p
        rw [e] at hr
        simp only [Except.map, Except.ok.injEq, Config.mk.injEq] at hr
        obtain ⟨rfl, hr⟩ := hr
        have hr : u2 = new ++ t :: u1 := by
          have : u2 ++ ts = (new ++ t :: u1) ++ ts := by rw [hr]; simp
          exact List.append_cancel_right this
        refine ⟨j, fun i a b => exec_dropped R e (h1 i a b), h2.imp id fun ⟨hj, l, m, hl⟩ => ⟨hj, new ++ l, m, ?_⟩⟩
        rw [hr, hl, List.append_assoc]
    | task st3 t3 ts3 =>
      cases hc
      cases e : taskStep st1.h t with
      | error x => rw [e] at hr; cases hr
      | ok p =>
        obtain ⟨h4, new⟩ := p
        rw [e] at hr
        simp only [Except.map, Except.ok.injEq, Config.mk.injEq] at hr
        obtain ⟨rfl, hr⟩ := hr
        have hr : u2 = new ++ u1 := by
          have : u2 ++ ts = (new ++ u1) ++ ts := by rw [hr]; simp
          exact List.append_cancel_right this
        have h1' := fun i a b => taskStep_dropped e (h1 i a b)
        rcases h2 with h2 | ⟨hj, l, m, hl⟩
        · exact ⟨j, h1', .inl h2⟩
        · cases l with
          | cons t' l =>
            simp only [List.cons_append, List.cons.injEq] at hl
            exact ⟨j, h1', .inr ⟨hj, new ++ l, m, by rw [hr, hl.2, List.append_assoc]⟩⟩
          | nil =>
            simp only [List.nil_append, List.cons.injEq] at hl
            obtain ⟨rfl, rfl⟩ := hl
            simp only [taskStep] at e
            split at e
            · next h0 => exact ⟨j, h1', .inl (by omega)⟩
            · next h0 =>
              split at e
              · cases e
              · split at e <;> cases e
                refine ⟨j + 1, fun i a b => ?_, .inr ⟨by omega, [.userCode], u1, ?_⟩⟩
                · rw [setSlot_slot]
                  split
                  · rfl
                  · next hn =>
                    have : i ≠ r.off + j := fun h => hn ⟨rfl, h⟩
                    exact h1 i a (by omega)
                · rw [hr]
                  simp only [List.cons_append, List.nil_append, Nat.add_assoc, Nat.sub_sub]

/-- What has not been dropped is there. -/
theorem Going.live {s : State α} {u ts : List Task} {r : Reg} {j : Nat} (g : Going s u r j) (h : Config.Reach umax zst ⟨s, u ++ ts⟩) :
    j ≤ r.len ∧ (∀ i, r.off ≤ i → i < r.off + j → s.h.slot r.buf i = .dropped) ∧
      (∀ i, r.off + j ≤ i → i < r.off + r.len → ∃ a, s.h.slot r.buf i = .live a) ∧ (u = [] → j = r.len) := by
  obtain ⟨h1, h2⟩ := g
  rcases h2 with rfl | ⟨hj, l, m, rfl⟩
  · exact ⟨Nat.le_refl _, h1, fun i a b => by omega, fun _ => rfl⟩
  · obtain ⟨w, _, R⟩ := reach_sim h
    refine ⟨hj, h1, fun i a b => ?_, fun h => by simp at h⟩
    exact R.inv.reg_live (r := { r with off := r.off + j, len := r.len - j }) (by simp [Task.toks]) a (by simp only; omega)

end Rc

variable {st st' st2 : State α} {ts new u : List Task} {o : Obs α} {k b off len : Nat}

theorem Rc.drop_unique {x : Handle} (hk : st.get k = some x) (hx : ∀ d i, x ≠ .strong d i) (hr : handleRange umax st.h x = .ok (some (b, off, len)))
    (e : exec umax st (.drop k) = .ok (st', o, new)) : ∃ a, new = [.dropReg ⟨b, off, len, a⟩] := by
  simp only [exec, hk] at e
  obtain ⟨⟨h1, ts1⟩, e1, e⟩ := okb e
  cases e
  cases x with
  | strong d i => exact absurd rfl (hx d i)
  | weak d g => cases hr
  | uniq r => cases hr; cases e1; exact ⟨_, rfl⟩
  | iter r => cases hr; cases e1; exact ⟨_, rfl⟩
  | parts b' a it =>
    simp only [handleRange] at hr
    obtain ⟨r, e2, hr⟩ := okb hr
    simp only [dropHandle] at e1
    obtain ⟨r', e3, e1⟩ := okb e1
    rw [e2] at e3
    cases e3; cases hr; cases e1; exact ⟨_, rfl⟩

/-- C80: an `RcSliceMut`, an `RcSliceMutIter` or an `RcSliceMutParts` drops its items from front to back: at each moment until the drop returns, some
of them are dropped, and all that follow are alive. When it returns, all are dropped. This also holds if the destructors of items make calls, and if the drop
is made in a destructor. -/
theorem C80_unique {x : Handle} (h : Config.Reach umax zst ⟨st, ts⟩) (hu : ts = [] ∨ ts.head? = some .userCode) (hk : st.get k = some x)
    (hx : ∀ d i, x ≠ .strong d i) (hr : handleRange umax st.h x = .ok (some (b, off, len))) (e : exec umax st (.drop k) = .ok (st', o, new))
    (w : Inside umax ts st' new st2 u) :
    ∃ j, j ≤ len ∧ (∀ i, off ≤ i → i < off + j → st2.h.slot b i = .dropped) ∧ (∀ i, off + j ≤ i → i < off + len → ∃ a, st2.h.slot b i = .live a) ∧
      (u = [] → j = len) := by
  have h' : Config.Reach umax zst ⟨st', new ++ ts⟩ := .step _ _ h (by have := Config.Step.call st ts (.drop k) hu (umax := umax); rw [e] at this; exact this)
  obtain ⟨a, rfl⟩ := drop_unique hk hx hr e
  obtain ⟨j, g⟩ := w.going (r := ⟨b, off, len, a⟩) h' ⟨0, fun i a b => by simp only at a b; omega, .inr ⟨Nat.zero_le _, [], [], rfl⟩⟩
  exact ⟨j, g.live (w.reach h')⟩

/-- C80: so does a `split_into_parts` that panics. -/
theorem C80_rejected {r : Reg} {n : Nat} (h : Config.Reach umax zst ⟨st, ts⟩) (hu : ts = [] ∨ ts.head? = some .userCode) (hk : st.get k = some (.uniq r))
    (e : exec umax st (.intoParts k n) = .ok (st', .panicked, new)) (w : Inside umax ts st' new st2 u) :
    ∃ j, j ≤ r.len ∧ (∀ i, r.off ≤ i → i < r.off + j → st2.h.slot r.buf i = .dropped) ∧
      (∀ i, r.off + j ≤ i → i < r.off + r.len → ∃ a, st2.h.slot r.buf i = .live a) ∧ (u = [] → j = r.len) := by
  have h' : Config.Reach umax zst ⟨st', new ++ ts⟩ := .step _ _ h (by have := Config.Step.call st ts (.intoParts k n) hu (umax := umax); rw [e] at this; exact this)
  have key : new = [.dropReg r] := by
    simp only [exec, hk] at e
    split at e
    · split at e <;> cases e
      rfl
    · cases e
  subst key
  obtain ⟨j, g⟩ := w.going (r := r) h' ⟨0, fun i a b => by omega, .inr ⟨Nat.zero_le _, [], [], rfl⟩⟩
  exact ⟨j, g.live (w.reach h')⟩

/-- The first thing that happens. -/
theorem Rc.Inside.first {t : Task} {u1 : List Task} (w : Inside umax ts st (t :: u1) st2 u) :
    (st2 = st ∧ u = t :: u1) ∨ ∃ st1 u2, Config.Step umax ⟨st, t :: u1 ++ ts⟩ (.ok ⟨st1, u2 ++ ts⟩) ∧ Inside umax ts st1 u2 st2 u := by
  induction w with
  | now => exact .inl ⟨rfl, rfl⟩
  | next _ s ih =>
    rcases ih with ⟨rfl, h⟩ | ⟨a, c, h1, h2⟩
    · cases h
      exact .inr ⟨_, _, s, .now⟩
    · exact .inr ⟨a, c, h1, h2.next s⟩

/-- What the drop of the last handle on an `RcSlice` that has never been split does first. -/
theorem Rc.drop_shared {d i : Nat} {v : DataV} (hk : st.get k = some (.strong d i)) (hv : st.h.getData d = .ok v) (h1 : st.h.strong d = 1)
    (hn : ∀ s, v.kids s = none) (e : exec umax st (.drop k) = .ok (st', o, new)) : new = [.dropRcSlice d i] ∧
    taskStep st'.h (.dropRcSlice d i) = .ok (st'.h.kill d, [.dropReg ⟨v.buf, v.off, v.len, v.alloc⟩, .dropS i]) := by
  have key : new = [.dropRcSlice d i] ∧ st'.h = st.h := by
    simp only [exec, hk] at e
    cases e; exact ⟨rfl, rfl⟩
  obtain ⟨rfl, hh⟩ := key
  have nd : st.h.sk.node d = some (.data v) := by
    simp only [Heap.getData] at hv
    split at hv <;> cases hv
    assumption
  refine ⟨rfl, ?_⟩
  simp only [taskStep, dropStrong, hh, h1, nd, hn, DataV.dropRange]
  rfl

/-- C80: so does the last handle on an `RcSlice` that has never been split: no half of it was ever made (`kids`). -/
theorem C80_shared {d i : Nat} {v : DataV} (h : Config.Reach umax zst ⟨st, ts⟩) (hu : ts = [] ∨ ts.head? = some .userCode)
    (hk : st.get k = some (.strong d i)) (hv : st.h.getData d = .ok v) (h1 : st.h.strong d = 1) (hn : ∀ s, v.kids s = none)
    (e : exec umax st (.drop k) = .ok (st', o, new)) (w : Inside umax ts st' new st2 u) :
    ∃ j, j ≤ v.len ∧ (∀ i, v.off ≤ i → i < v.off + j → st2.h.slot v.buf i = .dropped) ∧
      (∀ i, v.off + j ≤ i → i < v.off + v.len → ∃ a, st2.h.slot v.buf i = .live a) ∧ (u = [] → j = v.len) := by
  have h' : Config.Reach umax zst ⟨st', new ++ ts⟩ := .step _ _ h (by have := Config.Step.call st ts (.drop k) hu (umax := umax); rw [e] at this; exact this)
  obtain ⟨rfl, e1⟩ := drop_shared hk hv h1 hn e
  have s1 : Config.Step umax ⟨st', .dropRcSlice d i :: ts⟩ (.ok ⟨{ st' with h := st'.h.kill d }, [.dropReg ⟨v.buf, v.off, v.len, v.alloc⟩, .dropS i] ++ ts⟩) := by
    have := Config.Step.task st' (.dropRcSlice d i) ts (umax := umax)
    rw [e1] at this
    exact this
  have r1 := Config.Reach.step _ _ h' s1
  have g1 : ∀ s : State α, Going s [.dropReg ⟨v.buf, v.off, v.len, v.alloc⟩, .dropS i] ⟨v.buf, v.off, v.len, v.alloc⟩ 0 :=
    fun s => ⟨fun i a b => by simp only at a b; omega, .inr ⟨Nat.zero_le _, [], [.dropS i], rfl⟩⟩
  rcases w.first with ⟨rfl, rfl⟩ | ⟨st3, u3, s, w⟩
  · obtain ⟨a, b, c, _⟩ := (g1 _).live r1
    exact ⟨0, a, b, c, fun h => by cases h⟩
  · generalize hr : (Except.ok (⟨st3, u3 ++ ts⟩ : Config α) : Except UB (Config α)) = x at s
    generalize hc : (⟨st', [.dropRcSlice d i] ++ ts⟩ : Config α) = c at s
    cases s with
    | call _ _ op hu => cases hc; rcases hu with hu | hu <;> simp at hu
    | task st4 t4 ts4 =>
      cases hc
      rw [e1] at hr
      simp only [Except.map, Except.ok.injEq, Config.mk.injEq] at hr
      obtain ⟨rfl, hr⟩ := hr
      cases List.append_cancel_right hr
      obtain ⟨j, g⟩ := w.going r1 ⟨0, g1 _⟩
      exact ⟨j, g.live (w.reach r1)⟩

/-! ## Programs that meet the hypotheses -/

/-- What a call does, with calls that destructors make: `none` performs a pending drop. -/
def Rc.inner (umax : Nat) : State α → List Task → List (Option (Op α)) → Option (State α × List Task)
  | st, u, [] => some (st, u)
  | st, t :: u, none :: l =>
    match taskStep st.h t with
    | .ok (h, new) => inner umax { st with h } (new ++ u) l
    | .error _ => none
  | st, .userCode :: u, some op :: l =>
    match exec umax st op with
    | .ok (st, _, new) => inner umax st (new ++ .userCode :: u) l
    | .error _ => none
  | _, _, _ => none

theorem Rc.inner_ok : ∀ {l : List (Option (Op α))} {st0 st st' : State α} {u0 u u' : List Task}, Inside umax [] st0 u0 st u →
    inner umax st u l = some (st', u') → Inside umax [] st0 u0 st' u'
  | [], _, _, _, _, _, _, w, e => by simp only [inner] at e; cases e; exact w
  | none :: l, _, st, _, _, t :: u, _, w, e => by
    simp only [inner] at e
    split at e
    · next h new e1 =>
      refine inner_ok (w.next ?_) e
      have := Config.Step.task st t (u ++ []) (umax := umax)
      rw [e1] at this
      simpa [Except.map] using this
    · cases e
  | none :: l, _, st, _, _, [], _, w, e => by simp [inner] at e
  | some op :: l, _, st, _, _, u, _, w, e => by
    cases u with
    | nil => simp [inner] at e
    | cons t u =>
      cases t with
      | userCode =>
        simp only [inner] at e
        split at e
        · next st1 o new e1 =>
          refine inner_ok (w.next ?_) e
          have := Config.Step.call st (.userCode :: u ++ []) op (.inr rfl) (umax := umax)
          rw [e1] at this
          simpa [Except.map] using this
        · cases e
      | _ => simp [inner] at e

/-- `C80_unique`: the destructor of the first item drops another handle; then the second item is dropped. -/
example : ∃ (st st' st2 : State Nat) (new u : List Task), Config.Reach 100 false ⟨st, []⟩ ∧ (∃ x, st.get 0 = some x ∧ (∀ d i, x ≠ .strong d i) ∧
    handleRange 100 st.h x = .ok (some (0, 0, 3))) ∧ exec 100 st (.drop 0) = .ok (st', .done, new) ∧ Inside 100 [] st' new st2 u ∧ u ≠ [] ∧
    st2.h.slot 0 0 = .dropped ∧ st2.h.slot 0 1 = .dropped ∧ st2.h.slot 0 2 = .live 3 ∧ st2.h.slot 1 0 = .dropped := by
  refine ⟨_, _, _, _, _, follow_reach [some (.mutNew [1, 2, 3]), some (.rcNew [7])] .init (by rfl), ⟨_, rfl, ?_, rfl⟩, rfl,
    inner_ok (l := [none, some (.drop 1), none, none, none, none, none, none, none, none, none]) .now (by rfl), ?_, by rfl, by rfl, by rfl, by rfl⟩
  · intro d i h; cases h
  · intro h; cases h

/-- `C80_shared`: the first item has been dropped. -/
example : ∃ (st st' st2 : State Nat) (new u : List Task) (d i : Nat) (v : DataV), Config.Reach 100 false ⟨st, []⟩ ∧ st.get 0 = some (.strong d i) ∧
    st.h.getData d = .ok v ∧ st.h.strong d = 1 ∧ (∀ s, v.kids s = none) ∧ exec 100 st (.drop 0) = .ok (st', .done, new) ∧ Inside 100 [] st' new st2 u ∧
    st2.h.slot 0 0 = .dropped ∧ st2.h.slot 0 1 = .live 2 :=
  ⟨_, _, _, _, _, _, _, _, follow_reach [some (.rcNew [1, 2])] .init (by rfl), rfl, rfl, rfl, fun _ => rfl, rfl,
    inner_ok (l := [none, none]) .now (by rfl), by rfl, by rfl⟩

/-- `C80_rejected`. -/
example : ∃ (st st' st2 : State Nat) (new u : List Task) (r : Reg), Config.Reach 100 false ⟨st, []⟩ ∧ st.get 0 = some (.uniq r) ∧
    exec 100 st (.intoParts 0 0) = .ok (st', .panicked, new) ∧ Inside 100 [] st' new st2 u ∧ st2.h.slot 0 0 = .dropped ∧ st2.h.slot 0 1 = .live 2 :=
  ⟨_, _, _, _, _, _, follow_reach [some (.mutNew [1, 2])] .init (by rfl), rfl, rfl, inner_ok (l := [none]) .now (by rfl), by rfl, by rfl⟩

/-- Does this happen? -/
def splitCheck : Bool :=
  match follow 100 (Config.init false) [some (.rcNew [1, 2]), some (.cloneSide .R 0), some (.drop 1), none, none, none, none, none] with
  | .ok ⟨st, []⟩ =>
    match st.hs, exec 100 st (.drop 0) with
    | [some (.strong _ _), none], .ok (st', .done, new) =>
      match inner 100 st' new [none, none, none] with
      | some (st2, _) => st2.h.slot 0 0 = .live 1 ∧ st2.h.slot 0 1 = .dropped
      | none => false
    | _, _ => false
  | _ => false

/-- C80 is false of an `RcSlice` whose right half was taken, even if that is gone by now: the right half is dropped first. -/
theorem C80_split_fails : ∃ (st st' st2 : State Nat) (new u : List Task), Config.Reach 100 false ⟨st, []⟩ ∧ (∃ d i, st.hs = [some (.strong d i), none]) ∧
    exec 100 st (.drop 0) = .ok (st', .done, new) ∧ Inside 100 [] st' new st2 u ∧ st2.h.slot 0 0 = .live 1 ∧ st2.h.slot 0 1 = .dropped := by
  have h : splitCheck = true := by decide +kernel
  unfold splitCheck at h
  split at h
  · next st e1 =>
    split at h
    · next d i st' new hs e2 =>
      split at h
      · next st2 u e3 => exact ⟨st, st', st2, new, u, follow_reach _ .init e1, ⟨d, i, hs⟩, e2, inner_ok .now e3, by simpa using h⟩
      · cases h
    · cases h
  · cases h

end Verif
