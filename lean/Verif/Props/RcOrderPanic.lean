import Verif.Props.RcOrder
import Verif.Props.RcUnwind
/-!
# C80: the order in which items are dropped if destructors panic
-/

namespace Verif
open Verif.Rc
open Verif.Spec (Side Slot Family Rng Hand World Op Obs End)
variable {α : Type} {umax : Nat} {zst : Bool}

namespace Rc

theorem Unwinds.moved {h h' : Heap α} {ts ts' : List Task} (u : Unwinds h ts h' ts') {b i : Nat} (hm : h.slot b i = .moved) : h'.slot b i = .moved := by
  induction u with
  | caught => exact hm
  | destructor _ _ _ _ _ _ ih => exact ih hm
  | field _ _ _ _ _ _ ih => exact ih hm
  | slice _ _ _ _ _ _ _ ih => exact ih hm
  | node h h' r ts ts' u ih =>
    refine ih ?_
    show (if b = r.buf ∧ r.off ≤ i ∧ i < r.off + r.len then Slot.moved else h.slot b i) = .moved
    split
    · rfl
    · exact hm

/-- A range that has to be dropped still has to be after a panic, or it is lost. -/
theorem Unwinds.range {h h' : Heap α} {ts ts' : List Task} (u : Unwinds h ts h' ts') {q : Reg} (hq : .dropReg q ∈ ts) :
    .dropReg q ∈ ts' ∨ ∀ i, q.off ≤ i → i < q.off + q.len → h'.slot q.buf i = .moved := by
  induction u with
  | caught => exact .inl hq
  | destructor h h' r ts ts' u ih =>
    rcases List.mem_cons.1 hq with hq | hq
    · cases hq
    rcases List.mem_cons.1 hq with hq | hq
    · cases hq; exact .inl (List.mem_cons_self ..)
    · exact (ih hq).imp (List.mem_cons_of_mem _) id
  | field h h' x ts ts' u ih =>
    rcases List.mem_cons.1 hq with hq | hq
    · cases hq
    · exact (ih hq).imp (List.mem_cons_of_mem _) id
  | slice h h' d i ts ts' u ih =>
    rcases List.mem_cons.1 hq with hq | hq
    · cases hq
    · exact (ih hq).imp (List.mem_cons_of_mem _) id
  | node h h' r ts ts' u ih =>
    rcases List.mem_cons.1 hq with hq | hq
    · cases hq
      exact .inr fun i h1 h2 => u.moved (if_pos ⟨rfl, h1, h2⟩)
    · exact (ih hq).imp (List.mem_cons_of_mem _) id

/-- The items of range `r` are dropped from front to back: `j` of them are dropped, the others have to be, or are lost (which is allowed
if `L`). -/
def Going' (L : Prop) (c : Config α) (r : Reg) (j : Nat) : Prop :=
  j ≤ r.len ∧ (∀ i, r.off ≤ i → i < r.off + j → c.st.h.slot r.buf i = .dropped) ∧
    (j = r.len ∨ .dropReg { r with off := r.off + j, len := r.len - j } ∈ c.tasks ∨
      L ∧ ∀ i, r.off + j ≤ i → i < r.off + r.len → c.st.h.slot r.buf i = .moved)

/-- Nothing that happens elsewhere matters. -/
theorem Going'.other {L : Prop} {c c' : Config α} {r : Reg} {j : Nat} (g : Going' L c r j)
    (hd : ∀ b i, c.st.h.slot b i = .dropped ∨ c.st.h.slot b i = .moved → c'.st.h.slot b i = c.st.h.slot b i)
    (hc : .dropReg { r with off := r.off + j, len := r.len - j } ∈ c.tasks →
      .dropReg { r with off := r.off + j, len := r.len - j } ∈ c'.tasks ∨ L ∧ ∀ i, r.off + j ≤ i → i < r.off + r.len → c'.st.h.slot r.buf i = .moved) :
    Going' L c' r j := by
  obtain ⟨h1, h2, h3⟩ := g
  refine ⟨h1, fun i a b => (hd _ _ (.inl (h2 i a b))).trans (h2 i a b), h3.imp id fun h3 => ?_⟩
  rcases h3 with h3 | h3
  · exact hc h3
  · exact .inr ⟨h3.1, fun i a b => (hd _ _ (.inr (h3.2 i a b))).trans (h3.2 i a b)⟩

theorem Going'.step {L : Prop} {c c' : Config α} (h : Config.PReach umax zst c) (s : Config.Step umax c (.ok c')) {r : Reg} {j : Nat} (g : Going' L c r j) :
    ∃ j, Going' L c' r j := by
  obtain ⟨w, _, R⟩ := preach_sim h
  generalize hr : (Except.ok c' : Except UB (Config α)) = x at s
  cases s with
  | call st ts op hu =>
    cases e : exec umax st op with
    | error x => rw [e] at hr; cases hr
    | ok p =>
      obtain ⟨st4, o, new⟩ := p
      rw [e] at hr
      cases hr
      exact ⟨j, g.other (fun b i hd => exec_gone R e hd) fun hm => .inl (List.mem_append_right _ hm)⟩
  | task st t ts =>
    cases e : taskStep st.h t with
    | error x => rw [e] at hr; cases hr
    | ok p =>
      obtain ⟨h4, new⟩ := p
      rw [e] at hr
      cases hr
      have hg := fun b i hd => taskStep_gone (b := b) (i := i) e hd
      by_cases ht : t = .dropReg { r with off := r.off + j, len := r.len - j }
      · subst ht
        obtain ⟨h1, h2, h3⟩ := g
        have h2' := fun i a b => (hg _ _ (.inl (h2 i a b))).trans (h2 i a b)
        simp only [taskStep] at e
        split at e
        · next h0 => exact ⟨j, h1, h2', .inl (by omega)⟩
        · next h0 =>
          split at e
          · cases e
          · split at e <;> cases e
            refine ⟨j + 1, by omega, fun i a b => ?_, .inr (.inl ?_)⟩
            · show (st.h.setSlot r.buf (r.off + j) .dropped).slot r.buf i = .dropped
              rw [setSlot_slot]
              split
              · rfl
              · next hn =>
                have : i ≠ r.off + j := fun h => hn ⟨rfl, h⟩
                exact h2 i a (by omega)
            · simp [Nat.add_assoc, Nat.sub_sub]
      · refine ⟨j, g.other hg fun hm => .inl (List.mem_append_right _ ?_)⟩
        rcases List.mem_cons.1 hm with hm | hm
        · exact absurd hm.symm ht
        · exact hm

theorem panic_gone {st : State α} {q : Reg} {ts ts' : List Task} {h' : Heap α} (h : Config.PReach umax zst ⟨st, .userCode :: .dropReg q :: ts⟩)
    (u : Unwinds st.h ts h' ts') {b i : Nat} (hd : st.h.slot b i = .dropped ∨ st.h.slot b i = .moved) : h'.slot b i = st.h.slot b i := by
  obtain ⟨w, _, R⟩ := preach_sim h
  obtain ⟨w', R', hl, _⟩ := panic_sim R u
  have h1 := hl.items b i
  rw [R.core.items, R'.core.items] at h1
  rcases h1 with h1 | ⟨⟨a, h1⟩, _⟩
  · exact h1
  · simp only at h1; rw [h1] at hd; rcases hd with hd | hd <;> cases hd

theorem Going'.pstep {c c' : Config α} (h : Config.PReach umax zst c) (s : Config.PStep umax c (.ok c')) {r : Reg} {j : Nat} (g : Going' True c r j) :
    ∃ j, Going' True c' r j := by
  generalize hr : (Except.ok c' : Except UB (Config α)) = x at s
  cases s with
  | step _ _ s => subst hr; exact g.step h s
  | panic st h' q ts ts' u =>
    cases hr
    refine ⟨j, g.other (fun b i hd => panic_gone h u hd) fun hm => ?_⟩
    rcases List.mem_cons.1 hm with hm | hm
    · cases hm
    rcases List.mem_cons.1 hm with hm | hm
    · cases hm; exact .inl (List.mem_cons_self ..)
    · refine (u.range hm).imp (List.mem_cons_of_mem _) fun h1 => ⟨trivial, fun i a b => h1 i a ?_⟩
      have := g.1
      simp only; omega

theorem Later.going {c c' : Config α} (l : Later umax c c') (h : Config.PReach umax zst c) {r : Reg} {j : Nat} (g : Going' True c r j) :
    Config.PReach umax zst c' ∧ ∃ j, Going' True c' r j := by
  induction l with
  | now => exact ⟨h, j, g⟩
  | next _ s ih => obtain ⟨h1, j, g⟩ := ih; exact ⟨.step _ _ h1 s, g.pstep h1 s⟩

/-- As long as no destructor has panicked, a range is being dropped at once, or after the destructor of an item of it. -/
def Front (c : Config α) (r : Reg) (j : Nat) : Prop :=
  j ≤ r.len ∧ (∀ i, r.off ≤ i → i < r.off + j → c.st.h.slot r.buf i = .dropped) ∧
    (j = r.len ∨ ∃ l m, c.tasks = l ++ .dropReg { r with off := r.off + j, len := r.len - j } :: m ∧ (l = [] ∨ ∃ l', l = l' ++ [.userCode]))

theorem Front.step {c c' : Config α} (h : Config.PReach umax zst c) (s : Config.Step umax c (.ok c')) {r : Reg} {j : Nat} (g : Front c r j) :
    ∃ j, Front c' r j := by
  obtain ⟨w, _, R⟩ := preach_sim h
  obtain ⟨h1, h2, h3⟩ := g
  generalize hr : (Except.ok c' : Except UB (Config α)) = x at s
  cases s with
  | call st ts op hu =>
    cases e : exec umax st op with
    | error x => rw [e] at hr; cases hr
    | ok p =>
      obtain ⟨st4, o, new⟩ := p
      rw [e] at hr
      cases hr
      refine ⟨j, h1, fun i a b => exec_dropped R e (h2 i a b), h3.imp id fun ⟨l, m, h4, h5⟩ => ⟨new ++ l, m, ?_, ?_⟩⟩
      · simp only at h4 ⊢; rw [h4, List.append_assoc]
      · rcases h5 with rfl | ⟨l', rfl⟩
        · simp only [List.nil_append] at h4
          rw [h4] at hu
          rcases hu with hu | hu <;> cases hu
        · exact .inr ⟨new ++ l', by rw [List.append_assoc]⟩
  | task st t ts =>
    cases e : taskStep st.h t with
    | error x => rw [e] at hr; cases hr
    | ok p =>
      obtain ⟨h4, new⟩ := p
      rw [e] at hr
      cases hr
      have h2' := fun i a b => taskStep_dropped e (h2 i a b)
      rcases h3 with h3 | ⟨l, m, h5, h6⟩
      · exact ⟨j, h1, h2', .inl h3⟩
      · simp only at h5
        cases l with
        | cons t' l =>
          simp only [List.cons_append, List.cons.injEq] at h5
          obtain ⟨rfl, rfl⟩ := h5
          rcases h6 with h6 | ⟨l', h6⟩
          · cases h6
          · cases l' with
            | nil =>
              simp only [List.nil_append, List.cons.injEq] at h6
              obtain ⟨rfl, rfl⟩ := h6
              cases e
              exact ⟨j, h1, h2', .inr ⟨[], m, rfl, .inl rfl⟩⟩
            | cons y l' =>
              simp only [List.cons_append, List.cons.injEq] at h6
              obtain ⟨_, rfl⟩ := h6
              exact ⟨j, h1, h2', .inr ⟨new ++ (l' ++ [.userCode]), m, by simp, .inr ⟨new ++ l', by simp⟩⟩⟩
        | nil =>
          simp only [List.nil_append, List.cons.injEq] at h5
          obtain ⟨rfl, rfl⟩ := h5
          simp only [taskStep] at e
          split at e
          · next h0 => exact ⟨j, h1, h2', .inl (by omega)⟩
          · next h0 =>
            split at e
            · cases e
            · split at e <;> cases e
              refine ⟨j + 1, by omega, fun i a b => ?_, .inr ⟨[.userCode], ts, ?_, .inr ⟨[], rfl⟩⟩⟩
              · show (st.h.setSlot r.buf (r.off + j) .dropped).slot r.buf i = .dropped
                rw [setSlot_slot]
                split
                · rfl
                · next hn =>
                  have : i ≠ r.off + j := fun h => hn ⟨rfl, h⟩
                  exact h2 i a (by omega)
              · simp only [List.cons_append, List.nil_append, Nat.add_assoc, Nat.sub_sub]

/-- The first panic leaves the range to be dropped. -/
theorem Unwinds.keeps {h h' : Heap α} {ts ts' : List Task} (u : Unwinds h ts h' ts') {q : Reg} : ∀ {l m : List Task},
    ts = l ++ .userCode :: .dropReg q :: m → .dropReg q ∈ ts' := by
  induction u with
  | caught => intro l m e; rw [e]; simp
  | destructor h h' r ts ts' u ih =>
    intro l m e
    match l with
    | [] => cases e; exact List.mem_cons_self ..
    | [x] => cases e
    | x :: y :: l =>
      simp only [List.cons_append, List.cons.injEq] at e
      exact List.mem_cons_of_mem _ (ih e.2.2)
  | field h h' x ts ts' u ih | slice h h' d i ts ts' u ih | node h h' r ts ts' u ih =>
    intro l m e
    cases l with
    | nil => cases e
    | cons x l =>
      simp only [List.cons_append, List.cons.injEq] at e
      exact List.mem_cons_of_mem _ (ih e.2)

theorem Front.panic {st : State α} {q r : Reg} {ts ts' : List Task} {h' : Heap α} {j : Nat} (h : Config.PReach umax zst ⟨st, .userCode :: .dropReg q :: ts⟩)
    (u : Unwinds st.h ts h' ts') (g : Front ⟨st, .userCode :: .dropReg q :: ts⟩ r j) : Going' False ⟨{ st with h := h' }, .dropReg q :: ts'⟩ r j := by
  obtain ⟨h1, h2, h3⟩ := g
  refine ⟨h1, fun i a b => (panic_gone h u (.inl (h2 i a b))).trans (h2 i a b), h3.imp id fun ⟨l, m, h4, h5⟩ => .inl ?_⟩
  rcases h5 with rfl | ⟨l', rfl⟩
  · cases h4
  · match l' with
    | [] => cases h4; exact List.mem_cons_self ..
    | [x] => cases h4
    | x :: y :: l =>
      simp only [List.cons_append, List.cons.injEq, List.append_assoc, List.nil_append] at h4
      exact List.mem_cons_of_mem _ (u.keeps h4.2.2)

theorem NoPanic.front {c c' : Config α} (l : NoPanic umax c c') (h : Config.PReach umax zst c) {r : Reg} {j : Nat} (g : Front c r j) :
    Config.PReach umax zst c' ∧ ∃ j, Front c' r j := by
  induction l with
  | now => exact ⟨h, j, g⟩
  | next _ s ih => obtain ⟨h1, j, g⟩ := ih; exact ⟨.step _ _ h1 (.step _ _ s), g.step h1 s⟩

theorem NoPanic.going {L : Prop} {c c' : Config α} (l : NoPanic umax c c') (h : Config.PReach umax zst c) {r : Reg} {j : Nat} (g : Going' L c r j) :
    Config.PReach umax zst c' ∧ ∃ j, Going' L c' r j := by
  induction l with
  | now => exact ⟨h, j, g⟩
  | next _ s ih => obtain ⟨h1, j, g⟩ := ih; exact ⟨.step _ _ h1 (.step _ _ s), g.step h1 s⟩

end Rc

variable {st st' : State α} {ts new : List Task} {o : Obs α} {k b off len : Nat} {c : Config α}

/-- The result of `Going'`. -/
theorem Rc.Going'.live {L : Prop} {r : Reg} {j : Nat} (h : Config.PReach umax zst c) (g : Going' L c r j) :
    j ≤ r.len ∧ (∀ i, r.off ≤ i → i < r.off + j → c.st.h.slot r.buf i = .dropped) ∧
      ((∀ i, r.off + j ≤ i → i < r.off + r.len → ∃ a, c.st.h.slot r.buf i = .live a) ∧ (c.tasks = [] → j = r.len) ∨
        L ∧ ∀ i, r.off + j ≤ i → i < r.off + r.len → c.st.h.slot r.buf i = .moved) := by
  obtain ⟨h3, h4, h5⟩ := g
  refine ⟨h3, h4, ?_⟩
  rcases h5 with h5 | h5 | h5
  · exact .inl ⟨fun i a b => by omega, fun _ => h5⟩
  · refine .inl ⟨fun i h6 h7 => ?_, fun h6 => by rw [h6] at h5; cases h5⟩
    obtain ⟨w, _, R⟩ := preach_sim h
    refine R.inv.reg_live (r := { r with off := r.off + j, len := r.len - j }) ?_ h6 (by simp only; omega)
    exact List.mem_append_right _ (List.mem_flatMap.2 ⟨_, h5, by simp [Task.toks]⟩)
  · exact .inr h5

/-- C80: the items of an `RcSliceMut`, an `RcSliceMutIter` or an `RcSliceMutParts` that is dropped are dropped from front to back, even if some of
their destructors, or any others, panic: at all times some of them are dropped, and all that follow are alive, or all that follow are lost. When nothing is left
to do, none are alive. (They are lost only if a panic leads to a panic, upon which programs abort.) -/
theorem C80_panic {x : Handle} (h : Config.PReach umax zst ⟨st, ts⟩) (hu : ts = [] ∨ ts.head? = some .userCode) (hk : st.get k = some x)
    (hx : ∀ d i, x ≠ .strong d i) (hr : handleRange umax st.h x = .ok (some (b, off, len))) (e : exec umax st (.drop k) = .ok (st', o, new))
    (l : Later umax ⟨st', new ++ ts⟩ c) :
    ∃ j, j ≤ len ∧ (∀ i, off ≤ i → i < off + j → c.st.h.slot b i = .dropped) ∧
      ((∀ i, off + j ≤ i → i < off + len → ∃ a, c.st.h.slot b i = .live a) ∧ (c.tasks = [] → j = len) ∨
        ∀ i, off + j ≤ i → i < off + len → c.st.h.slot b i = .moved) := by
  have h' : Config.PReach umax zst ⟨st', new ++ ts⟩ :=
    .step _ _ h (.step _ _ (by have := Config.Step.call st ts (.drop k) hu (umax := umax); rw [e] at this; exact this))
  obtain ⟨a, rfl⟩ := drop_unique hk hx hr e
  obtain ⟨h2, j, g⟩ := l.going (r := ⟨b, off, len, a⟩) (j := 0) h'
    ⟨Nat.zero_le _, fun i a b => by simp only at a b; omega, .inr (.inl (List.mem_cons_self ..))⟩
  obtain ⟨h3, h4, h5⟩ := g.live h2
  exact ⟨j, h3, h4, h5.imp id fun h5 => h5.2⟩

/-- C80: if one destructor panics, be it that of an item of the slice, or of an item that one of those drops, none are lost: at all times some are dropped, and all that
follow are alive. When nothing is left to do, all are dropped. -/
theorem C80_one_panic {x : Handle} {st1 : State α} {q : Reg} {h1 : Heap α} {ts1 ts2 : List Task} (h : Config.PReach umax zst ⟨st, ts⟩)
    (hu : ts = [] ∨ ts.head? = some .userCode) (hk : st.get k = some x)
    (hx : ∀ d i, x ≠ .strong d i) (hr : handleRange umax st.h x = .ok (some (b, off, len))) (e : exec umax st (.drop k) = .ok (st', o, new))
    (l : NoPanic umax ⟨st', new ++ ts⟩ ⟨st1, .userCode :: .dropReg q :: ts1⟩) (p : Unwinds st1.h ts1 h1 ts2)
    (l' : NoPanic umax ⟨{ st1 with h := h1 }, .dropReg q :: ts2⟩ c) :
    ∃ j, j ≤ len ∧ (∀ i, off ≤ i → i < off + j → c.st.h.slot b i = .dropped) ∧
      (∀ i, off + j ≤ i → i < off + len → ∃ a, c.st.h.slot b i = .live a) ∧ (c.tasks = [] → j = len) := by
  have h' : Config.PReach umax zst ⟨st', new ++ ts⟩ :=
    .step _ _ h (.step _ _ (by have := Config.Step.call st ts (.drop k) hu (umax := umax); rw [e] at this; exact this))
  obtain ⟨a, rfl⟩ := drop_unique hk hx hr e
  obtain ⟨h2, j1, g1⟩ := l.front (r := ⟨b, off, len, a⟩) (j := 0) h'
    ⟨Nat.zero_le _, fun i a b => by simp only at a b; omega, .inr ⟨[], ts, rfl, .inl rfl⟩⟩
  obtain ⟨h3, j, g⟩ := l'.going (.step _ _ h2 (.panic st1 h1 q ts1 ts2 p)) (g1.panic h2 p)
  obtain ⟨h4, h5, h6⟩ := g.live h3
  rcases h6 with h6 | ⟨h6, _⟩
  · exact ⟨j, h4, h5, h6⟩
  · exact h6.elim

theorem Rc.Later.first {c0 : Config α} (l : Later umax c0 c) : c = c0 ∨ ∃ c1, Config.PStep umax c0 (.ok c1) ∧ Later umax c1 c := by
  induction l with
  | now => exact .inl rfl
  | next _ s ih =>
    rcases ih with rfl | ⟨c1, h1, h2⟩
    · exact .inr ⟨_, s, .now⟩
    · exact .inr ⟨c1, h1, h2.next s⟩

theorem Rc.NoPanic.first {c0 : Config α} (l : NoPanic umax c0 c) : c = c0 ∨ ∃ c1, Config.Step umax c0 (.ok c1) ∧ NoPanic umax c1 c := by
  induction l with
  | now => exact .inl rfl
  | next _ s ih =>
    rcases ih with rfl | ⟨c1, h1, h2⟩
    · exact .inr ⟨_, s, .now⟩
    · exact .inr ⟨c1, h1, h2.next s⟩

/-- A pending drop that is not the return of a destructor is all that can happen next. -/
theorem Rc.step_slice {d i : Nat} {h1 : Heap α} {c1 : Config α} (s : Config.Step umax ⟨st, .dropRcSlice d i :: ts⟩ (.ok c1))
    (e : taskStep st.h (.dropRcSlice d i) = .ok (h1, new)) : c1 = ⟨{ st with h := h1 }, new ++ ts⟩ := by
  generalize hr : (Except.ok c1 : Except UB (Config α)) = x at s
  cases s with
  | call _ _ op hu => rcases hu with hu | hu <;> simp at hu
  | task =>
    rw [e] at hr
    cases hr; rfl

/-- C80: what `C80_panic` says of the last handle on an `RcSlice` that has never been split. -/
theorem C80_shared_panic {d i : Nat} {v : DataV} (h : Config.PReach umax zst ⟨st, ts⟩) (hu : ts = [] ∨ ts.head? = some .userCode)
    (hk : st.get k = some (.strong d i)) (hv : st.h.getData d = .ok v) (h1 : st.h.strong d = 1) (hn : ∀ s, v.kids s = none)
    (e : exec umax st (.drop k) = .ok (st', o, new)) (l : Later umax ⟨st', new ++ ts⟩ c) :
    ∃ j, j ≤ v.len ∧ (∀ i, v.off ≤ i → i < v.off + j → c.st.h.slot v.buf i = .dropped) ∧
      ((∀ i, v.off + j ≤ i → i < v.off + v.len → ∃ a, c.st.h.slot v.buf i = .live a) ∧ (c.tasks = [] → j = v.len) ∨
        ∀ i, v.off + j ≤ i → i < v.off + v.len → c.st.h.slot v.buf i = .moved) := by
  have h' : Config.PReach umax zst ⟨st', new ++ ts⟩ :=
    .step _ _ h (.step _ _ (by have := Config.Step.call st ts (.drop k) hu (umax := umax); rw [e] at this; exact this))
  obtain ⟨rfl, e1⟩ := drop_shared hk hv h1 hn e
  have s1 : Config.Step umax ⟨st', .dropRcSlice d i :: ts⟩ (.ok ⟨{ st' with h := st'.h.kill d }, [.dropReg ⟨v.buf, v.off, v.len, v.alloc⟩, .dropS i] ++ ts⟩) := by
    have := Config.Step.task st' (.dropRcSlice d i) ts (umax := umax)
    rw [e1] at this
    exact this
  have r1 := Config.PReach.step _ _ h' (.step _ _ s1)
  have g1 : Going' True ⟨{ st' with h := st'.h.kill d }, [.dropReg ⟨v.buf, v.off, v.len, v.alloc⟩, .dropS i] ++ ts⟩ ⟨v.buf, v.off, v.len, v.alloc⟩ 0 :=
    ⟨Nat.zero_le _, fun i a b => by simp only at a b; omega, .inr (.inl (List.mem_cons_self ..))⟩
  rcases l.first with rfl | ⟨c1, s, l⟩
  · obtain ⟨a, b, x⟩ := g1.live r1
    refine ⟨0, a, b, ?_⟩
    rcases x with ⟨x, _⟩ | ⟨_, x⟩
    · exact .inl ⟨x, fun h => by cases h⟩
    · exact .inr x
  · have s : Config.Step umax ⟨st', .dropRcSlice d i :: ts⟩ (.ok c1) := by
      generalize hr : (Except.ok c1 : Except UB (Config α)) = x at s
      generalize hc : (⟨st', [.dropRcSlice d i] ++ ts⟩ : Config α) = c0 at s
      cases s with
      | step _ _ s => subst hc; subst hr; exact s
      | panic => cases hc
    cases step_slice s e1
    obtain ⟨h2, j, g⟩ := l.going r1 g1
    obtain ⟨a, b, x⟩ := g.live h2
    exact ⟨j, a, b, x.imp id fun x => x.2⟩

/-- C80: what `C80_one_panic` says of the last handle on an `RcSlice` that has never been split. -/
theorem C80_shared_one_panic {d i : Nat} {v : DataV} {st1 : State α} {q : Reg} {h2 : Heap α} {ts1 ts2 : List Task} (h : Config.PReach umax zst ⟨st, ts⟩)
    (hu : ts = [] ∨ ts.head? = some .userCode)
    (hk : st.get k = some (.strong d i)) (hv : st.h.getData d = .ok v) (h1 : st.h.strong d = 1) (hn : ∀ s, v.kids s = none)
    (e : exec umax st (.drop k) = .ok (st', o, new)) (l : NoPanic umax ⟨st', new ++ ts⟩ ⟨st1, .userCode :: .dropReg q :: ts1⟩)
    (p : Unwinds st1.h ts1 h2 ts2) (l' : NoPanic umax ⟨{ st1 with h := h2 }, .dropReg q :: ts2⟩ c) :
    ∃ j, j ≤ v.len ∧ (∀ i, v.off ≤ i → i < v.off + j → c.st.h.slot v.buf i = .dropped) ∧
      (∀ i, v.off + j ≤ i → i < v.off + v.len → ∃ a, c.st.h.slot v.buf i = .live a) ∧ (c.tasks = [] → j = v.len) := by
  have h' : Config.PReach umax zst ⟨st', new ++ ts⟩ :=
    .step _ _ h (.step _ _ (by have := Config.Step.call st ts (.drop k) hu (umax := umax); rw [e] at this; exact this))
  obtain ⟨rfl, e1⟩ := drop_shared hk hv h1 hn e
  rcases l.first with l | ⟨c1, s, l⟩
  · cases l
  · have r1 := Config.PReach.step _ _ h' (.step _ _ s)
    cases step_slice s e1
    obtain ⟨r2, j1, g1⟩ := l.front (r := ⟨v.buf, v.off, v.len, v.alloc⟩) (j := 0) r1
      ⟨Nat.zero_le _, fun i a b => by simp only at a b; omega, .inr ⟨[], .dropS i :: ts, rfl, .inl rfl⟩⟩
    obtain ⟨r3, j, g⟩ := l'.going (.step _ _ r2 (.panic st1 h2 q ts1 ts2 p)) (g1.panic r2 p)
    obtain ⟨a, b, x⟩ := g.live r3
    rcases x with x | ⟨x, _⟩
    · exact ⟨j, a, b, x⟩
    · exact x.elim

/-- C52: if a destructor panics, and the panic also leaves destructors that led to its being run, then for each of those the rest of the slice that it
belongs to is dropped as well. -/
theorem C52_outer_dropped {r q : Reg} {ts' l m : List Task} {h' : Heap α} (h : Config.PReach umax zst ⟨st, .userCode :: .dropReg r :: ts⟩)
    (u : Unwinds st.h ts h' ts') (hq : ts = l ++ .userCode :: .dropReg q :: m) (n : NoPanic umax ⟨{ st with h := h' }, .dropReg r :: ts'⟩ c)
    (hc : c.tasks = []) (i : Nat) (h1 : q.off ≤ i) (h2 : i < q.off + q.len) : c.st.h.slot q.buf i = .dropped := by
  obtain ⟨_, j, h4, h5, h6⟩ := n.going (L := False) (r := q) (j := 0) (.step _ _ h (.panic st h' r ts ts' u))
    ⟨Nat.zero_le _, fun i a b => by omega, .inr (.inl (List.mem_cons_of_mem _ (u.keeps hq)))⟩
  rcases h6 with h6 | h6 | h6
  · exact h5 i h1 (by omega)
  · rw [hc] at h6; cases h6
  · exact h6.1.elim

theorem Rc.Unwinds.lost {h h' : Heap α} {ts ts' : List Task} (u : Unwinds h ts h' ts') {b i : Nat} (hl : h'.slot b i ≠ h.slot b i) :
    ∃ l q m, ts = l ++ .dropReg q :: m ∧ l.getLast? ≠ some .userCode ∧ b = q.buf ∧ q.off ≤ i ∧ i < q.off + q.len := by
  have more : ∀ {t : Task} {ts : List Task}, t ≠ .userCode →
      (∃ l q m, ts = l ++ .dropReg q :: m ∧ l.getLast? ≠ some .userCode ∧ b = q.buf ∧ q.off ≤ i ∧ i < q.off + q.len) →
      ∃ l q m, t :: ts = l ++ .dropReg q :: m ∧ l.getLast? ≠ some .userCode ∧ b = q.buf ∧ q.off ≤ i ∧ i < q.off + q.len := by
    rintro t ts ht ⟨l, q, m, rfl, h2, h3⟩
    refine ⟨t :: l, q, m, rfl, ?_, h3⟩
    cases l with
    | nil => simpa using ht
    | cons y l => simpa [List.getLast?_cons_cons] using h2
  induction u with
  | caught => exact absurd rfl hl
  | destructor h h' r ts ts' u ih =>
    obtain ⟨l, q, m, rfl, h2, h3⟩ := ih hl
    refine ⟨.userCode :: .dropReg r :: l, q, m, rfl, ?_, h3⟩
    cases l with
    | nil => simp
    | cons y l => simpa [List.getLast?_cons_cons] using h2
  | field h h' x ts ts' u ih => exact more (by simp) (ih hl)
  | slice h h' d i ts ts' u ih => exact more (by simp) (ih hl)
  | node h h' r ts ts' u ih =>
    by_cases hc : b = r.buf ∧ r.off ≤ i ∧ i < r.off + r.len
    · exact ⟨[], r, ts, rfl, by simp, hc⟩
    · refine more (by simp) (ih fun e => hl (e.trans (if_neg hc)))

/-- C52: a panic loses only items of slices whose halves are being dropped, and which would have been dropped after them. None of the items of such a slice
has been dropped. Items of a slice that has begun to be dropped are not lost. -/
theorem C52_lost {r : Reg} {ts' : List Task} {h' : Heap α} (h : Config.PReach umax zst ⟨st, .userCode :: .dropReg r :: ts⟩)
    (u : Unwinds st.h ts h' ts') {i : Nat} (hl : h'.slot b i ≠ st.h.slot b i) :
    (∃ a, st.h.slot b i = .live a) ∧ h'.slot b i = .moved ∧ ¬ (b = r.buf ∧ r.off ≤ i ∧ i < r.off + r.len) ∧
      ∃ l q m, ts = l ++ .dropReg q :: m ∧ l.getLast? ≠ some .userCode ∧ b = q.buf ∧ q.off ≤ i ∧ i < q.off + q.len := by
  obtain ⟨w, _, R⟩ := preach_sim h
  obtain ⟨w', R', hw, _⟩ := panic_sim R u
  have h1 := hw.items b i
  rw [R.core.items, R'.core.items] at h1
  rcases h1 with h1 | ⟨h1, h2, _⟩
  · exact absurd h1 hl
  · refine ⟨h1, h2, ?_, u.lost hl⟩
    rintro ⟨rfl, h3, h4⟩
    obtain ⟨a, h5⟩ := R'.inv.reg_live (r := r) (by simp [Task.toks]) h3 h4
    simp only at h2 h5
    rw [h2] at h5; cases h5

/-! ## Programs that meet the hypotheses -/

theorem Rc.Inside.noPanic {st st' : State α} {u u' : List Task} (w : Inside umax [] st u st' u') : NoPanic umax ⟨st, u⟩ ⟨st', u'⟩ := by
  induction w with
  | now => exact .now
  | next _ s ih => exact ih.next (by simpa using s)

theorem Rc.NoPanic.later {c c' : Config α} (l : NoPanic umax c c') : Later umax c c' := by
  induction l with
  | now => exact .now
  | next _ s ih => exact ih.next (.step _ _ s)

/-- Three items are dropped. The destructor of the first drops another slice, and the destructor of the item of that slice panics, and the former does not
catch that. Then there are `n` more steps. -/
def panicCheck (n : Nat) (ok : Heap Nat → List Task → Bool) : Bool :=
  match followP 100 (Config.init false) [.op (.mutNew [1, 2, 3]), .op (.mutNew [7])] with
  | some ⟨st, []⟩ =>
    match st.hs, exec 100 st (.drop 0) with
    | [some (.uniq ⟨0, 0, 3, _⟩), _], .ok (st', .done, new) =>
      match inner 100 st' new [none, some (.drop 1), none] with
      | some (st1, [.userCode, .dropReg q, .userCode, .dropReg ⟨0, 1, 2, a⟩]) =>
        match unwindAll st1.h [.userCode, .dropReg ⟨0, 1, 2, a⟩] with
        | some (h1, ts2) =>
          match inner 100 { st1 with h := h1 } (.dropReg q :: ts2) (List.replicate n none) with
          | some (st2, u) => ok st2.h u
          | none => false
        | none => false
      | _ => false
    | _, _ => false
  | _ => false

theorem panicCheck_ok {n : Nat} {ok : Heap Nat → List Task → Bool} (h : panicCheck n ok = true) :
    ∃ (st st' st1 : State Nat) (x : Handle) (new : List Task) (q : Reg) (h1 : Heap Nat) (ts1 ts2 : List Task) (c : Config Nat),
      Config.PReach 100 false ⟨st, []⟩ ∧ st.get 0 = some x ∧ (∀ d i, x ≠ .strong d i) ∧ handleRange 100 st.h x = .ok (some (0, 0, 3)) ∧
      exec 100 st (.drop 0) = .ok (st', .done, new) ∧ NoPanic 100 ⟨st', new ++ []⟩ ⟨st1, .userCode :: .dropReg q :: ts1⟩ ∧ Unwinds st1.h ts1 h1 ts2 ∧
      (∃ a, ts1 = [] ++ .userCode :: .dropReg ⟨0, 1, 2, a⟩ :: []) ∧ NoPanic 100 ⟨{ st1 with h := h1 }, .dropReg q :: ts2⟩ c ∧ Later 100 ⟨st', new ++ []⟩ c ∧ ok c.st.h c.tasks = true := by
  unfold panicCheck at h
  split at h
  · next st e1 =>
    split at h
    · next a y st' new hs e2 =>
      split at h
      · next st1 q a2 e3 =>
        split at h
        · next h1 ts2 e4 =>
          split at h
          · next st2 u e5 =>
            have n1 : NoPanic 100 ⟨st', new ++ []⟩ ⟨st1, [.userCode, .dropReg q, .userCode, .dropReg ⟨0, 1, 2, a2⟩]⟩ := by
              rw [List.append_nil]; exact (inner_ok .now e3).noPanic
            have n2 := (inner_ok .now e5).noPanic
            have pl : ∀ {c : Config Nat}, NoPanic 100 ⟨{ st1 with h := h1 }, .dropReg q :: ts2⟩ c → Later 100 ⟨st', new ++ []⟩ c := by
              intro c n
              induction n with
              | now => exact n1.later.next (.panic _ _ _ _ _ (unwindAll_unwinds _ e4))
              | next _ s ih => exact ih.next (.step _ _ s)
            exact ⟨st, st', st1, .uniq ⟨0, 0, 3, a⟩, new, q, h1, _, ts2, ⟨st2, u⟩, followP_reach _ .init e1, by rw [State.get, hs]; rfl, (fun d i => by simp), rfl, e2,
              n1, unwindAll_unwinds _ e4, ⟨a2, rfl⟩, n2, pl n2, h⟩
          · cases h
        · cases h
      · cases h
    · cases h
  · cases h

/-- `C80_panic`, `C80_one_panic` and `C52_outer_dropped`: in between, two of the three items have been dropped; in the end, all have been. -/
example : panicCheck 3 (fun h u => h.slot 0 0 = .dropped ∧ h.slot 0 1 = .dropped ∧ h.slot 0 2 = .live 3 ∧ h.slot 1 0 = .dropped ∧ u ≠ []) = true := by
  decide +kernel

example : panicCheck 8 (fun h u => h.slot 0 0 = .dropped ∧ h.slot 0 1 = .dropped ∧ h.slot 0 2 = .dropped ∧ u = []) = true := by decide +kernel

/-- `C80_shared_panic` and `C80_shared_one_panic`: the destructor of the first of three items panics; the second is dropped next. -/
example : ∃ (st st' st1 : State Nat) (new : List Task) (d i : Nat) (v : DataV) (q : Reg) (ts1 : List Task) (c : Config Nat),
    Config.PReach 100 false ⟨st, []⟩ ∧ st.get 0 = some (.strong d i) ∧ st.h.getData d = .ok v ∧ st.h.strong d = 1 ∧ (∀ s, v.kids s = none) ∧
    exec 100 st (.drop 0) = .ok (st', .done, new) ∧ NoPanic 100 ⟨st', new⟩ ⟨st1, .userCode :: .dropReg q :: ts1⟩ ∧ Unwinds st1.h ts1 st1.h ts1 ∧
    NoPanic 100 ⟨st1, .dropReg q :: ts1⟩ c ∧ c.st.h.slot 0 0 = .dropped ∧ c.st.h.slot 0 1 = .dropped ∧ c.st.h.slot 0 2 = .live 3 :=
  ⟨_, _, _, _, _, _, _, _, _, ⟨_, _⟩, followP_reach [.op (.rcNew [1, 2, 3])] .init (by rfl), rfl, rfl, rfl, fun _ => rfl, rfl,
    (inner_ok (l := [none, none]) .now (by rfl)).noPanic, .field _ _ _ _ _ (.caught _ _ (.inl rfl)), (inner_ok (l := [none]) .now (by rfl)).noPanic,
    by rfl, by rfl, by rfl⟩

/-- `C52_lost`: a slice of four whose left half was taken is dropped; the first destructor panics, and the right half is lost. -/
example : ∃ st r ts h' ts', Config.PReach 100 false ⟨st, .userCode :: .dropReg r :: ts⟩ ∧ Unwinds (α := Nat) st.h ts h' ts' ∧
    st.h.slot 0 2 = .live 3 ∧ h'.slot 0 2 = .moved :=
  ⟨_, _, _, _, _, followP_reach (panics.take 13) .init (by rfl), unwindAll_unwinds _ (by rfl), by rfl, by rfl⟩

end Verif
