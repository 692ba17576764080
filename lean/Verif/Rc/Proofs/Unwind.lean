import Verif.Rc.Unwind
import Verif.Spec.Unwind
import Verif.Rc.Proofs.Refine
/-!
# Panics
-/

namespace Verif.Rc
open Verif.Spec (Side Slot Family Rng Hand World Op Obs End)
variable {α : Type}

section
variable {h h' : Heap α} {T : List Tok}

/-- Nothing but items is lost. -/
structure Lost (h h' : Heap α) : Prop where
  sk : h'.sk = h.sk
  slot : ∀ b i, h'.slot b i = h.slot b i ∨ ((∃ a, h.slot b i = .live a) ∧ h'.slot b i = .moved)

theorem Lost.refl (h : Heap α) : Lost h h := ⟨rfl, fun _ _ => .inl rfl⟩

theorem Lost.trans {a b c : Heap α} (h1 : Lost a b) (h2 : Lost b c) : Lost a c where
  sk := by rw [h2.sk, h1.sk]
  slot x i := by
    rcases h1.slot x i with e1 | ⟨e1, e2⟩ <;> rcases h2.slot x i with f1 | ⟨f1, f2⟩
    · exact .inl (f1.trans e1)
    · rw [e1] at f1; exact .inr ⟨f1, f2⟩
    · exact .inr ⟨e1, f1.trans e2⟩
    · rw [e2] at f1; obtain ⟨_, f1⟩ := f1; cases f1

theorem lose_zero {r : Reg} (hr : r.len = 0) : h.lose r = h := by
  obtain ⟨_, _, _, slot⟩ := h
  simp only [Heap.lose, hr]
  congr
  funext b i
  rw [if_neg (by omega)]

theorem lose_succ {r : Reg} (hr : r.len ≠ 0) : h.lose r = (h.setSlot r.buf (r.off + r.len - 1) .moved).lose { r with len := r.len - 1 } := by
  have : (h.lose r).slot = ((h.setSlot r.buf (r.off + r.len - 1) .moved).lose { r with len := r.len - 1 }).slot := by
    funext b i
    simp only [Heap.lose, setSlot_slot]
    grind
  simp only [Heap.lose] at this ⊢
  rw [this]
  rfl

theorem Inv.lose {r : Reg} (I : Inv h (.reg r :: T)) : Inv (h.lose r) (.reg { r with len := 0 } :: T) ∧ Lost h (h.lose r) := by
  generalize hn : r.len = n
  induction n generalizing h r with
  | zero =>
    rw [lose_zero hn]
    obtain ⟨b, o, l, a⟩ := r
    cases hn
    exact ⟨I, .refl h⟩
  | succ n ih =>
    rw [lose_succ (by omega)]
    have I' := I.takeItem (r' := { r with len := r.len - 1 }) (i := r.off + r.len - 1) (s := .moved) rfl (by omega) (by omega) rfl rfl (Nat.sub_le _ _) (by
      intro b j
      simp only [Reg.span, Span.num]
      grind)
    obtain ⟨i1, i2⟩ := ih I' (by simp only; omega)
    refine ⟨i1, .trans (b := h.setSlot r.buf (r.off + r.len - 1) .moved) ⟨rfl, fun b j => ?_⟩ i2⟩
    obtain ⟨a, ha⟩ := I.reg_live (List.mem_cons_self ..) (i := r.off + r.len - 1) (by omega) (by omega)
    rw [setSlot_slot]; split
    · next e => obtain ⟨rfl, rfl⟩ := e; exact .inr ⟨⟨a, ha⟩, rfl⟩
    · exact .inl rfl

theorem Unwinds.inv {ts ts' : List Task} (u : Unwinds h ts h' ts') : ∀ {T : List Tok}, Inv h (toksOf ts ++ T) →
    Inv h' (toksOf ts' ++ T) ∧ Lost h h' := by
  have move : ∀ {h : Heap α} {t ts T}, Inv h (toksOf (t :: ts) ++ T) → Inv h (toksOf ts ++ (t.toks ++ T)) := by
    intro h t ts T I
    refine I.perm ?_
    rw [toksOf_cons, ← List.append_assoc]
    exact List.perm_append_comm.append_right T
  have back : ∀ {h : Heap α} {t ts T}, Inv h (toksOf ts ++ (t.toks ++ T)) → Inv h (toksOf (t :: ts) ++ T) := by
    intro h t ts T I
    refine I.perm ?_
    rw [toksOf_cons, ← List.append_assoc]
    exact List.perm_append_comm.append_right T
  induction u with
  | caught h ts hu => exact fun I => ⟨I, .refl _⟩
  | destructor h h' r ts ts' u ih =>
    intro T I
    have I' : Inv h (toksOf (.dropReg r :: ts) ++ T) := I
    obtain ⟨i1, i2⟩ := ih (move I')
    exact ⟨back i1, i2⟩
  | node h h' r ts ts' u ih =>
    intro T I
    have I' : Inv h (.reg r :: (toksOf ts ++ T)) := I
    obtain ⟨i1, i2⟩ := I'.lose
    have i1 : Inv (h.lose r) (toksOf (.dropReg { r with len := 0 } :: ts) ++ T) := i1
    obtain ⟨i3, i4⟩ := ih (move i1)
    exact ⟨back i3, i2.trans i4⟩
  | field h h' x ts ts' u ih =>
    intro T I
    obtain ⟨i1, i2⟩ := ih (move I)
    exact ⟨back i1, i2⟩
  | slice h h' d i ts ts' u ih =>
    intro T I
    obtain ⟨i1, i2⟩ := ih (move I)
    exact ⟨back i1, i2⟩

end

section
variable {umax : Nat} {zst : Bool} {s : State α} {w : World α} {T : List Tok}

theorem Rel.lost (R : Rel umax s w T) {h' : Heap α} {T' : List Tok} (I : Inv h' (tabToks umax s.hs ++ T')) (p : Lost s.h h') :
    Rel umax { s with h := h' } { w with items := h'.slot } T' := by
  refine R.keep I (by rw [p.sk]; exact .refl _) ?_ rfl
  have c := R.core
  refine ⟨?_, ?_, rfl, ?_, ?_, ?_, ?_, ?_⟩ <;> rw [p.sk]
  · exact c.zst
  · exact c.nbuf
  · exact c.mem
  · exact c.nfam
  · exact c.fams
  · exact c.famIn
  · exact c.blen

theorem Rel.loss (R : Rel umax s w T) {h' : Heap α} {T' : List Tok} (I : Inv h' (tabToks umax s.hs ++ T')) (p : Lost s.h h') :
    w.Loss { w with items := h'.slot } := by
  have R' := R.lost I p
  refine ⟨rfl, fun b i => ?_⟩
  rw [R.core.items]
  rcases p.slot b i with e | ⟨e1, e2⟩
  · exact .inl e
  · refine .inr ⟨e1, e2, ?_⟩
    rw [← Bool.not_eq_true]
    intro hc
    obtain ⟨t, ht, hc⟩ := (cov_iff R' b i).2 hc
    obtain ⟨a, ha⟩ := I.cov_live (List.mem_append_left _ ht) hc
    rw [e2] at ha; cases ha

theorem unwinds_sim {ts ts' : List Task} {h' : Heap α} (R : Rel umax s w (toksOf ts ++ T)) (u : Unwinds s.h ts h' ts') :
    ∃ w', Rel umax { s with h := h' } w' (toksOf ts' ++ T) ∧ w.Loss w' ∧ Lost s.h h' := by
  have I : Inv s.h (toksOf ts ++ (tabToks umax s.hs ++ T)) := R.inv.perm (by
    rw [← List.append_assoc, ← List.append_assoc]; exact List.perm_append_comm.append_right T)
  obtain ⟨I', p⟩ := u.inv I
  have I2 : Inv h' (tabToks umax s.hs ++ (toksOf ts' ++ T)) := I'.perm (by
    rw [← List.append_assoc, ← List.append_assoc]; exact List.perm_append_comm.append_right T)
  exact ⟨_, R.lost I2 p, R.loss I2 p, p⟩

theorem panic_sim {r : Reg} {ts ts' : List Task} {h' : Heap α} (R : Rel umax s w (toksOf (.userCode :: .dropReg r :: ts)))
    (u : Unwinds s.h ts h' ts') :
    ∃ w', Rel umax { s with h := h' } w' (toksOf (.dropReg r :: ts')) ∧ w.Loss w' ∧ Lost s.h h' := by
  have := unwinds_sim (T := []) (ts := .userCode :: .dropReg r :: ts) (by simpa using R) (.destructor _ _ r _ _ u)
  simpa using this

/-- With panics, nothing goes wrong, and everything that happens is allowed by the specification. -/
theorem preach_sim {c : Config α} (h : Config.PReach umax zst c) :
    ∃ w, World.Unfolds umax zst w ∧ Rel umax c.st w (toksOf c.tasks) := by
  induction h with
  | init => exact ⟨_, .init, Rel.init umax zst⟩
  | step c c' _ st ih =>
    obtain ⟨w, hw, R⟩ := ih
    generalize hr : (Except.ok c' : Except UB (Config α)) = r at st
    cases st with
    | step c r st =>
      cases st with
      | task st t ts =>
        rw [toksOf_cons] at R
        obtain ⟨h', new, w', e, R', sw⟩ := task_sim R
        rw [e] at hr
        simp only [Except.map, Except.ok.injEq] at hr
        subst hr
        exact ⟨w', .sweep _ _ hw sw, by simpa using R'⟩
      | call st ts op hp =>
        obtain ⟨s', o, new, w', e, R', hm, _⟩ := exec_sim R op
        rw [e] at hr
        simp only [Except.map, Except.ok.injEq] at hr
        subst hr
        exact ⟨w', .call _ _ _ hw hm, by simpa using R'⟩
    | panic st h' r ts ts' u =>
      obtain ⟨w', R', hl, _⟩ := panic_sim R u
      cases hr
      exact ⟨w', .loss _ _ hw hl, R'⟩

theorem pstep_ok {c : Config α} (h : Config.PReach umax zst c) {r : Except UB (Config α)} (st : Config.PStep umax c r) : ∃ c', r = .ok c' := by
  obtain ⟨w, _, R⟩ := preach_sim h
  cases st with
  | step c r st =>
    cases st with
    | task st t ts =>
      rw [toksOf_cons] at R
      obtain ⟨h', new, _, e, _⟩ := task_sim R
      exact ⟨_, by rw [e]; rfl⟩
    | call st ts op hp =>
      obtain ⟨s', o, new, _, e, _⟩ := exec_sim R op
      exact ⟨_, by rw [e]; rfl⟩
  | panic st h' r ts ts' u => exact ⟨_, rfl⟩

end
end Verif.Rc
